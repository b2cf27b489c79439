import Verif.Io.Files
/-
C92: files of polynomials.
-/
namespace Verif.Io
open Verif

/-- stores of polynomials that are written: the first polynomial is 0, the second is 1, others are nonzero; coefficients fit in 32 bits, numbers of polynomials too, and the size of all coefficients fits in 40 bits -/
structure Storable (s : List (List Nat)) : Prop where
  shape : ∃ t, s = [] :: [1] :: t ∧ ∀ p ∈ t, p ≠ []
  coefs : ∀ p ∈ s, ∀ c ∈ p, c < 2 ^ 32
  number : s.length < 2 ^ 32
  size : 4 * s.flatten.length < 2 ^ 40

/-- C92, binary numbers: what is written is read again -/
theorem C92_bytes : ∀ (n v : Nat) (rest : List Nat), readBytes n (writeBytes n v ++ rest) = .ok (v % 256 ^ n) ∧ (writeBytes n v).length = n
  | 0, v, rest => by simp [readBytes, writeBytes, Nat.mod_one]
  | n + 1, v, rest => by
    obtain ⟨h1, h2⟩ := C92_bytes n (v / 256) rest
    refine ⟨?_, by rw [writeBytes, List.length_cons, h2]⟩
    rw [writeBytes, List.cons_append, readBytes, h1, Res.ok_bind, Res.pure_eq, Nat.pow_succ, Nat.mul_comm (256 ^ n) 256, Nat.mod_mul]
    congr 1
    rw [Nat.mul_comm]

/-- C92, refuted if the operands of the addition are evaluated from right to left, which the language allows -/
theorem C92_order_false : ∃ v, v < 2 ^ 32 ∧ readBytesRight 4 (putInt v) ≠ .ok v := ⟨1, by decide, by decide⟩

theorem putInt_read {v : Nat} (h : v < 2 ^ 32) (rest : List Nat) : readBytes 4 (putInt v ++ rest) = .ok v := by
  rw [putInt, (C92_bytes 4 _ rest).1, Nat.mod_eq_of_lt h, Nat.mod_eq_of_lt (by omega)]

theorem putInt_length (v : Nat) : (putInt v).length = 4 := (C92_bytes 4 _ []).2

theorem five_length (v : Nat) : (five v).length = 5 := by rw [five, List.length_append, putInt_length]; rfl

theorem five_read {v : Nat} (h : v < 2 ^ 40) (rest : List Nat) : readBytes 5 (five v ++ rest) = .ok v := by
  have e : five v = writeBytes 5 v := by
    simp only [five, putInt, writeBytes, List.cons_append, List.nil_append]
    refine List.cons_eq_cons.2 ⟨by omega, List.cons_eq_cons.2 ⟨by omega, List.cons_eq_cons.2 ⟨by omega, List.cons_eq_cons.2 ⟨by omega, List.cons_eq_cons.2 ⟨by omega, rfl⟩⟩⟩⟩⟩
  rw [e, (C92_bytes 5 v rest).1, Nat.mod_eq_of_lt (by omega)]

/-- the position of the coefficients of polynomial `i`, in bytes -/
def start (s : List (List Nat)) (i : Nat) : Nat := 4 * (s.take i).flatten.length

theorem start_zero (s : List (List Nat)) : start s 0 = 0 := rfl

theorem start_cons (p : List Nat) (s : List (List Nat)) (i : Nat) : start (p :: s) (i + 1) = 4 * p.length + start s i := by
  simp [start]
  omega

theorem start_le : ∀ (s : List (List Nat)) (i : Nat), start s i ≤ 4 * s.flatten.length
  | [], i => by simp [start]
  | p :: s, 0 => by simp [start]
  | p :: s, i + 1 => by
    have := start_le s i
    rw [start_cons, List.flatten_cons, List.length_append]
    omega

theorem start_succ : ∀ (s : List (List Nat)) (i : Nat) (p : List Nat), s[i]? = some p → start s (i + 1) = start s i + 4 * p.length
  | [], _, _, h => by simp at h
  | q :: s, 0, p, h => by
    simp only [List.getElem?_cons_zero, Option.some.injEq] at h
    subst h
    rw [start_cons, start_zero, start_zero]
    omega
  | q :: s, i + 1, p, h => by
    rw [start_cons, start_cons, start_succ s i p (by simpa using h)]
    omega

theorem indexLoop_drop : ∀ (s : List (List Nat)) (off i : Nat) (t : List Nat), i ≤ s.length → ∃ rest, (indexLoop s off ++ t).drop (5 * i) = five (off + start s i) ++ rest
  | [], off, i, t, h => by
    have : i = 0 := by simpa using h
    subst this
    exact ⟨t, by simp [indexLoop, start]⟩
  | p :: s, off, 0, t, _ => ⟨indexLoop s (if p ≠ [] then off + (p.length - 1 + 1) * 4 else off) ++ t, by rw [indexLoop, start_zero]; simp⟩
  | p :: s, off, i + 1, t, h => by
    have e : (if p ≠ [] then off + (p.length - 1 + 1) * 4 else off) = off + 4 * p.length := by
      cases p with
      | nil => simp
      | cons a l => simp; omega
    obtain ⟨rest, hr⟩ := indexLoop_drop s (off + 4 * p.length) i t (by simpa using h)
    refine ⟨rest, ?_⟩
    rw [indexLoop, e, start_cons, List.append_assoc, show 5 * (i + 1) = 5 + 5 * i by omega, ← List.drop_drop, List.drop_left' (five_length off), hr]
    congr 2
    omega

theorem indexLoop_length : ∀ (s : List (List Nat)) (off : Nat), (indexLoop s off).length = 5 * s.length + 5
  | [], off => by rw [indexLoop, five_length]; rfl
  | p :: s, off => by
    rw [indexLoop, List.length_append, five_length, indexLoop_length s, List.length_cons]
    omega

theorem coefLoop_eq : ∀ s : List (List Nat), coefLoop s = s.flatten.flatMap putInt
  | [] => rfl
  | p :: s => by rw [coefLoop, coefLoop_eq s]; simp

theorem flatMap_drop : ∀ (l : List Nat) (k : Nat), (l.flatMap putInt).drop (4 * k) = (l.drop k).flatMap putInt
  | l, 0 => by simp
  | [], k + 1 => by simp
  | c :: l, k + 1 => by
    rw [List.flatMap_cons, show 4 * (k + 1) = 4 + 4 * k by omega, ← List.drop_drop, List.drop_left' (putInt_length c), flatMap_drop l k]
    rfl

theorem readMany_spec : ∀ (p : List Nat) (rest : List Nat), (∀ c ∈ p, c < 2 ^ 32) → readMany 4 p.length (p.flatMap putInt ++ rest) = .ok p
  | [], _, _ => rfl
  | c :: p, rest, h => by
    rw [List.length_cons, readMany, List.flatMap_cons, List.append_assoc, readVar, if_pos (by omega), putInt_read (h c (by simp)), Res.ok_bind, List.drop_left' (putInt_length c),
      readMany_spec p rest (fun d hd => h d (by simp [hd])), Res.ok_bind, Res.pure_eq]

theorem flatten_drop : ∀ (s : List (List Nat)) (i : Nat) (p : List Nat), s[i]? = some p → ∃ rest, s.flatten.drop (s.take i).flatten.length = p ++ rest
  | [], _, _, h => by simp at h
  | q :: s, 0, p, h => by
    simp only [List.getElem?_cons_zero, Option.some.injEq] at h
    subst h
    exact ⟨s.flatten, by simp⟩
  | q :: s, i + 1, p, h => by
    obtain ⟨rest, hr⟩ := flatten_drop s i p (by simpa using h)
    refine ⟨rest, ?_⟩
    rw [List.take_succ_cons, List.flatten_cons, List.flatten_cons, List.length_append, ← List.drop_drop, List.drop_left, hr]

theorem file_index (s : List (List Nat)) (hs : Storable s) (i : Nat) (hi : i ≤ s.length) : readBytes 5 ((writeStore s).drop (4 + 5 * i)) = .ok (start s i) := by
  obtain ⟨rest, hr⟩ := indexLoop_drop s 0 i (coefLoop s) hi
  have := start_le s i
  have := hs.size
  rw [writeStore, List.append_assoc, ← List.drop_drop, List.drop_left' (putInt_length _), hr, Nat.zero_add, five_read (by omega)]

theorem file_coefs (s : List (List Nat)) (k : Nat) : (writeStore s).drop (4 + 5 * s.length + 5 + 4 * k) = (s.flatten.drop k).flatMap putInt := by
  rw [writeStore, ← List.drop_drop, List.drop_left' (by rw [List.length_append, putInt_length, indexLoop_length]; omega), coefLoop_eq, flatMap_drop]

/-- what is read when the file is opened -/
def infoOf (s : List (List Nat)) : PolInfo := ⟨writeStore s, s.length, 4, s.flatten.length, 4, 4 + 5 * s.length + 5⟩

theorem start_two {s : List (List Nat)} (hs : Storable s) : start s 2 = 4 ∧ 2 ≤ s.length := by
  obtain ⟨t, rfl, -⟩ := hs.shape
  exact ⟨by simp [start], by simp⟩

/-- C92, opening a file of polynomials that was written -/
theorem C92_info (s : List (List Nat)) (hs : Storable s) : ∃ f, openInfo (writeStore s) = .ok f ∧ f.nPols = s.length ∧ f.coefSize = 4 ∧ f.nCoef = s.flatten.length ∧ f = infoOf s := by
  have h1 : readBytes 4 (writeStore s) = .ok s.length := by
    rw [writeStore, List.append_assoc]
    exact putInt_read hs.number _
  have h2 := file_index s hs 2 (start_two hs).2
  have h3 := file_index s hs s.length (Nat.le_refl _)
  refine ⟨infoOf s, ?_, rfl, rfl, rfl, rfl⟩
  rw [openInfo, h1, Res.ok_bind, h2, Res.ok_bind, h3, Res.ok_bind, (start_two hs).1, if_neg (by decide), Res.pure_eq, infoOf]
  congr 2
  rw [start, List.take_length]
  simp

/-- C92, each polynomial is read as it was written -/
theorem C92_coefficients (s : List (List Nat)) (hs : Storable s) (f : PolInfo) (hf : openInfo (writeStore s) = .ok f) (i : Nat) (p : List Nat) (hp : s[i]? = some p) : f.coefficients i = .ok p := by
  obtain ⟨f', h1, -, -, -, rfl⟩ := C92_info s hs
  rw [hf] at h1
  cases h1
  have hi : i < s.length := (List.getElem?_eq_some_iff.1 hp).1
  have a1 := file_index s hs i (by omega)
  have a2 := file_index s hs (i + 1) (by omega)
  rw [show 4 + 5 * (i + 1) = 4 + 5 * i + 5 by omega, start_succ s i p hp] at a2
  show (readBytes 5 ((writeStore s).drop (4 + 5 * i)) >>= _) = _
  rw [a1, Res.ok_bind]
  show (readBytes 5 ((writeStore s).drop (4 + 5 * i + 5)) >>= _) = _
  rw [a2, Res.ok_bind]
  show readMany 4 ((start s i + 4 * p.length - start s i) / 4) ((writeStore s).drop (4 + 5 * s.length + 5 + start s i)) = _
  rw [show (start s i + 4 * p.length - start s i) / 4 = p.length by omega, start, file_coefs]
  obtain ⟨rest, hr⟩ := flatten_drop s i p hp
  rw [hr, List.flatMap_append]
  exact readMany_spec p _ (hs.coefs p (List.mem_of_getElem? hp))

/-- the degree as a number of type `size_t`: for the zero polynomial it is the largest one -/
def degreeOf (p : List Nat) : Nat := if p = [] then 2 ^ 64 - 1 else p.length - 1

theorem first_two {s : List (List Nat)} (hs : Storable s) {i : Nat} {p : List Nat} (hp : s[i]? = some p) : (i = 0 → p = []) ∧ (i = 1 → p = [1]) ∧ (2 ≤ i → p ≠ []) := by
  obtain ⟨t, rfl, ht⟩ := hs.shape
  match i, hp with
  | 0, hp => simp at hp; simp [hp]
  | 1, hp => simp at hp; simp [hp]
  | i + 2, hp =>
    refine ⟨by simp, by simp, fun _ => ht p (List.mem_of_getElem? (i := i) (by simpa using hp))⟩

theorem len_bound {s : List (List Nat)} (hs : Storable s) {i : Nat} {p : List Nat} (hp : s[i]? = some p) : p.length < 2 ^ 38 := by
  have h1 := start_succ s i p hp
  have h2 := start_le s (i + 1)
  have h3 := hs.size
  omega

/-- C92, degrees -/
theorem C92_degree (s : List (List Nat)) (hs : Storable s) (f : PolInfo) (hf : openInfo (writeStore s) = .ok f) (i : Nat) (p : List Nat) (hp : s[i]? = some p) : f.degree i = .ok (degreeOf p) := by
  obtain ⟨f', h1, -, -, -, rfl⟩ := C92_info s hs
  rw [hf] at h1
  cases h1
  obtain ⟨c0, c1, c2⟩ := first_two hs hp
  rw [PolInfo.degree]
  by_cases h2 : i < 2
  · rw [if_pos h2]
    have : i = 0 ∨ i = 1 := by omega
    rcases this with h | h
    · rw [c0 h, h]; rfl
    · rw [c1 h, h]; rfl
  · rw [if_neg h2]
    have hi : i < s.length := (List.getElem?_eq_some_iff.1 hp).1
    have a1 := file_index s hs i (by omega)
    have a2 := file_index s hs (i + 1) (by omega)
    rw [show 4 + 5 * (i + 1) = 4 + 5 * i + 5 by omega, start_succ s i p hp] at a2
    have b1 : readBytes 5 ((infoOf s).file.drop ((infoOf s).indexBegin + 5 * i)) = .ok (start s i) := a1
    have b2 : readBytes 5 ((infoOf s).file.drop ((infoOf s).indexBegin + 5 * i + 5)) = .ok (start s i + 4 * p.length) := a2
    rw [b1, Res.ok_bind, b2, Res.ok_bind, Res.pure_eq]
    have hne := c2 (by omega)
    have hl := len_bound hs hp
    have hpos : 0 < p.length := List.length_pos_iff.2 hne
    have e : ((start s i + 4 * p.length - start s i) / (infoOf s).coefSize + (2 ^ 64 - 1)) % 2 ^ 64 = degreeOf p := by
      rw [degreeOf, if_neg hne, show (infoOf s).coefSize = 4 from rfl]
      omega
    rw [e]

/-- C92, leading coefficients; the one of the zero polynomial is 0 -/
theorem C92_leading (s : List (List Nat)) (hs : Storable s) (f : PolInfo) (hf : openInfo (writeStore s) = .ok f) (i : Nat) (p : List Nat) (hp : s[i]? = some p) : f.leading i = .ok (p.getLastD 0) := by
  obtain ⟨f', h1, -, -, -, rfl⟩ := C92_info s hs
  rw [hf] at h1
  cases h1
  obtain ⟨c0, c1, c2⟩ := first_two hs hp
  rw [PolInfo.leading]
  by_cases h2 : i < 2
  · rw [if_pos h2]
    have : i = 0 ∨ i = 1 := by omega
    rcases this with h | h
    · rw [c0 h, h]; rfl
    · rw [c1 h, h]; rfl
  · rw [if_neg h2]
    have hi : i < s.length := (List.getElem?_eq_some_iff.1 hp).1
    have a2 := file_index s hs (i + 1) (by omega)
    rw [start_succ s i p hp] at a2
    show (readBytes 5 ((writeStore s).drop (4 + 5 * (i + 1))) >>= _) = _
    rw [a2, Res.ok_bind]
    have hne := c2 (by omega)
    obtain ⟨rest, hr⟩ := flatten_drop s i p hp
    obtain ⟨q, c, rfl⟩ : ∃ q c, p = q ++ [c] := ⟨p.dropLast, p.getLast hne, (List.dropLast_concat_getLast hne).symm⟩
    show readVar 4 ((writeStore s).drop (4 + 5 * s.length + 5 + (start s i + 4 * (q ++ [c]).length) - 4)) = _
    have e : 4 + 5 * s.length + 5 + (start s i + 4 * (q ++ [c]).length) - 4 = 4 + 5 * s.length + 5 + 4 * ((s.take i).flatten.length + q.length) := by
      rw [start, List.length_append, List.length_singleton]
      omega
    rw [e, file_coefs, ← List.drop_drop, hr, List.append_assoc, List.drop_left, List.singleton_append, List.flatMap_cons, readVar, if_pos (by omega),
      putInt_read (hs.coefs _ (List.mem_of_getElem? hp) c (by simp))]
    simp

/-- a cache that is right: degrees, and leading coefficients or 0 -/
def GoodCache (s : List (List Nat)) (cache : List Nat) : Prop :=
  cache.length + 2 = s.length ∧ ∀ j p, s[j + 2]? = some p → ∃ c, cache[j]? = some c ∧ c % 32 = p.length - 1 ∧ (c / 32 = 0 ∨ c / 32 = p.getLastD 0) ∧ c < 256

theorem cacheLoop_spec (s : List (List Nat)) (hs : Storable s) : ∀ (k i : Nat), 2 ≤ i → i + k = s.length →
    (cacheLoop (infoOf s) k i = .throw ∧ ∃ p ∈ s, 32 < p.length) ∨ (∃ cache, cacheLoop (infoOf s) k i = .ok cache ∧ cache.length = k ∧ ∀ j p, s[i + j]? = some p → cache[j]? = some (p.length - 1) ∧ p.length ≤ 32)
  | 0, i, _, h => .inr ⟨[], rfl, rfl, fun j p hp => by
      have := (List.getElem?_eq_some_iff.1 hp).1
      omega⟩
  | k + 1, i, h2, h => by
    have hi : i < s.length := by omega
    have hp : s[i]? = some s[i] := List.getElem?_eq_getElem hi
    obtain ⟨f', g1, -, -, -, rfl⟩ := C92_info s hs
    have hd := C92_degree s hs _ g1 i _ hp
    have hne := (first_two hs hp).2.2 h2
    have hpos : 0 < s[i].length := List.length_pos_iff.2 hne
    rw [degreeOf, if_neg hne] at hd
    rw [cacheLoop, hd, Res.ok_bind]
    by_cases hbig : (s[i].length - 1) / 32 ≠ 0
    · rw [if_pos hbig]
      exact .inl ⟨rfl, s[i], List.getElem_mem hi, by omega⟩
    · rw [if_neg hbig]
      rcases cacheLoop_spec s hs k (i + 1) (by omega) (by omega) with ⟨h3, h4⟩ | ⟨cache, h3, h4, h5⟩
      · left
        rw [h3]
        exact ⟨rfl, h4⟩
      · right
        refine ⟨(s[i].length - 1) :: cache, by rw [h3]; rfl, by rw [List.length_cons, h4], ?_⟩
        intro j p hj
        cases j with
        | zero =>
          rw [Nat.add_zero, hp] at hj
          cases hj
          exact ⟨rfl, by omega⟩
        | succ j =>
          have := h5 j p (by rw [← hj]; congr 1; omega)
          exact ⟨by simpa using this.1, this.2⟩

/-- C92, the version with a cache is opened unless some degree is 32 or more, and the cache is right -/
theorem cached_open (s : List (List Nat)) (hs : Storable s) : (openCached (writeStore s) = .throw ∧ ∃ p ∈ s, 32 < p.length) ∨ (∃ cache, openCached (writeStore s) = .ok (infoOf s, cache) ∧ GoodCache s cache ∧ ∀ p ∈ s, p.length ≤ 32) := by
  obtain ⟨f', g1, -, -, -, rfl⟩ := C92_info s hs
  have h2 := (start_two hs).2
  rw [openCached, g1, Res.ok_bind]
  rcases cacheLoop_spec s hs (s.length - 2) 2 (by omega) (by omega) with ⟨h3, h4⟩ | ⟨cache, h3, h4, h5⟩
  · left
    refine ⟨?_, h4⟩
    show (cacheLoop (infoOf s) (s.length - 2) 2 >>= _) = _
    rw [h3]
    rfl
  · right
    refine ⟨cache, ?_, ⟨by omega, ?_⟩, ?_⟩
    · show (cacheLoop (infoOf s) (s.length - 2) 2 >>= _) = _
      rw [h3]
      rfl
    · intro j p hj
      obtain ⟨h6, h7⟩ := h5 j p (by rw [← hj]; congr 1; omega)
      refine ⟨_, h6, by omega, .inl (by omega), by omega⟩
    · intro p hp
      obtain ⟨j, hj⟩ := List.getElem?_of_mem hp
      by_cases hj2 : 2 ≤ j
      · exact (h5 (j - 2) p (by rw [← hj]; congr 1; omega)).2
      · have := first_two hs hj
        have h01 : j = 0 ∨ j = 1 := by omega
        rcases h01 with h | h
        · rw [this.1 h]; simp
        · rw [this.2.1 h]; simp

/-- the states of the cache that occur, by any sequence of calls of `leading_coeff` -/
inductive Cached (s : List (List Nat)) : PolInfo → List Nat → Prop
  | init {f : PolInfo} {cache : List Nat} : openCached (writeStore s) = .ok (f, cache) → Cached s f cache
  | call {f : PolInfo} {cache cache' : List Nat} {v : Nat} (i : Nat) : Cached s f cache → cachedLeading f cache i = .ok (v, cache') → Cached s f cache'

theorem lead_good {s : List (List Nat)} (hs : Storable s) {cache : List Nat} (hg : GoodCache s cache) {i : Nat} {p : List Nat} (hp : s[i]? = some p) :
    ∃ cache', cachedLeading (infoOf s) cache i = .ok (p.getLastD 0, cache') ∧ GoodCache s cache' := by
  obtain ⟨f', g1, -, -, -, rfl⟩ := C92_info s hs
  have hlead := C92_leading s hs _ g1 i p hp
  rw [cachedLeading]
  by_cases h2 : i < 2
  · rw [if_pos h2]
    rw [PolInfo.leading, if_pos h2] at hlead
    simp only [Res.ok.injEq] at hlead
    exact ⟨cache, by rw [← hlead], hg⟩
  · rw [if_neg h2]
    obtain ⟨c, k1, k2, k3, k4⟩ := hg.2 (i - 2) p (by rw [← hp]; congr 1; omega)
    rw [k1]
    simp only
    by_cases hc : c / 32 ≠ 0
    · rw [if_pos hc]
      rcases k3 with k3 | k3
      · exact (hc k3).elim
      · exact ⟨cache, by rw [k3], hg⟩
    · rw [if_neg hc, hlead, Res.ok_bind, Res.pure_eq]
      refine ⟨_, rfl, ?_⟩
      by_cases hl : p.getLastD 0 ≤ 255 / 32
      · rw [if_pos hl]
        have hor : c ||| p.getLastD 0 * 32 = c + p.getLastD 0 * 32 := by
          have := Nat.shiftLeft_add_eq_or_of_lt (b := c) (i := 5) (by omega) (p.getLastD 0)
          rw [Nat.shiftLeft_eq, show (2 : Nat) ^ 5 = 32 from rfl] at this
          rw [Nat.or_comm]
          omega
        refine ⟨by rw [List.length_set]; exact hg.1, ?_⟩
        intro j q hq
        by_cases hj : j = i - 2
        · subst hj
          have hq' : q = p := by
            rw [show i - 2 + 2 = i by omega, hp] at hq
            exact (Option.some.inj hq).symm
          subst hq'
          have hlt := (List.getElem?_eq_some_iff.1 k1).1
          refine ⟨_, by rw [List.getElem?_set_self hlt], ?_, .inr ?_, ?_⟩
          · rw [hor]; omega
          · rw [hor]; omega
          · rw [hor]; omega
        · obtain ⟨d, d1, d2⟩ := hg.2 j q hq
          exact ⟨d, by rw [List.getElem?_set_ne (by omega)]; exact d1, d2⟩
      · rw [if_neg hl]
        exact hg

theorem lead_inv {s : List (List Nat)} (hs : Storable s) {f : PolInfo} {cache : List Nat} (h : Cached s f cache) : f = infoOf s ∧ GoodCache s cache := by
  induction h with
  | init h =>
    rcases cached_open s hs with ⟨h1, -⟩ | ⟨c, h1, h2, -⟩
    · rw [h1] at h; cases h
    · rw [h1] at h; cases h; exact ⟨rfl, h2⟩
  | @call cache cache' v i _ hr ih =>
    obtain ⟨rfl, hg⟩ := ih
    refine ⟨rfl, ?_⟩
    cases hp : s[i]? with
    | some p =>
      obtain ⟨c, h1, h2⟩ := lead_good hs hg hp
      rw [h1] at hr
      cases hr
      exact h2
    | none =>
      have hi := List.getElem?_eq_none_iff.1 hp
      have h2 := (start_two hs).2
      rw [cachedLeading, if_neg (by omega), List.getElem?_eq_none (by have := hg.1; omega)] at hr
      cases hr

/-- C92, the version with a cache: it is refused just if some degree is 32 or more; whatever calls were made before, it gives the same degrees and leading coefficients -/
theorem C92_cached (s : List (List Nat)) (hs : Storable s) : (openCached (writeStore s) = .throw ↔ ∃ p ∈ s, 32 < p.length) ∧ ((∃ f cache, openCached (writeStore s) = .ok (f, cache)) ↔ ∀ p ∈ s, p.length ≤ 32) ∧
    ∀ f cache, Cached s f cache → ∀ i p, s[i]? = some p → cachedDegree cache i = .ok (degreeOf p) ∧ ∃ cache', cachedLeading f cache i = .ok (p.getLastD 0, cache') := by
  refine ⟨?_, ?_, ?_⟩
  · rcases cached_open s hs with ⟨h1, p, h2, h3⟩ | ⟨c, h1, -, h3⟩
    · exact ⟨fun _ => ⟨p, h2, h3⟩, fun _ => h1⟩
    · refine ⟨fun h => (by rw [h1] at h; cases h), fun ⟨p, h4, h5⟩ => ?_⟩
      have := h3 p h4
      omega
  · rcases cached_open s hs with ⟨h1, p, h2, h3⟩ | ⟨c, h1, -, h3⟩
    · refine ⟨fun ⟨f, c, h⟩ => (by rw [h1] at h; cases h), fun h => ?_⟩
      have := h p h2
      omega
    · exact ⟨fun _ => h3, fun _ => ⟨_, _, h1⟩⟩
  · intro f cache hc i p hp
    obtain ⟨rfl, hg⟩ := lead_inv hs hc
    obtain ⟨c, h1, -⟩ := lead_good hs hg hp
    refine ⟨?_, c, h1⟩
    obtain ⟨c0, c1, c2⟩ := first_two hs hp
    rw [cachedDegree]
    by_cases h2 : i < 2
    · rw [if_pos h2]
      have : i = 0 ∨ i = 1 := by omega
      rcases this with h | h
      · rw [c0 h, h]; rfl
      · rw [c1 h, h]; rfl
    · rw [if_neg h2]
      obtain ⟨d, k1, k2, -⟩ := hg.2 (i - 2) p (by rw [← hp]; congr 1; omega)
      rw [k1, degreeOf, if_neg (c2 (by omega))]
      simp only
      rw [k2]

-- the polynomials 0, 1, 1+2q and 9
example : Storable [[], [1], [1, 2], [9]] := ⟨⟨[[1, 2], [9]], rfl, by decide⟩, by decide, by decide, by decide⟩

example : ∃ f c, openCached (writeStore [[], [1], [1, 2], [9]]) = .ok (f, c) ∧ c = [1, 0] ∧ cachedLeading f c 2 = .ok (2, [65, 0]) ∧ cachedLeading f c 3 = .ok (9, [1, 0]) := ⟨_, _, rfl, rfl, rfl, rfl⟩

end Verif.Io
