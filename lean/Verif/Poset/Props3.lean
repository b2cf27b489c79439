import Verif.Poset.Props2
import Mathlib.Data.Set.Card
import Mathlib.Algebra.BigOperators.Group.Finset.Sigma
import Mathlib.Algebra.Order.BigOperators.Group.Finset
import Mathlib.Algebra.BigOperators.Intervals
/-
C30: equality, duals and counting of comparable pairs.
-/
namespace Verif.Poset
open Verif.BitMap

variable {P : List BitMap}

/-! ### Counting -/

theorem sum_size (P : List BitMap) (f : Nat → Nat) (h : ∀ j b, P[j]? = some b → size b = f j) :
    (P.map size).sum = ∑ j ∈ Finset.range P.length, f j := by
  induction P using List.reverseRecOn with
  | nil => rfl
  | append_singleton l b ih =>
    rw [List.map_append, List.sum_append, List.length_append, List.length_singleton, Finset.sum_range_succ, ih]
    · have := h l.length b (by simp)
      simp [this]
    · intro j c hc
      refine h j c ?_
      rw [List.getElem?_append_left (List.getElem?_eq_some_iff.1 hc).1]
      exact hc

/-- the pairs given by a family of sets -/
theorem ncard_pairs (n : Nat) (C : Nat → Finset Nat) (R : Nat → Nat → Prop) (h : ∀ i j, R i j ↔ j < n ∧ i ∈ C j) :
    {p : Nat × Nat | R p.1 p.2}.ncard = ∑ j ∈ Finset.range n, (C j).card := by
  rw [← Finset.card_sigma, ← Set.ncard_coe_finset]
  rw [← Set.ncard_image_of_injective (f := fun s : (_ : Nat) × Nat => (s.2, s.1)) _ (by
    rintro ⟨a, b⟩ ⟨c, d⟩ h
    simp at h
    simp [h])]
  congr 1
  ext ⟨i, j⟩
  simp only [Set.mem_ofPred_eq, Set.mem_image, Finset.mem_coe, Finset.mem_sigma, Finset.mem_range]
  rw [h]
  constructor
  · intro h; exact ⟨⟨j, i⟩, h, rfl⟩
  · rintro ⟨⟨a, b⟩, h1, h2⟩
    simp only [Prod.mk.injEq] at h2
    obtain ⟨rfl, rfl⟩ := h2
    exact h1

/-- `n_comparable()` is the number of pairs `(i,j)` with `i ≤ j`. -/
theorem C30_nComparable (h : Good P) : nComparable P = {p : Nat × Nat | Le P p.1 p.2}.ncard := by
  obtain ⟨S, hS, -⟩ := h.sets
  rw [ncard_pairs P.length (fun j => Insert.insert j (S j)) (Le P)]
  · unfold nComparable
    rw [sum_size P (fun j => (S j).card)]
    · have : ∀ j ∈ Finset.range P.length, (Insert.insert j (S j)).card = 1 + (S j).card := by
        intro j _
        rw [Finset.card_insert_of_notMem, Nat.add_comm]
        intro hj; have := hS.lt hj; omega
      rw [Finset.sum_congr rfl this, Finset.sum_add_distrib]
      simp
    · intro j b hb
      exact C19_size (hS.rep j b (List.getElem?_eq_some_iff.1 hb).1 hb)
  · intro i j
    rw [hS.le, Finset.mem_insert]
    constructor
    · rintro ⟨h1, h2, h3 | h3⟩
      · exact ⟨h2, .inr h3⟩
      · exact ⟨h2, .inl h3⟩
    · rintro ⟨h1, h2 | h2⟩
      · exact ⟨by omega, h1, .inr h2⟩
      · have := hS.lt h2; exact ⟨by omega, h1, .inl h2⟩

/-! ### Equality -/

theorem equal_iff (P Q : List BitMap) : equal P Q = true ↔ P.length = Q.length ∧
    ∀ (j : Nat) (a b : BitMap), P[j]? = some a → Q[j]? = some b → beq a b = true := by
  unfold equal
  rw [Bool.and_eq_true, beq_iff_eq, List.all_eq_true]
  refine and_congr_right fun hl => ⟨fun h j a b ha hb => ?_, fun h x hx => ?_⟩
  · refine h (a, b) (List.mem_of_getElem? (i := j) ?_)
    rw [List.getElem?_zip_eq_some]; exact ⟨ha, hb⟩
  · obtain ⟨j, hj⟩ := List.mem_iff_getElem?.1 hx
    rw [List.getElem?_zip_eq_some] at hj
    exact h j _ _ hj.1 hj.2

/-- `operator==` holds exactly for posets with the same number of elements and the same relation. -/
theorem C30_equal {Q : List BitMap} (hP : Good P) (hQ : Good Q) :
    equal P Q = true ↔ P.length = Q.length ∧ ∀ i j, Le P i j ↔ Le Q i j := by
  obtain ⟨S, hS, -⟩ := hP.sets
  obtain ⟨T, hT, -⟩ := hQ.sets
  rw [equal_iff]
  refine and_congr_right fun hl => ⟨fun h i j => ?_, fun h j a b ha hb => ?_⟩
  · rw [hS.le, hT.le, hl]
    refine and_congr_right fun _ => and_congr_right fun hj => ?_
    obtain ⟨-, r1⟩ := hS.row (j := j) (by omega)
    obtain ⟨-, r2⟩ := hT.row hj
    have := (C19_eq r1 r2).1 (h j _ _ (List.getElem?_eq_getElem (by omega)) (List.getElem?_eq_getElem hj))
    rw [this]
  · have hj := (List.getElem?_eq_some_iff.1 ha).1
    have r1 := hS.rep j a hj ha
    have r2 := hT.rep j b (by omega) hb
    refine (C19_eq r1 r2).2 ?_
    ext i
    have := h i j
    rw [hS.le, hT.le] at this
    constructor
    · intro hi
      have := hS.lt hi
      rcases ((h i j).1 ((hS.le i j).2 ⟨by omega, hj, .inl hi⟩) |> (hT.le i j).1).2.2 with h1 | h1
      · exact h1
      · omega
    · intro hi
      have := hT.lt hi
      rcases ((h i j).2 ((hT.le i j).2 ⟨by omega, by omega, .inl hi⟩) |> (hS.le i j).1).2.2 with h1 | h1
      · exact h1
      · omega

/-! ### Duals -/

theorem dualRow_spec (nd : Bool) {S} (h : PRep P.length P S) {n i : Nat} (hn : n + 1 = P.length) (hi : i ≤ n) (k : Nat) (hk : k ≤ i) :
    ∃ b T, dualRow nd P n i k (BitMap.make i) = .ok b ∧ Rep b i T ∧ ∀ j, j ∈ T ↔ j < k ∧ n - i ∈ S (n - j) := by
  have hsm := h.small
  induction k with
  | zero => exact ⟨_, ∅, rfl, C19_make (by omega), by simp⟩
  | succ k ih =>
    obtain ⟨b, T, e, r, hT⟩ := ih (by omega)
    rw [dualRow, e, Res.ok_bind, h.lesseq _ (by omega), Res.ok_bind]
    by_cases hc : n - i ∈ S (n - k) ∨ n - i = n - k
    · rw [decide_eq_true hc, if_pos rfl]
      obtain ⟨b', e', r'⟩ := C19_insert nd r (n := k) (by omega)
      refine ⟨b', _, e', r', fun j => ?_⟩
      rw [Finset.mem_insert, hT]
      constructor
      · rintro (rfl | ⟨h1, h2⟩)
        · exact ⟨by omega, by rcases hc with hc | hc; exact hc; omega⟩
        · exact ⟨by omega, h2⟩
      · rintro ⟨h1, h2⟩
        by_cases e : j = k
        · exact .inl e
        · exact .inr ⟨by omega, h2⟩
    · rw [decide_eq_false hc, if_neg (by simp)]
      refine ⟨b, T, rfl, r, fun j => ?_⟩
      rw [hT]
      refine ⟨fun h => ⟨by omega, h.2⟩, fun h => ⟨?_, h.2⟩⟩
      by_contra hn
      have : j = k := by omega
      exact hc (.inl (this ▸ h.2))

theorem dualRows_spec (nd : Bool) {S} (h : PRep P.length P S) {n : Nat} (hn : n + 1 = P.length) (k : Nat) (hk : k ≤ n + 1) :
    ∃ D, dualRows nd P n k = .ok D ∧ D.length = k ∧ ∀ i b, D[i]? = some b → ∃ T, Rep b i T ∧
      ∀ j, j ∈ T ↔ j < i ∧ n - i ∈ S (n - j) := by
  induction k with
  | zero => exact ⟨[], rfl, rfl, by simp⟩
  | succ k ih =>
    obtain ⟨D, e, l, hD⟩ := ih (by omega)
    obtain ⟨b, T, e1, r1, hT⟩ := dualRow_spec nd h hn (i := k) (by omega) k (Nat.le_refl _)
    refine ⟨D ++ [b], by rw [dualRows, e, Res.ok_bind, e1, Res.ok_bind], by simp [l], fun i c hc => ?_⟩
    by_cases hi : i < k
    · rw [List.getElem?_append_left (by omega)] at hc
      exact hD i c hc
    · rw [List.getElem?_append_right (by omega)] at hc
      have hik : i = k := by
        by_contra hne
        rw [List.getElem?_eq_none (by simp; omega)] at hc; cases hc
      subst hik
      simp [l] at hc
      subst hc
      exact ⟨T, r1, hT⟩

/-- The dual of a nonempty poset is a poset with the relation and the numbering reversed. -/
theorem C30_dual (nd : Bool) (h : Good P) (hne : P ≠ []) :
    ∃ D, dual nd P = .ok D ∧ Good D ∧ D.length = P.length ∧
      ∀ i j, i < P.length → j < P.length → (Le D i j ↔ Le P (P.length - 1 - j) (P.length - 1 - i)) := by
  obtain ⟨S, hS, hTr⟩ := h.sets
  have hsm := h.small
  have hpos : 0 < P.length := List.length_pos_iff.2 hne
  have hn : (P.length + 4294967295) % 4294967296 = P.length - 1 := by omega
  obtain ⟨D, e, l, hD⟩ := dualRows_spec nd hS (n := P.length - 1) (by omega) (P.length - 1 + 1) (Nat.le_refl _)
  have hl : D.length = P.length := by omega
  have hle : ∀ i j, i < P.length → j < P.length → (Le D i j ↔ Le P (P.length - 1 - j) (P.length - 1 - i)) := by
    intro i j hi hj
    have hg := List.getElem?_eq_getElem (l := D) (i := j) (by omega)
    obtain ⟨T, r, hT⟩ := hD j _ hg
    rw [hS.le]
    unfold Le lesseq
    by_cases hij : i < j
    · rw [if_pos hij, Vec.get_ok (by omega), Res.ok_bind, C19_isMember r]
      simp only [Res.ok.injEq, decide_eq_true_eq, hT]
      constructor
      · rintro ⟨-, -, h1, h2⟩
        exact ⟨by omega, by omega, .inl h2⟩
      · rintro ⟨-, -, h1 | h1⟩
        · exact ⟨by omega, by omega, hij, h1⟩
        · omega
    · rw [if_neg hij]
      rw [Res.ok.injEq, decide_eq_true_eq]
      constructor
      · rintro ⟨-, -, h1⟩
        exact ⟨by omega, by omega, .inr (by omega)⟩
      · rintro ⟨-, -, h1 | h1⟩
        · have := hS.lt h1; omega
        · exact ⟨by omega, by omega, by omega⟩
  refine ⟨D, by rw [dual, hn, e], ⟨by omega, fun j b hb => ?_, fun i j k hij hjk => ?_⟩, hl, hle⟩
  · obtain ⟨T, r, -⟩ := hD j b hb
    exact ⟨T, r⟩
  · have h1 := hij.1; have h2 := hij.2.1; have h3 := hjk.2.1
    rw [hle i k (by omega) (by omega)]
    exact h.trans _ _ _ ((hle j k (by omega) (by omega)).1 hjk) ((hle i j (by omega) (by omega)).1 hij)

theorem dualRows_nil (nd : Bool) (n k : Nat) (hn : 0 < n) : dualRows nd [] n (k + 2) = .undefined := by
  induction k with
  | zero =>
    have h0 : dualRows nd [] n 1 = .ok [BitMap.make 0] := rfl
    have h1 : dualRow nd [] n 1 1 (BitMap.make 1) = .undefined := by
      have h2 : dualRow nd [] n 1 0 (BitMap.make 1) = .ok (BitMap.make 1) := rfl
      rw [dualRow, h2, Res.ok_bind, lesseq, if_pos (by omega)]
      rfl
    rw [dualRows, h0, Res.ok_bind, h1]; rfl
  | succ k ih => rw [dualRows, ih]; rfl

/-- Taking the dual of the empty poset is undefined: `p.size()-1` wraps around (finding F19). -/
theorem C30_dual_empty_false (nd : Bool) : dual nd [] = .undefined := by
  have : dual nd [] = dualRows nd [] 4294967295 (4294967294 + 2) := rfl
  rw [this, dualRows_nil nd _ _ (by norm_num)]

/-! ### Counting without building the poset -/

theorem minLoop_le (m : Nat) (l : List Nat) : minLoop m l ≤ m ∧ ∀ x ∈ l, minLoop m l ≤ x := by
  induction l generalizing m with
  | nil => exact ⟨Nat.le_refl _, by simp⟩
  | cons x l ih =>
    rw [minLoop]
    obtain ⟨h1, h2⟩ := ih (if x < m then x else m)
    have h3 : (if x < m then x else m) ≤ m ∧ (if x < m then x else m) ≤ x := by split <;> omega
    refine ⟨by omega, fun y hy => ?_⟩
    rcases List.mem_cons.1 hy with rfl | hy
    · omega
    · exact h2 y hy

/-- what is needed of `min_after` -/
structure MinsOk (n : Nat) (mins : List Nat) (h : List (List Nat)) : Prop where
  len : mins.length = h.length + 1
  le : ∀ i, (hi : i < mins.length) → mins[i] ≤ n
  row : ∀ i, (hi : i < h.length) → ∀ x ∈ h[i], mins[i]'(by omega) ≤ x
  mono : ∀ i, (hi : i < h.length) → mins[i]'(by omega) ≤ mins[i+1]'(by omega)

theorem minAfter_ok (n : Nat) (h : List (List Nat)) : MinsOk n (minAfter n h) h := by
  induction h with
  | nil => exact ⟨rfl, by intro i hi; simp [minAfter] at hi ⊢, by simp, by simp⟩
  | cons c h ih =>
    unfold minAfter
    rcases he : minAfter n h with _ | ⟨m, l⟩
    · have := ih.len; simp [he] at this
    · rw [he] at ih
      have q := minLoop_le m c
      refine ⟨by simpa using ih.len, fun i hi => ?_, fun i hi x hx => ?_, fun i hi => ?_⟩
      · cases i with
        | zero => have := ih.le 0 (by simp); simp at this ⊢; omega
        | succ i => exact ih.le i (by simpa using hi)
      · cases i with
        | zero => exact q.2 x hx
        | succ i => exact ih.row i (by simpa using hi) x hx
      · cases i with
        | zero => exact q.1
        | succ i => exact ih.mono i (by simpa using hi)

variable {C : Nat → Finset Nat}

theorem closeLoop_spec (nd : Bool) {i : Nat} (c : List Nat) (hc : ∀ x ∈ c, x < i) (cl : List BitMap) (hi : i < cl.length)
    (hx : ∀ x ∈ c, ∀ b, cl[x]? = some b → Rep b (x+1) (C x)) {A : Finset Nat} (hA : Rep cl[i] (i+1) A) :
    ∃ b A', closeLoop nd i cl c = .ok (cl.set i b) ∧ Rep b (i+1) A' ∧ ∀ k, k ∈ A' ↔ k ∈ A ∨ ∃ x ∈ c, k ∈ C x := by
  induction c generalizing cl A with
  | nil => exact ⟨cl[i], A, by simp [closeLoop], hA, by simp⟩
  | cons x c ih =>
    have hxi := hc x List.mem_cons_self
    have hxl : x < cl.length := by omega
    obtain ⟨u, e1, r1⟩ := C19_union nd hA (hx x List.mem_cons_self _ (List.getElem?_eq_getElem hxl)) (by omega)
    obtain ⟨b, A', e2, r2, hA'⟩ := ih (fun y hy => hc y (List.mem_cons_of_mem _ hy)) (cl.set i u) (by simpa using hi)
      (fun y hy d hd => by
        have := hc y (List.mem_cons_of_mem _ hy)
        rw [List.getElem?_set_ne (by omega)] at hd
        exact hx y (List.mem_cons_of_mem _ hy) d hd) (A := A ∪ C x) (by simpa using r1)
    refine ⟨b, A', ?_, r2, fun k => ?_⟩
    · rw [closeLoop, Vec.get_ok hi, Res.ok_bind, Vec.get_ok hxl, Res.ok_bind, e1, Res.ok_bind, Vec.put_ok hi,
        Res.ok_bind, e2, List.set_set]
    · rw [hA', Finset.mem_union]
      simp only [List.mem_cons, exists_eq_or_imp]
      rw [or_assoc]

theorem freeLoop_spec (j m : Nat) (cl : List BitMap) (hm : j + m ≤ cl.length)
    (hr : ∀ (k : Nat) b, j ≤ k → cl[k]? = some b → ∃ c T, c ≤ 2 ^ 32 ∧ Rep b c T) :
    ∃ cl', freeLoop j m cl = .ok cl' ∧ cl'.length = cl.length ∧
      (∀ k : Nat, ¬ (j ≤ k ∧ k < j + m) → cl'[k]? = cl[k]?) ∧
      (∀ (k : Nat) b, j ≤ k → k < j + m → cl'[k]? = some b → Rep b 0 ∅) := by
  induction m generalizing j cl with
  | zero => exact ⟨cl, rfl, rfl, fun _ _ => rfl, fun k b h1 h2 => by omega⟩
  | succ m ih =>
    have hj : j < cl.length := by omega
    obtain ⟨c, T, hc, r⟩ := hr j _ (Nat.le_refl _) (List.getElem?_eq_getElem hj)
    obtain ⟨b, e1, r1⟩ := C19_setCapacity r (n := 0) (by omega)
    obtain ⟨cl', e2, l2, h2, h3⟩ := ih (j+1) (cl.set j b) (by simp; omega) (fun k d hk hd => by
      rw [List.getElem?_set_ne (by omega)] at hd
      exact hr k d (by omega) hd)
    refine ⟨cl', ?_, by simpa using l2, fun k hk => ?_, fun k d h1 h4 hd => ?_⟩
    · rw [freeLoop, Vec.get_ok hj, Res.ok_bind, e1, Res.ok_bind, Vec.put_ok hj, Res.ok_bind, e2]
    · rw [h2 k (by omega), List.getElem?_set_ne (by omega)]
    · by_cases e : k = j
      · subst e
        rw [h2 k (by omega), List.getElem?_set_self hj] at hd
        cases hd
        have hem : (T.filter (· < 0)) = ∅ := by ext; simp
        simpa [hem] using r1
      · exact h3 k d (by omega) (by omega) hd

theorem countLoop_spec (nd : Bool) (hs : List (List Nat)) (hcomp : Compatible hs) (hsm : hs.length < 2 ^ 32)
    (hC : ∀ i c, hs[i]? = some c → ∀ k, k ∈ C i ↔ k = i ∨ ∃ x ∈ c, k ∈ C x)
    {mins : List Nat} (hmin : MinsOk hs.length mins hs)
    (m i : Nat) (hm : i + m = hs.length) (cl : List BitMap) (hl : cl.length = hs.length)
    (h1 : ∀ j b, i ≤ j → cl[j]? = some b → Rep b 0 ∅)
    (h2 : ∀ j b, j < i → mins[i]! ≤ j → cl[j]? = some b → Rep b (j+1) (C j)) (count : Nat) :
    countLoop nd mins i cl count (hs.drop i) = .ok (count + ∑ j ∈ Finset.Ico i hs.length, (C j).card) := by
  induction m generalizing i cl count with
  | zero =>
    have e : i = hs.length := by omega
    subst e
    simp [countLoop]
  | succ m ih =>
    have hi : i < hs.length := by omega
    have hml := hmin.len
    have hmi : i < mins.length := by omega
    have hmi1 : i + 1 < mins.length := by omega
    rw [List.drop_eq_getElem_cons hi, countLoop]
    have hil : i < cl.length := by omega
    obtain ⟨b1, e1, r1⟩ := C19_setCapacity (h1 i _ (Nat.le_refl _) (List.getElem?_eq_getElem hil)) (n := i + 1) (by omega)
    obtain ⟨b2, e2, r2⟩ := C19_insert nd r1 (n := i) (by omega)
    have hrow : ∀ x ∈ hs[i], x < i := fun x hx => hcomp x i ⟨_, List.getElem?_eq_getElem hi, hx⟩
    have hbang : mins[i]! = mins[i] := by simp [hmi]
    obtain ⟨b3, A, e3, r3, hA⟩ := closeLoop_spec (C := C) nd (i := i) hs[i] hrow (cl.set i b2) (by simpa using hil) (fun x hx d hd => by
      have hxi := hrow x hx
      rw [List.getElem?_set_ne (by omega)] at hd
      exact h2 x d hxi (by rw [hbang]; exact hmin.row i hi x hx) hd) (by simpa using r2)
    have hAC : A = C i := by
      ext k
      rw [hA, hC i _ (List.getElem?_eq_getElem hi)]
      simp
    rw [List.set_set] at e3
    have hgap : ∀ (k : Nat) b, mins[i] ≤ k → (cl.set i b3)[k]? = some b → ∃ c T, c ≤ 2 ^ 32 ∧ Rep b c T := by
      intro k b hk hb
      by_cases e : k = i
      · subst e
        rw [List.getElem?_set_self hil] at hb
        cases hb
        exact ⟨_, _, by omega, r3⟩
      · rw [List.getElem?_set_ne (fun h => e h.symm)] at hb
        by_cases hki : k < i
        · exact ⟨_, _, by omega, h2 k b hki (by rw [hbang]; exact hk) hb⟩
        · exact ⟨_, _, by omega, h1 k b (by omega) hb⟩
    have hmono := hmin.mono i hi
    have hle1 := hmin.le (i+1) hmi1
    obtain ⟨cl', e4, l4, h4, h5⟩ := freeLoop_spec mins[i] (mins[i+1] - mins[i]) (cl.set i b3) (by simp; omega) hgap
    rw [Vec.get_ok hil, Res.ok_bind, e1, Res.ok_bind, e2, Res.ok_bind, Vec.put_ok hil, Res.ok_bind, e3, Res.ok_bind,
      Vec.get_ok (by simpa using hil), Res.ok_bind, Vec.get_ok hmi, Res.ok_bind, Vec.get_ok hmi1, Res.ok_bind, e4, Res.ok_bind]
    rw [ih (i+1) (by omega) cl' (by rw [l4]; simpa using hl)]
    · rw [List.getElem_set_self, C19_size r3, hAC, Finset.sum_eq_sum_Ico_succ_bot hi]
      congr 1; omega
    · intro j b hj hb
      by_cases hjr : mins[i] ≤ j ∧ j < mins[i] + (mins[i+1] - mins[i])
      · exact h5 j b hjr.1 hjr.2 hb
      · rw [h4 j hjr, List.getElem?_set_ne (by omega)] at hb
        exact h1 j b (by omega) hb
    · intro j b hj hmj hb
      have hbang1 : mins[i+1]! = mins[i+1] := by simp [hmi1]
      rw [hbang1] at hmj
      rw [h4 j (by omega)] at hb
      by_cases e : j = i
      · subst e
        rw [List.getElem?_set_self hil] at hb
        cases hb
        rw [← hAC]; exact r3
      · rw [List.getElem?_set_ne (fun h => e h.symm)] at hb
        exact h2 j b (by omega) (by rw [hbang]; omega) hb

/-- `n_comparable_from_Hasse` returns, without building the poset and freeing rows as it goes, the number of pairs
`(x,y)` for which a chain of covering relations leads from `x` to `y`. -/
theorem C30_nComparableFromHasse (nd : Bool) (h : List (List Nat)) (hc : Compatible h) (hsm : h.length < 2 ^ 32) :
    nComparableFromHasse nd h = .ok {p : Nat × Nat | p.2 < h.length ∧ Relation.ReflTransGen (InRow h) p.1 p.2}.ncard := by
  classical
  have hlt : ∀ i j, Relation.ReflTransGen (InRow h) i j → i ≤ j := by
    intro i j hij
    induction hij with
    | refl => exact Nat.le_refl _
    | @tail b c _ hbc ih => have := hc b c hbc; omega
  let C : Nat → Finset Nat := fun j => (Finset.range (j+1)).filter (fun i => Relation.ReflTransGen (InRow h) i j)
  have hCm : ∀ i j, i ∈ C j ↔ Relation.ReflTransGen (InRow h) i j := by
    intro i j
    simp only [C, Finset.mem_filter, Finset.mem_range]
    exact ⟨fun h => h.2, fun h => ⟨by have := hlt i j h; omega, h⟩⟩
  have hrec : ∀ i c, h[i]? = some c → ∀ k, k ∈ C i ↔ k = i ∨ ∃ x ∈ c, k ∈ C x := by
    intro i c hi k
    simp only [hCm]
    constructor
    · intro hk
      rcases Relation.ReflTransGen.cases_tail hk with h1 | ⟨x, h1, c', h2, h3⟩
      · exact .inl h1.symm
      · rw [hi] at h2; cases h2
        exact .inr ⟨x, h3, h1⟩
    · rintro (rfl | ⟨x, h1, h2⟩)
      · exact .refl
      · exact h2.tail ⟨c, hi, h1⟩
  have := countLoop_spec (C := C) nd h hc hsm hrec (minAfter_ok h.length h) h.length 0 (by omega)
    (List.replicate h.length bm0) (by simp) (fun j b _ hb => by
      have := List.mem_of_getElem? hb
      rw [(List.mem_replicate.1 this).2]
      exact rep_bm0) (fun j b hj => by omega) 0
  rw [List.drop_zero] at this
  rw [nComparableFromHasse, this, ncard_pairs h.length C (fun i j => j < h.length ∧ Relation.ReflTransGen (InRow h) i j)]
  · simp [Nat.Ico_zero_eq_range]
  · intro i j; rw [hCm]

/-- The two ways of counting agree. -/
theorem C30_nComparable_agree (nd : Bool) (h : List (List Nat)) (hc : Compatible h) (hsm : h.length < 2 ^ 32) :
    ∃ P, ofHasse nd h = .ok P ∧ nComparableFromHasse nd h = .ok (nComparable P) := by
  obtain ⟨P, e, hl, hg, hle⟩ := C30_ofHasse nd h hc hsm
  refine ⟨P, e, ?_⟩
  rw [C30_nComparableFromHasse nd h hc hsm, C30_nComparable hg]
  have hlt : ∀ i j, Relation.ReflTransGen (InRow h) i j → i ≤ j := by
    intro i j hij
    induction hij with
    | refl => exact Nat.le_refl _
    | @tail b c _ hbc ih => have := hc b c hbc; omega
  congr 2
  ext ⟨i, j⟩
  simp only [Set.mem_ofPred_eq]
  constructor
  · rintro ⟨h1, h2⟩
    have := hlt i j h2
    exact (hle i j (by omega) h1).2 h2
  · intro h1
    have := h1.1; have := h1.2.1
    exact ⟨by omega, (hle i j (by omega) (by omega)).1 h1⟩

/-! ### Concrete instances -/

/-- the Hasse diagram of a four element poset with a bottom 0, incomparable 1 and 2, and a top 3 -/
def diamond : List (List Nat) := [[], [0], [0], [1, 2]]

theorem diamond_ok : Compatible diamond ∧ diamond.length < 2 ^ 32 := by
  refine ⟨?_, by decide⟩
  rintro x y ⟨c, hc, hx⟩
  have hy : y < 4 := (List.getElem?_eq_some_iff.1 hc).1
  interval_cases y <;> simp [diamond] at hc <;> subst hc <;> simp at hx <;> omega

example : ∃ P, ofHasse false diamond = .ok P ∧ Good P ∧ P ≠ [] ∧ nComparable P = 9 ∧
    hasse false P = .ok diamond ∧ (coveredBy false P 3 >>= elements) = .ok [1, 2] ∧
    (coversOf false P 0 >>= elements) = .ok [1, 2] ∧ nComparableFromHasse false diamond = .ok 9 := by
  obtain ⟨P, e, hl, hg, -⟩ := C30_ofHasse false diamond diamond_ok.1 diamond_ok.2
  have e' : ofHasse false diamond = .ok [⟨0, []⟩, ⟨1, [1]⟩, ⟨2, [1]⟩, ⟨3, [7]⟩] := by decide +kernel
  rw [e'] at e
  cases e
  refine ⟨_, e', hg, by simp, ?_, ?_, ?_, ?_, ?_⟩ <;> decide +kernel

end Verif.Poset
