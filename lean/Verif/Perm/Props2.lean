import Verif.Perm.Props
import Verif.BitSet.Props
import Mathlib.Data.List.NodupEquivFin
/-
C26: standardization, and the action on bit sets.
-/
namespace Verif.Perm
open Verif

variable {α : Type} {n : Nat} {p q : List Nat}

/-! ### standardization of a word over `[0,bound)` -/

theorem countP_le_len (a : List Nat) (f : Nat → Bool) : a.countP f ≤ a.length := List.countP_le_length

theorem countLoop_spec (nd : Bool) (a : List Nat) (bound : Nat) (ha : ∀ x ∈ a, x < bound) (hlen : a.length < 4294967296)
    (i : Nat) (c : List Nat) (hi : i ≤ a.length) (hc : c.length = bound)
    (hv : ∀ x, x < bound → c[x]? = some ((a.drop i).count x)) :
    ∃ c', countLoop nd a i c = .ok c' ∧ c'.length = bound ∧ ∀ x, x < bound → c'[x]? = some (a.count x) := by
  induction i generalizing c with
  | zero => exact ⟨c, rfl, hc, by simpa using hv⟩
  | succ i ih =>
    have hil : i < a.length := by omega
    have hx : a[i] < bound := ha _ (List.getElem_mem hil)
    rw [countLoop, Vec.get_ok hil, Res.ok_bind, Res.assertIn_bind nd (by simp [hc, hx]), Vec.get_of (hv _ hx), Res.ok_bind,
      Vec.put_ok (by omega), Res.ok_bind]
    refine ih _ (by omega) (by simpa using hc) ?_
    intro x hxb
    have hd : a.drop i = a[i] :: a.drop (i + 1) := List.drop_eq_getElem_cons hil
    by_cases e : a[i] = x
    · subst e
      rw [List.getElem?_set_self (by omega), hd, List.count_cons_self, Nat.mod_eq_of_lt]
      have : (a.drop (i + 1)).count a[i] ≤ (a.drop (i + 1)).length := List.count_le_length
      rw [List.length_drop] at this; omega
    · rw [List.getElem?_set_ne e, hv x hxb, hd, List.count_cons_of_ne e]

theorem countP_succ (a : List Nat) (k : Nat) : a.countP (· < k + 1) = a.countP (· < k) + a.count k := by
  induction a with
  | nil => rfl
  | cons x a ih =>
    rw [List.countP_cons, List.countP_cons, List.count_cons, ih]
    rcases Nat.lt_trichotomy x k with h | h | h
    · have h1 : x < k + 1 := by omega
      have h2 : ¬ x = k := by omega
      simp [h, h1, h2]; omega
    · subst h; simp; omega
    · have h1 : ¬ x < k + 1 := by omega
      have h2 : ¬ x < k := by omega
      have h3 : ¬ x = k := by omega
      simp [h1, h2, h3]

theorem countP_mono (a : List Nat) {k m : Nat} (h : k ≤ m) : a.countP (· < k) ≤ a.countP (· < m) :=
  List.countP_mono_left (fun x _ hx => by simp at hx ⊢; omega)

theorem cumulLoop_spec (a : List Nat) (bound : Nat) (hlen : a.length < 4294967296) (m i : Nat) (c : List Nat) (hm : i + m = bound)
    (hc : c.length = bound) (h1 : ∀ x, x < i → c[x]? = some (a.countP (· < x)))
    (h2 : ∀ x, i ≤ x → x < bound → c[x]? = some (a.count x)) :
    ∃ c', cumulLoop m i (a.countP (· < i)) c = .ok (a.countP (· < bound), c') ∧ c'.length = bound ∧
      ∀ x, x < bound → c'[x]? = some (a.countP (· < x)) := by
  induction m generalizing i c with
  | zero =>
    obtain rfl : i = bound := by omega
    exact ⟨c, rfl, hc, h1⟩
  | succ m ih =>
    rw [cumulLoop, Vec.get_of (h2 i le_rfl (by omega)), Res.ok_bind, Vec.put_ok (by omega), Res.ok_bind, ← countP_succ,
      Nat.mod_eq_of_lt (lt_of_le_of_lt (countP_le_len a _) hlen)]
    refine ih (i + 1) _ (by omega) (by simpa using hc) ?_ ?_
    · intro x hx
      by_cases e : i = x
      · subst e; rw [List.getElem?_set_self (by omega)]
      · rw [List.getElem?_set_ne e]; exact h1 x (by omega)
    · intro x hx hxb
      rw [List.getElem?_set_ne (by omega)]; exact h2 x (by omega) hxb

/-- where `standardization` puts position `i` -/
def rk (a : List Nat) (i : Nat) (h : i < a.length) : Nat := a.countP (· < a[i]) + (a.take i).count a[i]

theorem count_take_le (a : List Nat) (x : Nat) {i j : Nat} (h : i ≤ j) : (a.take i).count x ≤ (a.take j).count x := by
  have : a.take i = (a.take j).take i := by rw [List.take_take, Nat.min_eq_left h]
  rw [this]
  exact List.Sublist.count_le _ (List.take_sublist _ _)

theorem count_take_succ (a : List Nat) {i : Nat} (h : i < a.length) : (a.take (i + 1)).count a[i] = (a.take i).count a[i] + 1 := by
  rw [List.take_succ_eq_append_getElem h, List.count_append, List.count_singleton_self]

theorem rk_lt_top (a : List Nat) (i : Nat) (h : i < a.length) : rk a i h < a.countP (· < a[i] + 1) := by
  rw [countP_succ, rk]
  have := count_take_le a a[i] (show i + 1 ≤ a.length by omega)
  rw [count_take_succ a h, List.take_length] at this
  omega

theorem rk_lt_length (a : List Nat) (i : Nat) (h : i < a.length) : rk a i h < a.length :=
  lt_of_lt_of_le (rk_lt_top a i h) (countP_le_len a _)

theorem rk_lt_of (a : List Nat) {i j : Nat} (hi : i < a.length) (hj : j < a.length)
    (h : a[i] < a[j] ∨ (a[i] = a[j] ∧ i < j)) : rk a i hi < rk a j hj := by
  rcases h with h | ⟨h1, h2⟩
  · have := rk_lt_top a i hi
    have h2 := countP_mono a (show a[i] + 1 ≤ a[j] by omega)
    unfold rk at this ⊢; omega
  · unfold rk
    rw [h1]
    have := count_take_le a a[i] (show i + 1 ≤ j by omega)
    rw [count_take_succ a hi, h1] at this
    omega

theorem rk_lt_iff (a : List Nat) {i j : Nat} (hi : i < a.length) (hj : j < a.length) :
    rk a i hi < rk a j hj ↔ (a[i] < a[j] ∨ (a[i] = a[j] ∧ i < j)) := by
  refine ⟨fun h => ?_, rk_lt_of a hi hj⟩
  by_contra c
  by_cases e : i = j
  · subst e; omega
  · have := rk_lt_of a hj hi (by omega)
    omega

theorem rk_inj (a : List Nat) {i j : Nat} (hi : i < a.length) (hj : j < a.length) (h : rk a i hi = rk a j hj) : i = j := by
  by_contra e
  have h1 := rk_lt_iff a hi hj
  have h2 := rk_lt_iff a hj hi
  omega

theorem placeLoop_spec (a : List Nat) (bound : Nat) (ha : ∀ x ∈ a, x < bound) (hlen : a.length < 4294967296)
    (m i : Nat) (c r : List Nat) (hm : i + m = a.length) (hc : c.length = bound) (hr : r.length = a.length)
    (h1 : ∀ x, x < bound → c[x]? = some (a.countP (· < x) + (a.take i).count x))
    (h2 : ∀ j (hj : j < a.length), j < i → r[j]? = some (rk a j hj)) :
    ∃ r', placeLoop a m i c r = .ok r' ∧ r'.length = a.length ∧ ∀ j (hj : j < a.length), r'[j]? = some (rk a j hj) := by
  induction m generalizing i c r with
  | zero => exact ⟨r, rfl, hr, fun j hj => h2 j hj (by omega)⟩
  | succ m ih =>
    have hi : i < a.length := by omega
    have hx : a[i] < bound := ha _ (List.getElem_mem hi)
    rw [placeLoop, Vec.get_ok hi, Res.ok_bind, Vec.get_of (h1 _ hx), Res.ok_bind, Vec.put_ok (by omega), Res.ok_bind,
      Vec.put_ok (by omega), Res.ok_bind]
    have hlt := rk_lt_length a i hi
    refine ih (i + 1) _ _ (by omega) (by simpa using hc) (by simpa using hr) ?_ ?_
    · intro x hxb
      by_cases e : a[i] = x
      · subst e
        rw [List.getElem?_set_self (by omega), count_take_succ a hi, Nat.mod_eq_of_lt (by unfold rk at hlt; omega)]
        rfl
      · rw [List.getElem?_set_ne e, h1 x hxb, List.take_succ_eq_append_getElem hi, List.count_append,
          List.count_singleton, if_neg (by simpa using e), Nat.add_zero]
    · intro j hj hji
      by_cases e : i = j
      · subst e
        rw [List.getElem?_set_self (by omega)]; rfl
      · rw [List.getElem?_set_ne e]; exact h2 j hj (by omega)

/-- C26: `standardization(a,bound,&stops)` gives the permutation `r` that sorts `a` stably: position `i` is sent
before position `j` exactly when `a[i]<a[j]`, or they are equal and `i<j`.  For each `k`, `stops[k]` counts the entries below `k`. -/
theorem C26_standardize (nd : Bool) (a : List Nat) (bound : Nat) (ha : ∀ x ∈ a, x < bound) (hlen : a.length < 4294967296) :
    ∃ r stops, standardize nd a bound = .ok (r, stops) ∧ IsPerm a.length r ∧
      (∀ (i j : Nat) (x y u v : Nat), a[i]? = some x → a[j]? = some y → r[i]? = some u → r[j]? = some v →
        (u < v ↔ (x < y ∨ (x = y ∧ i < j)))) ∧
      stops.length = bound + 1 ∧ ∀ k, k ≤ bound → stops[k]? = some (a.countP (· < k)) := by
  obtain ⟨c, h1, h2, h3⟩ := countLoop_spec nd a bound ha hlen a.length (List.replicate bound 0) le_rfl (by simp)
    (fun x hx => by simp [hx])
  obtain ⟨c', g1, g2, g3⟩ := cumulLoop_spec a bound hlen bound 0 c (by omega) h2 (fun x hx => by omega) (fun x _ hx => h3 x hx)
  have z : a.countP (· < 0) = 0 := by simp
  rw [z] at g1
  obtain ⟨r, k1, k2, k3⟩ := placeLoop_spec a bound ha hlen a.length 0 c' (List.replicate a.length 0) (by omega) g2 (by simp)
    (fun x hx => by simpa using g3 x hx) (fun j hj h => by omega)
  refine ⟨r, c' ++ [a.countP (· < bound)], ?_, ?_, ?_, by simp [g2], ?_⟩
  · rw [standardize, h1, Res.ok_bind, g1, Res.ok_bind]
    simp only
    rw [k1, Res.ok_bind]; rfl
  · refine isPerm_of? k2 (fun i hi => ⟨_, k3 i hi, rk_lt_length a i hi⟩) ?_
    intro i j k e1 e2
    have hi : i < a.length := by rw [← k2]; exact (List.getElem?_eq_some_iff.1 e1).1
    have hj : j < a.length := by rw [← k2]; exact (List.getElem?_eq_some_iff.1 e2).1
    rw [k3 i hi] at e1; rw [k3 j hj] at e2
    exact rk_inj a hi hj ((Option.some.inj e1).trans (Option.some.inj e2).symm)
  · intro i j x y u v e1 e2 e3 e4
    obtain ⟨hi, rfl⟩ := List.getElem?_eq_some_iff.1 e1
    obtain ⟨hj, rfl⟩ := List.getElem?_eq_some_iff.1 e2
    rw [k3 i hi] at e3; rw [k3 j hj] at e4
    cases e3; cases e4
    exact rk_lt_iff a hi hj
  · intro k hk
    rcases Nat.lt_or_ge k bound with h | h
    · rw [List.getElem?_append_left (by omega), g3 k h]
    · obtain rfl : k = bound := by omega
      rw [List.getElem?_append_right (by omega), g2, Nat.sub_self]; rfl

example : standardize false [2, 0, 2, 1, 0] 3 = .ok ([3, 0, 4, 2, 1], [0, 2, 3, 5]) := by decide

/-- C26: permuting a word by its standardization sorts it. -/
theorem C26_standardize_sorts (nd : Bool) (a : List Nat) (bound : Nat) (ha : ∀ x ∈ a, x < bound) (hlen : a.length < 4294967296) :
    ∃ r stops b, standardize nd a bound = .ok (r, stops) ∧ permute nd r a = .ok b ∧ b.Perm a ∧ b.Pairwise (· ≤ ·) := by
  obtain ⟨r, stops, h1, h2, h3, _⟩ := C26_standardize nd a bound ha hlen
  obtain ⟨b, k1, k2, k3, _⟩ := C26_permute nd h2 a le_rfl
  refine ⟨r, stops, b, h1, k1, ?_, ?_⟩
  · have hb : b = (List.range a.length).map (fun i => b.getD i 0) := by
      apply List.ext_getElem (by simp [k2]); intro i h1 h2; simp [List.getD_eq_getElem?_getD, h1]
    have e : a = r.map (fun j => b.getD j 0) := by
      apply List.ext_getElem?
      intro i
      rw [List.getElem?_map]
      by_cases c : i < a.length
      · obtain ⟨j, e, hj⟩ := h2.get? c
        rw [e, Option.map_some, ← k3 i j e, List.getD_eq_getElem?_getD, List.getElem?_eq_getElem (by omega)]; rfl
      · rw [List.getElem?_eq_none (by omega), List.getElem?_eq_none (by rw [h2.length]; omega)]; rfl
    have : (r.map (fun j => b.getD j 0)).Perm ((List.range a.length).map (fun i => b.getD i 0)) := h2.map _
    rw [← e, ← hb] at this
    exact this.symm
  · rw [List.pairwise_iff_getElem]
    intro u v hu hv huv
    obtain ⟨i, hi, e1⟩ := h2.surj (show u < a.length by omega)
    obtain ⟨j, hj, e2⟩ := h2.surj (show v < a.length by omega)
    have a1 := k3 i u e1
    have a2 := k3 j v e2
    rw [List.getElem?_eq_getElem hu] at a1
    rw [List.getElem?_eq_getElem hv] at a2
    have := (h3 i j _ _ u v a1.symm a2.symm e1 e2).1 huv
    omega

/-! ### standardization by comparison -/

theorem rankLoop_spec (aux : List (α × Nat)) (k : Nat) (r : List Nat) (hnd : (aux.map (·.2)).Nodup) (hr : ∀ e ∈ aux, e.2 < r.length) :
    ∃ r', rankLoop aux k r = .ok r' ∧ r'.length = r.length ∧ (∀ i (h : i < aux.length), r'[aux[i].2]? = some (k + i)) ∧
      ∀ j, j ∉ aux.map (·.2) → r'[j]? = r[j]? := by
  induction aux generalizing k r with
  | nil => exact ⟨r, rfl, rfl, fun i h => by simp at h, fun _ _ => rfl⟩
  | cons e aux ih =>
    rw [List.map_cons, List.nodup_cons] at hnd
    have he := hr e (by simp)
    rw [rankLoop, Vec.put_ok he, Res.ok_bind]
    obtain ⟨r', h1, h2, h3, h4⟩ := ih (k + 1) (r.set e.2 k) hnd.2 (fun x hx => by simpa using hr x (by simp [hx]))
    refine ⟨r', h1, by simpa using h2, ?_, ?_⟩
    · intro i hi
      cases i with
      | zero =>
        show r'[e.2]? = _
        rw [h4 _ hnd.1, List.getElem?_set_self he]; rfl
      | succ i =>
        have := h3 i (by simpa using hi)
        rw [show k + (i + 1) = k + 1 + i by omega, ← this]; rfl
    · intro j hj
      rw [List.map_cons, List.mem_cons, not_or] at hj
      rw [h4 j hj.2, List.getElem?_set_ne (Ne.symm hj.1)]

/-- C26: `standardization` by a strict weak order `less` gives the permutation sorting stably: position `i` is sent
before `j` exactly when `l[i]` is less than `l[j]`, or it is not greater and `i<j`. -/
theorem C26_standardizeBy (less : α → α → Bool) (l : List α)
    (htot : ∀ x y, less x y = true → less y x = false)
    (htrans : ∀ x y z, less y x = false → less z y = false → less z x = false) :
    ∃ r, standardizeBy less l = .ok r ∧ IsPerm l.length r ∧
      ∀ (i j : Nat) (x y : α) (u v : Nat), l[i]? = some x → l[j]? = some y → r[i]? = some u → r[j]? = some v →
        (u < v ↔ (less x y = true ∨ (less y x = false ∧ i < j))) := by
  let le : α × Nat → α × Nat → Bool := fun x y => !less y.1 x.1
  have letrans : ∀ a b c : α × Nat, le a b = true → le b c = true → le a c = true := by
    intro a b c h1 h2
    simp only [le, Bool.not_eq_true'] at h1 h2 ⊢
    exact htrans _ _ _ h1 h2
  have letotal : ∀ a b : α × Nat, (le a b || le b a) = true := by
    intro a b
    simp only [le]
    cases c : less b.1 a.1
    · simp
    · rw [htot _ _ c]; simp
  let aux := l.zipIdx.mergeSort le
  have hperm : aux.Perm l.zipIdx := List.mergeSort_perm _ _
  have hsorted : aux.Pairwise (fun x y => le x y = true) := List.pairwise_mergeSort letrans letotal _
  have hsnd : (l.zipIdx.map (·.2)) = List.range l.length := by simp [List.zipIdx_map_snd, List.range_eq_range']
  have hq : IsPerm l.length (aux.map (·.2)) := by
    have := hperm.map (·.2)
    rw [hsnd] at this; exact this
  have hmem : ∀ e ∈ aux, l[e.2]? = some e.1 := by
    intro e he
    have := hperm.mem_iff.1 he
    exact List.mem_zipIdx_iff_getElem?.1 this
  obtain ⟨r, h1, h2, h3, _⟩ := rankLoop_spec aux 0 (List.replicate l.length 0) hq.nodup (fun e he => by
    have := hq.mem.1 (List.mem_map_of_mem (f := (·.2)) he)
    simpa using this)
  rw [List.length_replicate] at h2
  have hal : aux.length = l.length := by rw [hperm.length_eq]; simp
  have hr : ∀ i, i < l.length → ∃ (k : Nat) (hk : k < aux.length), aux[k].2 = i ∧ r[i]? = some k := by
    intro i hi
    obtain ⟨k, _, e⟩ := hq.surj hi
    obtain ⟨hk, e⟩ := List.getElem?_eq_some_iff.1 e
    rw [List.getElem_map] at e
    rw [List.length_map] at hk
    have := h3 k hk
    rw [e, Nat.zero_add] at this
    exact ⟨k, hk, e, this⟩
  have hrp : IsPerm l.length r := by
    refine isPerm_of? h2 ?_ ?_
    · intro i hi
      obtain ⟨k, hk, _, e⟩ := hr i hi
      exact ⟨k, e, by omega⟩
    · intro i j k e1 e2
      obtain ⟨k1, hk1, f1, g1⟩ := hr i (by rw [← h2]; exact (List.getElem?_eq_some_iff.1 e1).1)
      obtain ⟨k2, hk2, f2, g2⟩ := hr j (by rw [← h2]; exact (List.getElem?_eq_some_iff.1 e2).1)
      rw [g1] at e1; rw [g2] at e2
      cases e1; cases e2
      exact f1.symm.trans f2
  refine ⟨r, h1, hrp, ?_⟩
  -- the two ways positions compare
  have key : ∀ (i j : Nat) (x y : α) (u v : Nat), i < j → l[i]? = some x → l[j]? = some y → r[i]? = some u → r[j]? = some v →
      (u < v ↔ less y x = false) := by
    intro i j x y u v hij e1 e2 e3 e4
    obtain ⟨hi, _⟩ := List.getElem?_eq_some_iff.1 e1
    obtain ⟨hj, _⟩ := List.getElem?_eq_some_iff.1 e2
    obtain ⟨k1, hk1, f1, g1⟩ := hr i hi
    obtain ⟨k2, hk2, f2, g2⟩ := hr j hj
    rw [g1] at e3; rw [g2] at e4
    cases e3; cases e4
    have p1 : aux[u] = (x, i) := by
      have := hmem _ (List.getElem_mem hk1)
      rw [f1, e1] at this
      exact Prod.ext (Option.some.inj this).symm f1
    have p2 : aux[v] = (y, j) := by
      have := hmem _ (List.getElem_mem hk2)
      rw [f2, e2] at this
      exact Prod.ext (Option.some.inj this).symm f2
    constructor
    · intro huv
      have := List.pairwise_iff_getElem.1 hsorted u v hk1 hk2 huv
      rw [p1, p2] at this
      simpa [le] using this
    · intro hle
      have hsub : [(x, i), (y, j)].Sublist l.zipIdx := by
        have hz : (x, i) ∈ l.zipIdx.take j := by
          rw [List.mem_take_iff_getElem]
          exact ⟨i, by simp; omega, by simp [← Option.some.inj ((List.getElem?_eq_getElem hi).symm.trans e1)]⟩
        have hz2 : (y, j) ∈ l.zipIdx.drop j := by
          rw [List.mem_drop_iff_getElem]
          exact ⟨0, by simp; omega, by simp [← Option.some.inj ((List.getElem?_eq_getElem hj).symm.trans e2)]⟩
        rw [← List.take_append_drop j l.zipIdx]
        exact List.Sublist.append (List.singleton_sublist.2 hz) (List.singleton_sublist.2 hz2)
      have hs2 : [(x, i), (y, j)].Sublist aux := List.pair_sublist_mergeSort letrans letotal (by simp [le, hle]) hsub
      rw [List.sublist_iff_exists_fin_orderEmbedding_get_eq] at hs2
      obtain ⟨f, hf⟩ := hs2
      have q1 := hf ⟨0, by simp⟩
      have q2 := hf ⟨1, by simp⟩
      have hlt : (f ⟨0, by simp⟩).val < (f ⟨1, by simp⟩).val := by
        apply Fin.lt_def.1
        rw [f.lt_iff_lt]
        exact Fin.lt_def.2 (by simp)
      simp only [List.get_eq_getElem] at q1 q2
      have r1 : r[i]? = some (f ⟨0, by simp⟩).val := by
        have := h3 _ (f ⟨0, by simp⟩).2
        rw [← q1, Nat.zero_add] at this
        simpa using this
      have r2 : r[j]? = some (f ⟨1, by simp⟩).val := by
        have := h3 _ (f ⟨1, by simp⟩).2
        rw [← q2, Nat.zero_add] at this
        simpa using this
      rw [g1] at r1; rw [g2] at r2
      have := Option.some.inj r1
      have := Option.some.inj r2
      omega
  intro i j x y u v e1 e2 e3 e4
  rcases Nat.lt_trichotomy i j with h | h | h
  · rw [key i j x y u v h e1 e2 e3 e4]
    constructor
    · intro hh; exact .inr ⟨hh, h⟩
    · rintro (hh | hh)
      · exact htot _ _ hh
      · exact hh.1
  · subst h
    rw [e1] at e2; rw [e3] at e4
    cases e2; cases e4
    constructor
    · intro hh; omega
    · rintro (hh | hh)
      · have := htot _ _ hh; rw [hh] at this; cases this
      · omega
  · have := key j i y x v u h e2 e1 e4 e3
    have hne : u ≠ v := by
      rintro rfl
      have := hrp.inj? e3 e4; omega
    constructor
    · intro hh
      cases c : less x y
      · have := this.2 c; omega
      · exact .inl rfl
    · rintro (hh | hh)
      · by_contra c
        have h5 := this.1 (by omega)
        rw [hh] at h5; cases h5
      · omega

-- a strict weak order that is not total: comparing the last decimal digit
example : ∃ r, standardizeBy (fun x y : Nat => decide (x % 10 < y % 10)) [13, 2, 23, 1] = .ok r ∧ IsPerm 4 r :=
  let ⟨r, h1, h2, _⟩ := C26_standardizeBy (fun x y : Nat => decide (x % 10 < y % 10)) [13, 2, 23, 1]
    (fun x y h => by simp at h ⊢; omega) (fun x y z h1 h2 => by simp at h1 h2 ⊢; omega)
  ⟨r, h1, h2⟩

/-! ### bit sets -/

open Verif.BitSet

theorem pullBitsLoop_spec (nd : Bool) (h : IsPerm n p) (hn : n ≤ 32) {v : B1} {S : Finset Nat} (hv : Rep1 v S) (m i : Nat)
    (r : B1) (hm : i + m = n)
    (hr : Rep1 r ((Finset.range i).filter (fun x => ∃ y ∈ S, p[x]? = some y))) :
    ∃ r', pullBitsLoop nd p v m i r = .ok r' ∧ Rep1 r' ((Finset.range n).filter (fun x => ∃ y ∈ S, p[x]? = some y)) := by
  induction m generalizing i r with
  | zero =>
    obtain rfl : i = n := by omega
    exact ⟨r, rfl, hr⟩
  | succ m ih =>
    obtain ⟨k, e, hk⟩ := h.get? (show i < n by omega)
    rw [pullBitsLoop, Vec.get_of e, Res.ok_bind, C22_one_test nd hv (by omega), Res.ok_bind]
    obtain ⟨r', h1, h2⟩ := setTo_spec1 hr (show i < 32 by omega) (decide (k ∈ S))
    rw [h1, Res.ok_bind]
    refine ih (i + 1) r' (by omega) ?_
    convert h2 using 1
    ext x
    by_cases c : k ∈ S
    · simp only [c, decide_true, if_true, Finset.mem_insert, Finset.mem_filter, Finset.mem_range]
      constructor
      · rintro ⟨a1, a2⟩
        by_cases ex : x = i
        · exact .inl ex
        · exact .inr ⟨by omega, a2⟩
      · rintro (rfl | ⟨a1, a2⟩)
        · exact ⟨by omega, k, c, e⟩
        · exact ⟨by omega, a2⟩
    · simp only [c, decide_false, Bool.false_eq_true, if_false, Finset.mem_erase, Finset.mem_filter, Finset.mem_range]
      constructor
      · rintro ⟨a1, y, a2, a3⟩
        have ex : x ≠ i := by
          rintro rfl
          rw [e] at a3; cases a3; exact c a2
        exact ⟨ex, by omega, y, a2, a3⟩
      · rintro ⟨ex, a1, a2⟩
        exact ⟨by omega, a2⟩

/-- C26: `pull_back` of a bit set: the `i` with `p[i]` in the set. -/
theorem C26_pullBits (nd : Bool) (h : IsPerm n p) (hn : n ≤ 32) {v : B1} {S : Finset Nat} (hv : Rep1 v S) :
    ∃ r, pullBits nd p v = .ok r ∧ Rep1 r ((Finset.range n).filter (fun x => ∃ y ∈ S, p[x]? = some y)) := by
  rw [pullBits, Res.assertIn_bind nd (by simpa [h.length] using hn), h.length]
  exact pullBitsLoop_spec nd h hn hv n 0 ⟨0⟩ (by omega) (by simpa using rep1_zero)

theorem permuteBitsLoop_spec (nd : Bool) (h : IsPerm n p) (hn : n ≤ 32) {v : B1} {S : Finset Nat} (hv : Rep1 v S) (m i : Nat)
    (r : B1) (hm : i + m = n)
    (hr : Rep1 r ((Finset.range n).filter (fun y => ∃ x ∈ S, x < i ∧ p[x]? = some y))) :
    ∃ r', permuteBitsLoop nd p v m i r = .ok r' ∧ Rep1 r' ((Finset.range n).filter (fun y => ∃ x ∈ S, x < n ∧ p[x]? = some y)) := by
  induction m generalizing i r with
  | zero =>
    obtain rfl : i = n := by omega
    exact ⟨r, rfl, hr⟩
  | succ m ih =>
    obtain ⟨k, e, hk⟩ := h.get? (show i < n by omega)
    rw [permuteBitsLoop, C22_one_test nd hv (by omega), Res.ok_bind, Vec.get_of e, Res.ok_bind]
    obtain ⟨r', h1, h2⟩ := setTo_spec1 hr (show k < 32 by omega) (decide (i ∈ S))
    rw [h1, Res.ok_bind]
    refine ih (i + 1) r' (by omega) ?_
    convert h2 using 1
    ext y
    by_cases c : i ∈ S
    · simp only [c, decide_true, if_true, Finset.mem_insert, Finset.mem_filter, Finset.mem_range]
      constructor
      · rintro ⟨a1, x, a2, a3, a4⟩
        by_cases ex : x = i
        · subst ex; rw [e] at a4; exact .inl (Option.some.inj a4).symm
        · exact .inr ⟨a1, x, a2, by omega, a4⟩
      · rintro (rfl | ⟨a1, x, a2, a3, a4⟩)
        · exact ⟨hk, i, c, by omega, e⟩
        · exact ⟨a1, x, a2, by omega, a4⟩
    · simp only [c, decide_false, Bool.false_eq_true, if_false, Finset.mem_erase, Finset.mem_filter, Finset.mem_range]
      constructor
      · rintro ⟨a1, x, a2, a3, a4⟩
        have ex : x ≠ i := by rintro rfl; exact c a2
        refine ⟨?_, a1, x, a2, by omega, a4⟩
        rintro rfl
        exact ex (h.inj? a4 e)
      · rintro ⟨ex, a1, x, a2, a3, a4⟩
        exact ⟨a1, x, a2, by omega, a4⟩

/-- C26: `permute_bits`: the image of (the part below the degree of) the set. -/
theorem C26_permuteBits (nd : Bool) (h : IsPerm n p) (hn : n ≤ 32) {v : B1} {S : Finset Nat} (hv : Rep1 v S) :
    ∃ r, permuteBits nd p v = .ok r ∧ Rep1 r ((Finset.range n).filter (fun y => ∃ x ∈ S, x < n ∧ p[x]? = some y)) := by
  rw [permuteBits, Res.assertIn_bind nd (by simpa [h.length] using hn), h.length]
  exact permuteBitsLoop_spec nd h hn hv n 0 ⟨0⟩ (by omega) (by simpa using rep1_zero)

example : pullBits false [2, 0, 3, 1] ⟨0b0101⟩ = .ok ⟨0b0011⟩ := by decide
example : permuteBits false [2, 0, 3, 1] ⟨0b0011⟩ = .ok ⟨0b0101⟩ := by decide

end Verif.Perm
