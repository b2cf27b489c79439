import Verif.BigInt.BitLemmas
/-
Helper lemmas for the bitwise operations: AND.
-/
namespace Verif.BigInt

theorem ge_iff_testBit {x : Nat} (h : x < 𝐁) : 𝐇 ≤ x ↔ x.testBit 31 = true := by
  rw [Nat.testBit_eq_decide_div_mod_eq, decide_eq_true_eq]; omega

theorem and_lt_B {a : Nat} (b : Nat) (ha : a < 𝐁) : a &&& b < 𝐁 :=
  lt_of_le_of_lt Nat.and_le_left ha

theorem and_ge {a b : Nat} (ha : a < 𝐁) (hb : b < 𝐁) : 𝐇 ≤ a &&& b ↔ 𝐇 ≤ a ∧ 𝐇 ≤ b := by
  rw [ge_iff_testBit (and_lt_B b ha), ge_iff_testBit ha, ge_iff_testBit hb, Nat.testBit_and]; simp

theorem and_ones {a : Nat} (ha : a < 𝐁) : a &&& (𝐁 - 1) = a := by
  have := Nat.and_two_pow_sub_one_eq_mod a 32
  norm_num at this ⊢; rw [this]; omega

theorem ones_and {a : Nat} (ha : a < 𝐁) : (𝐁 - 1) &&& a = a := by rw [Nat.and_comm, and_ones ha]

theorem zipLow_length (f : Nat → Nat → Nat) : ∀ d x : Digits, (zipLow f d x).length = d.length
  | [], x => by cases x <;> rfl
  | a :: d, [] => rfl
  | a :: d, b :: x => by simp [zipLow, zipLow_length f d x]

theorem zipLow_getD (f : Nat → Nat → Nat) : ∀ (d x : Digits) (i : Nat), i < d.length →
    (zipLow f d x).getD i 0 = if i < x.length then f (d.getD i 0) (x.getD i 0) else d.getD i 0
  | [], x, i, h => by simp at h
  | a :: d, [], i, h => by simp [zipLow]
  | a :: d, b :: x, 0, h => by simp [zipLow]
  | a :: d, b :: x, i + 1, h => by
    have := zipLow_getD f d x i (by simpa using h)
    simp only [zipLow, List.getD_cons_succ, this, List.length_cons, Nat.add_lt_add_iff_right]

/-- digits of the combination where the right operand may be longer -/
theorem zipApp_getD (f g : Nat → Nat → Nat) {d x t : Digits} (hl : d.length + t.length = x.length)
    (hd : ∀ i < d.length, f (d.getD i 0) (x.getD i 0) = g (digAt d i) (digAt x i))
    (ht : ∀ i, d.length ≤ i → i < x.length → t.getD (i - d.length) 0 = g (digAt d i) (digAt x i))
    (i : Nat) (hi : i < (zipLow f d x ++ t).length) :
    (zipLow f d x ++ t).getD i 0 = g (digAt d i) (digAt x i) := by
  rw [List.length_append, zipLow_length] at hi
  by_cases h : i < d.length
  · rw [List.getD_append _ _ _ _ (by rwa [zipLow_length]), zipLow_getD _ _ _ _ h,
      if_pos (by omega), hd i h]
  · rw [List.getD_append_right _ _ _ _ (by rw [zipLow_length]; omega), zipLow_length]
    exact ht i (by omega) (by omega)

/-- well-formedness and canonical form from the digits -/
theorem norm_of_digits {r : Digits} {n : Nat} {F : Nat → Nat} (hn : r.length = n + 1)
    (hF : ∀ i, F i < 𝐁) (hd : ∀ i, digAt r i = F i)
    (h : ∀ m, n = m + 1 → ¬ (F n = 0 ∧ F m < 𝐇) ∧ ¬ (F n = 𝐁 - 1 ∧ 𝐇 ≤ F m)) : Norm r := by
  have hw : WF r := by
    refine ⟨by intro h; simp [h] at hn, fun x hx => ?_⟩
    obtain ⟨i, hi, rfl⟩ := List.getElem_of_mem hx
    have := hd i
    rw [digAt_of_lt hi, List.getD_eq_getElem?_getD, List.getElem?_eq_getElem hi] at this
    simp only [Option.getD_some] at this
    rw [this]; exact hF i
  cases n with
  | zero => exact norm_of_len1 (by omega) hw
  | succ m =>
    rw [norm_iff_dig (n := m) hn hw, hd, hd]
    exact h m rfl

/-- canonical form from digits and extension, all in one -/
theorem digits_norm {r : Digits} {n : Nat} {F : Nat → Nat} {e : Nat} (hn : r.length = n + 1)
    (hF : ∀ i, F i < 𝐁) (h1 : ∀ i < r.length, r.getD i 0 = F i)
    (h2 : ∀ i, n + 1 ≤ i → F i = e)
    (h3 : e = 0 ∧ F n < 𝐇 ∨ e = 𝐁 - 1 ∧ 𝐇 ≤ F n)
    (h : ∀ m, n = m + 1 → ¬ (F n = 0 ∧ F m < 𝐇) ∧ ¬ (F n = 𝐁 - 1 ∧ 𝐇 ≤ F m)) :
    Norm r ∧ ∀ i, digAt r i = F i := by
  have hd := digAt_of (r := r) (F := F) (e := e) (by intro h; simp [h] at hn) h1
    (by rw [hn]; exact h2) (by rw [hn]; exact h3)
  exact ⟨norm_of_digits hn hF hd h, hd⟩

theorem norm_top {d : Digits} {n m : Nat} (h : Norm d) (hn : d.length = n + 1) (hm : n = m + 1) :
    ¬ (digAt d n = 0 ∧ digAt d m < 𝐇) ∧ ¬ (digAt d n = 𝐁 - 1 ∧ 𝐇 ≤ digAt d m) := by
  subst hm
  exact (norm_iff_dig hn h.wf).1 h

theorem digAt_neg {d : Digits} (h : WF d) (hs : isNegative d = true) {i : Nat} (hi : d.length - 1 ≤ i) :
    𝐇 ≤ digAt d i := (digAt_sign h.1 hi).1 hs
theorem digAt_pos {d : Digits} (h : WF d) (hs : isNegative d = false) {i : Nat} (hi : d.length - 1 ≤ i) :
    digAt d i < 𝐇 := by
  have := digAt_sign h.1 hi
  rw [hs] at this; simp at this; exact this
theorem digAt_neg' {d : Digits} (hs : isNegative d = true) {i : Nat} (hi : d.length ≤ i) :
    digAt d i = 𝐁 - 1 := by rw [digAt_of_ge hi, ext, if_pos hs]
theorem digAt_pos' {d : Digits} (hs : isNegative d = false) {i : Nat} (hi : d.length ≤ i) :
    digAt d i = 0 := by rw [digAt_of_ge hi, ext, if_neg (by simp [hs])]

/-! ### the trimming loop -/

theorem trimRev_zero : ∀ {L : Digits}, L ≠ [] →
    trimRev (· == 0) (fun t => decide (t < 𝐇)) (some 0) L = some (shrinkPosRev (0 :: L))
  | [], h => absurd rfl h
  | [t], _ => by
    by_cases h : t < 𝐇 <;> simp [trimRev, shrinkPosRev, h]
  | t :: s :: l, _ => by
    have ih := trimRev_zero (L := s :: l) (by simp)
    by_cases h : t = 0
    · subst h
      rw [trimRev, if_pos (by simp), ih]
      conv_rhs => rw [shrinkPosRev, if_pos (by simp)]
    · rw [trimRev, if_neg (by simp [h])]
      by_cases h2 : t < 𝐇
      · rw [if_pos (by simp [h2]), shrinkPosRev, if_pos ⟨rfl, h2⟩, shrinkPosRev, if_neg (by tauto)]
      · rw [if_neg (by simp [h2]), shrinkPosRev, if_neg (by tauto)]

theorem trimRev_top {a : Option Nat} {t : Nat} {r : Digits} (ht : t < 𝐇) :
    trimRev (· == 0) (fun t => decide (t < 𝐇)) a (t :: r) = some (shrinkPosRev (t :: r)) := by
  rw [trimRev.eq_def]
  simp only []
  by_cases h : t = 0 ∧ r ≠ []
  · rw [if_pos (by simp [h]), h.1, trimRev_zero h.2]
  · rw [if_neg (by simp; tauto), if_pos (by simpa using ht)]
    cases r with
    | nil => rfl
    | cons s l => rw [shrinkPosRev, if_neg (by simp at h; tauto)]

theorem reverse_back {l : Digits} (h : l ≠ []) : ∃ r, l.reverse = back l :: r := by
  match hl : l.reverse with
  | [] => simp at hl; exact absurd hl h
  | t :: r =>
    have : l = r.reverse ++ [t] := by rw [← List.reverse_reverse l, hl]; simp
    refine ⟨r, ?_⟩
    rw [this]; simp [back]

theorem trimCombine_spec {f : Nat → Nat → Nat} {d x : Digits} {n : Nat} {F : Nat → Nat}
    (hF : ∀ i, F i < 𝐁) (hd : n + 1 ≤ d.length) (hx : n + 1 ≤ x.length)
    (h1 : ∀ i < n + 1, f (d.getD i 0) (x.getD i 0) = F i)
    (h2 : ∀ i, n + 1 ≤ i → F i = 0) (h3 : F n < 𝐇) :
    ∃ r, trimCombine f (· == 0) (fun t => decide (t < 𝐇)) d x (n + 1) = some r ∧
      Norm r ∧ ∀ i, digAt r i = F i := by
  obtain ⟨z, hz⟩ : ∃ z, z = List.zipWith f (d.take (n + 1)) (x.take (n + 1)) := ⟨_, rfl⟩
  have hl : z.length = n + 1 := by rw [hz]; simp; omega
  have hne : z ≠ [] := by intro h; simp [h] at hl
  have hg : ∀ i < z.length, z.getD i 0 = F i := by
    intro i hi
    rw [hl] at hi
    rw [← h1 i hi, hz]
    simp [List.getD_eq_getElem?_getD, List.getElem?_zipWith, hi,
      List.getElem?_eq_getElem (show i < d.length by omega),
      List.getElem?_eq_getElem (show i < x.length by omega)]
  have hb : back z = F n := by rw [back_eq_getD, hg _ (by omega), hl]; rfl
  obtain ⟨r, hr⟩ := reverse_back hne
  have hw : WF z := by
    refine ⟨hne, fun y hy => ?_⟩
    obtain ⟨i, hi, rfl⟩ := List.getElem_of_mem hy
    have := hg i hi
    rw [List.getD_eq_getElem?_getD, List.getElem?_eq_getElem hi] at this
    simp only [Option.getD_some] at this
    rw [this]; exact hF i
  have hdig := digAt_of (r := z) (F := F) (e := 0) hne hg (by rw [hl]; exact h2)
    (Or.inl ⟨rfl, by rw [hl]; exact h3⟩)
  have sp := shrink_spec hw
  have e : shrink z = shrinkPos z := by
    unfold shrink isNegative; rw [hb, if_neg (by simp; omega)]
  rw [e] at sp
  refine ⟨shrinkPos z, ?_, sp.1, fun i => ?_⟩
  · unfold trimCombine
    rw [← hz, hr, trimRev_top (by rw [hb]; exact h3), ← hr]; rfl
  · rw [digAt_congr sp.1.wf hw sp.2, hdig]

/-! ### AND -/

theorem andAssign_digits {d x : Digits} (hd : Norm d) (hx : Norm x) :
    ∃ r, andAssign d x = some r ∧ Norm r ∧ ∀ i, digAt r i = digAt d i &&& digAt x i := by
  have wd := hd.wf; have wx := hx.wf
  obtain ⟨nd, hnd⟩ : ∃ n, d.length = n + 1 := ⟨d.length - 1, by
    have : d.length ≠ 0 := by simpa using wd.1
    omega⟩
  obtain ⟨nx, hnx⟩ : ∃ n, x.length = n + 1 := ⟨x.length - 1, by
    have : x.length ≠ 0 := by simpa using wx.1
    omega⟩
  have hF : ∀ i, digAt d i &&& digAt x i < 𝐁 := fun i => and_lt_B _ (digAt_lt wd i)
  -- the two shapes of untrimmed result
  have shapeLong : x.length ≤ d.length → (∀ i, x.length ≤ i → digAt x i = 𝐁 - 1) →
      ∀ i < (zipLow (· &&& ·) d x).length, (zipLow (· &&& ·) d x).getD i 0 = digAt d i &&& digAt x i := by
    intro hle hxn i hi
    rw [zipLow_length] at hi
    rw [zipLow_getD _ _ _ _ hi, digAt_of_lt hi]
    by_cases h : i < x.length
    · rw [if_pos h, digAt_of_lt h]
    · rw [if_neg h, hxn i (by omega), and_ones]
      rw [← digAt_of_lt hi]; exact digAt_lt wd i
  have shapeShort : d.length < x.length → (∀ i, d.length ≤ i → digAt d i = 𝐁 - 1) →
      ∀ i < (zipLow (· &&& ·) d x ++ x.drop d.length).length,
        (zipLow (· &&& ·) d x ++ x.drop d.length).getD i 0 = digAt d i &&& digAt x i := by
    intro hlt hdn
    refine zipApp_getD (· &&& ·) (· &&& ·) (d := d) (x := x) (t := x.drop d.length)
      (by rw [List.length_drop]; omega) ?_ ?_
    · intro i hi
      rw [digAt_of_lt hi, digAt_of_lt (by omega)]
    · intro i h1 h2
      rw [hdn i h1, digAt_of_lt h2, List.getD_eq_getElem?_getD, List.getElem?_drop,
        show d.length + (i - d.length) = i by omega, ← List.getD_eq_getElem?_getD]
      show _ = (𝐁 - 1) &&& _
      rw [ones_and]
      rw [← digAt_of_lt h2]; exact digAt_lt wx i
  have hand : ∀ i, 𝐇 ≤ digAt d i &&& digAt x i ↔ 𝐇 ≤ digAt d i ∧ 𝐇 ≤ digAt x i :=
    fun i => and_ge (digAt_lt wd i) (digAt_lt wx i)
  have hal : ∀ i, digAt d i &&& digAt x i ≤ digAt d i := fun i => Nat.and_le_left
  have har : ∀ i, digAt d i &&& digAt x i ≤ digAt x i := fun i => Nat.and_le_right
  unfold andAssign
  rcases hsd : isNegative d with _ | _ <;> rcases hsx : isNegative x with _ | _
  · -- both nonnegative
    simp only [Bool.and_self, Bool.false_eq_true, if_false, bne_self_eq_false, Bool.false_and]
    rw [show min d.length x.length = min nd nx + 1 by omega]
    apply trimCombine_spec hF (by omega) (by omega)
    · intro i hi; rw [digAt_of_lt (by omega), digAt_of_lt (by omega)]
    · intro i hi
      by_cases h : d.length ≤ i
      · rw [digAt_pos' hsd h]; simp
      · rw [digAt_pos' hsx (i := i) (by omega)]; simp
    · by_cases h : nd ≤ nx
      · exact lt_of_le_of_lt (hal _) (digAt_pos wd hsd (by omega))
      · exact lt_of_le_of_lt (har _) (digAt_pos wx hsx (by omega))
  · -- d nonneg, x negative
    by_cases h : x.length < d.length
    · simp only [Bool.false_and, Bool.false_eq_true, if_false, h, decide_true]
      refine ⟨_, by rfl, digits_norm (n := nd) (by rw [zipLow_length]; exact hnd) hF
        (shapeLong (by omega) (fun i hi => digAt_neg' hsx hi)) (e := 0) ?_ (Or.inl ⟨rfl, ?_⟩) ?_⟩
      · intro i hi; rw [digAt_pos' hsd (by omega)]; simp
      · exact lt_of_le_of_lt (hal _) (digAt_pos wd hsd (by omega))
      · intro m hm
        have t := norm_top hd hnd hm
        have e1 := digAt_neg wx hsx (i := m) (by omega)
        have e2 := digAt_neg' hsx (i := nd) (by omega)
        have e3 := digAt_pos wd hsd (i := nd) (by omega)
        have e4 := hand m
        rw [e2, and_ones (digAt_lt wd _)]
        omega
    · simp only [Bool.false_and, Bool.false_eq_true, if_false, h, decide_false, if_true,
        Bool.and_false]
      rw [hnd]
      apply trimCombine_spec hF (by omega) (by omega)
      · intro i hi; rw [digAt_of_lt (by omega), digAt_of_lt (by omega)]
      · intro i hi; rw [digAt_pos' hsd (by omega)]; simp
      · exact lt_of_le_of_lt (hal _) (digAt_pos wd hsd (by omega))
  · by_cases h : d.length < x.length
    · simp only [Bool.and_false, Bool.false_eq_true, if_false, h, decide_true, if_true, Bool.and_true]
      refine ⟨_, by rfl, digits_norm (n := nx) (by simp [zipLow_length]; omega) hF
        (shapeShort (by omega) (fun i hi => digAt_neg' hsd hi)) (e := 0) ?_ (Or.inl ⟨rfl, ?_⟩) ?_⟩
      · intro i hi; rw [digAt_pos' hsx (by omega)]; simp
      · exact lt_of_le_of_lt (har _) (digAt_pos wx hsx (by omega))
      · intro m hm
        have t := norm_top hx hnx hm
        have e1 := digAt_neg wd hsd (i := m) (by omega)
        have e2 := digAt_neg' hsd (i := nx) (by omega)
        have e3 := digAt_pos wx hsx (i := nx) (by omega)
        have e4 := hand m
        rw [e2, ones_and (digAt_lt wx _)]
        omega
    · simp only [Bool.and_false, Bool.false_eq_true, if_false, h, decide_false, if_true]
      rw [hnx]
      apply trimCombine_spec hF (by omega) (by omega)
      · intro i hi; rw [digAt_of_lt (by omega), digAt_of_lt (by omega)]
      · intro i hi; rw [digAt_pos' hsx (by omega)]; simp
      · exact lt_of_le_of_lt (har _) (digAt_pos wx hsx (by omega))
  · -- both negative
    simp only [Bool.and_self, if_true]
    have hend : ∀ n, max nd nx = n → Norm d → ∀ m, n = m + 1 →
        ¬ (digAt d n &&& digAt x n = 0 ∧ digAt d m &&& digAt x m < 𝐇) ∧
        ¬ (digAt d n &&& digAt x n = 𝐁 - 1 ∧ 𝐇 ≤ digAt d m &&& digAt x m) := by
      intro n hn _ m hm
      have e1 := digAt_neg wd hsd (i := n) (by omega)
      have e2 := digAt_neg wx hsx (i := n) (by omega)
      have e3 := hand n
      have e4 := hand m
      have e5 := hal n
      have e6 := har n
      have e7 := digAt_lt wd n
      have e8 := digAt_lt wx n
      by_cases c : nd = n
      · have t := norm_top hd (by omega) hm
        omega
      · have t := norm_top hx (by omega) hm
        omega
    by_cases h : d.length < x.length
    · rw [if_pos h]
      refine ⟨_, rfl, digits_norm (n := nx) (by simp [zipLow_length]; omega) hF
        (shapeShort (by omega) (fun i hi => digAt_neg' hsd hi)) (e := 𝐁 - 1) ?_ (Or.inr ⟨rfl, ?_⟩)
        (hend _ (by omega) hd)⟩
      · intro i hi; rw [digAt_neg' hsd (by omega), digAt_neg' hsx (by omega)]; simp
      · rw [hand]; exact ⟨digAt_neg wd hsd (by omega), digAt_neg wx hsx (by omega)⟩
    · rw [if_neg h]
      refine ⟨_, rfl, digits_norm (n := nd) (by rw [zipLow_length]; exact hnd) hF
        (shapeLong (by omega) (fun i hi => digAt_neg' hsx hi)) (e := 𝐁 - 1) ?_ (Or.inr ⟨rfl, ?_⟩)
        (hend _ (by omega) hd)⟩
      · intro i hi; rw [digAt_neg' hsd (by omega), digAt_neg' hsx (by omega)]; simp
      · rw [hand]; exact ⟨digAt_neg wd hsd (by omega), digAt_neg wx hsx (by omega)⟩

end Verif.BigInt
