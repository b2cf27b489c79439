import Verif.BigInt.BitLemmas2
/-
Helper lemmas for the bitwise operations: OR, subtraction, XOR, subset.
-/
namespace Verif.BigInt

/-! ### complement -/

theorem dnot_ge {a : Nat} : 𝐇 ≤ dnot a ↔ a < 𝐇 := by unfold dnot; omega

theorem testBit_dnot {a : Nat} (h : a < 𝐁) (k : Nat) :
    (dnot a).testBit k = (decide (k < 32) && !a.testBit k) := by
  have := Nat.testBit_two_pow_sub_succ (n := 32) (x := a) (by norm_num; exact h) k
  rw [← this]; unfold dnot; norm_num
  rw [show 4294967295 - a = 4294967296 - (a + 1) by omega]

theorem testBit_high {a : Nat} (h : a < 𝐁) {k : Nat} (hk : 32 ≤ k) : a.testBit k = false := by
  apply Nat.testBit_lt_two_pow
  exact lt_of_lt_of_le h (by
    have : 2 ^ 32 ≤ 2 ^ k := Nat.pow_le_pow_right (by norm_num) hk
    norm_num at this; exact this)

theorem dnot_and {a b : Nat} (ha : a < 𝐁) (hb : b < 𝐁) : dnot (dnot a &&& dnot b) = a ||| b := by
  apply Nat.eq_of_testBit_eq
  intro k
  rw [testBit_dnot (and_lt_B _ (dnot_lt _)), Nat.testBit_and, testBit_dnot ha, testBit_dnot hb,
    Nat.testBit_or]
  by_cases hk : k < 32
  · simp [hk]
  · rw [testBit_high ha (by omega), testBit_high hb (by omega)]; simp [hk]

theorem isNegative_cmap {d : Digits} (h : WF d) : isNegative (cmap d) = !isNegative d := by
  have h1 := isNegative_iff h
  have h2 := isNegative_iff (cmap_wf h)
  rw [cmap_sval h] at h2
  rcases hn : isNegative d with _ | _ <;> rcases hm : isNegative (cmap d) with _ | _ <;>
    simp [hn, hm] at h1 h2 ⊢ <;> omega

theorem cmap_getElem? (d : Digits) (i : Nat) : (cmap d)[i]? = d[i]?.map dnot := by simp [cmap]

theorem digAt_cmap {d : Digits} (h : WF d) (i : Nat) : digAt (cmap d) i = dnot (digAt d i) := by
  have : d.length = (cmap d).length := by simp
  by_cases hi : i < d.length
  · rw [digAt_of_lt (by simpa using hi), digAt_of_lt hi]
    simp [List.getD_eq_getElem?_getD, cmap_getElem?, List.getElem?_eq_getElem hi]
  · rw [digAt_of_ge (by simp; omega), digAt_of_ge (by omega)]
    unfold ext; rw [isNegative_cmap h]
    cases isNegative d <;> simp [dnot]

/-! ### OR -/

theorem zipLow_dual : ∀ {d x : Digits}, (∀ y ∈ d, y < 𝐁) → (∀ y ∈ x, y < 𝐁) →
    zipLow (· ||| ·) d x = cmap (zipLow (· &&& ·) (cmap d) (cmap x))
  | [], x, _, _ => by cases x <;> simp [zipLow]
  | a :: d, [], h, _ => by
    have : cmap (cmap (a :: d)) = a :: d := cmap_cmap h
    simpa [zipLow] using this.symm
  | a :: d, b :: x, h1, h2 => by
    have ih := zipLow_dual (d := d) (x := x) (fun y hy => h1 y (by simp [hy])) (fun y hy => h2 y (by simp [hy]))
    simp only [zipLow, cmap_cons, ih]
    rw [dnot_and (h1 a (by simp)) (h2 b (by simp))]

theorem zipWith_dual : ∀ {d x : Digits}, (∀ y ∈ d, y < 𝐁) → (∀ y ∈ x, y < 𝐁) →
    List.zipWith (· ||| ·) d x = cmap (List.zipWith (· &&& ·) (cmap d) (cmap x))
  | [], x, _, _ => by simp
  | a :: d, [], h, _ => by simp
  | a :: d, b :: x, h1, h2 => by
    have ih := zipWith_dual (d := d) (x := x) (fun y hy => h1 y (by simp [hy])) (fun y hy => h2 y (by simp [hy]))
    simp only [List.zipWith_cons_cons, cmap_cons, ih]
    rw [dnot_and (h1 a (by simp)) (h2 b (by simp))]

theorem trimRev_dual : ∀ {L : Digits} (a : Option Nat), (∀ y ∈ L, y < 𝐁) →
    trimRev (· == 𝐁 - 1) (fun t => decide (𝐇 ≤ t)) (a.map dnot) (cmap L) =
      (trimRev (· == 0) (fun t => decide (t < 𝐇)) a L).map cmap
  | [], a, _ => by cases a <;> simp [trimRev]
  | t :: L, a, h => by
    have ht := h t (by simp)
    have ih := trimRev_dual (L := L) (some t) (fun y hy => h y (by simp [hy]))
    have e1 : (dnot t == 𝐁 - 1) = (t == 0) := by
      rw [Bool.eq_iff_iff]; simp [dnot]; omega
    have e2 : (cmap L != []) = (L != []) := by cases L <;> rfl
    have e3 : decide (𝐇 ≤ dnot t) = decide (t < 𝐇) := by
      simp only [dnot_ge]
    rw [cmap_cons, trimRev.eq_def, trimRev.eq_def _ _ a]
    simp only [e1, e2, e3]
    split
    · exact ih
    · split
      · simp
      · cases a <;> simp

theorem trimCombine_dual {d x : Digits} {i : Nat} (hd : ∀ y ∈ d, y < 𝐁) (hx : ∀ y ∈ x, y < 𝐁) :
    trimCombine (· ||| ·) (· == 𝐁 - 1) (fun t => decide (𝐇 ≤ t)) d x i =
      (trimCombine (· &&& ·) (· == 0) (fun t => decide (t < 𝐇)) (cmap d) (cmap x) i).map cmap := by
  unfold trimCombine
  have h1 : ∀ y ∈ d.take i, y < 𝐁 := fun y hy => hd y (List.mem_of_mem_take hy)
  have h2 : ∀ y ∈ x.take i, y < 𝐁 := fun y hy => hx y (List.mem_of_mem_take hy)
  have e0 : d[i]? = ((cmap d)[i]?).map dnot := by
    rw [cmap_getElem?, Option.map_map]
    rcases h : d[i]? with _ | t
    · rfl
    · simp only [Option.map_some, Function.comp]
      rw [dnot_dnot (hd t (List.mem_of_getElem? h))]
  have e1 : (cmap d).take i = cmap (d.take i) := by simp [cmap, List.map_take]
  have e2 : (cmap x).take i = cmap (x.take i) := by simp [cmap, List.map_take]
  rw [e0, e1, e2, zipWith_dual h1 h2, ← cmap_reverse, trimRev_dual]
  · rw [Option.map_map, Option.map_map]
    congr 1
    funext l; simp [cmap]
  · intro y hy
    simp only [List.mem_reverse] at hy
    obtain ⟨j, hj, rfl⟩ := List.getElem_of_mem hy
    rw [List.getElem_zipWith]
    apply and_lt_B
    simp only [cmap, List.getElem_map]
    exact dnot_lt _

theorem orAssign_dual {d x : Digits} (hd : WF d) (hx : WF x) :
    orAssign d x = (andAssign (cmap d) (cmap x)).map cmap := by
  have e0 : ∀ l, cmap ((cmap x).drop l) = x.drop l := by
    intro l
    rw [show (cmap x).drop l = cmap (x.drop l) by simp [cmap, List.map_drop],
      cmap_cmap (fun y hy => hx.2 y (List.mem_of_mem_drop hy))]
  have e1 : zipLow (· ||| ·) d x ++ x.drop d.length =
      cmap (zipLow (· &&& ·) (cmap d) (cmap x) ++ (cmap x).drop (cmap d).length) := by
    rw [zipLow_dual hd.2 hx.2, cmap_length]
    conv_lhs => rw [← e0 d.length]
    simp [cmap]
  have e2 := zipLow_dual hd.2 hx.2
  unfold orAssign andAssign
  simp only [isNegative_cmap hd, isNegative_cmap hx, trimCombine_dual hd.2 hx.2, e1]
  simp only [e2]
  by_cases c1 : d.length < x.length <;> by_cases c2 : x.length < d.length <;>
    rcases isNegative d with _ | _ <;> rcases isNegative x with _ | _ <;> simp [c1, c2]

theorem orAssign_digits {d x : Digits} (hd : Norm d) (hx : Norm x) :
    ∃ r, orAssign d x = some r ∧ Norm r ∧ ∀ i, digAt r i = digAt d i ||| digAt x i := by
  obtain ⟨r, h1, h2, h3⟩ := andAssign_digits (cmap_norm hd) (cmap_norm hx)
  refine ⟨cmap r, by rw [orAssign_dual hd.wf hx.wf, h1]; rfl, cmap_norm h2, fun i => ?_⟩
  rw [digAt_cmap h2.wf, h3, digAt_cmap hd.wf, digAt_cmap hx.wf,
    dnot_and (digAt_lt hd.wf i) (digAt_lt hx.wf i)]

/-! ### subtraction -/

theorem zipLow_sub : ∀ d x : Digits, zipLow dandnot d x = zipLow (· &&& ·) d (cmap x)
  | [], x => by cases x <;> simp [zipLow]
  | a :: d, [] => by simp [zipLow]
  | a :: d, b :: x => by simp only [zipLow, cmap_cons, zipLow_sub d x, dandnot]

theorem zipWith_sub : ∀ d x : Digits, List.zipWith dandnot d x = List.zipWith (· &&& ·) d (cmap x)
  | [], x => by simp
  | a :: d, [] => by simp
  | a :: d, b :: x => by simp only [List.zipWith_cons_cons, cmap_cons, zipWith_sub d x, dandnot]

theorem bitwiseSubtract_eq {d x : Digits} (hx : WF x) :
    bitwiseSubtract d x = andAssign d (cmap x) := by
  have e1 : ∀ l, (x.drop l).map dnot = (cmap x).drop l := by
    intro l; simp [cmap, List.map_drop]
  have e2 : ∀ z ok i, trimCombine dandnot z ok d x i = trimCombine (· &&& ·) z ok d (cmap x) i := by
    intro z ok i
    unfold trimCombine
    rw [zipWith_sub, show (cmap x).take i = cmap (x.take i) by simp [cmap, List.map_take]]
  unfold bitwiseSubtract andAssign
  simp only [isNegative_cmap hx, e1, e2, zipLow_sub, cmap_length]
  rcases isNegative d with _ | _ <;> rcases isNegative x with _ | _ <;> simp

theorem bitwiseSubtract_digits {d x : Digits} (hd : Norm d) (hx : Norm x) :
    ∃ r, bitwiseSubtract d x = some r ∧ Norm r ∧
      ∀ i, digAt r i = digAt d i &&& dnot (digAt x i) := by
  obtain ⟨r, h1, h2, h3⟩ := andAssign_digits hd (cmap_norm hx)
  refine ⟨r, by rw [bitwiseSubtract_eq hx.wf, h1], h2, fun i => ?_⟩
  rw [h3, digAt_cmap hx.wf]

/-! ### XOR -/

theorem xor_lt_B {a b : Nat} (ha : a < 𝐁) (hb : b < 𝐁) : a ^^^ b < 𝐁 := by
  have := Nat.xor_lt_two_pow (n := 32) (x := a) (y := b) (by norm_num; exact ha) (by norm_num; exact hb)
  norm_num at this; exact this

theorem xor_ones {a : Nat} (ha : a < 𝐁) : a ^^^ (𝐁 - 1) = dnot a := by
  apply Nat.eq_of_testBit_eq
  intro k
  rw [testBit_dnot ha, Nat.testBit_xor, show (𝐁 - 1 : Nat) = 2 ^ 32 - 1 by norm_num,
    Nat.testBit_two_pow_sub_one]
  by_cases hk : k < 32
  · simp [hk]
  · rw [testBit_high ha (by omega)]; simp [hk]

theorem zipLow_take (f : Nat → Nat → Nat) : ∀ (d x : Digits), x.length ≤ d.length →
    zipLow f d x = zipLow f (d.take x.length) x ++ d.drop x.length
  | d, [], _ => by cases d <;> simp [zipLow]
  | [], b :: x, h => by simp at h
  | a :: d, b :: x, h => by
    simp only [zipLow, List.length_cons, List.take_succ_cons, List.drop_succ_cons, List.cons_append,
      ← zipLow_take f d x (by simpa using h)]

/-- general unequal length case: `l` longer, `s` shorter -/
theorem xor_norm {l s r : Digits} {F : Nat → Nat} (hl : Norm l) (hs : Norm s)
    (hlt : s.length < l.length) (hr : r.length = l.length)
    (hF : ∀ i, F i = digAt l i ^^^ digAt s i) (hd : ∀ i < r.length, r.getD i 0 = F i) :
    Norm r ∧ ∀ i, digAt r i = F i := by
  have wl := hl.wf; have ws := hs.wf
  have : s.length ≠ 0 := by simpa using ws.1
  obtain ⟨m, hm⟩ : ∃ m, l.length = m + 1 + 1 := ⟨l.length - 2, by omega⟩
  have e1 := digAt_lt wl (m + 1)
  have e2 := digAt_lt wl m
  have e3 := digAt_lt ws m
  have e4 := xor_ge e2 e3
  have e5 := xor_lt_B e2 e3
  have t := norm_top hl hm rfl
  have hFB : ∀ i, F i < 𝐁 := fun i => by
    rw [hF]; exact xor_lt_B (digAt_lt wl i) (digAt_lt ws i)
  rcases hss : isNegative s with _ | _
  · have s1 : ∀ i, m + 1 ≤ i → digAt s i = 0 := fun i hi => digAt_pos' hss (by omega)
    have s2 := digAt_pos ws hss (i := m) (by omega)
    have hF' : ∀ i, m + 1 ≤ i → F i = digAt l i := fun i hi => by rw [hF, s1 i hi, Nat.xor_zero]
    refine digits_norm (n := m + 1) (e := ext l) (by omega) hFB hd ?_ ?_ ?_
    · intro i hi; rw [hF' i (by omega), digAt_of_ge (by omega)]
    · rw [hF' _ le_rfl]; unfold ext
      rcases hsl : isNegative l with _ | _
      · exact Or.inl ⟨by simp, digAt_pos wl hsl (by omega)⟩
      · exact Or.inr ⟨by simp, digAt_neg wl hsl (by omega)⟩
    · intro m' hm'
      obtain rfl : m' = m := by omega
      rw [hF' _ le_rfl, hF m']
      omega
  · have s1 : ∀ i, m + 1 ≤ i → digAt s i = 𝐁 - 1 := fun i hi => digAt_neg' hss (by omega)
    have s2 := digAt_neg ws hss (i := m) (by omega)
    have hF' : ∀ i, m + 1 ≤ i → F i = dnot (digAt l i) := fun i hi => by
      rw [hF, s1 i hi, xor_ones (digAt_lt wl i)]
    refine digits_norm (n := m + 1) (e := dnot (ext l)) (by omega) hFB hd ?_ ?_ ?_
    · intro i hi; rw [hF' i (by omega), digAt_of_ge (by omega)]
    · rw [hF' _ le_rfl]; unfold ext
      rcases hsl : isNegative l with _ | _
      · have := digAt_pos wl hsl (i := m + 1) (by omega)
        exact Or.inr ⟨by simp [dnot], dnot_ge.2 this⟩
      · have := digAt_neg wl hsl (i := m + 1) (by omega)
        exact Or.inl ⟨by simp [dnot], by unfold dnot; omega⟩
    · intro m' hm'
      obtain rfl : m' = m := by omega
      rw [hF' _ le_rfl, hF m']
      unfold dnot
      omega

theorem drop_getD {l : Digits} {a i : Nat} (h : a ≤ i) : (l.drop a).getD (i - a) 0 = l.getD i 0 := by
  rw [List.getD_eq_getElem?_getD, List.getElem?_drop, show a + (i - a) = i by omega,
    ← List.getD_eq_getElem?_getD]

theorem drop_dnot_getD {l : Digits} {a i : Nat} (h : a ≤ i) (hi : i < l.length) :
    ((l.drop a).map dnot).getD (i - a) 0 = dnot (l.getD i 0) := by
  simp [List.getD_eq_getElem?_getD, List.getElem?_drop, show a + (i - a) = i by omega,
    List.getElem?_eq_getElem hi]

theorem xorAssign_digits {d x : Digits} (hd : Norm d) (hx : Norm x) :
    Norm (xorAssign d x) ∧ ∀ i, digAt (xorAssign d x) i = digAt d i ^^^ digAt x i := by
  have wd := hd.wf; have wx := hx.wf
  have nd : d.length ≠ 0 := by simpa using wd.1
  have nx : x.length ≠ 0 := by simpa using wx.1
  unfold xorAssign
  by_cases h1 : d.length = x.length
  · rw [if_pos h1]
    obtain ⟨z, hz⟩ : ∃ z, z = List.zipWith (· ^^^ ·) d x := ⟨_, rfl⟩
    have hl : z.length = d.length := by rw [hz]; simp; omega
    have hne : z ≠ [] := by intro h; simp [h] at hl; omega
    have hg : ∀ i < z.length, z.getD i 0 = digAt d i ^^^ digAt x i := by
      intro i hi
      rw [hl] at hi
      rw [digAt_of_lt hi, digAt_of_lt (by omega), hz]
      simp [List.getD_eq_getElem?_getD, List.getElem?_zipWith,
        List.getElem?_eq_getElem hi, List.getElem?_eq_getElem (show i < x.length by omega)]
    have hw : WF z := by
      refine ⟨hne, fun y hy => ?_⟩
      obtain ⟨i, hi, rfl⟩ := List.getElem_of_mem hy
      have := hg i hi
      rw [List.getD_eq_getElem?_getD, List.getElem?_eq_getElem hi] at this
      simp only [Option.getD_some] at this
      rw [this]; exact xor_lt_B (digAt_lt wd i) (digAt_lt wx i)
    have hdig : ∀ i, digAt z i = digAt d i ^^^ digAt x i := by
      refine digAt_of (F := fun i => digAt d i ^^^ digAt x i) (e := ext d ^^^ ext x) hne hg ?_ ?_
      · intro i hi
        simp only [digAt_of_ge (show d.length ≤ i by omega), digAt_of_ge (show x.length ≤ i by omega)]
      · have a1 := digAt_lt wd (z.length - 1)
        have a2 := digAt_lt wx (z.length - 1)
        have a3 := xor_ge a1 a2
        unfold ext
        rcases hsd : isNegative d with _ | _ <;> rcases hsx : isNegative x with _ | _
        · have := digAt_pos wd hsd (i := z.length - 1) (by omega)
          have := digAt_pos wx hsx (i := z.length - 1) (by omega)
          exact Or.inl ⟨by simp, by omega⟩
        · have := digAt_pos wd hsd (i := z.length - 1) (by omega)
          have := digAt_neg wx hsx (i := z.length - 1) (by omega)
          exact Or.inr ⟨by simp, by omega⟩
        · have := digAt_neg wd hsd (i := z.length - 1) (by omega)
          have := digAt_pos wx hsx (i := z.length - 1) (by omega)
          exact Or.inr ⟨by simp, by omega⟩
        · have := digAt_neg wd hsd (i := z.length - 1) (by omega)
          have := digAt_neg wx hsx (i := z.length - 1) (by omega)
          exact Or.inl ⟨by simp, by omega⟩
    have sp := shrink_spec hw
    rw [← hz]
    exact ⟨sp.1, fun i => by rw [digAt_congr sp.1.wf hw sp.2, hdig]⟩
  · rw [if_neg h1]
    by_cases h2 : d.length < x.length
    · rw [if_pos h2]
      have key : ∀ t : Digits, t.length = x.length - d.length →
          (∀ i, d.length ≤ i → i < x.length → t.getD (i - d.length) 0 = digAt d i ^^^ digAt x i) →
          Norm (zipLow (· ^^^ ·) d x ++ t) ∧
          ∀ i, digAt (zipLow (· ^^^ ·) d x ++ t) i = digAt d i ^^^ digAt x i := by
        intro t ht hg
        refine xor_norm hx hd h2 (by rw [List.length_append, zipLow_length]; omega)
          (fun i => by rw [Nat.xor_comm]) ?_
        refine zipApp_getD (· ^^^ ·) (· ^^^ ·) (d := d) (x := x) (t := t) (by omega) ?_ hg
        intro i hi; rw [digAt_of_lt hi, digAt_of_lt (by omega)]
      rcases hsd : isNegative d with _ | _
      · rw [if_neg (by simp)]
        refine key _ (by simp) (fun i a b => ?_)
        rw [drop_getD a, digAt_pos' hsd a, Nat.zero_xor, digAt_of_lt b]
      · rw [if_pos rfl]
        refine key _ (by simp) (fun i a b => ?_)
        rw [drop_dnot_getD a b, digAt_neg' hsd a, Nat.xor_comm, xor_ones (digAt_lt wx i), digAt_of_lt b]
    · rw [if_neg h2]
      have h3 : x.length < d.length := by omega
      have key : ∀ t : Digits, t.length = d.length - x.length →
          (∀ i, x.length ≤ i → i < d.length → t.getD (i - x.length) 0 = digAt d i ^^^ digAt x i) →
          Norm (zipLow (· ^^^ ·) (d.take x.length) x ++ t) ∧
          ∀ i, digAt (zipLow (· ^^^ ·) (d.take x.length) x ++ t) i = digAt d i ^^^ digAt x i := by
        intro t ht hg
        have hlen : (zipLow (· ^^^ ·) (d.take x.length) x).length = x.length := by
          rw [zipLow_length, List.length_take]; omega
        refine xor_norm hd hx h3 (by rw [List.length_append, hlen]; omega) (fun i => rfl) ?_
        intro i hi
        rw [List.length_append, hlen] at hi
        by_cases c : i < x.length
        · rw [List.getD_append _ _ _ _ (by omega), zipLow_getD _ _ _ _ (by simp; omega), if_pos c,
            digAt_of_lt c, digAt_of_lt (show i < d.length by omega)]
          simp [List.getD_eq_getElem?_getD, c]
        · rw [List.getD_append_right _ _ _ _ (by omega), hlen]
          exact hg i (by omega) (by omega)
      rcases hsx : isNegative x with _ | _
      · rw [if_neg (by simp), zipLow_take _ _ _ h3.le]
        refine key _ (by simp) (fun i a b => ?_)
        rw [drop_getD a, digAt_pos' hsx a, Nat.xor_zero, digAt_of_lt b]
      · rw [if_pos rfl]
        refine key _ (by simp) (fun i a b => ?_)
        rw [drop_dnot_getD a b, digAt_neg' hsx a, xor_ones (digAt_lt wd i), digAt_of_lt b]

/-! ### inclusion -/

/-- a nonnegative number meets any negative one with fewer digits -/
theorem meet_ne {p m : Digits} (hp : Norm p) (hm : WF m) (h1 : isNegative p = false)
    (h2 : isNegative m = true) (h : m.length < p.length) : ∃ i, digAt p i &&& digAt m i ≠ 0 := by
  have : m.length ≠ 0 := by simpa using hm.1
  obtain ⟨n, hn⟩ : ∃ n, p.length = n + 1 + 1 := ⟨p.length - 2, by omega⟩
  have t := norm_top hp hn rfl
  have e1 := digAt_pos hp.wf h1 (i := n + 1) (by omega)
  have e2 := digAt_neg' h2 (i := n + 1) (by omega)
  have e3 := digAt_neg hm h2 (i := n) (by omega)
  by_cases c : digAt p (n + 1) = 0
  · refine ⟨n, ?_⟩
    have := (and_ge (digAt_lt hp.wf n) (digAt_lt hm n)).2 ⟨by omega, e3⟩
    omega
  · exact ⟨n + 1, by rw [e2, and_ones (digAt_lt hp.wf _)]; exact c⟩

theorem zipWith_all {f : Nat → Nat → Nat} {d x : Digits} {i : Nat} (hd : i ≤ d.length) (hx : i ≤ x.length) :
    (List.zipWith f (d.take i) (x.take i)).all (· == 0) = true ↔
      ∀ j < i, f (d.getD j 0) (x.getD j 0) = 0 := by
  rw [List.all_eq_true]
  constructor
  · intro h j hj
    have := h (f (d.getD j 0) (x.getD j 0)) (by
      rw [List.mem_iff_getElem?]
      refine ⟨j, ?_⟩
      simp [List.getElem?_zipWith, hj, List.getElem?_eq_getElem (show j < d.length by omega),
        List.getElem?_eq_getElem (show j < x.length by omega)])
    simpa using this
  · intro h y hy
    obtain ⟨j, hj, rfl⟩ := List.getElem_of_mem hy
    have hj' : j < i := by simp at hj; omega
    have := h j hj'
    simp only [List.getElem_zipWith, List.getElem_take, beq_iff_eq]
    rw [List.getD_eq_getElem?_getD, List.getD_eq_getElem?_getD,
      List.getElem?_eq_getElem (show j < d.length by omega),
      List.getElem?_eq_getElem (show j < x.length by omega)] at this
    simpa using this

theorem bitwiseSubset_digits {d x : Digits} (hd : Norm d) (hx : Norm x) :
    bitwiseSubset d x = true ↔ ∀ i, digAt d i &&& dnot (digAt x i) = 0 := by
  have wd := hd.wf; have wx := hx.wf
  have nd : d.length ≠ 0 := by simpa using wd.1
  have nx : x.length ≠ 0 := by simpa using wx.1
  have key : ∀ i, i ≤ d.length → i ≤ x.length →
      (∀ j, i ≤ j → digAt d j &&& dnot (digAt x j) = 0) →
      ((List.zipWith dandnot (d.take i) (x.take i)).all (· == 0) = true ↔
        ∀ i, digAt d i &&& dnot (digAt x i) = 0) := by
    intro i h1 h2 h3
    rw [zipWith_all h1 h2]
    constructor
    · intro h j
      by_cases hj : j < i
      · have := h j hj
        rw [digAt_of_lt (by omega), digAt_of_lt (by omega)]; exact this
      · exact h3 j (by omega)
    · intro h j hj
      have := h j
      rw [digAt_of_lt (by omega), digAt_of_lt (by omega)] at this; exact this
  unfold bitwiseSubset
  rcases hsd : isNegative d with _ | _ <;> rcases hsx : isNegative x with _ | _
  · simp only [Bool.false_and, Bool.false_eq_true, if_false, beq_self_eq_true, Bool.true_and]
    by_cases h : x.length < d.length
    · simp only [h, decide_true, if_true, Bool.false_eq_true, false_iff]
      obtain ⟨i, hi⟩ := meet_ne hd (cmap_wf wx) hsd (by rw [isNegative_cmap wx, hsx]; rfl) (by simpa using h)
      intro hc; apply hi; rw [digAt_cmap wx]; exact hc i
    · simp only [h, decide_false, Bool.false_eq_true, if_false]
      refine key _ (by omega) (by omega) (fun j hj => ?_)
      rw [digAt_pos' hsd hj]; simp
  · simp only [Bool.false_and, Bool.false_eq_true, if_false, if_true, Bool.not_true,
      show (false == true) = false from rfl]
    refine key _ (by omega) (by omega) (fun j hj => ?_)
    by_cases h : d.length ≤ j
    · rw [digAt_pos' hsd h]; simp
    · rw [digAt_neg' hsx (i := j) (by omega)]; simp [dnot]
  · simp only [Bool.not_false, Bool.and_self, if_true, Bool.false_eq_true, false_iff]
    intro hc
    have h1 := hc (d.length + x.length)
    rw [digAt_neg' hsd (by omega), digAt_pos' hsx (by omega)] at h1
    simp [dnot] at h1
  · simp only [Bool.not_true, Bool.and_false, Bool.false_eq_true, if_false, beq_self_eq_true,
      Bool.true_and, if_true]
    by_cases h : d.length < x.length
    · simp only [h, decide_true, if_true, Bool.false_eq_true, false_iff]
      obtain ⟨i, hi⟩ := meet_ne (cmap_norm hx) wd (by rw [isNegative_cmap wx, hsx]; rfl) hsd (by simpa using h)
      intro hc; apply hi; rw [digAt_cmap wx, Nat.and_comm]; exact hc i
    · simp only [h, decide_false, Bool.false_eq_true, if_false]
      refine key _ (by omega) (by omega) (fun j hj => ?_)
      rw [digAt_neg' hsx hj]; simp [dnot]

end Verif.BigInt
