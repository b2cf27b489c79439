import Verif.Free.Lemmas2
/-
C29: elements of a free abelian group behave as functions with finite support.
-/
set_option linter.unusedSectionVars false

namespace Verif.Free

open Verif

variable {T C : Type} [LinearOrder T] [CommRing C] [DecidableEq C]

/-- `operator<` of `T` agrees with `Compare` -/
abbrev std : T → T → Bool := fun x y => decide (x < y)

/-- Looking up an exponent gives its coefficient. -/
theorem C29_lookup (L : List (List (T × C))) (h : Inv L) (e : T) : lookup L e = den L e := by
  obtain ⟨h1, h2⟩ := find_spec h e
  unfold lookup
  cases hf : find L e with
  | none => exact (denL_notMem (h2 hf)).symm
  | some p =>
    obtain ⟨c, hc⟩ := h1 p hf
    simp only [Option.bind_some, hc]
    exact (den_of_entry h hc).symm

/-- Iterating meets, in increasing order, each exponent with nonzero coefficient once, and no others. -/
theorem C29_terms (L : List (List (T × C))) (h : Inv L) :
    ∃ ts, terms L = .ok ts ∧ ts.Pairwise (fun x y => x.1 < y.1) ∧
      ∀ e c, (e, c) ∈ ts ↔ c ≠ 0 ∧ den L e = c := by
  obtain ⟨ps, h1, h2, h3⟩ := terms_spec h
  exact ⟨_, h3, (entries_sorted h1).sublist List.filter_sublist, fun e c => terms_mem h h2 (e, c)⟩

theorem C29_zero : Inv ([] : List (List (T × C))) ∧ ∀ e, den ([] : List (List (T × C))) e = 0 :=
  ⟨⟨by simp, by simp⟩, fun _ => rfl⟩

theorem C29_mono (e : T) (m : C) : Inv (mono e m) ∧ ∀ x, den (mono e m) x = if x = e then m else 0 := by
  unfold mono
  by_cases hm : m = 0
  · rw [if_pos hm]
    exact ⟨C29_zero.1, fun x => by rw [C29_zero.2, hm]; simp⟩
  · rw [if_neg hm]
    refine ⟨⟨by simp, by simp⟩, fun x => ?_⟩
    rw [den_eq]
    simp only [List.flatten_cons, List.flatten_nil, List.append_nil, denL_cons, denL_nil, add_zero]
    by_cases hx : x = e
    · rw [if_pos hx, if_pos hx.symm]
    · rw [if_neg hx, if_neg (fun h => hx h.symm)]

/-- The constructor from a vector of terms, if exponents of nonzero terms are distinct, and increasing
when sorting is not asked for. -/
theorem C29_ofVec (vec : List (T × C)) (doSort : Bool)
    (hd : ((vec.filter (fun t => decide (t.2 ≠ 0))).map Prod.fst).Nodup)
    (hs : doSort = false → (vec.filter (fun t => decide (t.2 ≠ 0))).Pairwise (fun x y => x.1 < y.1)) :
    Inv (ofVec vec doSort) ∧ ∀ e, den (ofVec vec doSort) e = ((vec.filter (fun t => decide (t.1 = e))).map Prod.snd).sum := by
  have key : ∀ e, denL (vec.filter (fun t => decide (t.2 ≠ 0))) e = denL vec e := denL_filter_nonzero vec
  unfold ofVec
  simp only
  by_cases hw : vec.filter (fun x => decide (x.2 ≠ 0)) = []
  · rw [if_pos hw]
    refine ⟨C29_zero.1, fun e => ?_⟩
    rw [C29_zero.2]
    have := key e
    rw [hw] at this
    exact this
  · rw [if_neg hw]
    cases doSort with
    | false =>
      refine ⟨⟨?_, ?_⟩, fun e => ?_⟩
      · intro b hb
        rw [List.mem_singleton] at hb; subst hb
        exact ⟨by simpa using hw, hs rfl⟩
      · simpa using hd
      · rw [den_eq]; simp only [Bool.false_eq_true, if_false, List.flatten_cons, List.flatten_nil, List.append_nil]
        exact key e
    | true =>
      simp only [if_true]
      have hp := List.mergeSort_perm (vec.filter (fun x => decide (x.2 ≠ 0))) (fun a b => decide (a.1 ≤ b.1))
      have hso := List.pairwise_mergeSort (le := fun a b : T × C => decide (a.1 ≤ b.1))
        (by intro a b c; simp only [decide_eq_true_eq]; exact le_trans)
        (by intro a b; simp only [Bool.or_eq_true, decide_eq_true_eq]; exact le_total _ _)
        (vec.filter (fun x => decide (x.2 ≠ 0)))
      have hd' := ((hp.map Prod.fst).nodup_iff).2 hd
      refine ⟨⟨?_, ?_⟩, fun e => ?_⟩
      · intro b hb
        rw [List.mem_singleton] at hb; subst hb
        refine ⟨fun h => hw ?_, ?_⟩
        · rw [h] at hp; exact hp.nil_eq.symm
        · rw [List.Nodup, List.pairwise_map] at hd'
          exact (hso.and hd').imp fun ⟨a, b⟩ => lt_of_le_of_ne (by simpa using a) b
      · simpa using hd'
      · rw [den_eq]; simp only [List.flatten_cons, List.flatten_nil, List.append_nil]
        rw [denL_perm hp]; exact key e

theorem C29_addTerm (L : List (List (T × C))) (h : Inv L) (e : T) (m : C) :
    ∃ L', addTerm std L e m = .ok L' ∧ Inv L' ∧ ∀ x, den L' x = den L x + if x = e then m else 0 := by
  obtain ⟨h1, h2⟩ := find_spec h e
  unfold addTerm
  cases hf : find L e with
  | some p =>
    obtain ⟨c, hc⟩ := h1 p hf
    refine ⟨setAt L p (c + m), by simp only [addAt, hc], inv_setAt h _ _, fun x => ?_⟩
    rw [den_setAt h hc]
    simp only
    by_cases hx : x = e
    · have := den_of_entry h hc
      simp only at this
      rw [if_pos hx, if_pos hx, hx, this]
    · rw [if_neg hx, if_neg hx, add_zero]
  | none =>
    have hH := insert_holds (v := [(e, m)]) h (by simp) (by
      intro x hx y hy
      rw [List.mem_singleton] at hx; subst hx
      exact fun he => h2 hf y hy he.symm)
    refine ⟨_, rfl, hH.1, fun x => ?_⟩
    rw [hH.den x, List.singleton_append, denL_cons, add_comm, den_eq]
    simp only
    congr 1
    by_cases hx : x = e
    · rw [if_pos hx, if_pos hx.symm]
    · rw [if_neg hx, if_neg (fun h => hx h.symm)]

theorem C29_clearCoef (L : List (List (T × C))) (h : Inv L) (e : T) :
    Inv (clearCoef L e) ∧ ∀ x, den (clearCoef L e) x = if x = e then 0 else den L x := by
  obtain ⟨h1, h2⟩ := find_spec h e
  unfold clearCoef
  cases hf : find L e with
  | some p =>
    obtain ⟨c, hc⟩ := h1 p hf
    exact ⟨inv_setAt h _ _, fun x => den_setAt h hc 0 x⟩
  | none =>
    refine ⟨h, fun x => ?_⟩
    by_cases hx : x = e
    · rw [if_pos hx, hx]; exact denL_notMem (h2 hf)
    · rw [if_neg hx]

theorem C29_setCoef (L : List (List (T × C))) (h : Inv L) (e : T) (m : C) :
    ∃ L', setCoef std L e m = .ok L' ∧ Inv L' ∧ ∀ x, den L' x = if x = e then m else den L x := by
  obtain ⟨h1, h2⟩ := find_spec h e
  unfold setCoef
  cases hf : find L e with
  | some p =>
    obtain ⟨c, hc⟩ := h1 p hf
    exact ⟨_, rfl, inv_setAt h _ _, fun x => den_setAt h hc m x⟩
  | none =>
    obtain ⟨L', a1, a2, a3⟩ := C29_addTerm L h e m
    refine ⟨L', a1, a2, fun x => ?_⟩
    rw [a3 x]
    by_cases hx : x = e
    · rw [if_pos hx, if_pos hx, hx, show den L e = 0 from denL_notMem (h2 hf), zero_add]
    · rw [if_neg hx, if_neg hx, add_zero]

/-- Adding a multiple of another element. -/
theorem C29_addMultiple (L P : List (List (T × C))) (hL : Inv L) (hP : Inv P) (m : C) :
    ∃ L', addMultiple std L P m = .ok L' ∧ Inv L' ∧ ∀ e, den L' e = den L e + m * den P e := by
  unfold addMultiple
  by_cases hm : m = 0
  · rw [if_pos hm]; exact ⟨L, rfl, hL, fun e => by rw [hm]; ring⟩
  · rw [if_neg hm]
    obtain ⟨ps, p1, p2, p3, p4, x', f1, f2, -⟩ := forEach_spec
      (getL := fun _ : List (List (T × C)) × List (T × C) => P)
      (body := fun p x => addBody m P p x.1 x.2) (L, []) hP (fun x => Inv x.1) hL (fun _ _ => rfl) (by
        rintro p y hy ⟨t, ht⟩
        unfold addBody
        rw [ht]
        simp only
        by_cases hz : m * t.2 ≠ 0
        · rw [if_pos hz]
          cases hf : find y.1 t.1 with
          | none => exact ⟨_, rfl, hy⟩
          | some q =>
            obtain ⟨c, hc⟩ := (find_spec hy t.1).1 q hf
            refine ⟨(setAt y.1 q (c + m * t.2), y.2), by simp only [addAt, hc, Res.ok_bind], inv_setAt hy _ _⟩
        · rw [if_neg hz]; exact ⟨_, rfl, hy⟩)
    rw [visits_const (g := fun (t : T × C) (x : List (List (T × C)) × List (T × C)) =>
        if m * t.2 ≠ 0 then
          match find x.1 t.1 with
          | some q => (do .ok (← addAt x.1 q (m * t.2), x.2) : Res _)
          | none => .ok (x.1, x.2 ++ [(t.1, m * t.2)])
        else .ok (x.1, x.2)) (by intro p t x ht; unfold addBody; rw [ht]; rfl) ps p3] at f2
    obtain ⟨L', v', r1, r2, r3, r4, r5⟩ := addFold (m := m) ((entries P ps).filter (fun t => decide (t.2 ≠ 0)))
      ((entries_sorted p1).sublist List.filter_sublist) L [] hL (by simp) (by simp) (by simp)
    have hx : x' = (L', v') := by
      have := f2.symm.trans r1
      exact Res.ok.inj this
    subst hx
    rw [f1, Res.ok_bind]
    have hH := insert_holds r2 r3 r4
    refine ⟨_, rfl, hH.1, fun e => ?_⟩
    have := r5 e
    rw [denL_filter_nonzero, entries_den hP p1 p4, denL_nil, add_zero] at this
    rw [hH.den e, denL_append, add_comm]
    exact this

/-- Applying a function to all nonzero coefficients. -/
theorem C29_mapCoef (f : C → C) (L : List (List (T × C))) (h : Inv L) :
    ∃ L', mapCoef f L = .ok L' ∧ Inv L' ∧ ∀ e, den L' e = if den L e = 0 then 0 else f (den L e) := by
  have hb : ∀ (p : Pos) (x : List (List (T × C))) (t : T × C), (Inv x ∧ shape x = shape L) → entryAt (id x) p = some t →
      ∃ x', (match entryAt x p with
        | some t => Res.ok (setAt x p (f t.2))
        | none => .undefined) = .ok x' ∧ (Inv x' ∧ shape x' = shape L) ∧
      ∀ q, entryAt (id x') q = if q = p then some (t.1, f t.2) else entryAt (id x) q := by
    intro p x t hx ht
    have ht' : entryAt x p = some t := ht
    refine ⟨setAt x p (f t.2), by rw [ht'], ⟨inv_setAt hx.1 _ _, by rw [shape_setAt, hx.2]⟩, fun q => ?_⟩
    exact entryAt_setAt ht' _ q
  obtain ⟨ps, p1, p2, p3, p4, x', f1, f2, f3⟩ := forEach_spec (getL := id) (body := fun p L =>
    match entryAt L p with
    | some t => .ok (setAt L p (f t.2))
    | none => .undefined) L h (fun x => Inv x ∧ shape x = shape L) ⟨h, rfl⟩ (fun y hy => hy.2) (by
      rintro p y hy ⟨t, ht⟩
      obtain ⟨x', b1, b2, _⟩ := hb p y t hy ht
      exact ⟨x', b1, b2⟩)
  obtain ⟨x2, v1, v2, v3⟩ := visits_update (getL := id) (fun x => Inv x ∧ shape x = shape L) f hb ps L ⟨h, rfl⟩ p2 p3
  have : x' = x2 := Res.ok.inj (f2.symm.trans v1)
  subst this
  exact ⟨x', f1, f3.1, update_den h f3.1 p4 v3⟩

/-- Multiplication by a scalar. -/
theorem C29_scale (L : List (List (T × C))) (h : Inv L) (c : C) :
    ∃ L', scale L c = .ok L' ∧ Inv L' ∧ ∀ e, den L' e = den L e * c := by
  obtain ⟨L', h1, h2, h3⟩ := C29_mapCoef (fun x => x * c) L h
  refine ⟨L', h1, h2, fun e => ?_⟩
  rw [h3 e]
  by_cases h0 : den L e = 0
  · rw [if_pos h0, h0, zero_mul]
  · rw [if_neg h0]

/-- Adding to an element a multiple of itself. -/
theorem C29_addMultipleSelf (L : List (List (T × C))) (h : Inv L) (m : C) :
    ∃ L', addMultipleSelf std L m = .ok L' ∧ Inv L' ∧ ∀ e, den L' e = den L e + m * den L e := by
  unfold addMultipleSelf
  by_cases hm : m = 0
  · rw [if_pos hm]; exact ⟨L, rfl, h, fun e => by rw [hm]; ring⟩
  · rw [if_neg hm]
    have hb : ∀ (p : Pos) (x : List (List (T × C)) × List (T × C)) (t : T × C),
        (Inv x.1 ∧ shape x.1 = shape L ∧ x.2 = []) → entryAt x.1 p = some t →
        ∃ x', addBody m x.1 p x.1 x.2 = .ok x' ∧ (Inv x'.1 ∧ shape x'.1 = shape L ∧ x'.2 = []) ∧
        ∀ q, entryAt x'.1 q = if q = p then some (t.1, t.2 + m * t.2) else entryAt x.1 q := by
      intro p x t hx ht
      unfold addBody
      rw [ht]
      simp only
      by_cases hz : m * t.2 ≠ 0
      · rw [if_pos hz]
        cases hf : find x.1 t.1 with
        | none => exact absurd rfl ((find_spec hx.1 t.1).2 hf t (entryAt_mem ht))
        | some q =>
          obtain ⟨c, hc⟩ := (find_spec hx.1 t.1).1 q hf
          have hqp : q = p := entry_unique hx.1 hc ht rfl
          subst hqp
          refine ⟨(setAt x.1 q (t.2 + m * t.2), x.2), by simp only [addAt, ht, Res.ok_bind],
            ⟨inv_setAt hx.1 _ _, by rw [shape_setAt]; exact hx.2.1, hx.2.2⟩, fun q' => ?_⟩
          exact entryAt_setAt ht _ q'
      · rw [if_neg hz]
        push Not at hz
        refine ⟨_, rfl, hx, fun q => ?_⟩
        by_cases hq : q = p
        · rw [if_pos hq, hq, hz, add_zero, ht]
        · rw [if_neg hq]
    obtain ⟨ps, p1, p2, p3, p4, x', f1, f2, f3⟩ := forEach_spec (getL := fun x : List (List (T × C)) × List (T × C) => x.1)
      (body := fun p x => addBody m x.1 p x.1 x.2) (L, []) h
      (fun x => Inv x.1 ∧ shape x.1 = shape L ∧ x.2 = []) ⟨h, rfl, rfl⟩ (fun y hy => hy.2.1) (by
        rintro p y hy ⟨t, ht⟩
        obtain ⟨x', b1, b2, _⟩ := hb p y t hy ht
        exact ⟨x', b1, b2⟩)
    obtain ⟨x2, v1, v2, v3⟩ := visits_update (getL := fun x : List (List (T × C)) × List (T × C) => x.1)
      (fun x => Inv x.1 ∧ shape x.1 = shape L ∧ x.2 = []) (fun c => c + m * c) hb ps (L, []) ⟨h, rfl, rfl⟩ p2 p3
    have : x' = x2 := Res.ok.inj (f2.symm.trans v1)
    subst this
    rw [f1, Res.ok_bind, f3.2.2]
    refine ⟨x'.1, by simp [insert], f3.1, fun e => ?_⟩
    rw [update_den (f := fun c => c + m * c) h f3.1 p4 v3 e]
    by_cases h0 : den L e = 0
    · rw [if_pos h0, h0]; ring
    · rw [if_neg h0]

/-- The zero test. -/
theorem C29_isZero (L : List (List (T × C))) (h : Inv L) :
    ∃ b, isZero L = .ok b ∧ (b = true ↔ ∀ e, den L e = 0) := by
  obtain ⟨s, ps, h1, h2, h3, h4, h5, h6, h7⟩ := positions h
  obtain ⟨s', k1, k2⟩ := skipZeros_spec h2 h3 (size L + 1) (by omega)
  refine ⟨decide (s' = []), by rw [isZero, begin', h1, Res.ok_bind, k1, Res.ok_bind], ?_⟩
  rw [decide_eq_true_eq]
  have hs : s' = [] ↔ dropZ L ps = [] := by
    generalize dropZ L ps = r at k2
    cases k2 <;> simp
  rw [hs]
  constructor
  · intro hz e
    have hall : ∀ ps : List Pos, dropZ L ps = [] → ∀ p ∈ ps, zeroAt L p = .ok true := by
      intro ps
      induction ps with
      | nil => intro _ p hp; cases hp
      | cons q ps ih =>
        intro h0 p hp
        rw [dropZ] at h0
        by_cases hq : zeroAt L q = .ok true
        · rw [if_pos hq] at h0
          rcases List.mem_cons.1 hp with rfl | hp
          · exact hq
          · exact ih h0 p hp
        · rw [if_neg hq] at h0; cases h0
    refine denL_zero (fun t ht => ?_) e
    obtain ⟨p, hp⟩ := mem_entryAt ht
    have := hall ps hz p (h6 p t hp)
    rw [zeroAt_ok hp] at this
    simpa using Res.ok.inj this
  · intro hz
    cases e : dropZ L ps with
    | nil => rfl
    | cons p r =>
      exfalso
      refine dropZ_head e ?_
      obtain ⟨t, ht⟩ := h3 p (dropZ_sub L ps p (by rw [e]; exact List.mem_cons_self))
      rw [zeroAt_ok ht, decide_eq_true]
      rw [← den_of_entry h ht]; exact hz _

theorem C29_addAssign (L P : List (List (T × C))) (hL : Inv L) (hP : Inv P) :
    ∃ L', addAssign std L P = .ok L' ∧ Inv L' ∧ ∀ e, den L' e = den L e + den P e := by
  obtain ⟨b, h1, h2⟩ := C29_isZero L hL
  rw [addAssign, h1, Res.ok_bind]
  cases b with
  | true =>
    refine ⟨P, rfl, hP, fun e => ?_⟩
    rw [h2.1 rfl e, zero_add]
  | false =>
    obtain ⟨L', a1, a2, a3⟩ := C29_addMultiple L P hL hP 1
    exact ⟨L', a1, a2, fun e => by rw [a3 e, one_mul]⟩

theorem C29_subAssign (L P : List (List (T × C))) (hL : Inv L) (hP : Inv P) :
    ∃ L', subAssign std L P = .ok L' ∧ Inv L' ∧ ∀ e, den L' e = den L e - den P e := by
  obtain ⟨L', a1, a2, a3⟩ := C29_addMultiple L P hL hP (-1)
  exact ⟨L', a1, a2, fun e => by rw [a3 e]; ring⟩

/-- `x+=x` doubles `x`, `x-=x` clears it. -/
theorem C29_self (L : List (List (T × C))) (hL : Inv L) :
    (∃ L', addAssignSelf std L = .ok L' ∧ Inv L' ∧ ∀ e, den L' e = 2 * den L e) ∧
    (∃ L', subAssignSelf std L = .ok L' ∧ Inv L' ∧ ∀ e, den L' e = 0) := by
  constructor
  · obtain ⟨b, h1, h2⟩ := C29_isZero L hL
    rw [addAssignSelf, h1, Res.ok_bind]
    cases b with
    | true =>
      refine ⟨L, rfl, hL, fun e => ?_⟩
      rw [h2.1 rfl e, mul_zero]
    | false =>
      obtain ⟨L', a1, a2, a3⟩ := C29_addMultipleSelf L hL 1
      exact ⟨L', a1, a2, fun e => by rw [a3 e]; ring⟩
  · obtain ⟨L', a1, a2, a3⟩ := C29_addMultipleSelf L hL (-1)
    exact ⟨L', a1, a2, fun e => by rw [a3 e]; ring⟩

/-- `flatten` gives a single block without zero terms, for the same function. -/
theorem C29_flatten (L : List (List (T × C))) (h : Inv L) :
    ∃ L', flatten L = .ok L' ∧ Inv L' ∧ (∀ e, den L' e = den L e) ∧ L'.length ≤ 1 ∧ ∀ t ∈ L'.flatten, t.2 ≠ 0 := by
  obtain ⟨ps, h1, h2, h3⟩ := terms_spec h
  have hs : ((entries L ps).filter (fun t => decide (t.2 ≠ 0))).Pairwise (fun x y => x.1 < y.1) :=
    (entries_sorted h1).sublist List.filter_sublist
  have hff : ((entries L ps).filter (fun t => decide (t.2 ≠ 0))).filter (fun t => decide (t.2 ≠ 0)) =
      (entries L ps).filter (fun t => decide (t.2 ≠ 0)) := by rw [List.filter_filter]; simp
  obtain ⟨o1, o2⟩ := C29_ofVec ((entries L ps).filter (fun t => decide (t.2 ≠ 0))) false
    (by rw [hff]; exact sorted_nodup hs) (fun _ => by rw [hff]; exact hs)
  refine ⟨_, by rw [flatten, h3, Res.ok_bind], o1, fun e => ?_, ?_, ?_⟩
  · rw [o2 e]
    exact (denL_filter_nonzero (entries L ps) e).trans (entries_den h h1 h2 e)
  · unfold ofVec; simp only; split <;> simp
  · unfold ofVec
    simp only
    split
    · simp
    · rw [hff]
      intro t ht
      simp only [Bool.false_eq_true, if_false, List.flatten_cons, List.flatten_nil, List.append_nil,
        List.mem_filter] at ht
      simpa using ht.2

/-- Equality holds for elements with the same coefficients, whatever their blocks. -/
theorem C29_equal (L P : List (List (T × C))) (hL : Inv L) (hP : Inv P) :
    ∃ b, equal L P = .ok b ∧ (b = true ↔ ∀ e, den L e = den P e) := by
  obtain ⟨a, a1, -, a3⟩ := C29_terms L hL
  obtain ⟨b, b1, -, b3⟩ := C29_terms P hP
  refine ⟨_, by rw [equal, a1, Res.ok_bind, b1, Res.ok_bind], ?_⟩
  rw [Bool.and_eq_true, List.all_eq_true, List.all_eq_true]
  simp only [decide_eq_true_eq]
  constructor
  · rintro ⟨h1, h2⟩ e
    by_cases hz : den L e = 0
    · by_cases hz' : den P e = 0
      · rw [hz, hz']
      · have := h2 (e, den P e) ((b3 e _).2 ⟨hz', rfl⟩)
        rw [C29_lookup L hL] at this; exact this
    · have := h1 (e, den L e) ((a3 e _).2 ⟨hz, rfl⟩)
      rw [C29_lookup P hP] at this; exact this.symm
  · intro h
    constructor
    · rintro ⟨e, c⟩ ht
      rw [C29_lookup P hP, ← h]; exact ((a3 e c).1 ht).2
    · rintro ⟨e, c⟩ ht
      rw [C29_lookup L hL, h]; exact ((b3 e c).1 ht).2

/-- `count_terms` is the number of terms that iterating meets. -/
theorem C29_countTerms (L : List (List (T × C))) (h : Inv L) :
    ∃ ts, terms L = .ok ts ∧ countTerms L = ts.length := by
  obtain ⟨ps, h1, h2, h3⟩ := terms_spec h
  refine ⟨_, h3, ?_⟩
  have hc : countTerms L = (L.flatten.filter (fun t => decide (t.2 ≠ 0))).length := by
    rw [← List.countP_eq_length_filter, countTerms, List.countP_flatten]
  rw [hc]
  refine List.Perm.length_eq (List.Perm.filter _ ?_)
  refine (List.perm_ext_iff_of_nodup h.2.of_map (sorted_nodup (entries_sorted h1)).of_map).2 fun t => ?_
  exact (entries_mem h2 t).symm

/-! ### histories -/

/-- `Obtained L f`: the object `L` can be obtained by calls of the public functions which, done
for functions of exponents, give `f` -/
inductive Obtained : List (List (T × C)) → (T → C) → Prop
  | zero : Obtained [] (fun _ => 0)
  | mono (e : T) (m : C) : Obtained (mono e m) (fun x => if x = e then m else 0)
  | addTerm {L f L'} (e : T) (m : C) (h : Obtained L f) (r : Free.addTerm std L e m = .ok L') :
      Obtained L' (fun x => f x + if x = e then m else 0)
  | setCoef {L f L'} (e : T) (m : C) (h : Obtained L f) (r : Free.setCoef std L e m = .ok L') :
      Obtained L' (fun x => if x = e then m else f x)
  | clearCoef {L f} (e : T) (h : Obtained L f) : Obtained (Free.clearCoef L e) (fun x => if x = e then 0 else f x)
  | addMultiple {L f P g L'} (m : C) (h : Obtained L f) (h' : Obtained P g)
      (r : Free.addMultiple std L P m = .ok L') : Obtained L' (fun x => f x + m * g x)
  | addMultipleSelf {L f L'} (m : C) (h : Obtained L f) (r : Free.addMultipleSelf std L m = .ok L') :
      Obtained L' (fun x => f x + m * f x)
  | add {L f P g L'} (h : Obtained L f) (h' : Obtained P g) (r : addAssign std L P = .ok L') :
      Obtained L' (fun x => f x + g x)
  | sub {L f P g L'} (h : Obtained L f) (h' : Obtained P g) (r : subAssign std L P = .ok L') :
      Obtained L' (fun x => f x - g x)
  | scale {L f L'} (c : C) (h : Obtained L f) (r : Free.scale L c = .ok L') : Obtained L' (fun x => f x * c)
  | flatten {L f L'} (h : Obtained L f) (r : Free.flatten L = .ok L') : Obtained L' f

theorem obtained_inv {L : List (List (T × C))} {f : T → C} (h : Obtained L f) : Inv L ∧ ∀ e, den L e = f e := by
  induction h with
  | zero => exact C29_zero
  | mono e m => exact C29_mono e m
  | addTerm e m h r ih =>
    obtain ⟨L', h1, h2, h3⟩ := C29_addTerm _ ih.1 e m
    rw [h1] at r; cases r
    exact ⟨h2, fun x => by rw [h3, ih.2]⟩
  | setCoef e m h r ih =>
    obtain ⟨L', h1, h2, h3⟩ := C29_setCoef _ ih.1 e m
    rw [h1] at r; cases r
    exact ⟨h2, fun x => by rw [h3, ih.2]⟩
  | clearCoef e h ih =>
    obtain ⟨h2, h3⟩ := C29_clearCoef _ ih.1 e
    exact ⟨h2, fun x => by rw [h3, ih.2]⟩
  | addMultiple m h h' r ih ih' =>
    obtain ⟨L', h1, h2, h3⟩ := C29_addMultiple _ _ ih.1 ih'.1 m
    rw [h1] at r; cases r
    exact ⟨h2, fun x => by rw [h3, ih.2, ih'.2]⟩
  | addMultipleSelf m h r ih =>
    obtain ⟨L', h1, h2, h3⟩ := C29_addMultipleSelf _ ih.1 m
    rw [h1] at r; cases r
    exact ⟨h2, fun x => by rw [h3, ih.2]⟩
  | add h h' r ih ih' =>
    obtain ⟨L', h1, h2, h3⟩ := C29_addAssign _ _ ih.1 ih'.1
    rw [h1] at r; cases r
    exact ⟨h2, fun x => by rw [h3, ih.2, ih'.2]⟩
  | sub h h' r ih ih' =>
    obtain ⟨L', h1, h2, h3⟩ := C29_subAssign _ _ ih.1 ih'.1
    rw [h1] at r; cases r
    exact ⟨h2, fun x => by rw [h3, ih.2, ih'.2]⟩
  | scale c h r ih =>
    obtain ⟨L', h1, h2, h3⟩ := C29_scale _ ih.1 c
    rw [h1] at r; cases r
    exact ⟨h2, fun x => by rw [h3, ih.2]⟩
  | flatten h r ih =>
    obtain ⟨L', h1, h2, h3, -⟩ := C29_flatten _ ih.1
    rw [h1] at r; cases r
    exact ⟨h2, fun x => by rw [h3, ih.2]⟩

/-- After any history of calls, lookups give the coefficients computed in the group of functions,
iterating meets exactly the nonzero ones in increasing order, and comparing two objects compares
the functions. -/
theorem C29_history {L : List (List (T × C))} {f : T → C} (h : Obtained L f) :
    (∀ e, lookup L e = f e) ∧
    (∃ ts, terms L = .ok ts ∧ ts.Pairwise (fun x y => x.1 < y.1) ∧ (∀ e c, (e, c) ∈ ts ↔ c ≠ 0 ∧ f e = c) ∧
      countTerms L = ts.length) ∧
    (∃ b, isZero L = .ok b ∧ (b = true ↔ ∀ e, f e = 0)) ∧
    ∀ P g, Obtained P g → ∃ b, equal L P = .ok b ∧ (b = true ↔ f = g) := by
  obtain ⟨h1, h2⟩ := obtained_inv h
  refine ⟨fun e => by rw [C29_lookup L h1, h2], ?_, ?_, ?_⟩
  · obtain ⟨ts, t1, t2, t3⟩ := C29_terms L h1
    obtain ⟨ts', t4, t5⟩ := C29_countTerms L h1
    rw [t1] at t4; cases t4
    exact ⟨ts, t1, t2, fun e c => by rw [t3, h2], t5⟩
  · obtain ⟨b, b1, b2⟩ := C29_isZero L h1
    exact ⟨b, b1, by rw [b2]; exact forall_congr' fun e => by rw [h2]⟩
  · intro P g hP
    obtain ⟨p1, p2⟩ := obtained_inv hP
    obtain ⟨b, b1, b2⟩ := C29_equal L P h1 p1
    refine ⟨b, b1, ?_⟩
    rw [b2, funext_iff]
    exact forall_congr' fun e => by rw [h2, p2]

/-- No call of a history fails: each of the operations yields a value on objects with a history. -/
theorem C29_history_total {L P : List (List (T × C))} {f g : T → C} (h : Obtained L f) (h' : Obtained P g) (e : T)
    (m : C) : (∃ L', addTerm std L e m = .ok L') ∧ (∃ L', setCoef std L e m = .ok L') ∧
    (∃ L', addMultiple std L P m = .ok L') ∧ (∃ L', addMultipleSelf std L m = .ok L') ∧
    (∃ L', addAssign std L P = .ok L') ∧ (∃ L', subAssign std L P = .ok L') ∧ (∃ L', scale L m = .ok L') ∧
    ∃ L', flatten L = .ok L' := by
  have hL := (obtained_inv h).1
  have hP := (obtained_inv h').1
  obtain ⟨a1, b1, -⟩ := C29_addTerm L hL e m
  obtain ⟨a2, b2, -⟩ := C29_setCoef L hL e m
  obtain ⟨a3, b3, -⟩ := C29_addMultiple L P hL hP m
  obtain ⟨a4, b4, -⟩ := C29_addMultipleSelf L hL m
  obtain ⟨a5, b5, -⟩ := C29_addAssign L P hL hP
  obtain ⟨a6, b6, -⟩ := C29_subAssign L P hL hP
  obtain ⟨a7, b7, -⟩ := C29_scale L hL m
  obtain ⟨a8, b8, -⟩ := C29_flatten L hL
  exact ⟨⟨a1, b1⟩, ⟨a2, b2⟩, ⟨a3, b3⟩, ⟨a4, b4⟩, ⟨a5, b5⟩, ⟨a6, b6⟩, ⟨a7, b7⟩, a8, b8⟩

/-- an element with two blocks and a zero term -/
example : Inv ([[(1, 5), (4, 0)], [(2, -3)]] : List (List (Int × Int))) := by
  unfold Inv; refine ⟨by decide, by decide⟩

/-- three terms added one by one, one of them twice with opposite signs: two blocks arise and fuse -/
example : ∃ L : List (List (Int × Int)), Obtained L (fun x => (((0 + if x = 3 then 7 else 0) + if x = 1 then 2 else 0)
    + if x = 5 then 1 else 0) + if x = 1 then -2 else 0) ∧ lookup L 3 = 7 ∧ terms L = .ok [(3, 7), (5, 1)] := by
  refine ⟨[[(1, 0), (3, 7)], [(5, 1)]], ?_, by decide +kernel, by decide +kernel⟩
  exact Obtained.addTerm 1 (-2) (Obtained.addTerm 5 1 (L' := [[(1, 2), (3, 7)], [(5, 1)]]) (Obtained.addTerm 1 2 (L' := [[(1, 2), (3, 7)]])
    (Obtained.addTerm 3 7 (L' := [[(3, 7)]]) Obtained.zero (by decide +kernel)) (by decide +kernel))
    (by decide +kernel)) (by decide +kernel)

example : addMultiple std ([[(1, 5), (4, 2)], [(2, -3)]] : List (List (Int × Int))) [[(2, 1), (3, 1)]] 3 =
    .ok [[(1, 5), (4, 2)], [(3, 3)]] := by decide +kernel

/-! ### what does not hold -/

/-- `insert` compares exponents by `operator<`, not by `Compare`.  If the two differ, a term that was added
can get lost: with `operator<` the reverse of `Compare`, two calls of `add_term` on the zero element
give an element in which the first term is not found. -/
theorem C29_compare_false : ∃ L L' : List (List (Int × Int)),
    addTerm (fun x y => decide (y < x)) [] 1 1 = .ok L ∧ addTerm (fun x y => decide (y < x)) L 2 1 = .ok L' ∧
    lookup L' 1 = 0 ∧ ¬ Inv L' :=
  ⟨[[(1, 1)]], [[(2, 1), (1, 1)]], by decide +kernel, by decide +kernel, by decide +kernel, fun h => by
    have := (h.1 _ List.mem_cons_self).2
    revert this; decide⟩

/-- The constructor from a vector does not combine terms with the same exponent: looking up that
exponent gives one coefficient, not their sum. -/
theorem C29_duplicates_false : ∃ v : List (Int × Int), lookup (ofVec v false) 1 ≠
    ((v.filter (fun t => decide (t.1 = 1))).map Prod.snd).sum :=
  ⟨[(1, 1), (1, 1)], by decide +kernel⟩

end Verif.Free
