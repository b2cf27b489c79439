import Verif.Axis.CloseProofs
/-
C77: closeness of argument types and the overload table.
-/
namespace Verif.Axis
open Verif

theorem bits_eq {c a b : Prop} [Decidable c] [Decidable a] [Decidable b] {n : Nat} (h : n = bits (decide c) (decide a) (decide b)) :
    (n = 4 ↔ c ∧ ¬ a ∧ ¬ b) ∧ (n = 5 ↔ c ∧ a ∧ ¬ b) ∧ (n = 6 ↔ c ∧ ¬ a ∧ b) ∧ (n = 7 ↔ c ∧ a ∧ b) ∧ (n = 0 ↔ ¬ c) ∧ (n &&& 1 ≠ 0 ↔ c ∧ a) ∧ (n &&& 2 ≠ 0 ↔ c ∧ b) ∧ (n &&& 4 ≠ 0 ↔ c) := by
  subst h
  by_cases c <;> by_cases a <;> by_cases b <;> simp [bits, *]

/-- **C77.** The bits of `is_close`: conversion to the second type, conversion to the first, closeness.  Types of which one can be converted to the other are close. -/
theorem C77_isClose {tab : CTab} (ht : TabOK tab) (x y : Ty) : isClose tab x y < 8 ∧ (isClose tab x y &&& 1 ≠ 0 ↔ Conv tab x y) ∧ (isClose tab x y &&& 2 ≠ 0 ↔ Conv tab y x) ∧
    (isClose tab x y &&& 4 ≠ 0 ↔ CloseTo tab x y) ∧ (isClose tab x y = 0 ↔ ¬ CloseTo tab x y) := by
  classical
  have h := isClose_eq ht x y
  obtain ⟨_, _, _, _, h0, h1, h2, h4⟩ := bits_eq h
  refine ⟨?_, h1.trans ⟨fun q => q.2, fun q => ⟨(conv_close x y q).1, q⟩⟩, h2.trans ⟨fun q => q.2, fun q => ⟨(conv_close y x q).2, q⟩⟩, h4, h0⟩
  rw [h]
  unfold bits
  split <;> (repeat' split) <;> omega

theorem close_symm {tab : CTab} {x y : Ty} (h : CloseTo tab x y) : CloseTo tab y x := by
  have hL : ∀ l : List Ty, (∀ x ∈ l, ∀ y, CloseTo tab x y → CloseTo tab y x) → ∀ l', List.Forall₂ (CloseTo tab) l l' → List.Forall₂ (CloseTo tab) l' l := by
    intro l
    induction l with
    | nil => intro _ l' h; cases h; exact .nil
    | cons a l ih =>
      intro h l' hl
      cases hl with
      | cons h1 h2 => exact .cons (h a (by simp) _ h1) (ih (fun x hx => h x (by simp [hx])) _ h2)
  revert y
  induction x using Ty.ind with
  | row c hc =>
    intro y h
    cases h with
    | refl => exact .refl _
    | coercion h1 h2 => exact .coercion h1.symm h2.symm
    | row h => exact .row (hc h)
  | tuple l hl =>
    intro y h
    cases h with
    | refl => exact .refl _
    | coercion h1 h2 => exact .coercion h1.symm h2.symm
    | tuple h => exact .tuple (hL l (fun x hx y => hl x hx) _ h)
  | _ =>
    intro y h
    cases h with
    | refl => exact .refl _
    | coercion h1 h2 => exact .coercion h1.symm h2.symm

theorem stdTab_ok : TabOK stdTab := by unfold TabOK; decide

/-- **C77.** Closeness is symmetric, and some type can be converted to both of two close types. -/
theorem C77_close {tab : CTab} {x y : Ty} (h : CloseTo tab x y) : CloseTo tab y x ∧ ∃ z, Conv tab z x ∧ Conv tab z y := ⟨close_symm h, close_common x y h⟩

/-- with the coercions of the program, types that are not close can have a common source: `int` converts to `rat` and to `Split` -/
theorem C77_close_false : ∃ x y z, Conv stdTab z x ∧ Conv stdTab z y ∧ ¬ CloseTo stdTab x y := by
  refine ⟨.prim 1, .prim 15, .prim 0, ?_, ?_, ?_⟩
  · rw [← (C77_isClose stdTab_ok _ _).2.1]; decide
  · rw [← (C77_isClose stdTab_ok _ _).2.1]; decide
  · rw [← (C77_isClose stdTab_ok _ _).2.2.2.2]; decide

/-- with the coercions of the program, conversions cannot always be composed: `vec`, `[int]`, `[Split]` -/
theorem C77_transitive_false : ∃ x y z, Conv stdTab x y ∧ Conv stdTab y z ∧ ¬ Conv stdTab x z := by
  refine ⟨.prim 4, .row (.prim 0), .row (.prim 15), ?_, ?_, ?_⟩
  · rw [← (C77_isClose stdTab_ok _ _).2.1]; decide
  · rw [← (C77_isClose stdTab_ok _ _).2.1]; decide
  · rw [← (C77_isClose stdTab_ok _ _).2.1]; decide

/-- **C77.** All coercions of the program are conversions of arguments. -/
theorem C77_std : ∀ r ∈ stdTab, Conv stdTab r.1 r.2 := by
  have : ∀ r ∈ stdTab, isClose stdTab r.1 r.2 &&& 1 ≠ 0 := by decide
  exact fun r hr => (C77_isClose stdTab_ok _ _).2.1.1 (this r hr)

/-- the variant comes before those with argument type `t` -/
def Before (tab : CTab) (t : Ty) (u : Variant) : Prop := u.arg ≠ t ∧ (CloseTo tab t u.arg → Conv tab u.arg t ∧ ¬ Conv tab t u.arg)

/-- what `locate_overload` can find -/
inductive LocOut (tab : CTab) (t : Ty) : List Variant → Nat → Res (Nat × Bool) → Prop
  | conflict {pre v post k} : (∀ u ∈ pre, Before tab t u) → Conflict tab t v.arg → LocOut tab t (pre ++ v :: post) k .throw
  | equal {pre v post k} : (∀ u ∈ pre, Before tab t u) → v.arg = t → LocOut tab t (pre ++ v :: post) k (.ok (k + pre.length, true))
  | place {pre v post k} : (∀ u ∈ pre, Before tab t u) → Conv tab t v.arg → ¬ Conv tab v.arg t → LocOut tab t (pre ++ v :: post) k (.ok (k + pre.length, false))
  | last {pre k} : (∀ u ∈ pre, Before tab t u) → LocOut tab t pre k (.ok (k + pre.length, false))

theorem LocOut.skip {tab : CTab} {t : Ty} {v : Variant} (hv : Before tab t v) {slot : List Variant} {k : Nat} {r : Res (Nat × Bool)} (h : LocOut tab t slot (k + 1) r) : LocOut tab t (v :: slot) k r := by
  have hk : ∀ pre : List Variant, k + 1 + pre.length = k + (v :: pre).length := fun pre => by rw [List.length_cons]; omega
  have hm : ∀ {pre : List Variant}, (∀ u ∈ pre, Before tab t u) → ∀ u ∈ v :: pre, Before tab t u := fun h u hu => by
    rcases List.mem_cons.1 hu with rfl | hu
    · exact hv
    · exact h u hu
  cases h with
  | conflict h1 h2 => exact .conflict (hm h1) h2
  | equal h1 h2 => rw [hk]; exact .equal (hm h1) h2
  | place h1 h2 h3 => rw [hk]; exact .place (hm h1) h2 h3
  | last h1 => rw [hk]; exact .last (hm h1)

theorem locate_spec {tab : CTab} (ht : TabOK tab) (t : Ty) : ∀ (slot : List Variant) (k : Nat), LocOut tab t slot k (locate tab t slot k)
  | [], k => .last (by simp)
  | v :: slot, k => by
    classical
    obtain ⟨h4, h5, h6, h7, h0, _, _, _⟩ := bits_eq (isClose_eq ht t v.arg)
    have ih := locate_spec ht t slot (k + 1)
    have hnc : ¬ (CloseTo tab t v.arg ∧ Conv tab t v.arg ∧ Conv tab v.arg t) → v.arg ≠ t := fun h e => h (by rw [e]; exact ⟨.refl _, .refl _, .refl _⟩)
    rw [locate]
    by_cases e6 : isClose tab t v.arg = 6
    · have := h6.1 e6
      rw [if_pos e6]
      exact ih.skip ⟨hnc (fun h => this.2.1 h.2.1), fun _ => ⟨this.2.2, this.2.1⟩⟩
    rw [if_neg e6]
    by_cases e5 : isClose tab t v.arg = 5
    · have := h5.1 e5
      rw [if_pos e5]
      exact .place (pre := []) (by simp) this.2.1 this.2.2
    rw [if_neg e5]
    by_cases e7 : isClose tab t v.arg = 7
    · have := h7.1 e7
      rw [if_pos e7]
      by_cases he : v.arg.beq t = true
      · rw [if_pos he]
        exact .equal (pre := []) (by simp) ((beq_iff _ _).1 he)
      · rw [if_neg he]
        exact .conflict (pre := []) (by simp) ⟨this.1, fun h => he ((beq_iff _ _).2 h.symm), iff_of_true this.2.1 this.2.2⟩
    rw [if_neg e7]
    by_cases e4 : isClose tab t v.arg = 4
    · have := h4.1 e4
      rw [if_pos e4]
      exact .conflict (pre := []) (by simp) ⟨this.1, (hnc (fun h => this.2.1 h.2.1)).symm, iff_of_false this.2.1 this.2.2⟩
    · rw [if_neg e4]
      refine ih.skip ⟨hnc (fun h => e7 (h7.2 h)), fun hc => ?_⟩
      by_cases c1 : Conv tab v.arg t
      · exact ⟨c1, fun c2 => e7 (h7.2 ⟨hc, c2, c1⟩)⟩
      · by_cases c2 : Conv tab t v.arg
        · exact absurd (h5.2 ⟨hc, c2, c1⟩) e5
        · exact absurd (h4.2 ⟨hc, c2, c1⟩) e4

/-- what `add` does to the list of variants -/
inductive AddOut (tab : CTab) (v : Variant) : List Variant → Res (List Variant) → Prop
  | conflict {pre u post} : (∀ u ∈ pre, Before tab v.arg u) → Conflict tab v.arg u.arg → AddOut tab v (pre ++ u :: post) .throw
  | equal {pre u post} : (∀ u ∈ pre, Before tab v.arg u) → u.arg = v.arg → AddOut tab v (pre ++ u :: post) (.ok (pre ++ v :: post))
  | place {pre u post} : (∀ u ∈ pre, Before tab v.arg u) → Conv tab v.arg u.arg → ¬ Conv tab u.arg v.arg → AddOut tab v (pre ++ u :: post) (.ok (pre ++ v :: u :: post))
  | last {pre} : (∀ u ∈ pre, Before tab v.arg u) → AddOut tab v pre (.ok (pre ++ [v]))

/-- the variants of an identifier -/
def OTab.slot (T : OTab) (id : Nat) : List Variant := (T id).getD []

theorem add_spec {tab : CTab} (ht : TabOK tab) (T : OTab) (id : Nat) (v : Variant) :
    (T.add tab id v = .throw ∧ AddOut tab v (T.slot id) .throw) ∨ ∃ l, T.add tab id v = .ok (Function.update T id (some l)) ∧ AddOut tab v (T.slot id) (.ok l) := by
  unfold OTab.add OTab.slot
  cases e : T id with
  | none => exact .inr ⟨[v], rfl, .last (pre := []) (by simp)⟩
  | some slot =>
    simp only [Option.getD_some]
    have h := locate_spec ht v.arg slot 0
    generalize locate tab v.arg slot 0 = r at h
    cases h with
    | conflict h1 h2 => exact .inl ⟨rfl, .conflict h1 h2⟩
    | equal h1 h2 =>
      rename_i pre u post
      refine .inr ⟨pre ++ v :: post, ?_, .equal h1 h2⟩
      rw [Res.ok_bind]
      simp
    | place h1 h2 h3 =>
      rename_i pre u post
      refine .inr ⟨pre ++ v :: u :: post, ?_, .place h1 h2 h3⟩
      rw [Res.ok_bind]
      simp
    | last h1 =>
      refine .inr ⟨slot ++ [v], ?_, .last h1⟩
      rw [Res.ok_bind]
      simp

theorem entry_eq (T : OTab) (id : Nat) (arg : Ty) : T.entry id arg = (T.slot id).find? fun v => v.arg.beq arg := by
  unfold OTab.entry OTab.slot
  cases T id <;> rfl

theorem slot_update (T : OTab) (id : Nat) (l : Option (List Variant)) (id' : Nat) : OTab.slot (Function.update T id l) id' = if id' = id then l.getD [] else T.slot id' := by
  unfold OTab.slot
  by_cases h : id' = id
  · rw [h, Function.update_self, if_pos rfl]
  · rw [Function.update_of_ne h, if_neg h]

/-- **C77.** After a function has been added, it is the one found for its argument type; what is found for other argument types or other names is as before. -/
theorem C77_entry {tab : CTab} (ht : TabOK tab) {T T' : OTab} {id : Nat} {v : Variant} (h : T.add tab id v = .ok T') :
    T'.entry id v.arg = some v ∧ ∀ id' arg, (id', arg) ≠ (id, v.arg) → T'.entry id' arg = T.entry id' arg := by
  rcases add_spec ht T id v with ⟨e, _⟩ | ⟨l, e, ho⟩
  · rw [h] at e; cases e
  rw [h] at e
  injection e with e
  subst e
  have hself : v.arg.beq v.arg = true := (beq_iff _ _).2 rfl
  have hpre : ∀ {pre : List Variant}, (∀ u ∈ pre, Before tab v.arg u) → pre.find? (fun u => u.arg.beq v.arg) = none := fun {pre} hp => by
    rw [List.find?_eq_none]
    intro u hu hb
    exact (hp u hu).1 ((beq_iff _ _).1 hb)
  have hoth : ∀ {arg : Ty}, arg ≠ v.arg → v.arg.beq arg = false := fun {arg} h => by
    rw [Bool.eq_false_iff]
    intro hb
    exact h ((beq_iff _ _).1 hb).symm
  refine ⟨?_, fun id' arg hne => ?_⟩
  · rw [entry_eq, slot_update, if_pos rfl]
    generalize T.slot id = s at ho
    cases ho with
    | equal h1 h2 => simp [List.find?_append, hpre h1, hself]
    | place h1 h2 h3 => simp [List.find?_append, hpre h1, hself]
    | last h1 => simp [List.find?_append, hpre h1, hself]
  · rw [entry_eq, entry_eq, slot_update]
    by_cases hid : id' = id
    · subst hid
      have ha : arg ≠ v.arg := fun h => hne (by rw [h])
      rw [if_pos rfl, Option.getD_some]
      generalize T.slot id' = s at ho
      cases ho with
      | equal h1 h2 => simp [List.find?_append, hoth ha, h2]
      | place h1 h2 h3 => simp [List.find?_append, hoth ha]
      | last h1 => simp [List.find?_append, hoth ha]
    · rw [if_neg hid]

/-- **C77.** A function is refused only if there is a conflict with a present one. -/
theorem C77_throw {tab : CTab} (ht : TabOK tab) {T : OTab} {id : Nat} {v : Variant} (h : ∀ T', T.add tab id v ≠ .ok T') : T.add tab id v = .throw ∧ ∃ u ∈ T.slot id, Conflict tab v.arg u.arg := by
  rcases add_spec ht T id v with ⟨e, ho⟩ | ⟨l, e, _⟩
  · refine ⟨e, ?_⟩
    generalize T.slot id = s at ho
    cases ho with
    | conflict h1 h2 => exact ⟨_, by simp, h2⟩
  · exact absurd e (h _)

/-- **C77**, partial: if the types concerned are consistent and in order, a function is refused exactly if there is a conflict, and else the types remain in order.  Missing: the same without assuming consistency (it is false, see
`C77_conflict_false` and `C77_order_false`). -/
theorem C77_add_partial {tab : CTab} (ht : TabOK tab) {S : Ty → Prop} (hS : Consistent tab S) {T : OTab} {id : Nat} {v : Variant} (hs : ∀ u ∈ T.slot id, S u.arg) (hv : S v.arg)
    (ho : Ordered tab ((T.slot id).map Variant.arg)) :
    (T.add tab id v = .throw ∧ ∃ u ∈ T.slot id, Conflict tab v.arg u.arg) ∨
      ∃ T', T.add tab id v = .ok T' ∧ Ordered tab ((T'.slot id).map Variant.arg) ∧ ¬ ∃ u ∈ T.slot id, Conflict tab v.arg u.arg := by
  rcases add_spec ht T id v with ⟨e, h⟩ | ⟨l, e, h⟩
  · left
    exact C77_throw ht (fun T' h' => by rw [e] at h'; cases h')
  right
  refine ⟨_, e, ?_⟩
  rw [slot_update, if_pos rfl, Option.getD_some]
  generalize T.slot id = s at h hs ho
  have hbef : ∀ {u : Variant}, Before tab v.arg u → (CloseTo tab u.arg v.arg → Conv tab u.arg v.arg ∧ ¬ Conv tab v.arg u.arg) := fun hb hc => hb.2 (close_symm hc)
  have hbc : ∀ {u : Variant}, Before tab v.arg u → ¬ Conflict tab v.arg u.arg := fun {u} hb hc => by have := hb.2 hc.1; have := hc.2.2; tauto
  unfold Ordered at ho ⊢
  cases h with
  | equal h1 h2 =>
    rename_i pre u post
    refine ⟨by simpa [h2] using ho, ?_⟩
    rintro ⟨x, hx, hc⟩
    rcases List.mem_append.1 hx with hx | hx
    · exact hbc (h1 x hx) hc
    · rcases List.mem_cons.1 hx with rfl | hx
      · exact hc.2.1 h2.symm
      · rw [List.map_append, List.map_cons, List.pairwise_append, List.pairwise_cons] at ho
        have q := ho.2.1.1 x.arg (List.mem_map.2 ⟨x, hx, rfl⟩) (by rw [h2]; exact hc.1)
        rw [h2] at q
        have := hc.2.2
        tauto
  | place h1 h2 h3 =>
    rename_i pre u post
    rw [List.map_append, List.map_cons, List.pairwise_append, List.pairwise_cons] at ho
    -- the variants after the first less specific one
    have hafter : ∀ x ∈ post, CloseTo tab v.arg x.arg → Conv tab v.arg x.arg ∧ ¬ Conv tab x.arg v.arg := fun x hx hc => by
      have hxS := hs x (by simp [hx])
      have huS := hs u (by simp)
      have q := ho.2.1.1 x.arg (List.mem_map.2 ⟨x, hx, rfl⟩) (hS.close _ _ _ hv huS hxS h2 h3 hc)
      exact ⟨hS.trans _ _ _ hv huS hxS h2 q.1, fun hxv => q.2 (hS.trans _ _ _ hxS hv huS hxv h2)⟩
    refine ⟨?_, ?_⟩
    · rw [List.map_append, List.map_cons, List.map_cons, List.pairwise_append, List.pairwise_cons, List.pairwise_cons]
      refine ⟨ho.1, ⟨fun y hy => ?_, ho.2.1⟩, fun x hx y hy => ?_⟩
      · rcases List.mem_cons.1 hy with rfl | hy
        · exact fun _ => ⟨h2, h3⟩
        · obtain ⟨z, hz, rfl⟩ := List.mem_map.1 hy
          exact hafter z hz
      · rcases List.mem_cons.1 hy with rfl | hy
        · obtain ⟨z, hz, rfl⟩ := List.mem_map.1 hx
          exact hbef (h1 z hz)
        · exact ho.2.2 x hx y hy
    · rintro ⟨x, hx, hc⟩
      rcases List.mem_append.1 hx with hx | hx
      · exact hbc (h1 x hx) hc
      · rcases List.mem_cons.1 hx with rfl | hx
        · exact h3 (hc.2.2.1 h2)
        · have := hafter x hx hc.1
          have := hc.2.2
          tauto
  | last h1 =>
    refine ⟨?_, ?_⟩
    · rw [List.map_append, List.pairwise_append]
      refine ⟨ho, by simp, fun x hx y hy => ?_⟩
      obtain ⟨z, hz, rfl⟩ := List.mem_map.1 hx
      simp only [List.map_cons, List.map_nil, List.mem_singleton] at hy
      subst hy
      exact hbef (h1 z hz)
    · rintro ⟨x, hx, hc⟩
      exact hbc (h1 x hx) hc

theorem eraseFirst_spec (arg : Ty) : ∀ slot : List Variant,
    (eraseFirst arg slot = none ∧ ∀ u ∈ slot, u.arg ≠ arg) ∨ ∃ pre u post, slot = pre ++ u :: post ∧ (∀ u ∈ pre, u.arg ≠ arg) ∧ u.arg = arg ∧ eraseFirst arg slot = some (pre ++ post)
  | [] => .inl ⟨rfl, by simp⟩
  | v :: slot => by
    rw [eraseFirst]
    by_cases h : v.arg.beq arg = true
    · rw [if_pos h]
      exact .inr ⟨[], v, slot, rfl, by simp, (beq_iff _ _).1 h, rfl⟩
    · have hne : v.arg ≠ arg := fun e => h ((beq_iff _ _).2 e)
      rw [if_neg h]
      rcases eraseFirst_spec arg slot with ⟨e, q⟩ | ⟨pre, u, post, q1, q2, q3, q4⟩
      · refine .inl ⟨by rw [e]; rfl, fun u hu => ?_⟩
        rcases List.mem_cons.1 hu with rfl | hu
        · exact hne
        · exact q u hu
      · refine .inr ⟨v :: pre, u, post, by rw [q1]; rfl, fun x hx => ?_, q3, by rw [q4]; rfl⟩
        rcases List.mem_cons.1 hx with rfl | hx
        · exact hne
        · exact q2 x hx

/-- what `remove` does to the lists of variants -/
theorem remove_spec (T : OTab) (id : Nat) (arg : Ty) :
    ((T.remove id arg) = (false, T) ∧ ∀ u ∈ T.slot id, u.arg ≠ arg) ∨
    ∃ pre u post, T.slot id = pre ++ u :: post ∧ (∀ u ∈ pre, u.arg ≠ arg) ∧ u.arg = arg ∧ (T.remove id arg).1 = true ∧ ∀ id', (T.remove id arg).2.slot id' = if id' = id then pre ++ post else T.slot id' := by
  unfold OTab.remove
  cases e : T id with
  | none => exact .inl ⟨rfl, by simp [OTab.slot, e]⟩
  | some slot =>
    have hs : T.slot id = slot := by simp [OTab.slot, e]
    simp only []
    rcases eraseFirst_spec arg slot with ⟨q, q'⟩ | ⟨pre, u, post, q1, q2, q3, q4⟩
    · rw [q]
      exact .inl ⟨rfl, by rw [hs]; exact q'⟩
    · rw [q4]
      refine .inr ⟨pre, u, post, by rw [hs, q1], q2, q3, ?_⟩
      cases hl : pre ++ post with
      | nil => exact ⟨rfl, fun id' => by rw [slot_update]; rfl⟩
      | cons x l => exact ⟨rfl, fun id' => by rw [slot_update]; rfl⟩

theorem ordered_nodup {tab : CTab} {l : List Ty} (h : Ordered tab l) : l.Nodup := List.Pairwise.imp (fun h e => by subst e; have := h (.refl _); tauto) h

/-- **C77.** `remove` reports whether there was a function for the argument type; it changes nothing else; if the types were in order they remain so, and no function for the argument type remains. -/
theorem C77_remove {tab : CTab} (T : OTab) (id : Nat) (arg : Ty) : ((T.remove id arg).1 = true ↔ ∃ u, T.entry id arg = some u) ∧
    (∀ id' arg', (id', arg') ≠ (id, arg) → (T.remove id arg).2.entry id' arg' = T.entry id' arg') ∧
    (Ordered tab ((T.slot id).map Variant.arg) → Ordered tab (((T.remove id arg).2.slot id).map Variant.arg) ∧ (T.remove id arg).2.entry id arg = none) := by
  rcases remove_spec T id arg with ⟨e, h⟩ | ⟨pre, u, post, h1, h2, h3, h4, h5⟩
  · have hn : T.entry id arg = none := by
      rw [entry_eq, List.find?_eq_none]
      intro u hu hb
      exact h u hu ((beq_iff _ _).1 hb)
    rw [e]
    exact ⟨by simp [hn], fun _ _ _ => rfl, fun ho => ⟨ho, hn⟩⟩
  · have hpre : ∀ {l : List Variant}, (∀ u ∈ l, u.arg ≠ arg) → l.find? (fun u => u.arg.beq arg) = none := fun {l} hp => by
      rw [List.find?_eq_none]
      intro u hu hb
      exact hp u hu ((beq_iff _ _).1 hb)
    refine ⟨?_, fun id' arg' hne => ?_, fun ho => ?_⟩
    · have hb : u.arg.beq arg = true := (beq_iff _ _).2 h3
      rw [h4, entry_eq, h1]
      simp [List.find?_append, hpre h2, hb]
    · rw [entry_eq, entry_eq, h5]
      by_cases hid : id' = id
      · subst hid
        rw [if_pos rfl, h1]
        have hb : u.arg.beq arg' = false := by
          rw [Bool.eq_false_iff]
          intro hb
          exact hne (by rw [← (beq_iff _ _).1 hb, h3])
        simp [List.find?_append, hb]
      · rw [if_neg hid]
    · have hn := ordered_nodup ho
      rw [h1, List.map_append, List.map_cons] at ho hn
      refine ⟨?_, ?_⟩
      · rw [h5, if_pos rfl, List.map_append]
        exact List.Pairwise.sublist (by simp) ho
      · rw [entry_eq, h5, if_pos rfl]
        refine hpre fun x hx => ?_
        rcases List.mem_append.1 hx with hx | hx
        · exact h2 x hx
        · intro hxa
          rw [List.nodup_append, List.nodup_cons] at hn
          exact hn.2.1.1 (List.mem_map.2 ⟨x, hx, by rw [hxa, h3]⟩)

/-- **C77**, partial: in all tables that result from adding and removing functions with argument types from a consistent set, the types are in order.  Missing: the same for all types (it is false, see `C77_order_false`). -/
theorem C77_reach_partial {tab : CTab} (ht : TabOK tab) {S : Ty → Prop} (hS : Consistent tab S) {T : OTab} (h : Reach tab S T) : ∀ id, (∀ u ∈ T.slot id, S u.arg) ∧ Ordered tab ((T.slot id).map Variant.arg) := by
  induction h with
  | empty => intro id; simp [OTab.slot, Ordered]
  | @add T T' id v hT hv e ih =>
    intro id'
    rcases add_spec ht T id v with ⟨e', h⟩ | ⟨l, e', h⟩
    · rw [e] at e'; cases e'
    · have h2 := C77_add_partial ht hS (ih id).1 hv (ih id).2
      rw [e] at e' h2
      rcases h2 with ⟨q, _⟩ | ⟨T2, q, q2, _⟩
      · cases q
      · injection q with q
        subst q
        injection e' with e'
        subst e'
        by_cases hid : id' = id
        · subst hid
          refine ⟨fun u hu => ?_, q2⟩
          rw [slot_update, if_pos rfl, Option.getD_some] at hu
          have := (ih id').1
          generalize T.slot id' = s at h this
          cases h <;> (simp only [List.mem_append, List.mem_cons, List.not_mem_nil, or_false] at hu this) <;> rcases hu with hu | hu <;> first | (subst hu; exact hv) | (exact this u (by tauto)) | (rcases hu with rfl | hu <;> first | exact hv | exact this u (by tauto))
        · rw [slot_update, if_neg hid]
          exact ih id'
  | @remove T id arg hT ih =>
    intro id'
    by_cases hid : id' = id
    · subst hid
      refine ⟨fun u hu => ?_, ((C77_remove (tab := tab) T id' arg).2.2 (ih id').2).1⟩
      rcases remove_spec T id' arg with ⟨e, _⟩ | ⟨pre, x, post, h1, _, _, _, h5⟩
      · rw [e] at hu; exact (ih id').1 u hu
      · rw [h5, if_pos rfl] at hu
        refine (ih id').1 u ?_
        rw [h1]
        simp only [List.mem_append, List.mem_cons] at hu ⊢
        tauto
    · have : (T.remove id arg).2.slot id' = T.slot id' := by
        rcases remove_spec T id arg with ⟨e, _⟩ | ⟨pre, x, post, h1, _, _, _, h5⟩
        · rw [e]
        · rw [h5, if_neg hid]
      rw [this]
      exact ih id'

/-- **C77.** If the types are in order, the function chosen for an argument that needs conversion is a best one: it has no type variables, the argument can be converted to its argument type, and there is no other such function that is
more specific. If none is chosen, there is none. -/
theorem C77_inexact {tab : CTab} (ht : TabOK tab) (slot : List Variant) (ho : Ordered tab (slot.map Variant.arg)) (t : Ty) :
    match inexact tab t slot with
    | some v => v ∈ slot ∧ v.degree = 0 ∧ Conv tab t v.arg ∧ ∀ u ∈ slot, u.degree = 0 → Conv tab t u.arg → Conv tab u.arg v.arg → u = v
    | none => ∀ u ∈ slot, u.degree = 0 → ¬ Conv tab t u.arg := by
  have hp : ∀ u : Variant, (u.degree == 0 && (isClose tab t u.arg &&& 1) != 0) = true ↔ u.degree = 0 ∧ Conv tab t u.arg := fun u => by
    rw [Bool.and_eq_true, beq_iff_eq, bne_iff_ne, (C77_isClose ht t u.arg).2.1]
  cases e : inexact tab t slot with
  | none =>
    simp only []
    intro u hu hd hc
    have := List.find?_eq_none.1 e u hu
    exact this ((hp u).2 ⟨hd, hc⟩)
  | some v =>
    simp only []
    obtain ⟨h1, pre, post, h2, h3⟩ := List.find?_eq_some_iff_append.1 e
    have h1 := (hp v).1 h1
    refine ⟨by rw [h2]; simp, h1.1, h1.2, fun u hu hd hc huv => ?_⟩
    rw [h2] at hu ho
    rcases List.mem_append.1 hu with hu | hu
    · have := h3 u hu
      rw [Bool.not_eq_true', Bool.eq_false_iff] at this
      exact absurd ((hp u).2 ⟨hd, hc⟩) this
    · rcases List.mem_cons.1 hu with rfl | hu
      · rfl
      · rw [List.map_append, List.map_cons] at ho
        have q := ((List.pairwise_append.1 ho).2.1.imp (fun h => h))
        rw [List.pairwise_cons] at q
        have := q.1 u.arg (List.mem_map.2 ⟨u, hu, rfl⟩) (conv_close _ _ huv).2
        exact absurd huv this.2

/-! ### What can happen with the coercions of the program -/

/-- functions with argument types `([Split],rat)`, `(vec,int)`, `([int],rat)` -/
def exU : Variant := ⟨1, .tuple [.row (.prim 15), .prim 1], .prim 0, 0⟩
def exV : Variant := ⟨2, .tuple [.prim 4, .prim 0], .prim 0, 0⟩
def exT : Variant := ⟨3, .tuple [.row (.prim 0), .prim 1], .prim 0, 0⟩

/-- tables for the single name 0 -/
def oneName (l : List Variant) : OTab := Function.update (fun _ => none) 0 (some l)

theorem add_one {tab : CTab} {l l' : List Variant} {v : Variant} (i : Nat) (b : Bool) (h : locate tab v.arg l 0 = .ok (i, b)) (hl : (if b then l.set i v else l.take i ++ v :: l.drop i) = l') :
    (oneName l).add tab 0 v = .ok (oneName l') := by
  unfold OTab.add oneName
  rw [Function.update_self]
  simp only []
  rw [h, Res.ok_bind]
  cases b <;> simp only [Bool.false_eq_true, if_true, if_false] at hl ⊢ <;> rw [hl, Function.update_idem]

def exA : Variant := ⟨1, .row (.prim 15), .prim 0, 0⟩
def exB : Variant := ⟨2, .prim 4, .prim 0, 0⟩
def exC : Variant := ⟨3, .row (.prim 0), .prim 0, 0⟩

/-- a conflict may not be noticed: after functions for `([Split])`-like rows and for `vec`, one for `[int]` is accepted, although `vec` and `[int]` can be converted to each other -/
theorem C77_conflict_false : ∃ (T T' : OTab) (v : Variant), Reach stdTab (fun _ => True) T ∧ (∃ u ∈ T.slot 0, Conflict stdTab v.arg u.arg) ∧ T.add stdTab 0 v = .ok T' := by
  refine ⟨oneName [exA, exB], oneName [exC, exA, exB], exC, ?_, ⟨exB, by simp [oneName, OTab.slot], ?_, by simp [exB, exC], ?_⟩, add_one 0 false rfl rfl⟩
  · exact .add (id := 0) (v := exB) (.add (id := 0) (v := exA) .empty trivial (T' := oneName [exA]) rfl) trivial (add_one 1 false rfl rfl)
  · rw [← (C77_isClose stdTab_ok _ _).2.2.2.1]; decide
  · rw [← (C77_isClose stdTab_ok _ _).2.1, ← (C77_isClose stdTab_ok _ _).2.1]; decide

theorem exReach : Reach stdTab (fun _ => True) (oneName [exT, exU, exV]) :=
  .add (id := 0) (v := exT) (.add (id := 0) (v := exV) (.add (id := 0) (v := exU) .empty trivial (T' := oneName [exU]) rfl) trivial (T' := oneName [exU, exV]) (add_one 1 false rfl rfl)) trivial (add_one 0 false rfl rfl)

/-- the types may get out of order: a more specific type comes after a less specific one, and then the less specific function is chosen for an argument of type `([int],int)` -/
theorem C77_order_false : ∃ (T : OTab) (u v : Variant) (t : Ty), Reach stdTab (fun _ => True) T ∧ u ∈ T.slot 0 ∧ inexact stdTab t (T.slot 0) = some v ∧ u.degree = 0 ∧ Conv stdTab t u.arg ∧
    Conv stdTab u.arg v.arg ∧ ¬ Conv stdTab v.arg u.arg := by
  refine ⟨_, exV, exT, .tuple [.row (.prim 0), .prim 0], exReach, by simp [oneName, OTab.slot], rfl, rfl, ?_, ?_, ?_⟩
  · rw [← (C77_isClose stdTab_ok _ _).2.1]; decide
  · rw [← (C77_isClose stdTab_ok _ _).2.1]; decide
  · rw [← (C77_isClose stdTab_ok _ _).2.1]; decide

/-- redefining a function may leave the old definition in place, and `remove` then makes it visible again -/
theorem C77_remove_false : ∃ (T : OTab) (arg : Ty), Reach stdTab (fun _ => True) T ∧ (T.remove 0 arg).1 = true ∧ ∃ u, (T.remove 0 arg).2.entry 0 arg = some u := by
  let w : Variant := { exV with val := 4 }
  refine ⟨oneName [w, exT, exU, exV], exV.arg, .add (id := 0) (v := w) exReach trivial (add_one 0 false rfl rfl), rfl, exV, rfl⟩

/-! ### A consistent set of types: `(int,int)`, `(int,rat)`, `(rat,rat)`, `[int]`, `[rat]`, `string` -/

def exTypes : List Ty := [.tuple [.prim 0, .prim 0], .tuple [.prim 0, .prim 1], .tuple [.prim 1, .prim 1], .row (.prim 0), .row (.prim 1), .prim 2]

example : Consistent stdTab (· ∈ exTypes) := by
  have h1 : ∀ x ∈ exTypes, ∀ y ∈ exTypes, ∀ z ∈ exTypes, isClose stdTab x y &&& 1 ≠ 0 → isClose stdTab y z &&& 1 ≠ 0 → isClose stdTab x z &&& 1 ≠ 0 := by decide +kernel
  have h2 : ∀ x ∈ exTypes, ∀ y ∈ exTypes, ∀ z ∈ exTypes, isClose stdTab x y &&& 1 ≠ 0 → ¬ isClose stdTab y x &&& 1 ≠ 0 → isClose stdTab x z &&& 4 ≠ 0 → isClose stdTab y z &&& 4 ≠ 0 := by decide +kernel
  constructor
  · intro x y z hx hy hz
    rw [← (C77_isClose stdTab_ok x y).2.1, ← (C77_isClose stdTab_ok y z).2.1, ← (C77_isClose stdTab_ok x z).2.1]
    exact h1 x hx y hy z hz
  · intro x y z hx hy hz
    rw [← (C77_isClose stdTab_ok x y).2.1, ← (C77_isClose stdTab_ok y x).2.1, ← (C77_isClose stdTab_ok x z).2.2.2.1, ← (C77_isClose stdTab_ok y z).2.2.2.1]
    exact h2 x hx y hy z hz

end Verif.Axis
