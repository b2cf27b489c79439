import Verif.Axis.Basic
/-
`is_free_in`, `set_equivalent`, `unify`: termination and correctness.
-/
namespace Verif.Axis
open Verif

/-- `is_free_in` tells whether the variable remains when all references are followed -/
theorem isFree_ok (nd : Bool) {E : TA} (hE : E.Good) {w : Nat → Nat} (hw : IsWt E w) {σ : Nat → Ty} (hσ : IsRes E σ) (nr : Nat) :
    ∀ (fuel : Nat) (t : Ty), Known E t → wt w t ≤ fuel → E.isFree nd fuel t nr = .ok (decide (nr ∈ vars (subst σ t))) := by
  have hL : ∀ (k : Nat), (∀ t, Known E t → wt w t ≤ k → E.isFree nd k t nr = .ok (decide (nr ∈ vars (subst σ t)))) → ∀ l : List Ty,
      (∀ t ∈ l, Known E t) → wtL w l ≤ k → anyLoop (fun t => E.isFree nd k t nr) l = .ok (decide (nr ∈ varsL (substL σ l))) := by
    intro k ih l
    induction l with
    | nil => intros; simp [anyLoop, substL, varsL]
    | cons a l ih2 =>
      intro h1 h2
      rw [wtL] at h2
      rw [anyLoop, ih a (h1 a (by simp)) (by omega), Res.ok_bind, ih2 (fun t ht => h1 t (by simp [ht])) (by omega)]
      simp only [substL, varsL, List.mem_append]
      by_cases h : nr ∈ vars (subst σ a) <;> simp [h]
  intro fuel
  induction fuel with
  | zero => intro t _ h; have := wt_pos hw.1 t; omega
  | succ k ih =>
    intro t ht h
    cases t with
    | undet => simp [TA.isFree, subst, vars]
    | prim n => simp [TA.isFree, subst, vars]
    | var n =>
      have hn : n < E.threshold + E.size := ht.2 n (by simp [vars])
      rw [TA.isFree, equivalent_ok nd hn, Res.ok_bind]
      cases e : E.look n with
      | none => simp only [subst, hσ.none e, vars, List.mem_singleton]; congr 1; rw [decide_eq_decide.2 (eq_comm (a := nr) (b := n))]; rfl
      | some p =>
        simp only [subst, hσ.some e]
        have := hw.2 n p e
        rw [wt] at h
        exact ih p (hE.known n p (look_iff.1 e)) (by omega)
    | func a r =>
      rw [wt] at h
      rw [TA.isFree, ih a ⟨ht.1.1, fun v hv => ht.2 v (by simp [vars, hv])⟩ (by omega), Res.ok_bind, ih r ⟨ht.1.2, fun v hv => ht.2 v (by simp [vars, hv])⟩ (by omega)]
      simp only [subst, vars, List.mem_append]
      by_cases h : nr ∈ vars (subst σ a) <;> simp [h]
    | row c => rw [wt] at h; rw [TA.isFree, ih c ht (by omega)]; rfl
    | tuple l =>
      rw [wt] at h
      rw [TA.isFree]
      exact hL k ih l (fun t h1 => ⟨fullL_iff.1 ht.1 t h1, fun v hv => ht.2 v (mem_varsL.2 ⟨t, h1, hv⟩)⟩) (by omega)
    | union l =>
      rw [wt] at h
      rw [TA.isFree]
      exact hL k ih l (fun t h1 => ⟨fullL_iff.1 ht.1 t h1, fun v hv => ht.2 v (mem_varsL.2 ⟨t, h1, hv⟩)⟩) (by omega)

/-- number of variables without assignment -/
def TA.open_ (E : TA) : Nat := (E.equiv.filter Option.isNone).length

/-- the variable plays a role in the assignments -/
def TA.Scope (E : TA) (v : Nat) : Prop := (∃ p, E.Assigned v p) ∨ ∃ i, E.Uses v i

/-- what a call of `unify` does, for types with the given variables and an equation with solutions `U` -/
structure UOut (E : TA) (VP VQ : List Nat) (U : (Nat → Ty) → Prop) (b : Bool) (E' : TA) : Prop where
  good : E'.Good
  ext : Extends E E'
  sound : b = true → ∀ θ, Solves E' θ ↔ Solves E θ ∧ U θ
  complete : b = false → Fresh E VP VQ → ∀ θ, Solves E θ → ¬ U θ
  fewer : E' = E ∨ E'.open_ < E.open_
  scope : ∀ v, E'.Scope v → E.Scope v ∨ v ∈ VP ∨ v ∈ VQ

theorem Extends.refl (E : TA) : Extends E E := ⟨rfl, rfl, fun _ _ h => h⟩
theorem Extends.trans {E1 E2 E3 : TA} (h : Extends E1 E2) (h' : Extends E2 E3) : Extends E1 E3 :=
  ⟨h'.threshold.trans h.threshold, h'.size.trans h.size, fun i p q => h'.assigned i p (h.assigned i p q)⟩
theorem Extends.known {E E' : TA} (h : Extends E E') {t : Ty} (ht : Known E t) : Known E' t := ⟨ht.1, fun v hv => by rw [h.threshold, h.size]; exact ht.2 v hv⟩

/-- the part of the right side that is still to be treated remains fresh -/
theorem UOut.fresh {E E1 : TA} {VP1 VQ1 VP2 VQ2 : List Nat} {U : (Nat → Ty) → Prop} {b : Bool} (h : UOut E VP1 VQ1 U b E1) (hf : Fresh E (VP1 ++ VP2) (VQ1 ++ VQ2)) :
    Fresh E VP1 VQ1 ∧ Fresh E1 VP2 VQ2 := by
  have ho := hf.once
  rw [List.filter_append] at ho
  have hd : ∀ v ∈ VQ2, E.threshold ≤ v → ¬ E1.Scope v := fun v hv ht hs => by
    rcases h.scope v hs with (⟨p, q⟩ | ⟨i, q⟩) | q | q
    · exact hf.free v (by simp [hv]) ht p q
    · exact hf.unused v (by simp [hv]) ht i q
    · exact hf.left v (by simp [hv]) ht (by simp [q])
    · exact (List.nodup_append.1 ho).2.2 v (by simp [q, ht]) v (by simp [hv, ht]) rfl
  refine ⟨⟨(List.nodup_append.1 ho).1, fun v hv ht q => hf.left v (by simp [hv]) ht (by simp [q]), fun v hv => hf.free v (by simp [hv]), fun v hv => hf.unused v (by simp [hv])⟩, ?_⟩
  have e := h.ext.threshold
  refine ⟨by rw [e]; exact (List.nodup_append.1 ho).2.1, fun v hv ht q => hf.left v (by simp [hv]) (by omega) (by simp [q]), fun v hv ht p q => hd v hv (by omega) (.inl ⟨p, q⟩),
    fun v hv ht i q => hd v hv (by omega) (.inr ⟨i, q⟩)⟩

theorem UOut.seq {E E1 E2 : TA} {VP1 VQ1 VP2 VQ2 : List Nat} {U1 U2 : (Nat → Ty) → Prop} {b : Bool} (h1 : UOut E VP1 VQ1 U1 true E1) (h2 : UOut E1 VP2 VQ2 U2 b E2) :
    UOut E (VP1 ++ VP2) (VQ1 ++ VQ2) (fun θ => U1 θ ∧ U2 θ) b E2 := by
  refine ⟨h2.good, h1.ext.trans h2.ext, fun hb θ => ?_, fun hb hf θ hθ hu => ?_, ?_, fun v hv => ?_⟩
  · rw [h2.sound hb, h1.sound rfl, and_assoc]
  · exact h2.complete hb (h1.fresh hf).2 θ ((h1.sound rfl θ).2 ⟨hθ, hu.1⟩) hu.2
  · rcases h1.fewer with rfl | q
    · exact h2.fewer
    · rcases h2.fewer with rfl | q'
      · exact .inr q
      · exact .inr (q'.trans q)
  · rcases h2.scope v hv with q | q | q
    · rcases h1.scope v q with q | q | q
      · exact .inl q
      · exact .inr (.inl (by simp [q]))
      · exact .inr (.inr (by simp [q]))
    · exact .inr (.inl (by simp [q]))
    · exact .inr (.inr (by simp [q]))

theorem UOut.fail {E E1 : TA} {VP1 VQ1 VP2 VQ2 : List Nat} {U1 U2 : (Nat → Ty) → Prop} (h1 : UOut E VP1 VQ1 U1 false E1) :
    UOut E (VP1 ++ VP2) (VQ1 ++ VQ2) (fun θ => U1 θ ∧ U2 θ) false E1 := by
  refine ⟨h1.good, h1.ext, fun hb => (by cases hb), fun _ hf θ hθ hu => h1.complete rfl (h1.fresh hf).1 θ hθ hu.1, h1.fewer, fun v hv => ?_⟩
  rcases h1.scope v hv with q | q | q
  · exact .inl q
  · exact .inr (.inl (by simp [q]))
  · exact .inr (.inr (by simp [q]))

/-- nothing is assigned -/
theorem UOut.keep {E : TA} (hE : E.Good) {VP VQ : List Nat} {U : (Nat → Ty) → Prop} {b : Bool} (h1 : b = true → ∀ θ, U θ) (h2 : b = false → Fresh E VP VQ → ∀ θ, Solves E θ → ¬ U θ) :
    UOut E VP VQ U b E :=
  ⟨hE, .refl E, fun hb θ => ⟨fun h => ⟨h, h1 hb θ⟩, fun h => h.1⟩, h2, .inl rfl, fun _ h => .inl h⟩

theorem UOut.congr {E E' : TA} {VP VQ : List Nat} {U U' : (Nat → Ty) → Prop} {b : Bool} (h : UOut E VP VQ U b E') (hU : ∀ θ, U θ ↔ U' θ) : UOut E VP VQ U' b E' := by
  have : U = U' := funext fun θ => propext (hU θ)
  rwa [← this]

theorem open_set : ∀ (l : List (Option Ty)) (i : Nat) (t : Ty), l[i]? = some none → ((l.set i (some t)).filter Option.isNone).length < (l.filter Option.isNone).length
  | [], i, t, h => by simp at h
  | x :: l, 0, t, h => by
    simp only [List.getElem?_cons_zero, Option.some.injEq] at h
    rw [h]
    simp
  | x :: l, i + 1, t, h => by
    have := open_set l i t (by simpa using h)
    rw [List.set_cons_succ, List.filter_cons, List.filter_cons]
    by_cases hx : x.isNone = true
    · rw [if_pos hx, if_pos hx, List.length_cons, List.length_cons]; omega
    · rw [if_neg hx, if_neg hx]; exact this

/-- `set_equivalent` for a variable that is not assigned -/
theorem setEquivalent_ok (nd : Bool) {E : TA} (hE : E.Good) {p : Nat} (hp : E.threshold ≤ p) (hp2 : p < E.threshold + E.size) (hn : E.look p = none) {Q : Ty} (hQ : Known E Q)
    (hne : Q ≠ .var p) :
    ∃ b E' F, (∀ fuel, F ≤ fuel → E.setEquivalent nd fuel p Q = .ok (b, E')) ∧ E'.Good ∧ Extends E E' ∧ (b = true → ∀ θ, Solves E' θ ↔ Solves E θ ∧ θ p = subst θ Q) ∧
      (b = false → ∀ θ, Solves E θ → θ p = subst θ Q → ∃ q, Q = .var q ∧ ∃ t, E.Assigned q t) ∧
      (E' = E ∨ E'.open_ < E.open_) ∧ (∀ v, E'.Scope v → E.Scope v ∨ v = p ∨ v ∈ vars Q) := by
  obtain ⟨w, hw⟩ := exists_wt hE.acyclic
  obtain ⟨σ, hσ⟩ := exists_res hE.acyclic
  have hfree := fun fuel (h : wt w Q ≤ fuel) => isFree_ok nd hE hw hσ p fuel Q hQ h
  have hassert : (decide (E.threshold ≤ p) && decide (p < E.threshold + E.size)) = true := by simp [hp, hp2]
  by_cases hin : p ∈ vars (subst σ Q)
  · refine ⟨false, E, wt w Q, fun fuel hf => ?_, hE, .refl E, by simp, fun _ θ hθ he => ?_, .inl rfl, fun _ h => .inl h⟩
    · unfold TA.setEquivalent
      rw [Res.assertIn_bind nd hassert, hfree fuel hf, Res.ok_bind]
      simp [hin]
    · rw [← solves_res hE.acyclic hσ hθ Q] at he
      by_cases hv : (subst σ Q).isVar = true
      · cases Q with
        | var q =>
          refine ⟨q, rfl, ?_⟩
          cases e : E.look q with
          | some t => exact ⟨t, look_iff.1 e⟩
          | none =>
            rw [subst, hσ.none e, vars, List.mem_singleton] at hin
            exact absurd (by rw [hin]) hne
        | _ => simp [subst, Ty.isVar] at hv
      · have := sz_subst_lt (θ := θ) hin (by simpa using hv)
        rw [← he] at this
        exact absurd this (lt_irrefl _)
  · have hget : E.equiv[p - E.threshold]? = some none := by
      have hl : p - E.threshold < E.equiv.length := by unfold TA.size at hp2; omega
      have := hn
      unfold TA.look at this
      rw [if_neg (by omega), List.getElem?_eq_getElem hl] at this
      rw [List.getElem?_eq_getElem hl]
      simpa using this
    have hl := (List.getElem?_eq_some_iff.1 hget).1
    set E' : TA := { E with equiv := E.equiv.set (p - E.threshold) (some Q) } with hE'
    have hlook : ∀ i, E'.look i = if i = p then some Q else E.look i := fun i => by
      unfold TA.look
      simp only [hE']
      by_cases hi : i < E.threshold
      · rw [if_pos hi, if_pos hi, if_neg (by omega)]
      · rw [if_neg hi, if_neg hi, List.getElem?_set]
        by_cases hip : i = p
        · rw [if_pos (by rw [hip]), if_pos hl, if_pos hip]; rfl
        · rw [if_neg (by omega), if_neg hip]
    have hsz : E'.size = E.size := by simp [TA.size, hE']
    have hext : Extends E E' := ⟨rfl, hsz, fun i t h => by
      rw [← look_iff] at h ⊢
      rw [hlook, if_neg (by rintro rfl; rw [hn] at h; cases h), h]⟩
    have huse : ∀ i j, E'.Uses j i ↔ if i = p then j ∈ vars Q else E.Uses j i := fun i j => by
      rw [uses_iff, hlook]
      by_cases hip : i = p
      · simp [hip]
      · rw [if_neg hip, if_neg hip, uses_iff]
    have hacc : ∀ v, p ∉ vars (σ v) → Acc E'.Uses v := fun v => by
      induction v using hE.acyclic.induction with
      | _ v ih =>
        intro hv
        have hvp : v ≠ p := by rintro rfl; rw [hσ.none hn] at hv; simp [vars] at hv
        refine ⟨_, fun k hk => ?_⟩
        rw [huse, if_neg hvp] at hk
        refine ih k hk fun hpk => hv ?_
        obtain ⟨t, e, hkt⟩ := uses_iff.1 hk
        rw [hσ.some e, mem_vars_subst]
        exact ⟨k, hkt, hpk⟩
    have haccp : Acc E'.Uses p := ⟨_, fun k hk => by
      rw [huse, if_pos rfl] at hk
      exact hacc k fun hpk => hin ((mem_vars_subst Q).2 ⟨k, hk, hpk⟩)⟩
    have hwf : WellFounded E'.Uses := ⟨fun v => by
      induction v using hE.acyclic.induction with
      | _ v ih =>
        by_cases hvp : v = p
        · rw [hvp]; exact haccp
        · exact ⟨_, fun k hk => by rw [huse, if_neg hvp] at hk; exact ih k hk⟩⟩
    refine ⟨true, E', wt w Q, fun fuel hf => ?_, ⟨fun i t h => ?_, hwf⟩, hext, fun _ θ => ?_, by simp, .inr ?_, fun v hv => ?_⟩
    · unfold TA.setEquivalent
      rw [Res.assertIn_bind nd hassert, hfree fuel hf, Res.ok_bind]
      simp only [hin, decide_false, Bool.false_eq_true, if_false]
      rw [Vec.put_ok hl, Res.ok_bind]
    · rw [← look_iff, hlook] at h
      by_cases hip : i = p
      · rw [if_pos hip] at h; cases h; exact hext.known hQ
      · rw [if_neg hip] at h; exact hext.known (hE.known i t (look_iff.1 h))
    · constructor
      · rintro ⟨q1, q2⟩
        exact ⟨⟨q1, fun i t h => q2 i t (hext.assigned i t h)⟩, q2 p Q (look_iff.1 (by rw [hlook, if_pos rfl]))⟩
      · rintro ⟨⟨q1, q2⟩, q3⟩
        refine ⟨q1, fun i t h => ?_⟩
        rw [← look_iff, hlook] at h
        by_cases hip : i = p
        · rw [if_pos hip] at h; cases h; rw [hip]; exact q3
        · rw [if_neg hip] at h; exact q2 i t (look_iff.1 h)
    · exact open_set _ _ _ hget
    · rcases hv with ⟨t, h⟩ | ⟨i, h⟩
      · rw [← look_iff, hlook] at h
        by_cases hip : v = p
        · exact .inr (.inl hip)
        · rw [if_neg hip] at h; exact .inl (.inl ⟨t, look_iff.1 h⟩)
      · rw [huse] at h
        by_cases hip : i = p
        · rw [if_pos hip] at h; exact .inr (.inr h)
        · rw [if_neg hip] at h; exact .inl (.inr ⟨i, h⟩)

/-- a call of `unify` ends, and does what is expected -/
def Stmt (nd : Bool) (E : TA) (P Q : Ty) : Prop :=
  ∃ b E' F, (∀ fuel, F ≤ fuel → unify nd fuel E P Q = .ok (b, E')) ∧ UOut E (vars P) (vars Q) (fun θ => Unifies θ P Q) b E'

/-- recursive calls allowed: for the same assignment with smaller types, or with fewer free variables -/
def Rec (nd : Bool) (E : TA) (w : Nat → Nat) (m : Nat) : Prop :=
  ∀ E1 : TA, E1.Good → (E1 = E ∨ E1.open_ < E.open_) → ∀ P Q, Known E1 P → Known E1 Q → (E1 = E → wt w P + wt w Q < m) → Stmt nd E1 P Q

theorem fewer_trans {E E1 E2 : TA} (h : E1 = E ∨ E1.open_ < E.open_) (h' : E2 = E1 ∨ E2.open_ < E1.open_) : E2 = E ∨ E2.open_ < E.open_ := by
  rcases h with rfl | h
  · exact h'
  · rcases h' with rfl | h'
    · exact .inr h
    · exact .inr (h'.trans h)

theorem unifyList_ok (nd : Bool) {E : TA} {w : Nat → Nat} (hw : ∀ v, 0 < w v) {m : Nat} (ih : Rec nd E w m) : ∀ (lp lq : List Ty) (E1 : TA), E1.Good → (E1 = E ∨ E1.open_ < E.open_) →
    (∀ t ∈ lp, Known E1 t) → (∀ t ∈ lq, Known E1 t) → wtL w lp + wtL w lq < m →
    ∃ b E' F, (∀ fuel, F ≤ fuel → unifyList (unify nd fuel) E1 lp lq = .ok (b, E')) ∧ UOut E1 (varsL lp) (varsL lq) (fun θ => substL θ lp = substL θ lq) b E'
  | [], [], E1, hE, _, _, _, _ => ⟨true, E1, 0, fun _ _ => rfl, .keep hE (fun _ _ => rfl) (by simp)⟩
  | [], _ :: _, E1, hE, _, _, _, _ => ⟨false, E1, 0, fun _ _ => rfl, .keep hE (by simp) (fun _ _ θ _ => by simp [substL])⟩
  | _ :: _, [], E1, hE, _, _, _, _ => ⟨false, E1, 0, fun _ _ => rfl, .keep hE (by simp) (fun _ _ θ _ => by simp [substL])⟩
  | p :: lp, q :: lq, E1, hE, hf, hp, hq, hm => by
    rw [wtL, wtL] at hm
    obtain ⟨b, E2, F, e, h⟩ := ih E1 hE hf p q (hp p (by simp)) (hq q (by simp)) (fun _ => by omega)
    have hU : ∀ θ, (Unifies θ p q ∧ substL θ lp = substL θ lq) ↔ substL θ (p :: lp) = substL θ (q :: lq) := fun θ => by simp [Unifies, substL]
    cases b with
    | false =>
      refine ⟨false, E2, F, fun fuel hF => ?_, ?_⟩
      · rw [unifyList, e fuel hF, Res.ok_bind]; rfl
      · exact (UOut.fail (U2 := fun θ => substL θ lp = substL θ lq) h).congr hU
    | true =>
      obtain ⟨b, E3, F', e', h'⟩ := unifyList_ok nd hw ih lp lq E2 h.good (fewer_trans hf h.fewer) (fun t ht => h.ext.known (hp t (by simp [ht]))) (fun t ht => h.ext.known (hq t (by simp [ht])))
        (by omega)
      refine ⟨b, E3, max F F', fun fuel hF => ?_, (h.seq h').congr hU⟩
      rw [unifyList, e fuel (by omega), Res.ok_bind]
      exact e' fuel (by omega)

/-- the right side is a variable, the left side is not one that can be assigned -/
theorem unifyRight_ok (nd : Bool) {E : TA} (hE : E.Good) {w : Nat → Nat} (hw : IsWt E w) {P Q : Ty} (hP : Known E P) (hQ : Known E Q) (ih : Rec nd E w (wt w P + wt w Q))
    (hc : ∀ p, P = .var p → p < E.threshold ∧ Q ≠ .var p) (hv : P.isVar = true ∨ Q.isVar = true) :
    ∃ b E' F, (∀ fuel, F ≤ fuel → unifyRight (unify nd fuel) nd fuel E P Q = .ok (b, E')) ∧ UOut E (vars P) (vars Q) (fun θ => Unifies θ P Q) b E' := by
  -- the left side remains of the same form
  have hform : ∀ θ, Solves E θ → ∀ q, (∀ p, P = .var p → q ≠ p) → subst θ P ≠ .var q := fun θ hθ q hq => by
    cases P with
    | var p => rw [subst, hθ.1 p (hc p rfl).1]; intro h; exact hq p rfl (by injection h with h; exact h.symm)
    | _ => simp [subst]
  by_cases hQv : ∃ q, Q = .var q
  · obtain ⟨q, rfl⟩ := hQv
    have hq2 : q < E.threshold + E.size := hQ.2 q (by simp [vars])
    by_cases hq : E.threshold ≤ q
    · cases e : E.look q with
      | some t =>
        have hA := look_iff.1 e
        obtain ⟨b, E', F, e', h⟩ := ih E hE (.inl rfl) P t hP (hE.known q t hA) (fun _ => by have := hw.2 q t e; rw [wt]; omega)
        refine ⟨b, E', F, fun fuel hF => ?_, h.good, h.ext, fun hb θ => ?_, fun _ hf => absurd hA (hf.free q (by simp [vars]) hq t), h.fewer, fun v hv => ?_⟩
        · rw [unifyRight, if_pos hq, equivalent_ok nd hq2, e, Res.ok_bind]
          exact e' fuel hF
        · rw [h.sound hb]
          refine and_congr_right fun hθ => ?_
          rw [Unifies, Unifies, subst, hθ.2 q t hA]
        · rcases h.scope v hv with s | s | s
          · exact .inl s
          · exact .inr (.inl s)
          · exact .inl (.inr ⟨q, t, hA, s⟩)
      | none =>
        obtain ⟨b, E', F, e', h1, h2, h3, h4, h5, h6⟩ := setEquivalent_ok nd hE hq hq2 e hP (fun h => (hc q h).2 rfl)
        refine ⟨b, E', F, fun fuel hF => ?_, h1, h2, fun hb θ => ?_, fun hb _ θ hθ hu => ?_, h5, fun v hv => ?_⟩
        · rw [unifyRight, if_pos hq, equivalent_ok nd hq2, e, Res.ok_bind]
          exact e' fuel hF
        · rw [h3 hb, Unifies, subst, eq_comm (a := θ q)]
        · obtain ⟨p, hp, t, ht⟩ := h4 hb θ hθ (by rw [Unifies, subst] at hu; exact hu.symm)
          have := (hc p hp).1
          have := ht.1
          omega
        · rcases h6 v hv with s | s | s
          · exact .inl s
          · exact .inr (.inr (by simp [vars, s]))
          · exact .inr (.inl s)
    · refine ⟨false, E, 0, fun fuel _ => ?_, .keep hE (by simp) (fun _ _ θ hθ hu => ?_)⟩
      · rw [unifyRight, if_neg hq]
      · rw [Unifies, subst, hθ.1 q (by omega)] at hu
        exact hform θ hθ q (fun p hp h => (hc p hp).2 (by rw [h])) hu
  · refine ⟨false, E, 0, fun fuel _ => ?_, .keep hE (by simp) (fun _ _ θ hθ hu => ?_)⟩
    · cases Q with
      | var q => exact absurd ⟨q, rfl⟩ hQv
      | _ => rfl
    · have hPv : P.isVar = true := by
        rcases hv with h | h
        · exact h
        · cases Q with
          | var q => exact absurd ⟨q, rfl⟩ hQv
          | _ => simp [Ty.isVar] at h
      cases P with
      | var p =>
        rw [Unifies, subst, hθ.1 p (hc p rfl).1] at hu
        cases Q with
        | var q => exact hQv ⟨q, rfl⟩
        | _ => simp [subst] at hu
      | _ => simp [Ty.isVar] at hPv

theorem unifyVar_ok (nd : Bool) {E : TA} (hE : E.Good) {w : Nat → Nat} (hw : IsWt E w) {P Q : Ty} (hP : Known E P) (hQ : Known E Q) (ih : Rec nd E w (wt w P + wt w Q))
    (hv : P.isVar = true ∨ Q.isVar = true) :
    ∃ b E' F, (∀ fuel, F ≤ fuel → unifyVar (unify nd fuel) nd fuel E P Q = .ok (b, E')) ∧ UOut E (vars P) (vars Q) (fun θ => Unifies θ P Q) b E' := by
  by_cases hPv : ∃ p, P = .var p
  · obtain ⟨p, rfl⟩ := hPv
    have hp2 : p < E.threshold + E.size := hP.2 p (by simp [vars])
    by_cases hpq : Q = .var p
    · refine ⟨true, E, 0, fun fuel _ => ?_, .keep hE (fun _ θ => by rw [Unifies, hpq]) (by simp)⟩
      rw [hpq, unifyVar, if_pos (by simp [Ty.isThe])]
    · have hne : ¬ Q.isThe p = true := by
        cases Q with
        | var q => simp only [Ty.isThe, beq_iff_eq]; rintro rfl; exact hpq rfl
        | _ => simp [Ty.isThe]
      by_cases hp : E.threshold ≤ p
      · cases e : E.look p with
        | some t =>
          have hA := look_iff.1 e
          obtain ⟨b, E', F, e', h⟩ := ih E hE (.inl rfl) t Q (hE.known p t hA) hQ (fun _ => by have := hw.2 p t e; rw [wt]; omega)
          have hU : ∀ θ, Solves E θ → (Unifies θ t Q ↔ Unifies θ (.var p) Q) := fun θ hθ => by rw [Unifies, Unifies, subst, hθ.2 p t hA]
          refine ⟨b, E', F, fun fuel hF => ?_, h.good, h.ext, fun hb θ => ?_, fun hb hf θ hθ => ?_, h.fewer, fun v hv => ?_⟩
          · rw [unifyVar, if_neg hne, if_pos hp, equivalent_ok nd hp2, e, Res.ok_bind]
            exact e' fuel hF
          · rw [h.sound hb]
            exact and_congr_right (hU θ)
          · rw [← hU θ hθ]
            exact h.complete hb ⟨hf.once, fun v hv ht q => hf.unused v hv ht p ⟨t, hA, q⟩, hf.free, hf.unused⟩ θ hθ
          · rcases h.scope v hv with s | s | s
            · exact .inl s
            · exact .inl (.inr ⟨p, t, hA, s⟩)
            · exact .inr (.inr s)
        | none =>
          obtain ⟨b, E', F, e', h1, h2, h3, h4, h5, h6⟩ := setEquivalent_ok nd hE hp hp2 e hQ hpq
          refine ⟨b, E', F, fun fuel hF => ?_, h1, h2, fun hb θ => ?_, fun hb hf θ hθ hu => ?_, h5, fun v hv => ?_⟩
          · rw [unifyVar, if_neg hne, if_pos hp, equivalent_ok nd hp2, e, Res.ok_bind]
            exact e' fuel hF
          · rw [h3 hb, Unifies, subst]
          · obtain ⟨q, rfl, t, ht⟩ := h4 hb θ hθ hu
            exact hf.free q (by simp [vars]) ht.1 t ht
          · rcases h6 v hv with s | s | s
            · exact .inl s
            · exact .inr (.inl (by simp [vars, s]))
            · exact .inr (.inr s)
      · obtain ⟨b, E', F, e', h⟩ := unifyRight_ok nd hE hw hP hQ ih (fun p' h => by cases h; exact ⟨by omega, hpq⟩) hv
        refine ⟨b, E', F, fun fuel hF => ?_, h⟩
        rw [unifyVar, if_neg hne, if_neg hp]
        exact e' fuel hF
  · obtain ⟨b, E', F, e', h⟩ := unifyRight_ok nd hE hw hP hQ ih (fun p' h => absurd ⟨p', h⟩ hPv) hv
    refine ⟨b, E', F, fun fuel hF => ?_, h⟩
    have : unifyVar (unify nd fuel) nd fuel E P Q = unifyRight (unify nd fuel) nd fuel E P Q := by
      cases P with
      | var p => exact absurd ⟨p, rfl⟩ hPv
      | _ => rfl
    rw [this]
    exact e' fuel hF

theorem Known.func_iff {E : TA} {a r : Ty} : Known E (.func a r) ↔ Known E a ∧ Known E r := by
  simp only [Known, Full, vars, List.mem_append]
  constructor
  · rintro ⟨⟨h1, h2⟩, h3⟩; exact ⟨⟨h1, fun v hv => h3 v (.inl hv)⟩, h2, fun v hv => h3 v (.inr hv)⟩
  · rintro ⟨⟨h1, h2⟩, h3, h4⟩; exact ⟨⟨h1, h3⟩, fun v hv => hv.elim (h2 v) (h4 v)⟩

theorem Known.tuple {E : TA} {l : List Ty} (h : Known E (.tuple l)) : ∀ t ∈ l, Known E t := fun t ht => ⟨fullL_iff.1 h.1 t ht, fun v hv => h.2 v (mem_varsL.2 ⟨t, ht, hv⟩)⟩
theorem Known.union {E : TA} {l : List Ty} (h : Known E (.union l)) : ∀ t ∈ l, Known E t := fun t ht => ⟨fullL_iff.1 h.1 t ht, fun v hv => h.2 v (mem_varsL.2 ⟨t, ht, hv⟩)⟩

theorem unify_step (nd : Bool) {E : TA} (hE : E.Good) {w : Nat → Nat} (hw : IsWt E w) {P Q : Ty} (hP : Known E P) (hQ : Known E Q) (ih : Rec nd E w (wt w P + wt w Q)) : Stmt nd E P Q := by
  have hu : (!P.isUndet && !Q.isUndet) = true := by
    have h : ∀ {t}, Known E t → (!t.isUndet) = true := fun {t} ht => by
      cases t with
      | undet => have := ht.1; rw [Full] at this; exact this.elim
      | _ => rfl
    rw [h hP, h hQ]; rfl
  by_cases hv : P.isVar = true ∨ Q.isVar = true
  · obtain ⟨b, E', F, e, h⟩ := unifyVar_ok nd hE hw hP hQ ih hv
    refine ⟨b, E', F + 1, fun fuel hF => ?_, h⟩
    obtain ⟨k, rfl⟩ : ∃ k, fuel = k + 1 := ⟨fuel - 1, by omega⟩
    rw [unify, Res.assertIn_bind nd hu, if_pos (by simpa using hv)]
    exact e k (by omega)
  · have hv' : ¬ (P.isVar || Q.isVar) = true := by simpa using hv
    -- different kinds of types
    have hdiff : (∀ k, unify nd (k + 1) E P Q = .ok (false, E)) → (∀ θ, subst θ P ≠ subst θ Q) → Stmt nd E P Q := fun e h =>
      ⟨false, E, 1, fun fuel hF => by obtain ⟨k, rfl⟩ : ∃ k, fuel = k + 1 := ⟨fuel - 1, by omega⟩; exact e k, .keep hE (by simp) (fun _ _ θ _ => h θ)⟩
    have hun : ∀ k, unify nd (k + 1) E P Q = unifyKinds (unify nd k) E P Q := fun k => by rw [unify, Res.assertIn_bind nd hu, if_neg hv']
    cases P with
    | undet => simp [Ty.isUndet] at hu
    | var p => simp [Ty.isVar] at hv
    | prim m =>
      cases Q with
      | undet => simp [Ty.isUndet] at hu
      | var p => simp [Ty.isVar] at hv
      | prim n =>
        refine ⟨m == n, E, 1, fun fuel hF => ?_, .keep hE (fun h θ => by simp only [beq_iff_eq] at h; rw [Unifies, h]) (fun h _ θ _ => by simp only [beq_eq_false_iff_ne, ne_eq] at h; simp [Unifies, subst, h])⟩
        obtain ⟨k, rfl⟩ : ∃ k, fuel = k + 1 := ⟨fuel - 1, by omega⟩
        exact hun k
      | _ => exact hdiff hun (fun θ => by simp [subst])
    | row c =>
      cases Q with
      | undet => simp [Ty.isUndet] at hu
      | var p => simp [Ty.isVar] at hv
      | row c' =>
        obtain ⟨b, E', F, e, h⟩ := ih E hE (.inl rfl) c c' hP hQ (fun _ => by rw [wt, wt]; omega)
        refine ⟨b, E', F + 1, fun fuel hF => ?_, h.congr fun θ => by simp [Unifies, subst]⟩
        obtain ⟨k, rfl⟩ : ∃ k, fuel = k + 1 := ⟨fuel - 1, by omega⟩
        rw [hun k]
        exact e k (by omega)
      | _ => exact hdiff hun (fun θ => by simp [subst])
    | func a r =>
      cases Q with
      | undet => simp [Ty.isUndet] at hu
      | var p => simp [Ty.isVar] at hv
      | func a' r' =>
        rw [Known.func_iff] at hP hQ
        obtain ⟨b, E', F, e, h⟩ := ih E hE (.inl rfl) a a' hP.1 hQ.1 (fun _ => by rw [wt, wt]; have := wt_pos hw.1 r; omega)
        have hU : ∀ θ, (Unifies θ a a' ∧ Unifies θ r r') ↔ Unifies θ (.func a r) (.func a' r') := fun θ => by simp [Unifies, subst]
        cases b with
        | false =>
          refine ⟨false, E', F + 1, fun fuel hF => ?_, (UOut.fail (U2 := fun θ => Unifies θ r r') h).congr hU⟩
          obtain ⟨k, rfl⟩ : ∃ k, fuel = k + 1 := ⟨fuel - 1, by omega⟩
          rw [hun k]
          rw [unifyKinds]
          rw [e k (by omega), Res.ok_bind]
          rfl
        | true =>
          obtain ⟨b, E2, F', e', h'⟩ := ih E' h.good h.fewer r r' (h.ext.known hP.2) (h.ext.known hQ.2) (fun _ => by rw [wt, wt]; have := wt_pos hw.1 a; omega)
          refine ⟨b, E2, max F F' + 1, fun fuel hF => ?_, (h.seq h').congr hU⟩
          obtain ⟨k, rfl⟩ : ∃ k, fuel = k + 1 := ⟨fuel - 1, by omega⟩
          rw [hun k]
          rw [unifyKinds]
          rw [e k (by omega), Res.ok_bind]
          exact e' k (by omega)
      | _ => exact hdiff hun (fun θ => by simp [subst])
    | tuple l =>
      cases Q with
      | undet => simp [Ty.isUndet] at hu
      | var p => simp [Ty.isVar] at hv
      | tuple l' =>
        obtain ⟨b, E', F, e, h⟩ := unifyList_ok nd hw.1 ih l l' E hE (.inl rfl) hP.tuple hQ.tuple (by rw [wt, wt]; omega)
        refine ⟨b, E', F + 1, fun fuel hF => ?_, h.congr fun θ => by simp [Unifies, subst]⟩
        obtain ⟨k, rfl⟩ : ∃ k, fuel = k + 1 := ⟨fuel - 1, by omega⟩
        rw [hun k]
        exact e k (by omega)
      | _ => exact hdiff hun (fun θ => by simp [subst])
    | union l =>
      cases Q with
      | undet => simp [Ty.isUndet] at hu
      | var p => simp [Ty.isVar] at hv
      | union l' =>
        obtain ⟨b, E', F, e, h⟩ := unifyList_ok nd hw.1 ih l l' E hE (.inl rfl) hP.union hQ.union (by rw [wt, wt]; omega)
        refine ⟨b, E', F + 1, fun fuel hF => ?_, h.congr fun θ => by simp [Unifies, subst]⟩
        obtain ⟨k, rfl⟩ : ∃ k, fuel = k + 1 := ⟨fuel - 1, by omega⟩
        rw [hun k]
        exact e k (by omega)
      | _ => exact hdiff hun (fun θ => by simp [subst])

theorem unify_ok (nd : Bool) (n : Nat) : ∀ E : TA, E.Good → E.open_ = n → ∀ P Q, Known E P → Known E Q → Stmt nd E P Q := by
  induction n using Nat.strong_induction_on with
  | _ n ihn =>
    intro E hE hn
    obtain ⟨w, hw⟩ := exists_wt hE.acyclic
    have key : ∀ m, ∀ P Q, Known E P → Known E Q → wt w P + wt w Q = m → Stmt nd E P Q := fun m => by
      induction m using Nat.strong_induction_on with
      | _ m ihm =>
        intro P Q hP hQ hm
        refine unify_step nd hE hw hP hQ fun E1 hE1 h P1 Q1 hP1 hQ1 hlt => ?_
        rcases h with rfl | h
        · exact ihm _ (by have := hlt rfl; omega) P1 Q1 hP1 hQ1 rfl
        · exact ihn _ (by omega) E1 hE1 rfl P1 Q1 hP1 hQ1
    intro P Q hP hQ
    exact key _ P Q hP hQ rfl

end Verif.Axis
