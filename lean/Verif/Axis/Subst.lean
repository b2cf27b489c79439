import Verif.Axis.Unify
/-
`renumber` and `substitution`.
-/
namespace Verif.Axis
open Verif

theorem filter_some_none : ∀ l : List (Option Ty), (l.filter Option.isSome).length + (l.filter Option.isNone).length = l.length
  | [] => rfl
  | none :: l => by have := filter_some_none l; simp; omega
  | some _ :: l => by have := filter_some_none l; simp; omega

theorem renumberLoop_ok (E : TA) : ∀ j i, j ≤ E.threshold + E.size → E.renumberLoop j i = .ok (i - ((E.equiv.take (j - E.threshold)).filter Option.isSome).length)
  | 0, i, _ => by simp [TA.renumberLoop]
  | j + 1, i, h => by
    rw [TA.renumberLoop]
    by_cases ht : E.threshold ≤ j
    · have hl : j - E.threshold < E.equiv.length := by unfold TA.size at h; omega
      rw [if_pos ht, Vec.get_ok hl, Res.ok_bind, renumberLoop_ok E j _ (by omega)]
      rw [show j + 1 - E.threshold = j - E.threshold + 1 by omega, List.take_add_one, List.getElem?_eq_getElem hl, List.filter_append, List.length_append]
      cases e : E.equiv[j - E.threshold] with
      | none => simp
      | some p => simp; omega
    · rw [if_neg ht, show j + 1 - E.threshold = 0 by omega]
      simp

theorem renumber_ok {E : TA} {i : Nat} (h : i ≤ E.threshold + E.size) : E.renumber i = .ok (E.number i) := by
  rw [TA.renumber, renumberLoop_ok E i i h, TA.number]
  by_cases ht : i < E.threshold
  · rw [if_pos ht, show i - E.threshold = 0 by omega]; simp
  · rw [if_neg ht]
    have := filter_some_none (E.equiv.take (i - E.threshold))
    rw [List.length_take, Nat.min_eq_left (by unfold TA.size at h; omega)] at this
    congr 1
    omega

/-- free variables in increasing order get increasing numbers -/
theorem number_lt {E : TA} {i j : Nat} (hi : E.look i = none) (hi2 : i < E.threshold + E.size) (h : i < j) : E.number i < E.number j := by
  unfold TA.number
  by_cases hj : j < E.threshold
  · rw [if_pos hj, if_pos (by omega)]; exact h
  · rw [if_neg hj]
    by_cases ht : i < E.threshold
    · rw [if_pos ht]; omega
    · rw [if_neg ht]
      have hl : i - E.threshold < E.equiv.length := by unfold TA.size at hi2; omega
      unfold TA.look at hi
      rw [if_neg ht, List.getElem?_eq_getElem hl] at hi
      have hx : E.equiv[i - E.threshold] = none := by simpa using hi
      have h1 : ((E.equiv.take (i - E.threshold + 1)).filter Option.isNone).length = ((E.equiv.take (i - E.threshold)).filter Option.isNone).length + 1 := by
        rw [List.take_add_one, List.getElem?_eq_getElem hl, List.filter_append, List.length_append, hx]; rfl
      have h2 : (E.equiv.take (i - E.threshold + 1)).Sublist (E.equiv.take (j - E.threshold)) := List.take_sublist_take_left (by omega)
      have := (h2.filter Option.isNone).length_le
      omega

theorem number_inj {E : TA} {i j : Nat} (hi : E.look i = none) (hi2 : i < E.threshold + E.size) (hj : E.look j = none) (hj2 : j < E.threshold + E.size) (h : E.number i = E.number j) : i = j := by
  rcases Nat.lt_trichotomy i j with q | q | q
  · have := number_lt hi hi2 q; omega
  · exact q
  · have := number_lt hj hj2 q; omega

theorem substitution_ok (nd : Bool) {E : TA} (hE : E.Good) {w : Nat → Nat} (hw : IsWt E w) {σ : Nat → Ty} (hσ : IsRes E σ) :
    ∀ (fuel : Nat) (t : Ty) (sh : Nat), Full t → (∀ v ∈ vars t, v + sh < E.threshold + E.size) → wt (fun v => w (v + sh)) t ≤ fuel →
      E.substitution nd fuel t sh = .ok (subst (fun v => .var (E.number v)) (subst (fun v => σ (v + sh)) t)) := by
  have hL : ∀ (k sh : Nat), (∀ t, Full t → (∀ v ∈ vars t, v + sh < E.threshold + E.size) → wt (fun v => w (v + sh)) t ≤ k →
        E.substitution nd k t sh = .ok (subst (fun v => .var (E.number v)) (subst (fun v => σ (v + sh)) t))) → ∀ l : List Ty,
      (∀ t ∈ l, Full t ∧ ∀ v ∈ vars t, v + sh < E.threshold + E.size) → wtL (fun v => w (v + sh)) l ≤ k →
      mapLoop (fun t => E.substitution nd k t sh) l = .ok (substL (fun v => .var (E.number v)) (substL (fun v => σ (v + sh)) l)) := by
    intro k sh ih l
    induction l with
    | nil => intros; simp [mapLoop, substL]
    | cons a l ih2 =>
      intro h1 h2
      rw [wtL] at h2
      rw [mapLoop, ih a (h1 a (by simp)).1 (h1 a (by simp)).2 (by omega), Res.ok_bind, ih2 (fun t ht => h1 t (by simp [ht])) (by omega)]
      rfl
  intro fuel
  induction fuel with
  | zero => intro t sh _ _ h; have := wt_pos (w := fun v => w (v + sh)) (fun v => hw.1 _) t; omega
  | succ k ih =>
    intro t sh hF hv h
    cases t with
    | undet => rw [Full] at hF; exact hF.elim
    | prim n => simp [TA.substitution, subst]
    | var n =>
      have hn : n + sh < E.threshold + E.size := hv n (by simp [vars])
      rw [TA.substitution, equivalent_ok nd hn, Res.ok_bind]
      cases e : E.look (n + sh) with
      | none => simp only [subst, hσ.none e]; rw [renumber_ok (by omega)]; rfl
      | some p =>
        simp only [subst, hσ.some e]
        have := hw.2 _ p e
        rw [wt] at h
        have hk := hE.known _ p (look_iff.1 e)
        exact ih p 0 hk.1 hk.2 (show wt w p ≤ k by omega)
    | func a r =>
      rw [wt] at h
      rw [TA.substitution, ih a sh hF.1 (fun v q => hv v (by simp [vars, q])) (by omega), Res.ok_bind, ih r sh hF.2 (fun v q => hv v (by simp [vars, q])) (by omega)]
      rfl
    | row c => rw [wt] at h; rw [TA.substitution, ih c sh hF hv (by omega)]; rfl
    | tuple l =>
      rw [wt] at h
      rw [TA.substitution, hL k sh (fun t => ih t sh) l (fun t ht => ⟨fullL_iff.1 hF t ht, fun v q => hv v (mem_varsL.2 ⟨t, ht, q⟩)⟩) (by omega)]
      rfl
    | union l =>
      rw [wt] at h
      rw [TA.substitution, hL k sh (fun t => ih t sh) l (fun t ht => ⟨fullL_iff.1 hF t ht, fun v q => hv v (mem_varsL.2 ⟨t, ht, q⟩)⟩) (by omega)]
      rfl

/-- what remains in a resolved type is free and known -/
theorem res_free {E : TA} (hE : E.Good) {σ : Nat → Ty} (hσ : IsRes E σ) (i : Nat) : ∀ v ∈ vars (σ i), E.look v = none ∧ (i < E.threshold + E.size → v < E.threshold + E.size) := by
  induction i using hE.acyclic.induction with
  | _ i ih =>
    intro v hv
    cases e : E.look i with
    | none => rw [hσ.none e] at hv; simp only [vars, List.mem_singleton] at hv; subst hv; exact ⟨e, id⟩
    | some p =>
      rw [hσ.some e, mem_vars_subst] at hv
      obtain ⟨k, hk, hv⟩ := hv
      have := ih k (uses_iff.2 ⟨p, e, hk⟩) v hv
      exact ⟨this.1, fun _ => this.2 ((hE.known i p (look_iff.1 e)).2 k hk)⟩

end Verif.Axis
