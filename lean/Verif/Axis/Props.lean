import Verif.Axis.Subst
/-
C75: unification of types.
-/
namespace Verif.Axis
open Verif

theorem lookMake (fix degree i : Nat) : (TA.make fix degree).look i = none := by
  unfold TA.look TA.make
  simp only []
  by_cases h : i < fix
  · rw [if_pos h]
  · rw [if_neg h, List.getElem?_replicate]
    by_cases h' : i - fix < degree
    · rw [if_pos h']; rfl
    · rw [if_neg h']; rfl

/-- **C75.** A new assignment satisfies the invariant, and imposes nothing but that constants are kept. -/
theorem C75_make (fix degree : Nat) : (TA.make fix degree).Good ∧ ∀ θ, Solves (TA.make fix degree) θ ↔ ∀ i < fix, θ i = .var i := by
  have hn : ∀ i p, ¬ (TA.make fix degree).Assigned i p := fun i p h => by rw [← look_iff, lookMake] at h; cases h
  exact ⟨⟨fun i p h => absurd h (hn i p), ⟨fun v => ⟨_, fun k ⟨p, h, _⟩ => absurd h (hn v p)⟩⟩⟩, fun θ => ⟨fun h => h.1, fun h => ⟨h, fun i p q => absurd q (hn i p)⟩⟩⟩

/-- **C75.** `unify` always ends, keeps the invariant and all earlier assignments; if it succeeds, the assignment expresses exactly that the types are equal: it has the same solutions as the earlier assignment together with the
equation. -/
theorem C75_unify (nd : Bool) {E : TA} (hE : E.Good) {P Q : Ty} (hP : Known E P) (hQ : Known E Q) :
    ∃ b E' F, (∀ fuel, F ≤ fuel → unify nd fuel E P Q = .ok (b, E')) ∧ E'.Good ∧ Extends E E' ∧ (b = true → ∀ θ, Solves E' θ ↔ Solves E θ ∧ Unifies θ P Q) := by
  obtain ⟨b, E', F, e, h⟩ := unify_ok nd _ E hE rfl P Q hP hQ
  exact ⟨b, E', F, e, h.good, h.ext, h.sound⟩

/-- **C75**, partial: if the variables of the second type that can be assigned are new and occur once, `unify` fails only if the types cannot be made equal.  Missing: the same for all types (it is false, see `C75_unify_false`). -/
theorem C75_unify_partial (nd : Bool) {E : TA} (hE : E.Good) {P Q : Ty} (hP : Known E P) (hQ : Known E Q) (hf : Fresh E (vars P) (vars Q)) :
    ∃ b E' F, (∀ fuel, F ≤ fuel → unify nd fuel E P Q = .ok (b, E')) ∧ (b = true ↔ ∃ θ, Solves E θ ∧ Unifies θ P Q) := by
  obtain ⟨b, E', F, e, h⟩ := unify_ok nd _ E hE rfl P Q hP hQ
  refine ⟨b, E', F, e, fun hb => ?_, fun ⟨θ, h1, h2⟩ => ?_⟩
  · obtain ⟨σ, hσ⟩ := exists_res h.good.acyclic
    exact ⟨σ, (h.sound hb σ).1 hσ.solves⟩
  · cases b with
    | true => rfl
    | false => exact absurd h2 (h.complete rfl hf θ h1)

/-- `unify` can fail for types that can be made equal: `(A,A,B,B)` and `(C,D,D,C)`, which have no variables in common -/
theorem C75_unify_false : ∃ (P Q : Ty) (E : TA), E.Good ∧ Known E P ∧ Known E Q ∧ (∀ v ∈ vars P, v ∉ vars Q) ∧ (∃ θ, Solves E θ ∧ Unifies θ P Q) ∧
    ∀ nd, ∃ E' F, ∀ fuel, F ≤ fuel → unify nd fuel E P Q = .ok (false, E') := by
  have hP : Known (TA.make 0 4) (.tuple [.var 0, .var 0, .var 1, .var 1]) := by constructor <;> simp [Full, FullL, vars, varsL, TA.make, TA.size]
  have hQ : Known (TA.make 0 4) (.tuple [.var 2, .var 3, .var 3, .var 2]) := by constructor <;> simp [Full, FullL, vars, varsL, TA.make, TA.size]
  refine ⟨.tuple [.var 0, .var 0, .var 1, .var 1], .tuple [.var 2, .var 3, .var 3, .var 2], TA.make 0 4, (C75_make 0 4).1, hP, hQ, by simp [vars, varsL],
    ⟨fun _ => .prim 0, by rw [(C75_make 0 4).2]; simp, rfl⟩, fun nd => ?_⟩
  obtain ⟨b, E', F, e, _⟩ := C75_unify nd (C75_make 0 4).1 hP hQ
  refine ⟨E', F, fun fuel hF => ?_⟩
  have h := e (F + 8) (by omega)
  rw [e fuel hF]
  have h2 : ∃ E2, unify nd (F + 8) (TA.make 0 4) (.tuple [.var 0, .var 0, .var 1, .var 1]) (.tuple [.var 2, .var 3, .var 3, .var 2]) = .ok (false, E2) := by
    cases nd <;> exact ⟨_, rfl⟩
  obtain ⟨E2, h2⟩ := h2
  rw [h2] at h
  injection h with h
  injection h with h _
  rw [← h]

/-- **C75.** The number given to a free type variable: constants keep theirs, the others are numbered consecutively in their order. -/
theorem C75_number (E : TA) : (∀ i < E.threshold, E.number i = i) ∧ (∀ i j, (∀ p, ¬ E.Assigned i p) → i < E.threshold + E.size → i < j → E.number i < E.number j) ∧
    ∀ i, i ≤ E.threshold + E.size → E.renumber i = .ok (E.number i) ∧ E.number i ≤ E.threshold + (E.equiv.filter Option.isNone).length := by
  refine ⟨fun i h => by rw [TA.number, if_pos h], fun i j h h2 h3 => ?_, fun i h => ⟨renumber_ok h, ?_⟩⟩
  · refine number_lt ?_ h2 h3
    cases e : E.look i with
    | none => rfl
    | some p => exact absurd (look_iff.1 e) (h p)
  · unfold TA.number
    by_cases ht : i < E.threshold
    · rw [if_pos ht]; omega
    · rw [if_neg ht]
      have := ((List.take_sublist (i - E.threshold) E.equiv).filter Option.isNone).length_le
      omega

/-- **C75.** `substitution` always ends, and gives the most general instance of a type that agrees with the assignment, its variables renumbered.  With `sh` the variables of the type itself are shifted first. -/
theorem C75_substitution (nd : Bool) {E : TA} (hE : E.Good) : ∃ σ : Nat → Ty, Solves E σ ∧ (∀ θ, Solves E θ → ∀ t, subst θ (subst σ t) = subst θ t) ∧ (∀ i, ∀ v ∈ vars (σ i), ∀ p, ¬ E.Assigned v p) ∧
    ∀ (t : Ty) (sh : Nat), Full t → (∀ v ∈ vars t, v + sh < E.threshold + E.size) → ∃ F, ∀ fuel, F ≤ fuel →
      E.substitution nd fuel t sh = .ok (subst (fun v => .var (E.number v)) (subst (fun v => σ (v + sh)) t)) := by
  obtain ⟨w, hw⟩ := exists_wt hE.acyclic
  obtain ⟨σ, hσ⟩ := exists_res hE.acyclic
  refine ⟨σ, hσ.solves, fun θ hθ t => solves_res hE.acyclic hσ hθ t, fun i v hv p hp => ?_, fun t sh hF hv => ⟨wt (fun v => w (v + sh)) t, fun fuel h => substitution_ok nd hE hw hσ fuel t sh hF hv h⟩⟩
  have := (res_free hE hσ i v hv).1
  rw [← look_iff, this] at hp
  cases hp

/-- **C75.** After `unify` has succeeded, `substitution` gives the same type for both types, and this is their most general common instance: the common instances of the two types (that agree with the earlier assignment) are its
instances. -/
theorem C75_mgu (nd : Bool) {E : TA} (hE : E.Good) {P Q : Ty} (hP : Known E P) (hQ : Known E Q) {E' : TA} {fuel : Nat} (hlarge : ∀ k, fuel ≤ k → unify nd k E P Q = .ok (true, E')) :
    ∃ R F, (∀ k, F ≤ k → E'.substitution nd k P 0 = .ok R ∧ E'.substitution nd k Q 0 = .ok R) ∧
      ∀ t, (∃ θ, Solves E θ ∧ subst θ P = t ∧ subst θ Q = t) ↔ ∃ τ : Nat → Ty, (∀ i < E.threshold, τ i = .var i) ∧ subst τ R = t := by
  obtain ⟨b, E2, F0, e, hg, hx, hs⟩ := C75_unify nd hE hP hQ
  have e0 := e (max F0 fuel) (by omega)
  rw [hlarge _ (by omega)] at e0
  injection e0 with e0
  injection e0 with e1 e2
  subst e1 e2
  have hs := hs rfl
  obtain ⟨w, hw⟩ := exists_wt hg.acyclic
  obtain ⟨σ, hσ⟩ := exists_res hg.acyclic
  have hPQ : subst σ P = subst σ Q := ((hs σ).1 hσ.solves).2
  have hP' := hx.known hP
  have hQ' := hx.known hQ
  have s1 := fun k (h : wt w P ≤ k) => substitution_ok nd hg hw hσ k P 0 hP'.1 hP'.2 h
  have s2 := fun k (h : wt w Q ≤ k) => substitution_ok nd hg hw hσ k Q 0 hQ'.1 hQ'.2 h
  simp only [Nat.add_zero] at s1 s2
  refine ⟨subst (fun v => .var (E'.number v)) (subst σ P), max (wt w P) (wt w Q), fun k hk => ⟨s1 k (by omega), ?_⟩, fun t => ⟨?_, ?_⟩⟩
  · rw [s2 k (by omega), hPQ]
  · rintro ⟨θ, h1, h2, h3⟩
    have h1' := (hs θ).2 ⟨h1, h2.trans h3.symm⟩
    -- the variable with the given number
    classical
    let τ : Nat → Ty := fun n => if n < E.threshold then .var n else if h : ∃ v, E'.look v = none ∧ v < E'.threshold + E'.size ∧ E'.number v = n then θ h.choose else .undet
    refine ⟨τ, fun i hi => if_pos hi, ?_⟩
    rw [subst_subst, ← h2, ← solves_res hg.acyclic hσ h1' P]
    refine subst_congr _ fun v hv => ?_
    obtain ⟨i, hi, hv⟩ := (mem_vars_subst P).1 hv
    obtain ⟨f1, f2⟩ := res_free hg hσ i v hv
    have f2 := f2 (hP'.2 i hi)
    simp only [subst, τ]
    by_cases ht : E'.number v < E.threshold
    · have hvt : v < E'.threshold := by
        by_contra hc
        have ht' := ht
        rw [TA.number, if_neg hc, hx.threshold] at ht'
        omega
      rw [if_pos ht, TA.number, if_pos hvt, h1.1 v (by rw [← hx.threshold]; exact hvt)]
    · have hex : ∃ u, E'.look u = none ∧ u < E'.threshold + E'.size ∧ E'.number u = E'.number v := ⟨v, f1, f2, rfl⟩
      rw [if_neg ht, dif_pos hex]
      obtain ⟨q1, q2, q3⟩ := hex.choose_spec
      rw [number_inj q1 q2 f1 f2 q3]
  · rintro ⟨τ, h1, h2⟩
    refine ⟨fun v => subst τ (subst (fun v => .var (E'.number v)) (σ v)), ?_⟩
    have hθ : ∀ t, subst (fun v => subst τ (subst (fun v => .var (E'.number v)) (σ v))) t = subst τ (subst (fun v => .var (E'.number v)) (subst σ t)) := fun t => by
      rw [subst_subst, subst_subst]
      refine subst_congr _ fun v _ => ?_
      rw [subst_subst]
    refine ⟨((hs _).1 ⟨fun i hi => ?_, fun i p hp => ?_⟩).1, by rw [hθ, h2], by rw [hθ, ← hPQ, h2]⟩
    · rw [hσ.none (by unfold TA.look; rw [if_pos hi]), subst, subst, TA.number, if_pos hi]
      exact h1 i (by rw [← hx.threshold]; exact hi)
    · rw [hθ, hσ.some (look_iff.2 hp)]

/-- **C75.** `polymorphics` before and `restore_polymorphics` after a call of `unify`, successful or not, give back the earlier assignment. -/
theorem C75_restore (nd : Bool) {E : TA} (hE : E.Good) {P Q : Ty} (hP : Known E P) (hQ : Known E Q) {b : Bool} {E' : TA} {fuel : Nat} (h : ∀ k, fuel ≤ k → unify nd k E P Q = .ok (b, E')) :
    E'.restore E.polymorphics = E := by
  obtain ⟨b2, E2, F0, e, hg, hx, hs⟩ := C75_unify nd hE hP hQ
  have e0 := e (max F0 fuel) (by omega)
  rw [h _ (by omega)] at e0
  injection e0 with e0
  injection e0 with e1 e2
  subst e1 e2
  have hl : E'.equiv.length = E.equiv.length := hx.size
  have key : List.zipWith (fun p b => if b = true then none else p) (E'.equiv.take E.polymorphics.length) E.polymorphics = E.equiv := by
    apply List.ext_getElem
    · simp [TA.polymorphics, hl]
    · intro i h1 h2
      simp only [TA.polymorphics, List.getElem_zipWith, List.getElem_take, List.getElem_map]
      cases e : E.equiv[i] with
      | none => simp
      | some p =>
        have := hx.assigned (E.threshold + i) p ⟨by omega, by rw [Nat.add_sub_cancel_left, List.getElem?_eq_getElem h2, e]⟩
        have := this.2
        rw [hx.threshold, Nat.add_sub_cancel_left, List.getElem?_eq_getElem (by omega)] at this
        simpa using this
  rw [TA.restore, key]
  have ht := hx.threshold
  cases E; cases E'
  simp only at ht ⊢
  rw [ht]

/-! Examples: function types with variables; number 0 is a constant, 1 to 4 can be assigned. -/

/-- `((A,[B]) -> A)` and `((int,[[C]]) -> D)` -/
def exP : Ty := .func (.tuple [.var 1, .row (.var 2)]) (.var 1)
def exQ : Ty := .func (.tuple [.prim 0, .row (.row (.var 3))]) (.var 4)

theorem exP_known : Known (TA.make 1 4) exP := by constructor <;> simp [exP, Full, FullL, vars, varsL, TA.make, TA.size]
theorem exQ_known : Known (TA.make 1 4) exQ := by constructor <;> simp [exQ, Full, FullL, vars, varsL, TA.make, TA.size]

example : unify false 8 (TA.make 1 4) exP exQ = .ok (true, ⟨1, [some (.prim 0), some (.row (.var 3)), none, some (.prim 0)]⟩) := rfl
example : (⟨1, [some (.prim 0), some (.row (.var 3)), none, some (.prim 0)]⟩ : TA).substitution false 6 exP 0 = .ok (.func (.tuple [.prim 0, .row (.row (.var 1))]) (.prim 0)) := rfl
example : Fresh (TA.make 1 4) (vars exP) (vars exQ) := by
  refine ⟨by simp [exQ, vars, varsL, TA.make], by simp [exP, exQ, vars, varsL, TA.make], fun v _ _ p h => ?_, fun v _ _ i ⟨p, h, _⟩ => ?_⟩ <;>
  · rw [← look_iff, lookMake] at h; cases h
example : unify false 5 (TA.make 1 4) (.var 1) (.row (.var 1)) = .ok (false, TA.make 1 4) := rfl
example : unify false 5 (TA.make 1 4) (.var 0) (.prim 3) = .ok (false, TA.make 1 4) := rfl

end Verif.Axis
