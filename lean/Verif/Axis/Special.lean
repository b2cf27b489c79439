import Verif.Axis.SpecialSpec
import Verif.Axis.Basic
/-
C76: equality and specialisation of types.
-/
namespace Verif.Axis
open Verif

theorem beq_iff (s : Ty) : ∀ t, s.beq t = true ↔ s = t := by
  have hL : ∀ l : List Ty, (∀ s ∈ l, ∀ t, s.beq t = true ↔ s = t) → ∀ l', beqL l l' = true ↔ l = l' := by
    intro l
    induction l with
    | nil => intro _ l'; cases l' <;> simp [beqL]
    | cons a l ih =>
      intro h l'
      cases l' with
      | nil => simp [beqL]
      | cons b l' =>
        rw [beqL, List.cons.injEq, ← h a (by simp) b, ← ih (fun s hs => h s (by simp [hs])) l']
        by_cases e : a.beq b = true <;> simp [e]
  induction s using Ty.ind with
  | undet => intro t; cases t <;> simp [Ty.beq]
  | prim n => intro t; cases t <;> simp [Ty.beq]
  | var n => intro t; cases t <;> simp [Ty.beq]
  | func a r ha hr => intro t; cases t <;> simp [Ty.beq, ha, hr]
  | row c hc => intro t; cases t <;> simp [Ty.beq, hc]
  | tuple l hl => intro t; cases t <;> simp [Ty.beq, hL l hl]
  | union l hl => intro t; cases t <;> simp [Ty.beq, hL l hl]

/-- **C76.** Equality of types. -/
theorem C76_eq (s t : Ty) : s.beq t = true ↔ s = t := beq_iff s t

theorem refines_undet {t : Ty} : Refines .undet t ↔ t = .undet := by cases t <;> simp [Refines]

theorem refines_refl (t : Ty) : Refines t t := by
  have hL : ∀ l : List Ty, (∀ s ∈ l, Refines s s) → RefinesL l l := by
    intro l
    induction l with
    | nil => intro _; simp [RefinesL]
    | cons a l ih => intro h; exact ⟨h a (by simp), ih fun s hs => h s (by simp [hs])⟩
  induction t using Ty.ind with
  | undet => simp [Refines]
  | prim n => simp [Refines]
  | var n => simp [Refines]
  | func a r ha hr => exact ⟨ha, hr⟩
  | row c hc => exact hc
  | tuple l hl => exact hL l hl
  | union l hl => exact hL l hl

theorem refines_trans (t : Ty) : ∀ s u, Refines s t → Refines t u → Refines s u := by
  have hL : ∀ l : List Ty, (∀ t ∈ l, ∀ s u, Refines s t → Refines t u → Refines s u) → ∀ l1 l2, RefinesL l1 l → RefinesL l l2 → RefinesL l1 l2 := by
    intro l
    induction l with
    | nil => intro _ l1 l2 h1 h2; cases l1 <;> cases l2 <;> simp_all [RefinesL]
    | cons a l ih =>
      intro h l1 l2 h1 h2
      cases l1 <;> cases l2 <;> simp only [RefinesL] at h1 h2 ⊢
      exact ⟨h a (by simp) _ _ h1.1 h2.1, ih (fun s hs => h s (by simp [hs])) _ _ h1.2 h2.2⟩
  induction t using Ty.ind with
  | undet => intro s u _ h; rw [refines_undet] at h; rw [h]; simp [Refines]
  | prim n => intro s u h1 h2; cases s <;> cases u <;> simp_all [Refines]
  | var n => intro s u h1 h2; cases s <;> cases u <;> simp_all [Refines]
  | func a r ha hr =>
    intro s u h1 h2
    cases s <;> cases u <;> simp only [Refines] at h1 h2 ⊢
    exact ⟨ha _ _ h1.1 h2.1, hr _ _ h1.2 h2.2⟩
  | row c hc => intro s u h1 h2; cases s <;> cases u <;> simp only [Refines] at h1 h2 ⊢; exact hc _ _ h1 h2
  | tuple l hl => intro s u h1 h2; cases s <;> cases u <;> simp only [Refines] at h1 h2 ⊢; exact hL l hl _ _ h1 h2
  | union l hl => intro s u h1 h2; cases s <;> cases u <;> simp only [Refines] at h1 h2 ⊢; exact hL l hl _ _ h1 h2

theorem refines_antisymm (t : Ty) : ∀ s, Refines s t → Refines t s → s = t := by
  have hL : ∀ l : List Ty, (∀ t ∈ l, ∀ s, Refines s t → Refines t s → s = t) → ∀ l1, RefinesL l1 l → RefinesL l l1 → l1 = l := by
    intro l
    induction l with
    | nil => intro _ l1 h1 h2; cases l1 <;> simp_all [RefinesL]
    | cons a l ih =>
      intro h l1 h1 h2
      cases l1 <;> simp only [RefinesL] at h1 h2
      rw [h a (by simp) _ h1.1 h2.1, ih (fun s hs => h s (by simp [hs])) _ h1.2 h2.2]
  induction t using Ty.ind with
  | undet => intro s _ h; rw [refines_undet] at h; exact h
  | prim n => intro s h1 h2; cases s <;> simp_all [Refines]
  | var n => intro s h1 h2; cases s <;> simp_all [Refines]
  | func a r ha hr => intro s h1 h2; cases s <;> simp only [Refines] at h1 h2; rw [ha _ h1.1 h2.1, hr _ h1.2 h2.2]
  | row c hc => intro s h1 h2; cases s <;> simp only [Refines] at h1 h2; rw [hc _ h1 h2]
  | tuple l hl => intro s h1 h2; cases s <;> simp only [Refines] at h1 h2; rw [hL l hl _ h1 h2]
  | union l hl => intro s h1 h2; cases s <;> simp only [Refines] at h1 h2; rw [hL l hl _ h1 h2]

/-- what `specialise` does -/
def SpecOut (t p : Ty) : Prop :=
  (specialise t p).1 = canSpecialise t p ∧ Refines (specialise t p).2 t ∧
    (∀ s, Refines s t → Refines s p → (specialise t p).1 = true ∧ Refines s (specialise t p).2) ∧ ((specialise t p).1 = true → Refines (specialise t p).2 p)

def SpecOutL (t p : List Ty) : Prop :=
  (specialiseL t p).1 = canSpecialiseL t p ∧ RefinesL (specialiseL t p).2 t ∧
    (∀ s, RefinesL s t → RefinesL s p → (specialiseL t p).1 = true ∧ RefinesL s (specialiseL t p).2) ∧ ((specialiseL t p).1 = true → RefinesL (specialiseL t p).2 p)

theorem refinesL_refl (l : List Ty) : RefinesL l l := by
  induction l with
  | nil => simp [RefinesL]
  | cons a l ih => exact ⟨refines_refl a, ih⟩

theorem specOutL : ∀ l : List Ty, (∀ t ∈ l, ∀ p, SpecOut t p) → ∀ l', SpecOutL l l' := by
  intro l
  induction l with
  | nil =>
    intro _ l'
    cases l' with
    | nil => simp [SpecOutL, specialiseL, canSpecialiseL, RefinesL]
    | cons b l' =>
      refine ⟨by simp [specialiseL, canSpecialiseL], by simp [specialiseL, RefinesL], fun s h1 h2 => ?_, by simp [specialiseL]⟩
      cases s <;> simp [RefinesL] at h1 h2
  | cons a l ih =>
    intro h l'
    cases l' with
    | nil =>
      refine ⟨by simp [specialiseL, canSpecialiseL], (show RefinesL (a :: l) (a :: l) from refinesL_refl _), fun s h1 h2 => ?_, by simp [specialiseL]⟩
      cases s <;> simp [RefinesL] at h1 h2
    | cons b l' =>
      obtain ⟨a1, a2, a3, a4⟩ := h a (by simp) b
      obtain ⟨l1, l2, l3, l4⟩ := ih (fun t ht => h t (by simp [ht])) l'
      unfold SpecOutL
      rw [specialiseL, canSpecialiseL]
      simp only []
      rw [← a1, ← l1]
      by_cases e : (specialise a b).1 = true
      · rw [if_pos e, if_pos e]
        refine ⟨rfl, ⟨a2, l2⟩, fun s h1 h2 => ?_, fun h => ⟨a4 e, l4 h⟩⟩
        cases s <;> simp only [RefinesL] at h1 h2
        exact ⟨(l3 _ h1.2 h2.2).1, (a3 _ h1.1 h2.1).2, (l3 _ h1.2 h2.2).2⟩
      · rw [if_neg e, if_neg e]
        refine ⟨rfl, ⟨a2, refinesL_refl _⟩, fun s h1 h2 => ?_, fun h => by cases h⟩
        cases s <;> simp only [RefinesL] at h1 h2
        exact absurd (a3 _ h1.1 h2.1).1 e

theorem specOut (t : Ty) : ∀ p, SpecOut t p := by
  -- the patterns that cannot match
  have hno : ∀ {t p : Ty}, specialise t p = (false, t) → canSpecialise t p = false → (∀ s, Refines s t → ¬ Refines s p) → SpecOut t p := fun {t p} h1 h2 h3 => by
    refine ⟨by rw [h1, h2], by rw [h1]; exact refines_refl t, fun s q1 q2 => absurd q2 (h3 s q1), fun h => by rw [h1] at h; cases h⟩
  have hun : ∀ t : Ty, SpecOut t .undet := fun t => by
    have h1 : specialise t .undet = (true, t) := by cases t <;> rfl
    have h2 : canSpecialise t .undet = true := by cases t <;> rfl
    refine ⟨by rw [h1, h2], by rw [h1]; exact refines_refl t, fun s q1 _ => by rw [h1]; exact ⟨rfl, q1⟩, fun _ => by cases (specialise t .undet).2 <;> simp [Refines]⟩
  induction t using Ty.ind with
  | undet =>
    intro p
    have h1 : specialise .undet p = (true, p) := by cases p <;> rfl
    have h2 : canSpecialise .undet p = true := by cases p <;> rfl
    refine ⟨by rw [h1, h2], by rw [h1]; cases p <;> simp [Refines], fun s _ q2 => by rw [h1]; exact ⟨rfl, q2⟩, fun _ => by rw [h1]; exact refines_refl p⟩
  | prim m =>
    intro p
    cases p with
    | undet => exact hun _
    | prim n =>
      refine ⟨rfl, by simp [specialise, Refines], fun s h1 h2 => ?_, fun h => by simpa [specialise, Refines] using h⟩
      cases s <;> simp only [Refines] at h1 h2
      exact ⟨by simp [specialise, ← h1, ← h2], by simp [specialise, Refines, h1]⟩
    | _ => exact hno rfl rfl fun s h1 h2 => by cases s <;> simp [Refines] at h1 h2
  | var m =>
    intro p
    cases p with
    | undet => exact hun _
    | var n =>
      refine ⟨rfl, by simp [specialise, Refines], fun s h1 h2 => ?_, fun h => by simpa [specialise, Refines] using h⟩
      cases s <;> simp only [Refines] at h1 h2
      exact ⟨by simp [specialise, ← h1, ← h2], by simp [specialise, Refines, h1]⟩
    | _ => exact hno rfl rfl fun s h1 h2 => by cases s <;> simp [Refines] at h1 h2
  | func a r ha hr =>
    intro p
    cases p with
    | undet => exact hun _
    | func a' r' =>
      obtain ⟨a1, a2, a3, a4⟩ := ha a'
      obtain ⟨r1, r2, r3, r4⟩ := hr r'
      unfold SpecOut
      rw [specialise, canSpecialise]
      simp only []
      rw [← a1, ← r1]
      by_cases e : (specialise a a').1 = true
      · rw [if_pos e, if_pos e]
        refine ⟨rfl, ⟨a2, r2⟩, fun s h1 h2 => ?_, fun h => ⟨a4 e, r4 h⟩⟩
        cases s <;> simp only [Refines] at h1 h2
        exact ⟨(r3 _ h1.2 h2.2).1, (a3 _ h1.1 h2.1).2, (r3 _ h1.2 h2.2).2⟩
      · rw [if_neg e, if_neg e]
        refine ⟨rfl, ⟨a2, refines_refl _⟩, fun s h1 h2 => ?_, fun h => by cases h⟩
        cases s <;> simp only [Refines] at h1 h2
        exact absurd (a3 _ h1.1 h2.1).1 e
    | _ => exact hno rfl rfl fun s h1 h2 => by cases s <;> simp [Refines] at h1 h2
  | row c hc =>
    intro p
    cases p with
    | undet => exact hun _
    | row c' =>
      obtain ⟨a1, a2, a3, a4⟩ := hc c'
      refine ⟨a1, a2, fun s h1 h2 => ?_, a4⟩
      cases s <;> simp only [Refines] at h1 h2
      exact a3 _ h1 h2
    | _ => exact hno rfl rfl fun s h1 h2 => by cases s <;> simp [Refines] at h1 h2
  | tuple l hl =>
    intro p
    cases p with
    | undet => exact hun _
    | tuple l' =>
      obtain ⟨a1, a2, a3, a4⟩ := specOutL l hl l'
      refine ⟨a1, a2, fun s h1 h2 => ?_, a4⟩
      cases s <;> simp only [Refines] at h1 h2
      exact a3 _ h1 h2
    | _ => exact hno rfl rfl fun s h1 h2 => by cases s <;> simp [Refines] at h1 h2
  | union l hl =>
    intro p
    cases p with
    | undet => exact hun _
    | union l' =>
      obtain ⟨a1, a2, a3, a4⟩ := specOutL l hl l'
      refine ⟨a1, a2, fun s h1 h2 => ?_, a4⟩
      cases s <;> simp only [Refines] at h1 h2
      exact a3 _ h1 h2
    | _ => exact hno rfl rfl fun s h1 h2 => by cases s <;> simp [Refines] at h1 h2

/-- **C76.** `specialise` succeeds if and only if the type and the pattern have a common refinement; then the type becomes the least specific one: the refinements of the new type are the common refinements.  If it fails, the type
may be changed, but only to a refinement. -/
theorem C76_specialise (t p : Ty) : ((specialise t p).1 = true ↔ ∃ s, Refines s t ∧ Refines s p) ∧ ((specialise t p).1 = true → ∀ s, Refines s (specialise t p).2 ↔ Refines s t ∧ Refines s p) ∧
    Refines (specialise t p).2 t := by
  obtain ⟨_, h2, h3, h4⟩ := specOut t p
  refine ⟨⟨fun h => ⟨_, h2, h4 h⟩, fun ⟨s, q1, q2⟩ => (h3 s q1 q2).1⟩, fun h s => ⟨fun q => ⟨refines_trans _ _ _ q h2, refines_trans _ _ _ q (h4 h)⟩, fun q => (h3 s q.1 q.2).2⟩, h2⟩

/-- **C76.** `can_specialise` foretells the result of `specialise`, and is symmetric. -/
theorem C76_canSpecialise (t p : Ty) : canSpecialise t p = (specialise t p).1 ∧ canSpecialise t p = canSpecialise p t := by
  refine ⟨(specOut t p).1.symm, ?_⟩
  rw [Bool.eq_iff_iff, ← (specOut t p).1, ← (specOut p t).1, (C76_specialise t p).1, (C76_specialise p t).1]
  exact ⟨fun ⟨s, h1, h2⟩ => ⟨s, h2, h1⟩, fun ⟨s, h1, h2⟩ => ⟨s, h2, h1⟩⟩

/-- **C76.** The order of the two types does not matter for the result of a successful `specialise`. -/
theorem C76_symmetric (t p : Ty) (h : (specialise t p).1 = true) : specialise p t = specialise t p := by
  have h' : (specialise p t).1 = true := by rw [← (C76_canSpecialise p t).1, ← (C76_canSpecialise t p).2, (C76_canSpecialise t p).1, h]
  have q : (specialise p t).2 = (specialise t p).2 :=
    refines_antisymm _ _ (((C76_specialise t p).2.1 h _).2 (((C76_specialise p t).2.1 h' _).1 (refines_refl _)).symm) (((C76_specialise p t).2.1 h' _).2 (((C76_specialise t p).2.1 h _).1 (refines_refl _)).symm)
  exact Prod.ext (h'.trans h.symm) q

/-- **C76.** Refinement is a partial order, in which the undetermined type is refined by all types. -/
theorem C76_order : (∀ t, Refines t t) ∧ (∀ s t u, Refines s t → Refines t u → Refines s u) ∧ (∀ s t, Refines s t → Refines t s → s = t) ∧ ∀ t, Refines t .undet :=
  ⟨refines_refl, fun s t u => refines_trans t s u, fun s t => refines_antisymm t s, fun t => by cases t <;> simp [Refines]⟩

/-! Examples: `(*,[*])` and `(int,*)`; `(*->*)` and `[int]`; a failure after a change. -/
example : specialise (.tuple [.undet, .row .undet]) (.tuple [.prim 0, .undet]) = (true, .tuple [.prim 0, .row .undet]) := rfl
example : specialise (.func .undet .undet) (.row (.prim 0)) = (false, .func .undet .undet) := rfl
example : specialise (.tuple [.undet, .prim 1]) (.tuple [.prim 0, .prim 2]) = (false, .tuple [.prim 0, .prim 1]) := rfl

end Verif.Axis
