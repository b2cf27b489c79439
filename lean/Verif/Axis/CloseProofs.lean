import Verif.Axis.CloseSpec
import Verif.Axis.Special
/-
`is_close` computes the relations `Conv` and `CloseTo`.
-/
namespace Verif.Axis
open Verif Classical

/-- the three bits -/
def bits (c a b : Bool) : Nat := if c then (if a then 1 else 0) + (if b then 2 else 0) + 4 else 0

theorem bits_and (a b c a' b' : Bool) : bits true a b &&& bits c a' b' = bits c (a && a') (b && b') := by
  cases a <;> cases b <;> cases c <;> cases a' <;> cases b' <;> rfl

theorem conv_close {tab : CTab} (x : Ty) : ∀ y, Conv tab x y → CloseTo tab x y ∧ CloseTo tab y x := by
  have hL : ∀ l : List Ty, (∀ x ∈ l, ∀ y, Conv tab x y → CloseTo tab x y ∧ CloseTo tab y x) → ∀ l', List.Forall₂ (Conv tab) l l' → List.Forall₂ (CloseTo tab) l l' ∧ List.Forall₂ (CloseTo tab) l' l := by
    intro l
    induction l with
    | nil => intro _ l' h; cases h; exact ⟨.nil, .nil⟩
    | cons a l ih =>
      intro h l' hl
      cases hl with
      | cons h1 h2 =>
        have := h a (by simp) _ h1
        have q := ih (fun x hx => h x (by simp [hx])) _ h2
        exact ⟨.cons this.1 q.1, .cons this.2 q.2⟩
  have hco : ∀ {x y}, (x, y) ∈ tab → x.isPrim = true ∨ y.isPrim = true → CloseTo tab x y ∧ CloseTo tab y x := fun h1 h2 => ⟨.coercion (.inl h1) h2, .coercion (.inr h1) h2.symm⟩
  induction x using Ty.ind with
  | row c hc =>
    intro y h
    cases h with
    | refl => exact ⟨.refl _, .refl _⟩
    | coercion h1 h2 => exact hco h1 h2
    | row h => exact ⟨.row (hc _ h).1, .row (hc _ h).2⟩
  | tuple l hl =>
    intro y h
    cases h with
    | refl => exact ⟨.refl _, .refl _⟩
    | coercion h1 h2 => exact hco h1 h2
    | tuple h => exact ⟨.tuple (hL l hl _ h).1, .tuple (hL l hl _ h).2⟩
  | _ =>
    intro y h
    cases h with
    | refl => exact ⟨.refl _, .refl _⟩
    | coercion h1 h2 => exact hco h1 h2

theorem coercible_iff {tab : CTab} {x y : Ty} (hy : y.isVoid = false) : coercible tab x y = true ↔ (x, y) ∈ tab := by
  unfold coercible
  rw [hy, Bool.false_or, List.any_eq_true]
  constructor
  · rintro ⟨⟨a, b⟩, h1, h2⟩
    rw [Bool.and_eq_true, beq_iff, beq_iff] at h2
    rw [h2.1, h2.2]; exact h1
  · intro h
    exact ⟨_, h, by rw [Bool.and_eq_true, beq_iff, beq_iff]; exact ⟨rfl, rfl⟩⟩

/-- the first case but equality -/
theorem conv_undet {tab : CTab} (ht : TabOK tab) {x y : Ty} (hne : x ≠ y) (h : (x.isUndet || y.isUndet || (x.isVoid || y.isVoid)) = true) : ¬ CloseTo tab x y := fun hc => by
  cases hc with
  | refl => exact hne rfl
  | coercion h1 _ => rcases h1 with h1 | h1 <;> have := ht _ h1 <;> simp_all
  | row _ => simp [Ty.isUndet, Ty.isVoid] at h
  | tuple h1 =>
    cases h1 with
    | nil => exact hne rfl
    | cons _ _ => simp [Ty.isUndet, Ty.isVoid] at h

theorem conv_prim {tab : CTab} {x y : Ty} (hne : x ≠ y) (h : (x.isPrim || y.isPrim) = true) : (Conv tab x y ↔ (x, y) ∈ tab) ∧ (CloseTo tab x y ↔ (x, y) ∈ tab ∨ (y, x) ∈ tab) := by
  have h' : x.isPrim = true ∨ y.isPrim = true := by simpa using h
  refine ⟨⟨fun hc => ?_, fun hc => .coercion hc h'⟩, ⟨fun hc => ?_, fun hc => .coercion hc h'⟩⟩
  · cases hc with
    | refl => exact absurd rfl hne
    | coercion h1 _ => exact h1
    | row _ => simp [Ty.isPrim] at h
    | tuple _ => simp [Ty.isPrim] at h
  · cases hc with
    | refl => exact absurd rfl hne
    | coercion h1 _ => exact h1
    | row _ => simp [Ty.isPrim] at h
    | tuple _ => simp [Ty.isPrim] at h

theorem conv_row {tab : CTab} {c c' : Ty} : (Conv tab (.row c) (.row c') ↔ Conv tab c c') ∧ (CloseTo tab (.row c) (.row c') ↔ CloseTo tab c c') := by
  refine ⟨⟨fun h => ?_, .row⟩, ⟨fun h => ?_, .row⟩⟩
  · cases h with
    | refl => exact .refl _
    | coercion _ h => simp [Ty.isPrim] at h
    | row h => exact h
  · cases h with
    | refl => exact .refl _
    | coercion _ h => simp [Ty.isPrim] at h
    | row h => exact h

theorem conv_tuple {tab : CTab} {l l' : List Ty} : (Conv tab (.tuple l) (.tuple l') ↔ List.Forall₂ (Conv tab) l l') ∧ (CloseTo tab (.tuple l) (.tuple l') ↔ List.Forall₂ (CloseTo tab) l l') := by
  refine ⟨⟨fun h => ?_, .tuple⟩, ⟨fun h => ?_, .tuple⟩⟩
  · cases h with
    | refl => exact List.forall₂_same.2 fun x _ => .refl x
    | coercion _ h => simp [Ty.isPrim] at h
    | tuple h => exact h
  · cases h with
    | refl => exact List.forall₂_same.2 fun x _ => .refl x
    | coercion _ h => simp [Ty.isPrim] at h
    | tuple h => exact h

theorem conv_other {tab : CTab} {x y : Ty} (hne : x ≠ y) (hp : ¬ (x.isPrim || y.isPrim) = true) (h1 : ∀ c c', ¬ (x = .row c ∧ y = .row c')) (h2 : ∀ l l', ¬ (x = .tuple l ∧ y = .tuple l')) :
    ¬ CloseTo tab x y := fun h => by
  cases h with
  | refl => exact hne rfl
  | coercion _ h => exact hp (by simpa using h)
  | row h => exact h1 _ _ ⟨rfl, rfl⟩
  | tuple h => exact h2 _ _ ⟨rfl, rfl⟩

theorem isClose_unfold (tab : CTab) (x y : Ty) : isClose tab x y =
    if x.beq y then 7
    else if x.isUndet || y.isUndet then 0
    else if x.isVoid || y.isVoid then 0
    else if x.isPrim || y.isPrim then
      let flags := (if coercible tab x y then 1 else 0) ||| (if coercible tab y x then 2 else 0)
      if flags = 0 then flags else flags ||| 4
    else
      match x, y with
      | .row c, .row c' => isClose tab c c'
      | .tuple l, .tuple l' => isCloseL tab 7 l l'
      | _, _ => 0 := by
  cases x <;> cases y <;> rfl

theorem isClose_eq {tab : CTab} (ht : TabOK tab) (x : Ty) : ∀ y, isClose tab x y = bits (decide (CloseTo tab x y)) (decide (Conv tab x y)) (decide (Conv tab y x)) := by
  have hL : ∀ l : List Ty, (∀ x ∈ l, ∀ y, isClose tab x y = bits (decide (CloseTo tab x y)) (decide (Conv tab x y)) (decide (Conv tab y x))) → ∀ l' a b,
      isCloseL tab (bits true a b) l l' = bits (decide (List.Forall₂ (CloseTo tab) l l')) (a && decide (List.Forall₂ (Conv tab) l l')) (b && decide (List.Forall₂ (Conv tab) l' l)) := by
    intro l
    induction l with
    | nil => intro _ l' a b; cases l' <;> simp [isCloseL, bits]
    | cons x l ih =>
      intro h l' a b
      cases l' with
      | nil => simp [isCloseL, bits]
      | cons y l' =>
        rw [isCloseL]
        rw [h x (by simp) y, bits_and]
        simp only [List.forall₂_cons]
        by_cases hc : CloseTo tab x y
        · have hne : bits (decide (CloseTo tab x y)) (a && decide (Conv tab x y)) (b && decide (Conv tab y x)) ≠ 0 := by simp [bits, hc]
          rw [if_pos hne]
          simp only [hc, decide_true, true_and]
          rw [ih (fun x hx => h x (by simp [hx]))]
          simp only [Bool.and_assoc, Bool.decide_and]
        · have he : bits (decide (CloseTo tab x y)) (a && decide (Conv tab x y)) (b && decide (Conv tab y x)) = 0 := by simp [bits, hc]
          rw [he, if_neg (by simp)]
          simp [bits, hc]
  -- the cases common to all forms of the first type
  have hcom : ∀ x y : Ty, (x ≠ y → ¬ (x.isPrim || y.isPrim) = true → (match x, y with | .row c, .row c' => isClose tab c c' | .tuple l, .tuple l' => isCloseL tab 7 l l' | _, _ => 0) =
        bits (decide (CloseTo tab x y)) (decide (Conv tab x y)) (decide (Conv tab y x))) →
      isClose tab x y = bits (decide (CloseTo tab x y)) (decide (Conv tab x y)) (decide (Conv tab y x)) := fun x y hrec => by
    rw [isClose_unfold]
    by_cases he : x = y
    · rw [if_pos ((beq_iff x y).2 he)]
      subst he
      simp [bits, CloseTo.refl x, Conv.refl x]
    · rw [if_neg (fun h => he ((beq_iff x y).1 h))]
      have hz : ∀ h : (x.isUndet || y.isUndet || (x.isVoid || y.isVoid)) = true, 0 = bits (decide (CloseTo tab x y)) (decide (Conv tab x y)) (decide (Conv tab y x)) := fun h => by
        simp [bits, conv_undet ht he h]
      by_cases h1 : (x.isUndet || y.isUndet) = true
      · rw [if_pos h1]; exact hz (by rw [h1]; rfl)
      · rw [if_neg h1]
        by_cases h2 : (x.isVoid || y.isVoid) = true
        · rw [if_pos h2]; exact hz (by rw [h2]; simp)
        · rw [if_neg h2]
          by_cases h3 : (x.isPrim || y.isPrim) = true
          · rw [if_pos h3]
            have hv : x.isVoid = false ∧ y.isVoid = false := by simpa using h2
            have c1 := conv_prim (tab := tab) he h3
            have c2 := conv_prim (tab := tab) (Ne.symm he) (by rw [Bool.or_comm]; exact h3)
            have k1 := coercible_iff (tab := tab) (x := x) hv.2
            have k2 := coercible_iff (tab := tab) (x := y) hv.1
            simp only [c1.1, c1.2, c2.1, ← k1, ← k2]
            cases coercible tab x y <;> cases coercible tab y x <;> simp [bits]
          · rw [if_neg h3]
            exact hrec he h3
  induction x using Ty.ind with
  | row c hc =>
    intro y
    refine hcom _ y fun hne hp => ?_
    cases y with
    | row c' => simp only [conv_row, hc c']
    | _ => simp [bits, conv_other hne hp (by simp) (by simp)]
  | tuple l hl =>
    intro y
    refine hcom _ y fun hne hp => ?_
    cases y with
    | tuple l' =>
      simp only [conv_tuple]
      have := hL l hl l' true true
      rw [Bool.true_and, Bool.true_and] at this
      exact this
    | _ => simp [bits, conv_other hne hp (by simp) (by simp)]
  | _ =>
    intro y
    refine hcom _ y fun hne hp => ?_
    have h0 := conv_other (tab := tab) hne hp (by simp) (by simp)
    simp [bits, h0]

/-- close types have a common source of conversions -/
theorem close_common {tab : CTab} (x : Ty) : ∀ y, CloseTo tab x y → ∃ z, Conv tab z x ∧ Conv tab z y := by
  have hL : ∀ l : List Ty, (∀ x ∈ l, ∀ y, CloseTo tab x y → ∃ z, Conv tab z x ∧ Conv tab z y) → ∀ l', List.Forall₂ (CloseTo tab) l l' → ∃ k, List.Forall₂ (Conv tab) k l ∧ List.Forall₂ (Conv tab) k l' := by
    intro l
    induction l with
    | nil => intro _ l' h; cases h; exact ⟨[], .nil, .nil⟩
    | cons a l ih =>
      intro h l' hl
      cases hl with
      | cons h1 h2 =>
        obtain ⟨z, z1, z2⟩ := h a (by simp) _ h1
        obtain ⟨k, k1, k2⟩ := ih (fun x hx => h x (by simp [hx])) _ h2
        exact ⟨z :: k, .cons z1 k1, .cons z2 k2⟩
  have hco : ∀ {x y}, (x, y) ∈ tab ∨ (y, x) ∈ tab → x.isPrim = true ∨ y.isPrim = true → ∃ z, Conv tab z x ∧ Conv tab z y := fun {x y} h1 h2 => by
    rcases h1 with h1 | h1
    · exact ⟨x, .refl x, .coercion h1 h2⟩
    · exact ⟨y, .coercion h1 h2.symm, .refl y⟩
  induction x using Ty.ind with
  | row c hc =>
    intro y h
    cases h with
    | refl => exact ⟨_, .refl _, .refl _⟩
    | coercion h1 h2 => exact hco h1 h2
    | row h => obtain ⟨z, z1, z2⟩ := hc _ h; exact ⟨.row z, .row z1, .row z2⟩
  | tuple l hl =>
    intro y h
    cases h with
    | refl => exact ⟨_, .refl _, .refl _⟩
    | coercion h1 h2 => exact hco h1 h2
    | tuple h => obtain ⟨k, k1, k2⟩ := hL l hl _ h; exact ⟨.tuple k, .tuple k1, .tuple k2⟩
  | _ =>
    intro y h
    cases h with
    | refl => exact ⟨_, .refl _, .refl _⟩
    | coercion h1 h2 => exact hco h1 h2

end Verif.Axis
