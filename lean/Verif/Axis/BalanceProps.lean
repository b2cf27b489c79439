import Verif.Axis.BalanceSpec
import Verif.Axis.CloseProps
/-
C78: balancing of types.
-/
namespace Verif.Axis
open Verif

theorem isVoid_iff {t : Ty} : t.isVoid = true ↔ t = .tuple [] := by
  cases t with
  | tuple l => cases l <;> simp [Ty.isVoid]
  | _ => simp [Ty.isVoid]

theorem isUndet_iff {t : Ty} : t.isUndet = true ↔ t = .undet := by cases t <;> simp [Ty.isUndet]

theorem accepts_unfold (tab : CTab) (a b : Ty) : accepts tab a b =
    if a.isVoid || b.isUndet then true
    else if b.isVoid then false
    else if a.beq b then true
    else if a.isPrim then isClose tab a b &&& 2 != 0
    else
      match a, b with
      | .var m, .var n => m == n
      | .row c, .row c' => accepts tab c c'
      | .func x r, .func x' r' => x.beq x' && accepts tab r r'
      | .tuple l, .tuple l' => acceptsL tab l l'
      | .union l, .union l' => acceptsL tab l l'
      | _, _ => false := by
  cases a <;> cases b <;> rfl

/-- void is accepted by void only -/
theorem accepts_void {tab : CTab} (ht : TabOK tab) {a : Ty} (h : Accepts tab a (.tuple [])) : a = .tuple [] := by
  cases h with
  | void | refl => rfl
  | coercion h => have := (ht _ h).2.1; simp [Ty.isVoid] at this
  | tuple h => cases h; rfl

theorem acceptsL_iff {tab : CTab} : ∀ l : List Ty, (∀ a ∈ l, ∀ b, accepts tab a b = true ↔ Accepts tab a b) → ∀ l', acceptsL tab l l' = true ↔ List.Forall₂ (Accepts tab) l l'
  | [], _, [] => by simp [acceptsL]
  | [], _, _ :: _ => by simp [acceptsL]
  | _ :: _, _, [] => by simp [acceptsL]
  | a :: l, h, b :: l' => by
    rw [acceptsL, List.forall₂_cons, ← h a (by simp), ← acceptsL_iff l (fun a ha => h a (by simp [ha])) l']
    by_cases hc : accepts tab a b = true <;> simp [hc]

theorem bit_two {tab : CTab} (ht : TabOK tab) (n : Nat) (b : Ty) (hne : Ty.prim n ≠ b) : (isClose tab (.prim n) b &&& 2 != 0) = true ↔ (b, .prim n) ∈ tab := by
  rw [bne_iff_ne, (C77_isClose ht _ _).2.2.1, (conv_prim (Ne.symm hne) (by simp [Ty.isPrim])).1]

/-- **C78.** The test computes the relation of the specification. -/
theorem C78_accepts {tab : CTab} (ht : TabOK tab) (a : Ty) : ∀ b, accepts tab a b = true ↔ Accepts tab a b := by
  -- the cases common to all forms of the first type
  have hcom : ∀ a b : Ty, (a ≠ b → a ≠ .tuple [] → b ≠ .undet → b ≠ .tuple [] → ((if a.isPrim then isClose tab a b &&& 2 != 0 else match a, b with
        | .var m, .var n => m == n
        | .row c, .row c' => accepts tab c c'
        | .func x r, .func x' r' => x.beq x' && accepts tab r r'
        | .tuple l, .tuple l' => acceptsL tab l l'
        | .union l, .union l' => acceptsL tab l l'
        | _, _ => false) = true ↔ Accepts tab a b)) → (accepts tab a b = true ↔ Accepts tab a b) := fun a b hrec => by
    rw [accepts_unfold]
    by_cases h1 : (a.isVoid || b.isUndet) = true
    · rw [if_pos h1]
      rw [Bool.or_eq_true, isVoid_iff, isUndet_iff] at h1
      rcases h1 with rfl | rfl
      · exact ⟨fun _ => .void _, fun _ => rfl⟩
      · exact ⟨fun _ => .undet _, fun _ => rfl⟩
    · rw [if_neg h1]
      rw [Bool.or_eq_true, isVoid_iff, isUndet_iff, not_or] at h1
      by_cases h2 : b.isVoid = true
      · rw [if_pos h2]
        rw [isVoid_iff] at h2
        subst h2
        exact ⟨fun h => (Bool.noConfusion h), fun h => absurd (accepts_void ht h) h1.1⟩
      · rw [if_neg h2]
        rw [isVoid_iff] at h2
        by_cases h3 : a.beq b = true
        · rw [if_pos h3]
          rw [beq_iff] at h3
          subst h3
          exact ⟨fun _ => .refl _, fun _ => rfl⟩
        · rw [if_neg h3]
          rw [beq_iff] at h3
          exact hrec h3 h1.1 h1.2 h2
  induction a using Ty.ind with
  | undet =>
    intro b
    refine hcom _ b fun h0 h1 h2 h3 => ?_
    have : ¬ Accepts tab .undet b := fun h => by cases h with | undet => exact h2 rfl | refl => exact h0 rfl
    cases b <;> simp [Ty.isPrim, this]
  | prim n =>
    intro b
    refine hcom _ b fun h0 h1 h2 h3 => ?_
    rw [if_pos (by rfl : (Ty.prim n).isPrim = true), bit_two ht n b h0]
    exact ⟨.coercion, fun h => by cases h with | undet => exact absurd rfl h2 | refl => exact absurd rfl h0 | coercion h => exact h⟩
  | var n =>
    intro b
    refine hcom _ b fun h0 h1 h2 h3 => ?_
    have : ¬ Accepts tab (.var n) b := fun h => by cases h with | undet => exact h2 rfl | refl => exact h0 rfl
    cases b with
    | var m => simp only [Ty.isPrim, Bool.false_eq_true, if_false, this, iff_false, beq_iff_eq]; intro h; exact h0 (by rw [h])
    | _ => simp [Ty.isPrim, this]
  | func x r hx hr =>
    intro b
    refine hcom _ b fun h0 h1 h2 h3 => ?_
    cases b with
    | func x' r' =>
      simp only [Ty.isPrim, Bool.false_eq_true, if_false, Bool.and_eq_true, beq_iff, hr]
      constructor
      · rintro ⟨rfl, h⟩; exact .func _ h
      · intro h
        cases h with
        | refl => exact absurd rfl h0
        | func _ h => exact ⟨rfl, h⟩
    | _ =>
      simp only [Ty.isPrim, Bool.false_eq_true, if_false, false_iff]
      intro h
      cases h
      try exact h2 rfl
  | row c hc =>
    intro b
    refine hcom _ b fun h0 h1 h2 h3 => ?_
    cases b with
    | row c' =>
      simp only [Ty.isPrim, Bool.false_eq_true, if_false, hc]
      constructor
      · exact .row
      · intro h
        cases h with
        | refl => exact absurd rfl h0
        | row h => exact h
    | _ =>
      simp only [Ty.isPrim, Bool.false_eq_true, if_false, false_iff]
      intro h
      cases h
      try exact h2 rfl
  | tuple l hl =>
    intro b
    refine hcom _ b fun h0 h1 h2 h3 => ?_
    cases b with
    | tuple l' =>
      simp only [Ty.isPrim, Bool.false_eq_true, if_false, acceptsL_iff l hl]
      constructor
      · exact .tuple
      · intro h
        cases h with
        | void => exact absurd rfl h1
        | refl => exact absurd rfl h0
        | tuple h => exact h
    | _ =>
      simp only [Ty.isPrim, Bool.false_eq_true, if_false, false_iff]
      intro h
      cases h
      all_goals first | exact h2 rfl | exact h1 rfl
  | union l hl =>
    intro b
    refine hcom _ b fun h0 h1 h2 h3 => ?_
    cases b with
    | union l' =>
      simp only [Ty.isPrim, Bool.false_eq_true, if_false, acceptsL_iff l hl]
      constructor
      · exact .union
      · intro h
        cases h with
        | refl => exact absurd rfl h0
        | union h => exact h
    | _ =>
      simp only [Ty.isPrim, Bool.false_eq_true, if_false, false_iff]
      intro h
      cases h
      try exact h2 rfl

/-! ### The order -/

theorem accepts_undet {tab : CTab} {c : Ty} (h : Accepts tab .undet c) : c = .undet := by cases h <;> rfl

theorem accepts_row {tab : CTab} {x c : Ty} (h : Accepts tab (.row x) c) (hc : Full c) : ∃ c', c = .row c' ∧ Accepts tab x c' ∧ Full c' := by
  cases h with
  | undet => exact absurd hc (by simp [Full])
  | refl => exact ⟨x, rfl, .refl _, hc⟩
  | row h => exact ⟨_, rfl, h, hc⟩

theorem accepts_prim {tab : CTab} {n : Nat} {c : Ty} (h : Accepts tab (.prim n) c) (hc : Full c) : c = .prim n ∨ (c, .prim n) ∈ tab := by
  cases h with
  | undet => exact absurd hc (by simp [Full])
  | refl => exact .inl rfl
  | coercion h => exact .inr h

theorem accepts_transL {tab : CTab} : ∀ l : List Ty, (∀ a ∈ l, ∀ b c, Accepts tab a b → Accepts tab b c → Full c → Accepts tab a c) → ∀ l' l'', List.Forall₂ (Accepts tab) l l' →
    List.Forall₂ (Accepts tab) l' l'' → FullL l'' → List.Forall₂ (Accepts tab) l l''
  | [], _, _, _, .nil, .nil, _ => .nil
  | _ :: l, h, _, _, .cons h1 h2, .cons h3 h4, hf => .cons (h _ (by simp) _ _ h1 h3 hf.1) (accepts_transL l (fun a ha => h a (by simp [ha])) _ _ h2 h4 hf.2)

theorem accepts_trans {tab : CTab} (ht : TabOrder tab) (a : Ty) : ∀ b c, Accepts tab a b → Accepts tab b c → Full c → Accepts tab a c := by
  induction a using Ty.ind with
  | undet => intro b c h1 h2 _; rw [accepts_undet h1] at h2; exact h2
  | prim n =>
    intro b c h1 h2 hc
    cases h1 with
    | undet => rw [accepts_undet h2]; exact .undet _
    | refl => exact h2
    | coercion h => exact ht.trans n b c h h2 hc
  | var n =>
    intro b c h1 h2 hc
    cases h1 with
    | undet => rw [accepts_undet h2]; exact .undet _
    | refl => exact h2
  | func x r hx hr =>
    intro b c h1 h2 hc
    cases h1 with
    | undet => rw [accepts_undet h2]; exact .undet _
    | refl => exact h2
    | func _ h =>
      cases h2 with
      | undet => exact .undet _
      | refl => exact .func _ h
      | func _ h' => exact .func _ (hr _ _ h h' hc.2)
  | row x hx =>
    intro b c h1 h2 hc
    cases h1 with
    | undet => rw [accepts_undet h2]; exact .undet _
    | refl => exact h2
    | row h =>
      obtain ⟨c', rfl, h3, h4⟩ := accepts_row h2 hc
      exact .row (hx _ _ h h3 h4)
  | tuple l hl =>
    intro b c h1 h2 hc
    cases h1 with
    | void => exact .void _
    | undet => rw [accepts_undet h2]; exact .undet _
    | refl => exact h2
    | tuple h =>
      cases h2 with
      | void => cases h; exact .void _
      | undet => exact .undet _
      | refl => exact .tuple h
      | tuple h' => exact .tuple (accepts_transL l hl _ _ h h' hc)
  | union l hl =>
    intro b c h1 h2 hc
    cases h1 with
    | undet => rw [accepts_undet h2]; exact .undet _
    | refl => exact h2
    | union h =>
      cases h2 with
      | undet => exact .undet _
      | refl => exact .union h
      | union h' => exact .union (accepts_transL l hl _ _ h h' hc)

theorem accepts_antiL {tab : CTab} : ∀ l : List Ty, (∀ a ∈ l, ∀ b, Accepts tab a b → Accepts tab b a → a = b) → ∀ l', List.Forall₂ (Accepts tab) l l' → List.Forall₂ (Accepts tab) l' l → l = l'
  | [], _, _, .nil, _ => rfl
  | _ :: l, h, _, .cons h1 h2, .cons h3 h4 => by rw [h _ (by simp) _ h1 h3, accepts_antiL l (fun a ha => h a (by simp [ha])) _ h2 h4]

theorem accepts_anti {tab : CTab} (ht : TabOrder tab) (a : Ty) : ∀ b, Accepts tab a b → Accepts tab b a → a = b := by
  induction a using Ty.ind with
  | undet => intro b h _; exact (accepts_undet h).symm
  | prim n =>
    intro b h1 h2
    cases h1 with
    | undet => exact accepts_undet h2
    | refl => rfl
    | coercion h =>
      cases h2 with
      | void => have := (ht.ok _ h).2.1; simp [Ty.isVoid] at this
      | refl => rfl
      | coercion h' => rw [ht.anti _ _ h' h]
  | var n =>
    intro b h1 h2
    cases h1 with
    | undet => exact accepts_undet h2
    | refl => rfl
  | func x r hx hr =>
    intro b h1 h2
    cases h1 with
    | undet => exact accepts_undet h2
    | refl => rfl
    | func _ h =>
      cases h2 with
      | refl => rfl
      | func _ h' => rw [hr _ h h']
  | row x hx =>
    intro b h1 h2
    cases h1 with
    | undet => exact accepts_undet h2
    | refl => rfl
    | row h =>
      cases h2 with
      | refl => rfl
      | row h' => rw [hx _ h h']
  | tuple l hl =>
    intro b h1 h2
    cases h1 with
    | void => exact (accepts_void ht.ok h2).symm
    | undet => exact accepts_undet h2
    | refl => rfl
    | tuple h =>
      cases h2 with
      | void => cases h; rfl
      | refl => rfl
      | tuple h' => rw [accepts_antiL l hl _ h h']
  | union l hl =>
    intro b h1 h2
    cases h1 with
    | undet => exact accepts_undet h2
    | refl => rfl
    | union h =>
      cases h2 with
      | refl => rfl
      | union h' => rw [accepts_antiL l hl _ h h']

/-- **C78.** Acceptance is a partial order on complete types. -/
theorem C78_order {tab : CTab} (ht : TabOrder tab) : (∀ a, Accepts tab a a) ∧ (∀ a b c, Accepts tab a b → Accepts tab b c → Full c → Accepts tab a c) ∧ ∀ a b, Accepts tab a b → Accepts tab b a → a = b :=
  ⟨.refl, accepts_trans ht, accepts_anti ht⟩

theorem mem_std {r : Ty × Ty} : r ∈ stdTab ↔ (stdTab.any fun q => r.1.beq q.1 && r.2.beq q.2) = true := by
  rw [List.any_eq_true]
  constructor
  · intro h; exact ⟨r, h, by simp [(beq_iff _ _).2]⟩
  · rintro ⟨q, h1, h2⟩
    rw [Bool.and_eq_true, beq_iff, beq_iff] at h2
    have : r = q := Prod.ext h2.1 h2.2
    rw [this]; exact h1

/-- **C78.** The coercions of the program satisfy what is needed. -/
theorem C78_std : TabOrder stdTab where
  ok := stdTab_ok
  anti := by
    intro m n h1 h2
    simp only [stdTab, List.mem_cons, Prod.mk.injEq, Ty.prim.injEq, reduceCtorEq, List.not_mem_nil, false_and, and_false, false_or, or_false] at h1 h2
    omega
  trans := by
    intro n b c h1 h2 hc
    have key : ∀ {d : Ty} {k : Nat}, (d, Ty.prim k) ∈ stdTab → (k = 0 → False) ∧ (k = 2 → False) ∧ (k = 4 → d = .row (.prim 0)) ∧ (k = 10 → d = .prim 11) ∧ (k = 11 → False) ∧ (k = 1 → d = .prim 0) ∧
        (k = 16 → False) ∧ (k = 18 → False) := by
      intro d k h
      simp only [stdTab, List.mem_cons, Prod.mk.injEq, Ty.prim.injEq, reduceCtorEq, List.not_mem_nil, and_false, false_or, or_false] at h
      rcases h with h | h | h | h | h | h | h | h | h | h | h | h | h | h | h <;> obtain ⟨rfl, rfl⟩ := h <;> simp
    have h1' := h1
    simp only [stdTab, List.mem_cons, Prod.mk.injEq, Ty.prim.injEq, reduceCtorEq, List.not_mem_nil, and_false, false_or, or_false] at h1
    have hint : ∀ {x}, Accepts stdTab (.prim 0) x → Full x → x = .prim 0 := fun h hf => (accepts_prim h hf).resolve_right fun h => (key h).1 rfl
    have hri : ∀ {x}, Accepts stdTab (.row (.prim 0)) x → Full x → x = .row (.prim 0) := fun h hf => by
      obtain ⟨c', rfl, h3, h4⟩ := accepts_row h hf
      rw [hint h3 h4]
    have hvec : ∀ {x}, Accepts stdTab (.prim 4) x → Full x → x = .prim 4 ∨ x = .row (.prim 0) := fun h hf => (accepts_prim h hf).imp_right fun h => (key h).2.2.1 rfl
    have hrat : ∀ {x}, Accepts stdTab (.prim 1) x → Full x → x = .prim 1 ∨ x = .prim 0 := fun h hf => (accepts_prim h hf).imp_right fun h => (key h).2.2.2.2.2.1 rfl
    have hic : ∀ {x}, Accepts stdTab (.prim 10) x → Full x → x = .prim 10 ∨ x = .prim 11 := fun h hf => (accepts_prim h hf).imp_right fun h => (key h).2.2.2.1 rfl
    have hno : ∀ {k x}, k = 2 ∨ k = 11 ∨ k = 16 ∨ k = 18 → Accepts stdTab (.prim k) x → Full x → x = .prim k := fun hk h hf =>
      (accepts_prim h hf).resolve_right fun h => by have := key h; rcases hk with h | h | h | h <;> simp_all
    have fin : ∀ {k x}, (x, Ty.prim k) ∈ stdTab → Accepts stdTab (.prim k) x := .coercion
    rcases h1 with h | h | h | h | h | h | h | h | h | h | h | h | h | h | h <;> obtain ⟨rfl, rfl⟩ := h
    all_goals apply fin
    · rw [hint h2 hc]; exact h1'
    · rw [hri h2 hc]; exact h1'
    · obtain ⟨c', rfl, h3, h4⟩ := accepts_row h2 hc
      rcases hrat h3 h4 with rfl | rfl <;> simp [stdTab]
    · rcases hvec h2 hc with rfl | rfl <;> simp [stdTab]
    · rw [hri h2 hc]; exact h1'
    · obtain ⟨c', rfl, h3, h4⟩ := accepts_row h2 hc
      rcases hvec h3 h4 with rfl | rfl <;> simp [stdTab]
    · obtain ⟨c', rfl, h3, h4⟩ := accepts_row h2 hc
      rw [hri h3 h4]; exact h1'
    · rw [hno (by simp) h2 hc]; exact h1'
    · rcases hic h2 hc with rfl | rfl <;> simp [stdTab]
    · rw [hno (by simp) h2 hc]; exact h1'
    · rw [hno (by simp) h2 hc]; exact h1'
    · rw [hint h2 hc]; exact h1'
    · have : c = .tuple [.prim 0, .prim 0] := by
        cases h2 with
        | undet => exact absurd hc (by simp [Full])
        | refl => rfl
        | tuple h =>
          cases h with
          | cons h3 h4 =>
            cases h4 with
            | cons h5 h6 =>
              cases h6
              rw [hint h3 hc.1, hint h5 hc.2.1]
      rw [this]; exact h1'
    · rw [hno (by simp) h2 hc]; exact h1'
    · rw [hno (by simp) h2 hc]; exact h1'

/-- with undetermined parts, acceptance is not transitive: `mat` accepts `[vec]`, which accepts `[*]`, but `mat` does not accept `[*]` -/
theorem C78_order_false : ∃ a b c, Accepts stdTab a b ∧ Accepts stdTab b c ∧ ¬ Accepts stdTab a c := by
  refine ⟨.prim 5, .row (.prim 4), .row .undet, ?_, ?_, ?_⟩ <;> rw [← C78_accepts stdTab_ok] <;> decide

/-! ### Joining and balancing -/

/-- what `join_to` does -/
theorem joinTo_spec {tab : CTab} (ht : TabOK tab) (c t : Option Ty) :
    ((joinTo tab c t).1 = true → ((joinTo tab c t).2 = c ∨ (joinTo tab c t).2 = t) ∧ ∀ x, x ∈ c ∨ x ∈ t → ∃ d ∈ (joinTo tab c t).2, Accepts tab d x) ∧
    ((joinTo tab c t).1 = false → (joinTo tab c t).2 = c ∧ ∃ a b, c = some a ∧ t = some b ∧ ¬ Accepts tab a b ∧ ¬ Accepts tab b a) := by
  cases c with
  | none => exact ⟨fun _ => ⟨.inr rfl, fun x hx => ⟨x, by simpa [joinTo] using hx, .refl _⟩⟩, fun h => by simp [joinTo] at h⟩
  | some a =>
    cases t with
    | none => exact ⟨fun _ => ⟨.inl rfl, fun x hx => ⟨x, by simpa [joinTo] using hx, .refl _⟩⟩, fun h => by simp [joinTo] at h⟩
    | some b =>
      have hl : Accepts tab a b → ((some a = some a ∨ some a = some b) ∧ ∀ x, x ∈ some a ∨ x ∈ some b → ∃ d ∈ some a, Accepts tab d x) := fun h =>
        ⟨.inl rfl, fun x hx => ⟨a, rfl, by
          rcases hx with hx | hx <;> cases hx
          · exact .refl _
          · exact h⟩⟩
      have hr : Accepts tab b a → ((some b = some a ∨ some b = some b) ∧ ∀ x, x ∈ some a ∨ x ∈ some b → ∃ d ∈ some b, Accepts tab d x) := fun h =>
        ⟨.inr rfl, fun x hx => ⟨b, rfl, by
          rcases hx with hx | hx <;> cases hx
          · exact h
          · exact .refl _⟩⟩
      rw [joinTo]
      by_cases h1 : a.isVoid = true
      · rw [if_pos h1]
        refine ⟨fun _ => hl ?_, fun h => by simp at h⟩
        rw [isVoid_iff.1 h1]; exact .void _
      · rw [if_neg h1]
        by_cases h2 : b.isVoid = true
        · rw [if_pos h2]
          refine ⟨fun _ => hr ?_, fun h => by simp at h⟩
          rw [isVoid_iff.1 h2]; exact .void _
        · rw [if_neg h2]
          by_cases h3 : accepts tab a b = true
          · rw [if_pos h3]
            exact ⟨fun _ => hl ((C78_accepts ht a b).1 h3), fun h => by simp at h⟩
          · rw [if_neg h3]
            by_cases h4 : accepts tab b a = true
            · rw [if_pos h4]
              exact ⟨fun _ => hr ((C78_accepts ht b a).1 h4), fun h => by simp at h⟩
            · rw [if_neg h4]
              exact ⟨fun h => by simp at h, fun _ => ⟨rfl, a, b, rfl, rfl, fun h => h3 ((C78_accepts ht a b).2 h), fun h => h4 ((C78_accepts ht b a).2 h)⟩⟩

/-- **C78.** Joining succeeds exactly if one of the types accepts the other one, and then gives a type accepting both, which is one of them; otherwise nothing is changed. -/
theorem C78_join {tab : CTab} (ht : TabOK tab) (a b : Ty) :
    ((joinTo tab (some a) (some b)).1 = true ↔ Accepts tab a b ∨ Accepts tab b a) ∧
    ((joinTo tab (some a) (some b)).1 = true → ∃ c, (joinTo tab (some a) (some b)).2 = some c ∧ (c = a ∨ c = b) ∧ Accepts tab c a ∧ Accepts tab c b) ∧
    ((joinTo tab (some a) (some b)).1 = false → (joinTo tab (some a) (some b)).2 = some a) := by
  obtain ⟨h1, h2⟩ := joinTo_spec ht (some a) (some b)
  have key : (joinTo tab (some a) (some b)).1 = true → ∃ c, (joinTo tab (some a) (some b)).2 = some c ∧ (c = a ∨ c = b) ∧ Accepts tab c a ∧ Accepts tab c b := fun h => by
    obtain ⟨h3, h4⟩ := h1 h
    obtain ⟨d, hd, h5⟩ := h4 a (.inl rfl)
    obtain ⟨d', hd', h6⟩ := h4 b (.inr rfl)
    have e : (joinTo tab (some a) (some b)).2 = some d := hd
    rw [show d' = d from Option.some.inj (hd'.symm.trans hd)] at h6
    rw [e] at h3
    exact ⟨d, e, by simpa using h3, h5, h6⟩
  refine ⟨⟨fun h => ?_, fun h => ?_⟩, key, fun h => (h2 h).1⟩
  · obtain ⟨c, _, rfl | rfl, h5, h6⟩ := key h
    · exact .inl h6
    · exact .inr h5
  · cases hb : (joinTo tab (some a) (some b)).1 with
    | true => rfl
    | false =>
      obtain ⟨_, a', b', e1, e2, n1, n2⟩ := h2 hb
      cases e1; cases e2
      exact absurd h (by simp [n1, n2])

/-- the current common type accepts `x` -/
def Up (tab : CTab) (c : Option Ty) (x : Ty) : Prop := ∃ d ∈ c, Accepts tab d x

/-- a conflict remains: `x` was compared with a type between the initial common type and the final one -/
def Stuck (tab : CTab) (c c' : Option Ty) (x : Ty) : Prop := ∃ d, Full d ∧ Up tab c' d ∧ (∀ e ∈ c, Accepts tab d e) ∧ ¬ Accepts tab d x ∧ ¬ Accepts tab x d

theorem up_step {tab : CTab} (ht : TabOrder tab) {c t : Option Ty} (h : (joinTo tab c t).1 = true) {x : Ty} (hx : Full x) (hu : Up tab c x) : Up tab (joinTo tab c t).2 x := by
  obtain ⟨d, hd, h1⟩ := hu
  obtain ⟨e, he, h2⟩ := ((joinTo_spec ht.ok c t).1 h).2 d (.inl hd)
  exact ⟨e, he, accepts_trans ht e d x h2 h1 hx⟩

theorem Stuck.step {tab : CTab} (ht : TabOrder tab) {c t c' : Option Ty} {x : Ty} (hc : ∀ e ∈ c, Full e) (h : (joinTo tab c t).1 = true) (hs : Stuck tab (joinTo tab c t).2 c' x) : Stuck tab c c' x := by
  obtain ⟨d, h1, h2, h3, h4⟩ := hs
  refine ⟨d, h1, h2, fun e he => ?_, h4⟩
  obtain ⟨d', hd', h5⟩ := ((joinTo_spec ht.ok c t).1 h).2 e (.inl he)
  exact accepts_trans ht d d' e (h3 d' hd') h5 (hc e he)

theorem joinAll_spec {tab : CTab} (ht : TabOrder tab) : ∀ (l : List (Option Ty)) (c : Option Ty) (conf : List Ty), (∀ x ∈ c, Full x) → (∀ x, some x ∈ l → Full x) →
    ∃ rest, (joinAll tab c conf l).2 = conf ++ rest ∧ ((joinAll tab c conf l).1 = c ∨ (joinAll tab c conf l).1 ∈ l) ∧ (∀ x, Full x → Up tab c x → Up tab (joinAll tab c conf l).1 x) ∧
      (∀ x, some x ∈ l → Up tab (joinAll tab c conf l).1 x ∨ x ∈ rest) ∧ ∀ x ∈ rest, some x ∈ l ∧ Stuck tab c (joinAll tab c conf l).1 x
  | [], c, conf, _, _ => ⟨[], by simp [joinAll], .inl rfl, fun _ _ h => h, by simp, by simp⟩
  | t :: l, c, conf, hc, hl => by
    rw [joinAll]
    by_cases h : (joinTo tab c t).1 = true
    · simp only [h, if_true]
      have hj := (joinTo_spec ht.ok c t).1 h
      have hf : ∀ x ∈ (joinTo tab c t).2, Full x := fun x hx => by
        rcases hj.1 with e | e <;> rw [e] at hx
        · exact hc x hx
        · exact hl x (by rw [← (show t = some x from hx)]; simp)
      obtain ⟨rest, h1, h2, h3, h4, h5⟩ := joinAll_spec ht l (joinTo tab c t).2 conf hf (fun x hx => hl x (by simp [hx]))
      refine ⟨rest, h1, ?_, fun x hx hu => h3 x hx (up_step ht h hx hu), fun x hx => ?_, fun x hx => ⟨by simp [(h5 x hx).1], Stuck.step ht hc h (h5 x hx).2⟩⟩
      · rcases h2 with e | e
        · rw [e]
          rcases hj.1 with e' | e' <;> rw [e']
          · exact .inl rfl
          · exact .inr (by simp)
        · exact .inr (by simp [e])
      · rcases List.mem_cons.1 hx with e | hx
        · exact .inl (h3 x (hl x hx) (hj.2 x (.inr (by rw [← e]; rfl))))
        · exact h4 x hx
    · simp only [h]
      have h' : (joinTo tab c t).1 = false := by simpa using h
      obtain ⟨e, a, b, rfl, rfl, n1, n2⟩ := (joinTo_spec ht.ok c t).2 h'
      rw [e]
      obtain ⟨rest, h1, h2, h3, h4, h5⟩ := joinAll_spec ht l (some a) (conf ++ [b]) hc (fun x hx => hl x (by simp [hx]))
      refine ⟨b :: rest, by simpa using h1, ?_, h3, fun x hx => ?_, fun x hx => ?_⟩
      · rcases h2 with e | e
        · exact .inl e
        · exact .inr (by simp [e])
      · rcases List.mem_cons.1 hx with e | hx
        · cases e; exact .inr (by simp)
        · exact (h4 x hx).imp_right fun h => by simp [h]
      · rcases List.mem_cons.1 hx with rfl | hx
        · refine ⟨by simp, a, hc a rfl, h3 a (hc a rfl) ⟨a, rfl, .refl _⟩, fun e he => ?_, n1, n2⟩
          cases he; exact .refl _
        · exact ⟨by simp [(h5 x hx).1], (h5 x hx).2⟩

theorem prune_spec {tab : CTab} (ht : TabOrder tab) : ∀ (l : List Ty) (c : Option Ty), (∀ x ∈ c, Full x) → (∀ x ∈ l, Full x) →
    ((prune tab c l).1 = c ∨ ∃ t ∈ l, (prune tab c l).1 = some t) ∧ (∀ x, Full x → Up tab c x → Up tab (prune tab c l).1 x) ∧
      (∀ x ∈ l, Up tab (prune tab c l).1 x ∨ x ∈ (prune tab c l).2) ∧ ∀ x ∈ (prune tab c l).2, x ∈ l ∧ Stuck tab c (prune tab c l).1 x
  | [], c, _, _ => ⟨.inl rfl, fun _ _ h => h, by simp, by simp [prune]⟩
  | t :: l, c, hc, hl => by
    rw [prune]
    by_cases h : (joinTo tab c (some t)).1 = true
    · simp only [h, if_true]
      have hj := (joinTo_spec ht.ok c (some t)).1 h
      have hf : ∀ x ∈ (joinTo tab c (some t)).2, Full x := fun x hx => by
        rcases hj.1 with e | e <;> rw [e] at hx
        · exact hc x hx
        · cases hx; exact hl t (by simp)
      obtain ⟨h2, h3, h4, h5⟩ := prune_spec ht l (joinTo tab c (some t)).2 hf (fun x hx => hl x (by simp [hx]))
      refine ⟨?_, fun x hx hu => h3 x hx (up_step ht h hx hu), fun x hx => ?_, fun x hx => ⟨by simp [(h5 x hx).1], Stuck.step ht hc h (h5 x hx).2⟩⟩
      · rcases h2 with e | ⟨x, hx, e⟩
        · rw [e]
          rcases hj.1 with e' | e' <;> rw [e']
          · exact .inl rfl
          · exact .inr ⟨t, by simp, rfl⟩
        · exact .inr ⟨x, by simp [hx], e⟩
      · rcases List.mem_cons.1 hx with rfl | hx
        · exact .inl (h3 x (hl x (by simp)) (hj.2 x (.inr rfl)))
        · exact h4 x hx
    · simp only [h]
      have h' : (joinTo tab c (some t)).1 = false := by simpa using h
      obtain ⟨e, a, b, rfl, e2, n1, n2⟩ := (joinTo_spec ht.ok c (some t)).2 h'
      cases e2
      rw [e]
      obtain ⟨h2, h3, h4, h5⟩ := prune_spec ht l (some a) hc (fun x hx => hl x (by simp [hx]))
      refine ⟨?_, h3, fun x hx => ?_, fun x hx => ?_⟩
      · rcases h2 with e | ⟨x, hx, e⟩
        · exact .inl e
        · exact .inr ⟨x, by simp [hx], e⟩
      · rcases List.mem_cons.1 hx with rfl | hx
        · exact .inr (by simp)
        · exact (h4 x hx).imp_right fun h => by simp [h]
      · rcases List.mem_cons.1 hx with rfl | hx
        · refine ⟨by simp, a, hc a rfl, h3 a (hc a rfl) ⟨a, rfl, .refl _⟩, fun e he => ?_, n1, n2⟩
          cases he; exact .refl _
        · exact ⟨by simp [(h5 x hx).1], (h5 x hx).2⟩

theorem mem_outer {common : Option Ty} {types : List (Option Ty)} {x : Ty} : x ∈ outer common types ↔ x ∈ common ∨ some x ∈ types := by simp [outer]

/-- the two passes together -/
theorem balance_spec {tab : CTab} (ht : TabOrder tab) (common : Option Ty) (types : List (Option Ty)) (inner : List Ty) (hf : ∀ x ∈ outer common types ++ inner, Full x) :
    ∃ c1 c2 rem, balance tab common types inner = (if rem = [] then .ok c2 else .error (c2.toList ++ rem)) ∧
      (∀ x ∈ c1, x ∈ outer common types) ∧ (c2 = c1 ∨ ∃ t ∈ inner, c2 = some t) ∧ (∀ x, Full x → Up tab c1 x → Up tab c2 x) ∧
      (∀ x ∈ outer common types ++ inner, Up tab c2 x ∨ x ∈ rem) ∧ (∀ x ∈ rem, x ∈ outer common types ++ inner ∧ Stuck tab c1 c2 x) ∧
      ∀ x ∈ outer common types, Up tab c1 x ∨ ∃ d, Full d ∧ Up tab c1 d ∧ ¬ Accepts tab x d := by
  obtain ⟨rest, h1, h2, h3, h4, h5⟩ := joinAll_spec ht types common inner (fun x hx => hf x (by simp [mem_outer, hx])) (fun x hx => hf x (by simp [mem_outer, hx]))
  have hm : ∀ x ∈ (joinAll tab common inner types).1, x ∈ outer common types := fun x hx => mem_outer.2 (by
    rcases h2 with e | e
    · rw [e] at hx; exact .inl hx
    · rw [show (joinAll tab common inner types).1 = some x from hx] at e; exact .inr e)
  have hcf : ∀ x ∈ (joinAll tab common inner types).2, x ∈ outer common types ++ inner := fun x hx => by
    rw [h1] at hx
    rcases List.mem_append.1 hx with hx | hx
    · simp [hx]
    · simp [mem_outer, (h5 x hx).1]
  obtain ⟨p1, p2, p3, p4⟩ := prune_spec ht (joinAll tab common inner types).2 (joinAll tab common inner types).1 (fun x hx => hf x (by simp [hm x hx])) (fun x hx => hf x (hcf x hx))
  have hup : ∀ x ∈ outer common types, Up tab (joinAll tab common inner types).1 x ∨ x ∈ rest := fun x hx => by
    rcases mem_outer.1 hx with h | h
    · exact .inl (h3 x (hf x (by simp [hx])) ⟨x, h, .refl _⟩)
    · exact h4 x h
  have hup2 : ∀ x ∈ outer common types, Up tab (joinAll tab common inner types).1 x ∨ ∃ d, Full d ∧ Up tab (joinAll tab common inner types).1 d ∧ ¬ Accepts tab x d := fun x hx =>
    (hup x hx).imp_right fun h => by
      obtain ⟨_, d, q1, q2, _, _, q3⟩ := h5 x h
      exact ⟨d, q1, q2, q3⟩
  refine ⟨(joinAll tab common inner types).1, (prune tab (joinAll tab common inner types).1 (joinAll tab common inner types).2).1, (prune tab (joinAll tab common inner types).1 (joinAll tab common inner types).2).2,
    ?_, hm, ?_, p2, fun x hx => ?_, fun x hx => ⟨hcf x (p4 x hx).1, (p4 x hx).2⟩, hup2⟩
  · rw [balance]
    simp only [List.isEmpty_iff]
  · rcases p1 with e | ⟨t, h, e⟩
    · exact .inl e
    · rw [h1] at h
      rcases List.mem_append.1 h with h | h
      · exact .inr ⟨t, h, e⟩
      · obtain ⟨_, d, q1, q2, _, _, q3⟩ := h5 t h
        obtain ⟨t', ht', q4⟩ := p2 d q1 q2
        rw [e] at ht'
        cases ht'
        exact absurd q4 q3
  · rcases List.mem_append.1 hx with h | h
    · rcases hup x h with h | h'
      · exact .inl (p2 x (hf x hx) h)
      · exact p3 x (by rw [h1]; simp [h'])
    · exact p3 x (by rw [h1]; simp [h])

/-- **C78.** Balancing succeeds with common type `c` exactly if `c` is among the types of the context and the branches, and accepts all of them, and all types found in inner errors. -/
theorem C78_balance {tab : CTab} (ht : TabOrder tab) (common : Option Ty) (types : List (Option Ty)) (inners : List (List Ty)) (hf : ∀ x ∈ outer common types ++ inners.flatten, Full x)
    (hi : ∀ S ∈ inners, NoTop tab S) (c : Ty) :
    balance tab common types inners.flatten = .ok (some c) ↔ c ∈ outer common types ∧ ∀ t ∈ outer common types ++ inners.flatten, Accepts tab c t := by
  obtain ⟨c1, c2, rem, h1, h2, h3, h4, h6, h7, h8⟩ := balance_spec ht common types inners.flatten hf
  rw [h1]
  constructor
  · intro h
    by_cases hr : rem = []
    · rw [if_pos hr] at h
      obtain rfl : c2 = some c := by injection h
      have hall : ∀ t ∈ outer common types ++ inners.flatten, Accepts tab c t := fun t htm => by
        rcases h6 t htm with ⟨d, hd, h⟩ | h
        · cases hd; exact h
        · rw [hr] at h; simp at h
      refine ⟨?_, hall⟩
      rcases h3 with e | ⟨t, hin, e⟩
      · exact h2 c (by rw [← e]; rfl)
      · cases e
        obtain ⟨S, hS, hc⟩ := List.mem_flatten.1 hin
        exact absurd ⟨c, hc, fun t htS => hall t (List.mem_append_right _ (List.mem_flatten.2 ⟨S, hS, htS⟩))⟩ (hi S hS)
    · rw [if_neg hr] at h; cases h
  · rintro ⟨hm, hall⟩
    have hc : Full c := hf c (by simp [hm])
    have e1 : c1 = some c := by
      have key : ∀ d, Full d → Up tab c1 d → Accepts tab c d := fun d hd ⟨e, he, h⟩ => accepts_trans ht c e d (hall e (by simp [h2 e he])) h hd
      rcases h8 c hm with ⟨e, he, h⟩ | ⟨d, q1, q2, q3⟩
      · rw [accepts_anti ht c e (hall e (by simp [h2 e he])) h]; exact he
      · exact absurd (key d q1 q2) q3
    have e2 : c2 = some c := by
      rcases h3 with e | ⟨t, hin, e⟩
      · rw [e, e1]
      · obtain ⟨d, hd, h⟩ := h4 c hc ⟨c, e1, .refl _⟩
        rw [e] at hd
        cases hd
        rw [e, accepts_anti ht c t (hall t (List.mem_append_right _ hin)) h]
    have hr : rem = [] := List.eq_nil_iff_forall_not_mem.2 fun x hx => by
      obtain ⟨q0, d, q1, q2, q3, q4, _⟩ := h7 x hx
      exact q4 (accepts_trans ht d c x (q3 c e1) (hall x q0) (hf x q0))
    rw [if_pos hr, e2]

/-- **C78.** The common type is left open exactly if there are no types at all. -/
theorem C78_open {tab : CTab} (ht : TabOrder tab) (common : Option Ty) (types : List (Option Ty)) (inner : List Ty) (hf : ∀ x ∈ outer common types ++ inner, Full x) :
    balance tab common types inner = .ok none ↔ outer common types = [] ∧ inner = [] := by
  obtain ⟨c1, c2, rem, h1, h2, h3, h4, h6, h7, h8⟩ := balance_spec ht common types inner hf
  rw [h1]
  constructor
  · intro h
    by_cases hr : rem = []
    · rw [if_pos hr] at h
      obtain rfl : c2 = none := by injection h
      have : ∀ x, x ∉ outer common types ++ inner := fun x hx => by
        rcases h6 x hx with ⟨d, hd, _⟩ | h
        · cases hd
        · rw [hr] at h; simp at h
      exact List.append_eq_nil_iff.1 (List.eq_nil_iff_forall_not_mem.2 this)
    · rw [if_neg hr] at h; cases h
  · rintro ⟨ho, rfl⟩
    have hr : rem = [] := List.eq_nil_iff_forall_not_mem.2 fun x hx => by have := (h7 x hx).1; rw [ho] at this; simp at this
    have e1 : c1 = none := Option.eq_none_iff_forall_not_mem.2 fun x hx => by have := h2 x hx; rw [ho] at this; simp at this
    rw [if_pos hr]
    rcases h3 with e | ⟨t, hin, _⟩
    · rw [e, e1]
    · simp at hin

/-- **C78.** The types reported in an error are all among those given, and none accepts all of them, so that what holds for the errors of inner expressions holds for the resulting error. -/
theorem C78_error {tab : CTab} (ht : TabOrder tab) (common : Option Ty) (types : List (Option Ty)) (inners : List (List Ty)) (hf : ∀ x ∈ outer common types ++ inners.flatten, Full x)
    (hi : ∀ S ∈ inners, NoTop tab S) {vs : List Ty} (h : balance tab common types inners.flatten = .error vs) : (∀ x ∈ vs, x ∈ outer common types ++ inners.flatten) ∧ NoTop tab vs := by
  obtain ⟨c1, c2, rem, h1, h2, h3, h4, h6, h7, h8⟩ := balance_spec ht common types inners.flatten hf
  rw [h1] at h
  by_cases hr : rem = []
  · rw [if_pos hr] at h; cases h
  rw [if_neg hr] at h
  obtain rfl : c2.toList ++ rem = vs := by injection h
  have hc2 : ∀ x ∈ c2, x ∈ outer common types ++ inners.flatten := fun x hx => by
    rcases h3 with e | ⟨t, hin, e⟩
    · rw [e] at hx; simp [h2 x hx]
    · rw [e] at hx; cases hx; exact List.mem_append_right _ hin
  refine ⟨fun x hx => ?_, ?_⟩
  · rcases List.mem_append.1 hx with hx | hx
    · exact hc2 x (by simpa using hx)
    · exact (h7 x hx).1
  · rintro ⟨x, hx, hall⟩
    -- no remaining conflict accepts all
    have hne : x ∉ rem := fun hx => by
      obtain ⟨q0, d, q1, ⟨e, he, q2⟩, _, _, q5⟩ := h7 x hx
      exact q5 (accepts_trans ht x e d (hall e (by simp [show c2 = some e from he])) q2 q1)
    have hx2 : c2 = some x := by simpa [hne] using hx
    rcases h3 with e | ⟨t, hin, e⟩
    · obtain ⟨y, hy⟩ := List.exists_mem_of_ne_nil rem hr
      obtain ⟨q0, d, q1, ⟨e', he, q2⟩, q3, q4, _⟩ := h7 y hy
      have e1 : e' = x := by rw [hx2] at he; cases he; rfl
      subst e1
      have := q3 e' (by rw [← e]; exact he)
      rw [accepts_anti ht d e' this q2] at q4
      exact q4 (hall y (by simp [hy]))
    · have e1 : t = x := by rw [hx2] at e; cases e; rfl
      subst e1
      obtain ⟨S, hS, hc⟩ := List.mem_flatten.1 hin
      refine hi S hS ⟨t, hc, fun y hy => ?_⟩
      rcases h6 y (List.mem_append_right _ (List.mem_flatten.2 ⟨S, hS, hy⟩)) with ⟨d, hd, h⟩ | h
      · rw [hx2] at hd; cases hd; exact h
      · exact hall y (by simp [h])

theorem accepts_row_iff {tab : CTab} {a b : Ty} : Accepts tab (.row a) (.row b) ↔ Accepts tab a b := by
  constructor
  · intro h
    cases h with
    | refl => exact .refl _
    | row h => exact h
  · exact .row

/-- **C78.** This also holds for the types of rows of which the error in an inner list display gives the types of components. -/
theorem C78_wrap {tab : CTab} {S : List Ty} (h : NoTop tab S) : NoTop tab (wrapRow S) := by
  rintro ⟨c, hc, hall⟩
  obtain ⟨a, ha, rfl⟩ := List.mem_map.1 hc
  exact h ⟨a, ha, fun t ht => accepts_row_iff.1 (hall _ (List.mem_map.2 ⟨t, ht, rfl⟩))⟩

/-- **C78.** The outcome does not depend on the order of the branches. -/
theorem C78_permute {tab : CTab} (ht : TabOrder tab) (common : Option Ty) {types types' : List (Option Ty)} (hp : types.Perm types') (inners : List (List Ty))
    (hf : ∀ x ∈ outer common types ++ inners.flatten, Full x) (hi : ∀ S ∈ inners, NoTop tab S) (r : Option Ty) :
    balance tab common types inners.flatten = .ok r ↔ balance tab common types' inners.flatten = .ok r := by
  have hm : ∀ x, x ∈ outer common types ↔ x ∈ outer common types' := fun x => by rw [mem_outer, mem_outer, hp.mem_iff]
  have hf' : ∀ x ∈ outer common types' ++ inners.flatten, Full x := fun x hx => hf x (by
    rw [List.mem_append, ← hm] at hx; exact List.mem_append.2 hx)
  cases r with
  | none =>
    rw [C78_open ht _ _ _ hf, C78_open ht _ _ _ hf']
    simp only [List.eq_nil_iff_forall_not_mem, hm]
  | some c =>
    rw [C78_balance ht _ _ _ hf hi, C78_balance ht _ _ _ hf' hi]
    simp only [List.mem_append, hm]

/-- **C78.** In a void context, or with a branch of void type, balancing always succeeds. -/
theorem C78_void {tab : CTab} (ht : TabOrder tab) (common : Option Ty) (types : List (Option Ty)) (inners : List (List Ty)) (hf : ∀ x ∈ outer common types ++ inners.flatten, Full x)
    (hi : ∀ S ∈ inners, NoTop tab S) (h : .tuple [] ∈ outer common types) : balance tab common types inners.flatten = .ok (some (.tuple [])) :=
  (C78_balance ht common types inners hf hi _).2 ⟨h, fun _ _ => .void _⟩

/-- balancing fails for `(int,rat)` and `(rat,int)`, although `(rat,rat)` accepts both: only types of branches are considered -/
theorem C78_balance_false : ∃ a b c, Accepts stdTab c a ∧ Accepts stdTab c b ∧ c ≠ .tuple [] ∧ balance stdTab none [some a, some b] [] = .error [a, b] := by
  refine ⟨.tuple [.prim 0, .prim 1], .tuple [.prim 1, .prim 0], .tuple [.prim 1, .prim 1], ?_, ?_, by simp, rfl⟩ <;> rw [← C78_accepts stdTab_ok] <;> decide

/-! ### Examples -/

/-- the branches have types `[int]`, `vec`, `ratvec`, and one branch has no type of its own -/
def exBranches : List (Option Ty) := [some (.row (.prim 0)), some (.prim 4), none, some (.prim 6)]

example : balance stdTab none exBranches [] = .ok (some (.prim 6)) ∧ balance stdTab none exBranches.reverse [] = .ok (some (.prim 6)) := ⟨rfl, rfl⟩

theorem exNoTop : NoTop stdTab [.tuple [.prim 0, .prim 1], .tuple [.prim 1, .prim 0]] := by
  rintro ⟨c, hc, hall⟩
  simp only [List.mem_cons, List.not_mem_nil, or_false] at hc
  rcases hc with rfl | rfl
  · have := (C78_accepts stdTab_ok _ _).2 (hall (.tuple [.prim 1, .prim 0]) (by simp))
    revert this; decide
  · have := (C78_accepts stdTab_ok _ _).2 (hall (.tuple [.prim 0, .prim 1]) (by simp))
    revert this; decide

/-- the branches are `[(1,1/2),(1/2,1)]`, which has no type alone, and a row of pairs of rationals -/
example : ∃ c, balance stdTab none [none, some (.row (.tuple [.prim 1, .prim 1]))] [wrapRow [.tuple [.prim 0, .prim 1], .tuple [.prim 1, .prim 0]]].flatten = .ok (some c) ∧
    (∀ S ∈ [wrapRow [.tuple [.prim 0, .prim 1], .tuple [.prim 1, .prim 0]]], NoTop stdTab S) ∧
    ∀ x ∈ outer none [none, some (.row (.tuple [.prim 1, .prim 1]))] ++ [wrapRow [.tuple [.prim 0, .prim 1], .tuple [.prim 1, .prim 0]]].flatten, Full x :=
  ⟨.row (.tuple [.prim 1, .prim 1]), rfl, by simpa using C78_wrap exNoTop, by simp [outer, wrapRow, Full, FullL]⟩

end Verif.Axis
