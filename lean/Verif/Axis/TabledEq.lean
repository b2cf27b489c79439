import Verif.Axis.TabledSpec
import Mathlib.Data.List.Forall2
import Mathlib.Algebra.BigOperators.Group.Finset.Basic
import Mathlib.Algebra.Order.BigOperators.Group.Finset
import Mathlib.Data.Finset.Card
/-
Equality of user-defined types ends, and decides whether types can be made identical.
-/
namespace Verif.Axis
open Verif Relation

theorem TT.ind {P : TT → Prop} (undet : P .undet) (prim : ∀ n, P (.prim n)) (var : ∀ n, P (.var n)) (func : ∀ a r, P a → P r → P (.func a r)) (row : ∀ c, P c → P (.row c))
    (tuple : ∀ l, (∀ t ∈ l, P t) → P (.tuple l)) (union : ∀ l, (∀ t ∈ l, P t) → P (.union l)) (tabled : ∀ n args, (∀ t ∈ args, P t) → P (.tabled n args)) (t : TT) : P t :=
  TT.rec (motive_1 := P) (motive_2 := fun l => ∀ t ∈ l, P t) undet prim var func row tuple union tabled (by simp) (fun a l ha hl t ht => by
    rcases List.mem_cons.1 ht with rfl | ht
    · exact ha
    · exact hl t ht) t

theorem plainL_iff {n : Nat} {l : List TT} : PlainL n l ↔ ∀ t ∈ l, Plain n t := by
  induction l with
  | nil => simp [PlainL]
  | cons a l ih => simp [PlainL, ih]

theorem closedL_iff {l : List TT} : ClosedL l ↔ ∀ t ∈ l, Closed t := by
  induction l with
  | nil => simp [ClosedL]
  | cons a l ih => simp [ClosedL, ih]

theorem occursL_iff {k : Nat} {l : List TT} : OccursL k l ↔ ∃ t ∈ l, Occurs k t := by
  induction l with
  | nil => simp [OccursL]
  | cons a l ih => simp [OccursL, ih]

/-! ### Expansion -/

/-- a type without arguments is copied by `simple_subst` -/
theorem simpleSubst_id (nd : Bool) {n : Nat} (as : List TT) (t : TT) : Closed t → Plain n t → simpleSubst nd as t = .ok t := by
  have hL : ∀ l : List TT, (∀ t ∈ l, Closed t → Plain n t → simpleSubst nd as t = .ok t) → ClosedL l → PlainL n l → simpleSubstL nd as l = .ok l := by
    intro l
    induction l with
    | nil => intro _ _ _; rfl
    | cons a l ih =>
      intro h h1 h2
      rw [simpleSubstL, h a (by simp) h1.1 h2.1, Res.ok_bind, ih (fun t ht => h t (by simp [ht])) h1.2 h2.2, Res.ok_bind]
  induction t using TT.ind with
  | undet => intro h; exact h.elim
  | prim n => intro _ _; rfl
  | var n => intro h; exact h.elim
  | func a r ha hr => intro h1 h2; rw [simpleSubst, ha h1.1 h2.1, Res.ok_bind, hr h1.2 h2.2, Res.ok_bind]
  | row c hc => intro h1 h2; rw [simpleSubst, hc h1 h2, Res.ok_bind]
  | tuple l hl => intro h1 h2; rw [simpleSubst, hL l hl h1 h2, Res.ok_bind]
  | union l hl => intro h1 h2; rw [simpleSubst, hL l hl h1 h2, Res.ok_bind]
  | tabled k args _ =>
    intro h1 h2
    obtain ⟨_, rfl⟩ := h2
    rfl

theorem expanded_ok (nd : Bool) {m : TMap} (h : WF m) {n : Nat} {b : Binding} (hb : m[n]? = some b) : expanded nd m (.tabled n []) = .ok b.tp := by
  have hn : n < m.length := (List.getElem?_eq_some_iff.1 hb).1
  obtain ⟨h1, h2, h3, _⟩ := h.complete b (List.mem_of_getElem? hb)
  rw [expanded, Res.assertIn_bind nd (by simpa using hn), Vec.get, hb, Res.ok_bind, Res.assertIn_bind nd (by simp [h1])]
  exact simpleSubst_id nd [] b.tp h2 h3

/-- the expansions of lists -/
abbrev Exps (m : TMap) : TT → TT → Prop := ReflTransGen (Expand m)

theorem liftRT {α β : Type} {r : α → α → Prop} {q : β → β → Prop} (f : α → β) (hf : ∀ a b, r a b → q (f a) (f b)) {a b : α} (h : ReflTransGen r a b) : ReflTransGen q (f a) (f b) := by
  induction h with
  | refl => exact .refl
  | tail _ h ih => exact ih.tail (hf _ _ h)

theorem expand_tag {m : TMap} {x y : TT} (h : Expand m x y) (hx : x.isTabled = false) : y.tag = x.tag ∧ y.isTabled = false := by
  cases h <;> first | exact ⟨rfl, rfl⟩ | simp [TT.isTabled] at hx

theorem exps_tag {m : TMap} {x y : TT} (h : Exps m x y) (hx : x.isTabled = false) : y.tag = x.tag ∧ y.isTabled = false := by
  induction h with
  | refl => exact ⟨rfl, hx⟩
  | tail _ h ih =>
    have := expand_tag h ih.2
    exact ⟨this.1.trans ih.1, this.2⟩

theorem exps_row {m : TMap} {c z : TT} (h : Exps m (.row c) z) : ∃ c', z = .row c' ∧ Exps m c c' := by
  induction h with
  | refl => exact ⟨c, rfl, .refl⟩
  | tail _ h ih =>
    obtain ⟨c', rfl, h'⟩ := ih
    cases h with
    | row h => exact ⟨_, rfl, h'.tail h⟩

theorem exps_func {m : TMap} {a r z : TT} (h : Exps m (.func a r) z) : ∃ a' r', z = .func a' r' ∧ Exps m a a' ∧ Exps m r r' := by
  induction h with
  | refl => exact ⟨a, r, rfl, .refl, .refl⟩
  | tail _ h ih =>
    obtain ⟨a', r', rfl, h1, h2⟩ := ih
    cases h with
    | arg _ h => exact ⟨_, _, rfl, h1.tail h, h2⟩
    | res _ h => exact ⟨_, _, rfl, h1, h2.tail h⟩

theorem forall_step {m : TMap} : ∀ {l l' l'' : List TT}, List.Forall₂ (Exps m) l l' → ExpandL m l' l'' → List.Forall₂ (Exps m) l l''
  | _, _, _, .cons h1 h2, .head _ h => .cons (h1.tail h) h2
  | _, _, _, .cons h1 h2, .tail _ h => .cons h1 (forall_step h2 h)

theorem exps_tuple {m : TMap} {l : List TT} {z : TT} (h : Exps m (.tuple l) z) : ∃ l', z = .tuple l' ∧ List.Forall₂ (Exps m) l l' := by
  induction h with
  | refl => exact ⟨l, rfl, List.forall₂_same.2 fun _ _ => .refl⟩
  | tail _ h ih =>
    obtain ⟨l', rfl, h'⟩ := ih
    cases h with
    | tuple h => exact ⟨_, rfl, forall_step h' h⟩

theorem exps_union {m : TMap} {l : List TT} {z : TT} (h : Exps m (.union l) z) : ∃ l', z = .union l' ∧ List.Forall₂ (Exps m) l l' := by
  induction h with
  | refl => exact ⟨l, rfl, List.forall₂_same.2 fun _ _ => .refl⟩
  | tail _ h ih =>
    obtain ⟨l', rfl, h'⟩ := ih
    cases h with
    | union h => exact ⟨_, rfl, forall_step h' h⟩

theorem expsL {m : TMap} : ∀ {l l' : List TT}, List.Forall₂ (Exps m) l l' → ReflTransGen (ExpandL m) l l'
  | _, _, .nil => .refl
  | _, _, .cons (a := a) (l₂ := l2) h1 h2 =>
    (liftRT (a :: ·) (fun _ _ h => .tail a h) (expsL h2)).trans (liftRT (· :: l2) (fun _ _ h => .head l2 h) h1)

theorem equiv_row {m : TMap} {c c' : TT} : Equiv m (.row c) (.row c') ↔ Equiv m c c' := by
  constructor
  · rintro ⟨z, h1, h2⟩
    obtain ⟨d, rfl, g1⟩ := exps_row h1
    obtain ⟨d', e, g2⟩ := exps_row h2
    cases e
    exact ⟨d, g1, g2⟩
  · rintro ⟨d, h1, h2⟩
    exact ⟨.row d, liftRT _ (fun _ _ h => .row h) h1, liftRT _ (fun _ _ h => .row h) h2⟩

theorem equiv_func {m : TMap} {a r a' r' : TT} : Equiv m (.func a r) (.func a' r') ↔ Equiv m a a' ∧ Equiv m r r' := by
  have key : ∀ {a r b s : TT}, Exps m a b → Exps m r s → Exps m (.func a r) (.func b s) := fun {a r b s} h1 h2 =>
    (liftRT (fun x => TT.func x r) (fun _ _ h => .arg r h) h1).trans (liftRT (fun x => TT.func b x) (fun _ _ h => .res b h) h2)
  constructor
  · rintro ⟨z, h1, h2⟩
    obtain ⟨b, s, rfl, g1, g3⟩ := exps_func h1
    obtain ⟨_, _, e, g2, g4⟩ := exps_func h2
    cases e
    exact ⟨⟨b, g1, g2⟩, ⟨s, g3, g4⟩⟩
  · rintro ⟨⟨b, h1, h2⟩, ⟨s, h3, h4⟩⟩
    exact ⟨.func b s, key h1 h3, key h2 h4⟩

theorem joinL {m : TMap} : ∀ {l l' : List TT}, List.Forall₂ (Equiv m) l l' ↔ ∃ d, List.Forall₂ (Exps m) l d ∧ List.Forall₂ (Exps m) l' d
  | [], [] => ⟨fun _ => ⟨[], .nil, .nil⟩, fun _ => .nil⟩
  | [], _ :: _ => ⟨(fun h => by cases h), (fun ⟨_, h1, h2⟩ => by cases h1; cases h2)⟩
  | _ :: _, [] => ⟨(fun h => by cases h), (fun ⟨_, h1, h2⟩ => by cases h2; cases h1)⟩
  | a :: l, b :: l' => by
    constructor
    · intro h
      cases h with
      | cons h1 h2 =>
        obtain ⟨d, q1, q2⟩ := joinL.1 h2
        obtain ⟨c, q3, q4⟩ := h1
        exact ⟨c :: d, .cons q3 q1, .cons q4 q2⟩
    · rintro ⟨d, h1, h2⟩
      cases h1 with
      | cons h1 h3 =>
        cases h2 with
        | cons h2 h4 => exact .cons ⟨_, h1, h2⟩ (joinL.2 ⟨_, h3, h4⟩)

theorem equiv_tuple {m : TMap} {l l' : List TT} : Equiv m (.tuple l) (.tuple l') ↔ List.Forall₂ (Equiv m) l l' := by
  rw [joinL]
  constructor
  · rintro ⟨z, h1, h2⟩
    obtain ⟨d, rfl, g1⟩ := exps_tuple h1
    obtain ⟨_, e, g2⟩ := exps_tuple h2
    cases e
    exact ⟨d, g1, g2⟩
  · rintro ⟨d, h1, h2⟩
    exact ⟨.tuple d, liftRT _ (fun _ _ h => .tuple h) (expsL h1), liftRT _ (fun _ _ h => .tuple h) (expsL h2)⟩

theorem equiv_union {m : TMap} {l l' : List TT} : Equiv m (.union l) (.union l') ↔ List.Forall₂ (Equiv m) l l' := by
  rw [joinL]
  constructor
  · rintro ⟨z, h1, h2⟩
    obtain ⟨d, rfl, g1⟩ := exps_union h1
    obtain ⟨_, e, g2⟩ := exps_union h2
    cases e
    exact ⟨d, g1, g2⟩
  · rintro ⟨d, h1, h2⟩
    exact ⟨.union d, liftRT _ (fun _ _ h => .union h) (expsL h1), liftRT _ (fun _ _ h => .union h) (expsL h2)⟩

theorem equiv_tag {m : TMap} {x y : TT} (hx : x.isTabled = false) (hy : y.isTabled = false) (h : Equiv m x y) : x.tag = y.tag := by
  obtain ⟨z, h1, h2⟩ := h
  rw [← (exps_tag h1 hx).1, (exps_tag h2 hy).1]

theorem equiv_symm {m : TMap} {x y : TT} (h : Equiv m x y) : Equiv m y x := by
  obtain ⟨z, h1, h2⟩ := h
  exact ⟨z, h2, h1⟩

theorem equiv_leaf {m : TMap} {x y : TT} (hx : ∀ z, ¬ Expand m x z) (hy : ∀ z, ¬ Expand m y z) (h : Equiv m x y) : x = y := by
  obtain ⟨z, h1, h2⟩ := h
  have key : ∀ {x}, (∀ z, ¬ Expand m x z) → Exps m x z → x = z := fun hx h => by
    rcases ReflTransGen.cases_head h with e | ⟨w, hw, _⟩
    · exact e
    · exact absurd hw (hx w)
  rw [key hx h1, key hy h2]

/-- expansion of a user-defined type begins with its definition -/
theorem exps_tabled {m : TMap} {n : Nat} {b : Binding} (hb : m[n]? = some b) {z : TT} (h : Exps m (.tabled n []) z) : z = .tabled n [] ∨ Exps m b.tp z := by
  rcases ReflTransGen.cases_head h with e | ⟨w, hw, h⟩
  · exact .inl e.symm
  · cases hw with
    | here hb' =>
      rw [hb] at hb'
      cases hb'
      exact .inr h

theorem equiv_tabled {m : TMap} {n : Nat} {b : Binding} (hb : m[n]? = some b) {y : TT} (hy : y.isTabled = false) : Equiv m (.tabled n []) y ↔ Equiv m b.tp y := by
  constructor
  · rintro ⟨z, h1, h2⟩
    rcases exps_tabled hb h1 with rfl | h1
    · exact absurd (exps_tag h2 hy).2 (by simp [TT.isTabled])
    · exact ⟨z, h1, h2⟩
  · rintro ⟨z, h1, h2⟩
    exact ⟨z, .head (.here hb) h1, h2⟩

theorem equiv_tabled2 {m : TMap} (h : WF m) {n n' : Nat} {b b' : Binding} (hb : m[n]? = some b) (hb' : m[n']? = some b') (hne : n ≠ n') :
    Equiv m (.tabled n []) (.tabled n' []) ↔ Equiv m b.tp b'.tp := by
  have q := (h.complete b (List.mem_of_getElem? hb)).2.2.2
  have q' := (h.complete b' (List.mem_of_getElem? hb')).2.2.2
  rw [← equiv_tabled hb q']
  constructor
  · rintro ⟨z, h1, h2⟩
    rcases exps_tabled hb' h2 with rfl | h2
    · rcases exps_tabled hb h1 with e | h1
      · cases e; exact absurd rfl hne
      · exact absurd (exps_tag h1 q).2 (by simp [TT.isTabled])
    · exact ⟨z, h1, h2⟩
  · rintro ⟨z, h1, h2⟩
    exact ⟨z, h1, .head (.here hb') h2⟩

/-! ### Weights of types -/

mutual
/-- weight of a type, for given weights of the types in the table -/
def tabWt (v : Nat → Nat) : TT → Nat
  | .func a r => 1 + tabWt v a + tabWt v r
  | .row c => 1 + tabWt v c
  | .tuple l => 1 + tabWtL v l
  | .union l => 1 + tabWtL v l
  | .tabled n _ => v n
  | _ => 1
def tabWtL (v : Nat → Nat) : List TT → Nat
  | [] => 0
  | t :: l => tabWt v t + tabWtL v l
end

theorem tabWt_le_wtL {v : Nat → Nat} {t : TT} : ∀ {l : List TT}, t ∈ l → tabWt v t ≤ tabWtL v l
  | a :: l, h => by
    rw [tabWtL]
    rcases List.mem_cons.1 h with rfl | h
    · omega
    · have := tabWt_le_wtL (v := v) h; omega

theorem tabWt_comps {v : Nat → Nat} {t c : TT} (h : c ∈ t.comps) : tabWt v c < tabWt v t := by
  cases t with
  | func a r =>
    simp only [TT.comps, List.mem_cons, List.not_mem_nil, or_false] at h
    rcases h with rfl | rfl <;> (rw [tabWt]; omega)
  | row c' =>
    simp only [TT.comps, List.mem_cons, List.not_mem_nil, or_false] at h
    subst h
    rw [tabWt]; omega
  | tuple l => have : tabWt v c ≤ tabWtL v l := tabWt_le_wtL h; rw [tabWt]; omega
  | union l => have : tabWt v c ≤ tabWtL v l := tabWt_le_wtL h; rw [tabWt]; omega
  | _ => simp [TT.comps] at h

theorem tabWt_congr {v w : Nat → Nat} (t : TT) : (∀ k, Occurs k t → v k = w k) → tabWt v t = tabWt w t := by
  have hL : ∀ l : List TT, (∀ t ∈ l, (∀ k, Occurs k t → v k = w k) → tabWt v t = tabWt w t) → (∀ k, OccursL k l → v k = w k) → tabWtL v l = tabWtL w l := by
    intro l
    induction l with
    | nil => intro _ _; rfl
    | cons a l ih =>
      intro h h1
      rw [tabWtL, tabWtL, h a (by simp) (fun k hk => h1 k (.inl hk)), ih (fun t ht => h t (by simp [ht])) (fun k hk => h1 k (.inr hk))]
  induction t using TT.ind with
  | undet => intro _; rfl
  | prim n => intro _; rfl
  | var n => intro _; rfl
  | func a r ha hr => intro h; rw [tabWt, tabWt, ha fun k hk => h k (.inl hk), hr fun k hk => h k (.inr hk)]
  | row c hc => intro h; rw [tabWt, tabWt, hc h]
  | tuple l hl => intro h; rw [tabWt, tabWt, hL l hl h]
  | union l hl => intro h; rw [tabWt, tabWt, hL l hl h]
  | tabled n args _ => intro h; exact h n rfl

theorem plain_occurs {n k : Nat} (t : TT) : Plain n t → Occurs k t → k < n := by
  have hL : ∀ l : List TT, (∀ t ∈ l, Plain n t → Occurs k t → k < n) → PlainL n l → OccursL k l → k < n := fun l h h1 h2 => by
    obtain ⟨t, ht, h2⟩ := occursL_iff.1 h2
    exact h t ht (plainL_iff.1 h1 t ht) h2
  induction t using TT.ind with
  | func a r ha hr => intro h h2; exact h2.elim (ha h.1) (hr h.2)
  | row c hc => intro h h2; exact hc h h2
  | tuple l hl => intro h h2; exact hL l hl h h2
  | union l hl => intro h h2; exact hL l hl h h2
  | tabled j args _ => intro h h2; simp only [Occurs] at h2; subst h2; exact h.1
  | _ => intro _ h2; exact h2.elim

theorem refers_lt {m : TMap} (h : WF m) {n k : Nat} (hr : Refers m n k) : k < m.length := by
  obtain ⟨b, hb, ho⟩ := hr
  exact plain_occurs _ (h.complete b (List.mem_of_getElem? hb)).2.2.1 ho

open Classical in
/-- number of types reachable from type `n` -/
noncomputable def reachN (m : TMap) (n : Nat) : Nat := ((Finset.range m.length).filter fun k => ReflTransGen (Refers m) n k).card

/-- types referred to have no greater rank, and equal rank only for recursive types -/
theorem reachN_refers {m : TMap} (h : WF m) {n k : Nat} {b : Binding} (hb : m[n]? = some b) (hr : Refers m n k) :
    reachN m k ≤ reachN m n ∧ (reachN m k = reachN m n → b.recursive = true ∧ ∀ b', m[k]? = some b' → b'.recursive = true) := by
  classical
  have hn : n < m.length := (List.getElem?_eq_some_iff.1 hb).1
  have hsub : ((Finset.range m.length).filter fun j => ReflTransGen (Refers m) k j) ⊆ ((Finset.range m.length).filter fun j => ReflTransGen (Refers m) n j) := by
    intro j hj
    rw [Finset.mem_filter] at hj ⊢
    exact ⟨hj.1, .head hr hj.2⟩
  have hle : reachN m k ≤ reachN m n := by
    unfold reachN
    convert Finset.card_le_card hsub
  refine ⟨hle, fun he => ?_⟩
  have heq := Finset.eq_of_subset_of_card_le hsub (by unfold reachN at he; convert he.ge)
  have hin : n ∈ ((Finset.range m.length).filter fun j => ReflTransGen (Refers m) k j) := by
    rw [heq, Finset.mem_filter, Finset.mem_range]
    exact ⟨hn, .refl⟩
  have hback : ReflTransGen (Refers m) k n := (Finset.mem_filter.1 hin).2
  exact ⟨h.marked n b hb (TransGen.head' hr hback), fun b' hb' => h.marked k b' hb' (TransGen.tail' hback hr)⟩

/-- there are weights that decrease on expansion of nonrecursive types, and do not increase from a recursive type to the components of its definition -/
theorem exists_weights {m : TMap} (h : WF m) : ∃ v : Nat → Nat, (∀ n b, m[n]? = some b → b.recursive = false → tabWt v b.tp < v n) ∧
    (∀ n b, m[n]? = some b → b.recursive = true → ∀ c ∈ b.tp.comps, tabWt v c ≤ v n) := by
  classical
  let F : (n : Nat) → ((k : Nat) → reachN m k < reachN m n → Nat) → Nat := fun n ih =>
    let w : Nat → Nat := fun k => if hk : reachN m k < reachN m n then ih k hk else 0
    match m[n]? with
    | none => 0
    | some b => if b.recursive then 1 + ∑ k ∈ Finset.range m.length, w k else 1 + tabWt w b.tp
  let v : Nat → Nat := WellFounded.fix (measure (reachN m)).wf F
  let w : Nat → Nat → Nat := fun n k => if reachN m k < reachN m n then v k else 0
  have hv : ∀ n b, m[n]? = some b → v n = if b.recursive then 1 + ∑ k ∈ Finset.range m.length, w n k else 1 + tabWt (w n) b.tp := by
    intro n b hb
    have e := WellFounded.fix_eq (measure (reachN m)).wf F n
    change v n = F n (fun k _ => v k) at e
    rw [e]
    simp only [F, hb, w, dite_eq_ite]
  refine ⟨v, fun n b hb hr => ?_, fun n b hb hr c hc => ?_⟩
  · rw [hv n b hb, hr]
    have : tabWt v b.tp = tabWt (w n) b.tp := tabWt_congr _ fun k hk => by
      have q := reachN_refers h hb ⟨b, hb, hk⟩
      have hlt : reachN m k < reachN m n := lt_of_le_of_ne q.1 fun e => by
        have := (q.2 e).1
        rw [hr] at this
        exact absurd this (by decide)
      simp only [w, if_pos hlt]
    rw [this]
    simp
  · have hf := h.flat b (List.mem_of_getElem? hb) hr c hc
    rw [hv n b hb, if_pos hr]
    have hone : ∀ t : TT, t.comps = [] → t.isTabled = false → tabWt v t ≤ 1 := fun t h1 h2 => by
      cases t <;> simp_all [TT.comps, TT.isTabled, tabWt, tabWtL]
    by_cases ht : c.isTabled = false
    · have := hone c hf ht
      omega
    · cases c with
      | tabled k args =>
        have hocc : Occurs k b.tp := by
          have : ∀ t : TT, TT.tabled k args ∈ t.comps → Occurs k t := fun t ht => by
            cases t with
            | func a r =>
              simp only [TT.comps, List.mem_cons, List.not_mem_nil, or_false] at ht
              rcases ht with rfl | rfl
              · exact .inl rfl
              · exact .inr rfl
            | row c' =>
              simp only [TT.comps, List.mem_cons, List.not_mem_nil, or_false] at ht
              subst ht
              exact rfl
            | tuple l => exact occursL_iff.2 ⟨_, ht, rfl⟩
            | union l => exact occursL_iff.2 ⟨_, ht, rfl⟩
            | _ => simp [TT.comps] at ht
          exact this _ hc
        have hr' : Refers m n k := ⟨b, hb, hocc⟩
        have q := reachN_refers h hb hr'
        have hk := refers_lt h hr'
        rw [tabWt]
        by_cases hlt : reachN m k < reachN m n
        · have : w n k ≤ ∑ k ∈ Finset.range m.length, w n k := Finset.single_le_sum (fun _ _ => Nat.zero_le _) (Finset.mem_range.2 hk)
          simp only [w, if_pos hlt] at this ⊢
          omega
        · have he : reachN m k = reachN m n := by omega
          have hb' := List.getElem?_eq_getElem hk
          rw [hv k _ hb', if_pos ((q.2 he).2 _ hb')]
          simp only [w, he]
          exact le_refl _
      | _ => simp [TT.isTabled] at ht

/-! ### Equality ends and is right -/

/-- the outcome of comparing `x` with `y`, whether or not assertions are compiled in -/
def Decided (nd : Bool) (m : TMap) (x y : TT) : Prop :=
  ∃ b K, (∀ k, K ≤ k → eqT nd m k x y = .ok b) ∧ (b = true → Equiv m x y) ∧ (NoTwins m → Equiv m x y → b = true)

theorem eqT_succ (nd : Bool) (m : TMap) (k : Nat) (x y : TT) : eqT nd m (k + 1) x y =
    if x.tag ≠ y.tag then
      if x.isTabled then expanded nd m x >>= fun x' => eqT nd m k x' y
      else if y.isTabled then expanded nd m y >>= fun y' => eqT nd m k x y'
      else .ok false
    else eqKinds (eqT nd m k) nd m x y := rfl

/-- lists of components -/
theorem decided_list (nd : Bool) (m : TMap) : ∀ l l' : List TT, (∀ x ∈ l, ∀ y ∈ l', Decided nd m x y) →
    ∃ b K, (∀ k, K ≤ k → eqList (eqT nd m k) l l' = .ok b) ∧ (b = true → List.Forall₂ (Equiv m) l l') ∧ (NoTwins m → List.Forall₂ (Equiv m) l l' → b = true)
  | [], [], _ => ⟨true, 0, fun _ _ => rfl, fun _ => .nil, fun _ _ => rfl⟩
  | [], _ :: _, _ => ⟨false, 0, fun _ _ => rfl, (fun h => by cases h), (fun _ h => by cases h)⟩
  | _ :: _, [], _ => ⟨false, 0, fun _ _ => rfl, (fun h => by cases h), (fun _ h => by cases h)⟩
  | x :: l, y :: l', h => by
    obtain ⟨b, K, h1, h2, h3⟩ := h x (by simp) y (by simp)
    obtain ⟨b', K', h1', h2', h3'⟩ := decided_list nd m l l' fun x hx y hy => h x (by simp [hx]) y (by simp [hy])
    cases b with
    | false =>
      refine ⟨false, K, fun k hk => ?_, (fun h => by cases h), fun hn hf => ?_⟩
      · rw [eqList, h1 k hk, Res.ok_bind, if_neg (by decide)]
      · cases hf with
        | cons hf _ => exact h3 hn hf
    | true =>
      refine ⟨b', max K K', fun k hk => ?_, fun hb => .cons (h2 rfl) (h2' hb), fun hn hf => ?_⟩
      · rw [eqList, h1 k (by omega), Res.ok_bind, if_pos rfl, h1' k (by omega)]
      · cases hf with
        | cons _ hf => exact h3' hn hf

theorem decided_diff (nd : Bool) {m : TMap} {x y : TT} (hx : x.isTabled = false) (hy : y.isTabled = false) (ht : x.tag ≠ y.tag) : Decided nd m x y := by
  refine ⟨false, 1, fun k hk => ?_, (fun h => by cases h), fun _ h => absurd (equiv_tag hx hy h) ht⟩
  obtain ⟨k, rfl⟩ : ∃ j, k = j + 1 := ⟨k - 1, by omega⟩
  rw [eqT_succ, if_pos ht, if_neg (by simp [hx]), if_neg (by simp [hy])]

/-- types that are not user-defined are compared by their components -/
theorem decided_struct (nd : Bool) {m : TMap} {x y : TT} (hx : x.isTabled = false) (hy : y.isTabled = false) (hc : ∀ c ∈ x.comps, ∀ c' ∈ y.comps, Decided nd m c c') :
    Decided nd m x y := by
  by_cases ht : x.tag = y.tag
  swap
  · exact decided_diff nd hx hy ht
  have hs : ∀ k, eqT nd m (k + 1) x y = eqKinds (eqT nd m k) nd m x y := fun k => by rw [eqT_succ, if_neg (by simp [ht])]
  have fin : ∀ b K, (∀ k, K ≤ k → eqKinds (eqT nd m k) nd m x y = .ok b) → (∀ k, K + 1 ≤ k → eqT nd m k x y = .ok b) := fun b K h k hk => by
    obtain ⟨k, rfl⟩ : ∃ j, k = j + 1 := ⟨k - 1, by omega⟩
    rw [hs, h k (by omega)]
  have leaf : ∀ b, (∀ self, eqKinds self nd m x y = .ok b) → (b = true → x = y) → (Equiv m x y → b = true) → Decided nd m x y := fun b h1 h2 h3 =>
    ⟨b, 1, fin b 0 fun _ _ => h1 _, fun hb => by rw [h2 hb]; exact ⟨y, .refl, .refl⟩, fun _ h => h3 h⟩
  cases x with
  | undet =>
    cases y with
    | undet => exact leaf true (fun _ => rfl) (fun _ => rfl) (fun _ => rfl)
    | _ => simp [TT.tag] at ht
  | prim a =>
    cases y with
    | prim b =>
      refine leaf (a == b) (fun _ => rfl) (fun h => by rw [beq_iff_eq.1 h]) fun h => ?_
      have := equiv_leaf (by rintro z ⟨⟩) (by rintro z ⟨⟩) h
      cases this
      simp
    | _ => simp [TT.tag] at ht
  | var a =>
    cases y with
    | var b =>
      refine leaf (a == b) (fun _ => rfl) (fun h => by rw [beq_iff_eq.1 h]) fun h => ?_
      have := equiv_leaf (by rintro z ⟨⟩) (by rintro z ⟨⟩) h
      cases this
      simp
    | _ => simp [TT.tag] at ht
  | func a r =>
    cases y with
    | func a' r' =>
      obtain ⟨b, K, h1, h2, h3⟩ := hc a (by simp [TT.comps]) a' (by simp [TT.comps])
      obtain ⟨b', K', h1', h2', h3'⟩ := hc r (by simp [TT.comps]) r' (by simp [TT.comps])
      cases b with
      | false =>
        refine ⟨false, K + 1, fin false K fun k hk => ?_, (fun h => by cases h), fun hn hf => h3 hn (equiv_func.1 hf).1⟩
        rw [eqKinds, h1 k hk, Res.ok_bind, if_neg (by decide)]
      | true =>
        refine ⟨b', max K K' + 1, fin b' _ fun k hk => ?_, fun h => equiv_func.2 ⟨h2 rfl, h2' h⟩, fun hn hf => h3' hn (equiv_func.1 hf).2⟩
        rw [eqKinds, h1 k (by omega), Res.ok_bind, if_pos rfl, h1' k (by omega)]
    | _ => simp [TT.tag] at ht
  | row c =>
    cases y with
    | row c' =>
      obtain ⟨b, K, h1, h2, h3⟩ := hc c (by simp [TT.comps]) c' (by simp [TT.comps])
      exact ⟨b, K + 1, fin b K fun k hk => h1 k hk, fun h => equiv_row.2 (h2 h), fun hn hf => h3 hn (equiv_row.1 hf)⟩
    | _ => simp [TT.tag] at ht
  | tuple l =>
    cases y with
    | tuple l' =>
      obtain ⟨b, K, h1, h2, h3⟩ := decided_list nd m l l' hc
      exact ⟨b, K + 1, fin b K fun k hk => h1 k hk, fun h => equiv_tuple.2 (h2 h), fun hn hf => h3 hn (equiv_tuple.1 hf)⟩
    | _ => simp [TT.tag] at ht
  | union l =>
    cases y with
    | union l' =>
      obtain ⟨b, K, h1, h2, h3⟩ := decided_list nd m l l' hc
      exact ⟨b, K + 1, fin b K fun k hk => h1 k hk, fun h => equiv_union.2 (h2 h), fun hn hf => h3 hn (equiv_union.1 hf)⟩
    | _ => simp [TT.tag] at ht
  | tabled n args => simp [TT.isTabled] at hx

theorem plain_comps {n : Nat} {t c : TT} (h : Plain n t) (hc : c ∈ t.comps) : Plain n c := by
  cases t with
  | func a r =>
    simp only [TT.comps, List.mem_cons, List.not_mem_nil, or_false] at hc
    rcases hc with rfl | rfl
    · exact h.1
    · exact h.2
  | row c' =>
    simp only [TT.comps, List.mem_cons, List.not_mem_nil, or_false] at hc
    subst hc
    exact h
  | tuple l => exact plainL_iff.1 h c hc
  | union l => exact plainL_iff.1 h c hc
  | _ => simp [TT.comps] at hc

theorem tag_tabled {t : TT} (h : t.isTabled = false) (n : Nat) (args : List TT) : (TT.tabled n args).tag ≠ t.tag := by
  cases t <;> simp_all [TT.isTabled, TT.tag]

/-- a user-defined type against another type -/
theorem decided_left (nd : Bool) {m : TMap} (h : WF m) {n : Nat} {b : Binding} (hb : m[n]? = some b) {y : TT} (hy : y.isTabled = false) (hd : Decided nd m b.tp y) :
    Decided nd m (.tabled n []) y := by
  obtain ⟨r, K, h1, h2, h3⟩ := hd
  refine ⟨r, K + 1, fun k hk => ?_, fun hr => (equiv_tabled hb hy).2 (h2 hr), fun hn he => h3 hn ((equiv_tabled hb hy).1 he)⟩
  obtain ⟨k, rfl⟩ : ∃ j, k = j + 1 := ⟨k - 1, by omega⟩
  rw [eqT_succ, if_pos (tag_tabled hy _ _), if_pos (by rfl : (TT.tabled n []).isTabled = true), expanded_ok nd h hb, Res.ok_bind, h1 k (by omega)]

theorem decided_right (nd : Bool) {m : TMap} (h : WF m) {n : Nat} {b : Binding} (hb : m[n]? = some b) {x : TT} (hx : x.isTabled = false) (hd : Decided nd m x b.tp) :
    Decided nd m x (.tabled n []) := by
  obtain ⟨r, K, h1, h2, h3⟩ := hd
  refine ⟨r, K + 1, fun k hk => ?_, fun hr => equiv_symm ((equiv_tabled hb hx).2 (equiv_symm (h2 hr))), fun hn he => h3 hn (equiv_symm ((equiv_tabled hb hx).1 (equiv_symm he)))⟩
  obtain ⟨k, rfl⟩ : ∃ j, k = j + 1 := ⟨k - 1, by omega⟩
  rw [eqT_succ, if_pos (Ne.symm (tag_tabled hx _ _)), if_neg (by simp [hx]), if_pos (by rfl : (TT.tabled n []).isTabled = true), expanded_ok nd h hb, Res.ok_bind, h1 k (by omega)]

theorem decided (nd : Bool) {m : TMap} (h : WF m) {x y : TT} (hx : Plain m.length x) (hy : Plain m.length y) : Decided nd m x y := by
  obtain ⟨v, hv1, hv2⟩ := exists_weights h
  suffices H : ∀ N x y, tabWt v x + tabWt v y = N → Plain m.length x → Plain m.length y → Decided nd m x y from H _ x y rfl hx hy
  intro N
  induction N using Nat.strong_induction_on with
  | _ N ih =>
    intro x y hN hx hy
    have hdef : ∀ (n : Nat) (b : Binding), m[n]? = some b → b.tp.isTabled = false ∧ Plain m.length b.tp := fun n b hb =>
      ⟨(h.complete b (List.mem_of_getElem? hb)).2.2.2, (h.complete b (List.mem_of_getElem? hb)).2.2.1⟩
    have hle : ∀ (n : Nat) (b : Binding), m[n]? = some b → ∀ c ∈ b.tp.comps, tabWt v c ≤ v n ∧ (b.recursive = false → tabWt v c < v n) := fun n b hb c hc => by
      cases hr : b.recursive with
      | true => exact ⟨hv2 n b hb hr c hc, by simp⟩
      | false =>
        have := hv1 n b hb hr
        have := tabWt_comps (v := v) hc
        exact ⟨by omega, fun _ => by omega⟩
    cases hxt : x.isTabled with
    | false =>
      cases hyt : y.isTabled with
      | false =>
        refine decided_struct nd hxt hyt fun c hc c' hc' => ih _ ?_ c c' rfl (plain_comps hx hc) (plain_comps hy hc')
        have := tabWt_comps (v := v) hc
        have := tabWt_comps (v := v) hc'
        omega
      | true =>
        cases y with
        | tabled n args =>
          obtain ⟨hn, rfl⟩ := hy
          obtain ⟨b, hb⟩ : ∃ b, m[n]? = some b := ⟨_, List.getElem?_eq_getElem hn⟩
          obtain ⟨q1, q2⟩ := hdef n b hb
          refine decided_right nd h hb hxt (decided_struct nd hxt q1 fun c hc c' hc' => ih _ ?_ c c' rfl (plain_comps hx hc) (plain_comps q2 hc'))
          have := tabWt_comps (v := v) hc
          have := (hle n b hb c' hc').1
          rw [tabWt] at hN
          omega
        | _ => simp [TT.isTabled] at hyt
    | true =>
      cases x with
      | tabled n args =>
        obtain ⟨hn, rfl⟩ := hx
        obtain ⟨b, hb⟩ : ∃ b, m[n]? = some b := ⟨_, List.getElem?_eq_getElem hn⟩
        obtain ⟨q1, q2⟩ := hdef n b hb
        cases hyt : y.isTabled with
        | false =>
          refine decided_left nd h hb hyt (decided_struct nd q1 hyt fun c hc c' hc' => ih _ ?_ c c' rfl (plain_comps q2 hc) (plain_comps hy hc'))
          have := tabWt_comps (v := v) hc'
          have := (hle n b hb c hc).1
          rw [tabWt] at hN
          omega
        | true =>
          cases y with
          | tabled n' args' =>
            obtain ⟨hn', rfl⟩ := hy
            obtain ⟨b', hb'⟩ : ∃ b, m[n']? = some b := ⟨_, List.getElem?_eq_getElem hn'⟩
            obtain ⟨q1', q2'⟩ := hdef n' b' hb'
            by_cases he : n = n'
            · subst he
              refine ⟨true, 1, fun k hk => ?_, fun _ => ⟨_, .refl, .refl⟩, fun _ _ => rfl⟩
              obtain ⟨k, rfl⟩ : ∃ j, k = j + 1 := ⟨k - 1, by omega⟩
              rw [eqT_succ, if_neg (by simp), eqKinds, if_neg (by simp)]
              rfl
            · have hgo : ∀ k, eqT nd m (k + 1) (.tabled n []) (.tabled n' []) = if b.recursive && b'.recursive then .ok false else eqT nd m k b.tp b'.tp := fun k => by
                rw [eqT_succ, if_neg (by simp [TT.tag]), eqKinds, if_pos he, Vec.get, hb, Res.ok_bind, Vec.get, hb', Res.ok_bind, expanded_ok nd h hb, Res.ok_bind,
                  expanded_ok nd h hb', Res.ok_bind]
              cases hrr : b.recursive && b'.recursive with
              | true =>
                rw [Bool.and_eq_true] at hrr
                refine ⟨false, 1, fun k hk => ?_, (fun h => by cases h), fun hnt hq => absurd (hnt n n' b b' hb hb' hrr.1 hrr.2 hq) he⟩
                obtain ⟨k, rfl⟩ : ∃ j, k = j + 1 := ⟨k - 1, by omega⟩
                rw [hgo, if_pos (by simp [hrr])]
              | false =>
                obtain ⟨r, K, h1, h2, h3⟩ : Decided nd m b.tp b'.tp := by
                  refine decided_struct nd q1 q1' fun c hc c' hc' => ih _ ?_ c c' rfl (plain_comps q2 hc) (plain_comps q2' hc')
                  have w1 := hle n b hb c hc
                  have w2 := hle n' b' hb' c' hc'
                  simp only [tabWt] at hN
                  cases hr : b.recursive with
                  | false => have := w1.2 hr; omega
                  | true =>
                    rw [hr, Bool.true_and] at hrr
                    have := w2.2 hrr
                    omega
                refine ⟨r, K + 1, fun k hk => ?_, fun hr => (equiv_tabled2 h hb hb' he).2 (h2 hr), fun hnt hq => h3 hnt ((equiv_tabled2 h hb hb' he).1 hq)⟩
                obtain ⟨k, rfl⟩ : ∃ j, k = j + 1 := ⟨k - 1, by omega⟩
                rw [hgo, hrr, if_neg (by decide), h1 k (by omega)]
          | _ => simp [TT.isTabled] at hyt
      | _ => simp [TT.isTabled] at hxt

/-- more fuel does not change the outcome -/
theorem eqT_mono (nd : Bool) (m : TMap) : ∀ k x y r, eqT nd m k x y = .ok r → eqT nd m (k + 1) x y = .ok r := by
    intro k
    induction k with
    | zero => intro x y r h; cases h
    | succ k ih =>
      intro x y r hr
      have hbind : ∀ {α : Type} (a : Res α) (f g : α → Res Bool), (∀ v r, f v = .ok r → g v = .ok r) → ∀ r, (a >>= f) = .ok r → (a >>= g) = .ok r := by
        intro α a f g hfg r h
        cases a <;> first | exact hfg _ _ h | exact h
      have hlist : ∀ (l l' : List TT) r, eqList (eqT nd m k) l l' = .ok r → eqList (eqT nd m (k + 1)) l l' = .ok r := by
        intro l
        induction l with
        | nil => intro l' r h; cases l' <;> exact h
        | cons a l ihl =>
          intro l' r h
          cases l' with
          | nil => exact h
          | cons b l' =>
            rw [eqList] at h ⊢
            cases hq : eqT nd m k a b with
            | ok v =>
              rw [hq, Res.ok_bind] at h
              rw [ih _ _ _ hq, Res.ok_bind]
              cases v with
              | false => exact h
              | true => exact ihl l' r h
            | _ => rw [hq] at h; cases h
      have hargs : ∀ (l l' : List TT) r, eqArgs nd (eqT nd m k) l l' = .ok r → eqArgs nd (eqT nd m (k + 1)) l l' = .ok r := by
        intro l
        induction l with
        | nil => intro l' r h; cases l' <;> exact h
        | cons a l ihl =>
          intro l' r h
          cases l' with
          | nil => exact h
          | cons b l' =>
            rw [eqArgs] at h ⊢
            cases hq : eqT nd m k a b with
            | ok v =>
              rw [hq, Res.ok_bind] at h
              rw [ih _ _ _ hq, Res.ok_bind]
              cases v with
              | false => exact h
              | true => exact ihl l' r h
            | _ => rw [hq] at h; cases h
      rw [eqT_succ] at hr ⊢
      by_cases ht : x.tag = y.tag
      · rw [if_neg (by simp [ht])] at hr ⊢
        cases x with
        | func a r' =>
          cases y with
          | func a' r'' =>
            simp only [eqKinds] at hr ⊢
            cases hq : eqT nd m k a a' with
            | ok v =>
              rw [hq, Res.ok_bind] at hr
              rw [ih _ _ _ hq, Res.ok_bind]
              cases v with
              | false => exact hr
              | true => exact ih _ _ _ hr
            | _ => rw [hq] at hr; cases hr
          | _ => simp [TT.tag] at ht
        | row c =>
          cases y with
          | row c' => exact ih _ _ _ hr
          | _ => simp [TT.tag] at ht
        | tuple l =>
          cases y with
          | tuple l' => exact hlist _ _ _ hr
          | _ => simp [TT.tag] at ht
        | union l =>
          cases y with
          | union l' => exact hlist _ _ _ hr
          | _ => simp [TT.tag] at ht
        | tabled n args =>
          cases y with
          | tabled n' args' =>
            simp only [eqKinds] at hr ⊢
            by_cases he : n = n'
            · rw [if_neg (by simp [he])] at hr ⊢
              exact hargs _ _ _ hr
            · rw [if_pos he] at hr ⊢
              refine hbind _ _ _ (fun b r h => hbind _ _ _ (fun b' r h => ?_) r h) r hr
              by_cases hc : (b.recursive && b'.recursive) = true
              · rw [if_pos hc] at h ⊢; exact h
              · rw [if_neg hc] at h ⊢
                exact hbind _ _ _ (fun t r h => hbind _ _ _ (fun t' r h => ih _ _ _ h) r h) r h
          | _ => simp [TT.tag] at ht
        | _ => cases y <;> exact hr
      · rw [if_pos ht] at hr ⊢
        by_cases hxt : x.isTabled = true
        · rw [if_pos hxt] at hr ⊢
          exact hbind _ _ _ (fun t r h => ih _ _ _ h) r hr
        · rw [if_neg hxt] at hr ⊢
          by_cases hyt : y.isTabled = true
          · rw [if_pos hyt] at hr ⊢
            exact hbind _ _ _ (fun t r h => ih _ _ _ h) r hr
          · rw [if_neg hyt] at hr ⊢
            exact hr

theorem eqT_up (nd : Bool) (m : TMap) {k k' : Nat} (hk : k ≤ k') {x y : TT} {r : Bool} (h : eqT nd m k x y = .ok r) : eqT nd m k' x y = .ok r := by
  obtain ⟨d, rfl⟩ := Nat.exists_eq_add_of_le hk
  clear hk
  induction d with
  | zero => exact h
  | succ d ih => exact eqT_mono nd m _ _ _ _ ih

theorem eqT_sound (nd : Bool) {m : TMap} (h : WF m) {k : Nat} {x y : TT} (hx : Plain m.length x) (hy : Plain m.length y) (hr : eqT nd m k x y = .ok true) : Equiv m x y := by
  obtain ⟨b, K, h1, h2, _⟩ := decided nd h hx hy
  have e := h1 (max k K) (Nat.le_max_right _ _)
  rw [eqT_up nd m (Nat.le_max_left k K) hr] at e
  exact h2 (Res.ok.inj e).symm

/-! ### Being identifiable is an equivalence -/

theorem diamond (m : TMap) (a : TT) : ∀ b c, Expand m a b → Expand m a c → ∃ d, ReflGen (Expand m) b d ∧ ReflGen (Expand m) c d := by
  have hL : ∀ l : List TT, (∀ a ∈ l, ∀ b c, Expand m a b → Expand m a c → ∃ d, ReflGen (Expand m) b d ∧ ReflGen (Expand m) c d) →
      ∀ l1 l2, ExpandL m l l1 → ExpandL m l l2 → ∃ d, ReflGen (ExpandL m) l1 d ∧ ReflGen (ExpandL m) l2 d := by
    intro l
    induction l with
    | nil => rintro _ l1 l2 ⟨⟩
    | cons a l ih =>
      intro h l1 l2 h1 h2
      cases h1 with
      | head _ h1 =>
        cases h2 with
        | head _ h2 =>
          obtain ⟨d, q1, q2⟩ := h a (by simp) _ _ h1 h2
          refine ⟨d :: l, ?_, ?_⟩
          · cases q1 with
            | refl => exact .refl
            | single q => exact .single (.head _ q)
          · cases q2 with
            | refl => exact .refl
            | single q => exact .single (.head _ q)
        | tail _ h2 => exact ⟨_, .single (.tail _ h2), .single (.head _ h1)⟩
      | tail _ h1 =>
        cases h2 with
        | head _ h2 => exact ⟨_, .single (.head _ h2), .single (.tail _ h1)⟩
        | tail _ h2 =>
          obtain ⟨d, q1, q2⟩ := ih (fun a ha => h a (by simp [ha])) _ _ h1 h2
          refine ⟨a :: d, ?_, ?_⟩
          · cases q1 with
            | refl => exact .refl
            | single q => exact .single (.tail _ q)
          · cases q2 with
            | refl => exact .refl
            | single q => exact .single (.tail _ q)
  have lift : ∀ {α : Type} {r : α → α → Prop} (f : α → TT), (∀ a b, r a b → Expand m (f a) (f b)) → ∀ {a b}, ReflGen r a b → ReflGen (Expand m) (f a) (f b) := fun f hf a b h => by
    cases h with
    | refl => exact .refl
    | single h => exact .single (hf _ _ h)
  induction a using TT.ind with
  | func a r ha hr =>
    intro b c h1 h2
    cases h1 with
    | arg _ h1 =>
      cases h2 with
      | arg _ h2 =>
        obtain ⟨d, q1, q2⟩ := ha _ _ h1 h2
        exact ⟨.func d r, lift (fun x => .func x r) (fun _ _ h => .arg r h) q1, lift (fun x => .func x r) (fun _ _ h => .arg r h) q2⟩
      | res _ h2 => exact ⟨_, .single (.res _ h2), .single (.arg _ h1)⟩
    | res _ h1 =>
      cases h2 with
      | arg _ h2 => exact ⟨_, .single (.arg _ h2), .single (.res _ h1)⟩
      | res _ h2 =>
        obtain ⟨d, q1, q2⟩ := hr _ _ h1 h2
        exact ⟨.func a d, lift (fun x => .func a x) (fun _ _ h => .res a h) q1, lift (fun x => .func a x) (fun _ _ h => .res a h) q2⟩
  | row c hc =>
    intro b c' h1 h2
    cases h1 with
    | row h1 =>
      cases h2 with
      | row h2 =>
        obtain ⟨d, q1, q2⟩ := hc _ _ h1 h2
        exact ⟨.row d, lift .row (fun _ _ h => .row h) q1, lift .row (fun _ _ h => .row h) q2⟩
  | tuple l hl =>
    intro b c' h1 h2
    cases h1 with
    | tuple h1 =>
      cases h2 with
      | tuple h2 =>
        obtain ⟨d, q1, q2⟩ := hL l hl _ _ h1 h2
        exact ⟨.tuple d, lift .tuple (fun _ _ h => .tuple h) q1, lift .tuple (fun _ _ h => .tuple h) q2⟩
  | union l hl =>
    intro b c' h1 h2
    cases h1 with
    | union h1 =>
      cases h2 with
      | union h2 =>
        obtain ⟨d, q1, q2⟩ := hL l hl _ _ h1 h2
        exact ⟨.union d, lift .union (fun _ _ h => .union h) q1, lift .union (fun _ _ h => .union h) q2⟩
  | tabled n args _ =>
    intro b c h1 h2
    cases h1 with
    | here h1 =>
      cases h2 with
      | here h2 =>
        rw [h1] at h2
        cases h2
        exact ⟨_, .refl, .refl⟩
  | _ => rintro b c ⟨⟩

theorem equiv_trans {m : TMap} {x y z : TT} (h1 : Equiv m x y) (h2 : Equiv m y z) : Equiv m x z :=
  (equivalence_join_reflTransGen fun a b c hb hc => by
    obtain ⟨d, q1, q2⟩ := diamond m a b c hb hc
    exact ⟨d, q1, q2.to_reflTransGen⟩).trans h1 h2

end Verif.Axis
