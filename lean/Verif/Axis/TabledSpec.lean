import Mathlib.Data.List.Forall2
import Verif.Axis.Tabled
import Mathlib.Logic.Relation
/-
Specification for C79: equality of types with user-defined types.  Only types without arguments of type constructors are considered.
-/
namespace Verif.Axis
open Verif

mutual
/-- all user-defined types in `t` are among the first `n`, and have no type arguments -/
def Plain (n : Nat) : TT → Prop
  | .func a r => Plain n a ∧ Plain n r
  | .row c => Plain n c
  | .tuple l => PlainL n l
  | .union l => PlainL n l
  | .tabled nr args => nr < n ∧ args = []
  | _ => True
def PlainL (n : Nat) : List TT → Prop
  | [] => True
  | t :: l => Plain n t ∧ PlainL n l
end

mutual
/-- no undetermined parts and no type variables -/
def Closed : TT → Prop
  | .undet => False
  | .var _ => False
  | .func a r => Closed a ∧ Closed r
  | .row c => Closed c
  | .tuple l => ClosedL l
  | .union l => ClosedL l
  | _ => True
def ClosedL : List TT → Prop
  | [] => True
  | t :: l => Closed t ∧ ClosedL l
end

/-- the components of a type -/
def TT.comps : TT → List TT
  | .func a r => [a, r]
  | .row c => [c]
  | .tuple l => l
  | .union l => l
  | _ => []

mutual
/-- the type with number `k` occurs -/
def Occurs (k : Nat) : TT → Prop
  | .func a r => Occurs k a ∨ Occurs k r
  | .row c => Occurs k c
  | .tuple l => OccursL k l
  | .union l => OccursL k l
  | .tabled nr _ => nr = k
  | _ => False
def OccursL (k : Nat) : List TT → Prop
  | [] => False
  | t :: l => Occurs k t ∨ OccursL k l
end

/-- the definition of type `n` refers to type `k` -/
def Refers (m : TMap) (n k : Nat) : Prop := ∃ b, m[n]? = some b ∧ Occurs k b.tp

/-- a table of types as it should be: definitions are complete, do not just name another type; those that refer to themselves (indirectly) are marked,
and then all parts of the definition that have parts themselves are also in the table -/
structure WF (m : TMap) : Prop where
  complete : ∀ b ∈ m, b.arity = 0 ∧ Closed b.tp ∧ Plain m.length b.tp ∧ b.tp.isTabled = false
  marked : ∀ n b, m[n]? = some b → Relation.TransGen (Refers m) n n → b.recursive = true
  flat : ∀ b ∈ m, b.recursive = true → ∀ c ∈ b.tp.comps, c.comps = []

mutual
/-- one occurrence of a user-defined type is replaced by its definition -/
inductive Expand (m : TMap) : TT → TT → Prop
  | here {n : Nat} {b : Binding} : m[n]? = some b → Expand m (.tabled n []) b.tp
  | arg {a a' : TT} (r : TT) : Expand m a a' → Expand m (.func a r) (.func a' r)
  | res (a : TT) {r r' : TT} : Expand m r r' → Expand m (.func a r) (.func a r')
  | row {c c' : TT} : Expand m c c' → Expand m (.row c) (.row c')
  | tuple {l l' : List TT} : ExpandL m l l' → Expand m (.tuple l) (.tuple l')
  | union {l l' : List TT} : ExpandL m l l' → Expand m (.union l) (.union l')
inductive ExpandL (m : TMap) : List TT → List TT → Prop
  | head {t t' : TT} (l : List TT) : Expand m t t' → ExpandL m (t :: l) (t' :: l)
  | tail (t : TT) {l l' : List TT} : ExpandL m l l' → ExpandL m (t :: l) (t :: l')
end

/-- the types can be made identical by finitely many expansions -/
def Equiv (m : TMap) (x y : TT) : Prop := Relation.Join (Relation.ReflTransGen (Expand m)) x y

/-- no two different recursive types of the table can be made identical -/
def NoTwins (m : TMap) : Prop := ∀ n n' b b', m[n]? = some b → m[n']? = some b' → b.recursive = true → b'.recursive = true → Equiv m (.tabled n []) (.tabled n' []) → n = n'

/-- types of the same form, with related components -/
inductive Same (R : TT → TT → Prop) : TT → TT → Prop
  | prim (n : Nat) : Same R (.prim n) (.prim n)
  | func {a r a' r' : TT} : R a a' → R r r' → Same R (.func a r) (.func a' r')
  | row {c c' : TT} : R c c' → Same R (.row c) (.row c')
  | tuple {l l' : List TT} : List.Forall₂ R l l' → Same R (.tuple l) (.tuple l')
  | union {l l' : List TT} : List.Forall₂ R l l' → Same R (.union l) (.union l')

/-- the type, or the definition of a user-defined type -/
def TT.head (m : TMap) : TT → TT
  | .tabled n args => (m[n]?.map Binding.tp).getD (.tabled n args)
  | t => t

/-- the types have the same (possibly infinite) complete expansion -/
def SameTree (m : TMap) (x y : TT) : Prop := ∃ R : TT → TT → Prop, (∀ x y, R x y → Same R (x.head m) (y.head m)) ∧ R x y

mutual
/-- other numbers for user-defined types -/
def TT.renum (f : Nat → Nat) : TT → TT
  | .func a r => .func (a.renum f) (r.renum f)
  | .row c => .row (c.renum f)
  | .tuple l => .tuple (renumL f l)
  | .union l => .union (renumL f l)
  | .tabled n args => .tabled (f n) args
  | t => t
def renumL (f : Nat → Nat) : List TT → List TT
  | [] => []
  | t :: l => t.renum f :: renumL f l
end

/-- the numbers of types after a grouped definition to a table of length `sz`, which gave numbers `nrs` to the types defined -/
def groupNr (sz : Nat) (nrs : List Nat) (k : Nat) : Nat := if k < sz then k else nrs[k - sz]?.getD 0

/-- types that have parts, for which a grouped definition makes entries in the table -/
def TT.composite : TT → Bool
  | .func _ _ => true
  | .row _ => true
  | .tuple l => !l.isEmpty
  | .union _ => true
  | _ => false

mutual
/-- number of composite parts of a type, itself included -/
def TT.parts : TT → Nat
  | .func a r => 1 + (a.parts + (r.parts + 0))
  | .row c => 1 + (c.parts + 0)
  | .tuple l => if l.isEmpty then 0 else 1 + partsL l
  | .union l => 1 + partsL l
  | _ => 0
def partsL : List TT → Nat
  | [] => 0
  | t :: l => t.parts + partsL l
end

/-- number of entries that a group of definitions makes if no two of them are equal: one for each definition, and one for each composite proper part of a right hand side -/
def groupSize (defs : List (Nat × TT)) : Nat := (defs.map fun d => max 1 d.2.parts).sum

/-- a group of definitions without type parameters: right hand sides do not just name a type (this is so by the grammar), and use the types of the table and those of the group, which follow them -/
structure GroupOk (m : TMap) (defs : List (Nat × TT)) : Prop where
  rhs : ∀ d ∈ defs, Closed d.2 ∧ Plain (m.length + defs.length) d.2 ∧ d.2.isTabled = false
  size : m.length + groupSize defs < 65536

/-- tables that arise from type definitions without type parameters, where grouped definitions did not have parts that were already in the table (so that all their parts got an entry) -/
inductive Defined (nd : Bool) : TMap → Prop
  | empty : Defined nd []
  | simple {m m' : TMap} {fuel id i : Nat} {tp : TT} : Defined nd m → Closed tp → Plain m.length tp → addSimple nd fuel m id tp 0 = .ok (i, m') → Defined nd m'
  | group {m m' : TMap} {fuel : Nat} {defs : List (Nat × TT)} {nrs : List Nat} : Defined nd m → GroupOk m defs → addTypedefs nd fuel m defs 0 = .ok (nrs, m') →
      m'.length = m.length + groupSize defs → Defined nd m'

end Verif.Axis
