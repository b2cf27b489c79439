import Verif.Cmd.Commands
/-
Specification for C89: commands and their prefixes.
-/
namespace Verif.Cmd

mutual
/-- all commands of a mode and its descendants, with the path to their mode, a mode before its descendants -/
def Tree.entries : Tree → List Nat → List (List Nat × Name × Nat)
  | .node cmds desc, here => cmds.map (fun e => (here, e)) ++ entriesList desc 0 here
/-- those of the descendants, from number `i` on -/
def entriesList : List Tree → Nat → List Nat → List (List Nat × Name × Nat)
  | [], _, _ => []
  | t :: l, i, here => t.entries (here ++ [i]) ++ entriesList l (i + 1) here
end

/-- the commands whose names start with `name` -/
def Tree.matches (t : Tree) (name : Name) : List (List Nat × Name × Nat) := (t.entries []).filter fun e => decide (name <+: e.2.1)

/-- names are in increasing order -/
def Sorted {α : Type} (l : List (Name × α)) : Prop := l.Pairwise fun a b => ltName a.1 b.1 = true

/-- trees of modes that the program can build -/
inductive Built : Tree → Prop
  | root {c : List (Name × Nat)} : Sorted c → Built (.node c [])
  | add {t : Tree} {c : List (Name × Nat)} (p : List Nat) : Built t → Sorted c → Built (t.addAt p c)

/-- a mode of the tree, with its descendants -/
inductive Mode : Tree → Tree → Prop
  | self (t : Tree) : Mode t t
  | desc {t m : Tree} {c : List (Name × Nat)} {d : List Tree} : t ∈ d → Mode m t → Mode m (.node c d)

end Verif.Cmd
