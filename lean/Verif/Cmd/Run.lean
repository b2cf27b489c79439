import Verif.Cmd.CommandsSpec
/-
Model of the execution of commands (interface/commands.cpp, `CommandTree::run` and what it uses).

Simplifications.  The stack of modes has its top first and contains paths from the root of the tree.  Entry functions are given by a predicate that tells which succeed; exit functions are left out.  The
action of the command is not run, but returned.  The help mode, which is not in the tree, is left out.
-/
namespace Verif.Cmd
open Verif

/-- the mode reached by a path -/
def Tree.sub : Tree → List Nat → Option Tree
  | t, [] => some t
  | t, i :: p =>
    match t.desc[i]? with
    | none => none
    | some u => u.sub p

mutual
/-- `CommandTree::has_descendant` (commands.cpp L219-228), for the mode at the path `here` -/
def Tree.hasDescendant : Tree → List Nat → List Nat → Bool
  | .node _ d, here, w => here = w || (childWith d 0 here w).isSome
/-- the first descendant from number `i` on that has the mode `w` (commands.cpp L223-225, L385-386) -/
def childWith : List Tree → Nat → List Nat → List Nat → Option (Nat × Tree)
  | [], _, _, _ => none
  | t :: l, i, here, w => if t.hasDescendant (here ++ [i]) w then some (i, t) else childWith l (i + 1) here w
end

/-- entering of modes on the way to `w` (commands.cpp L384-392), with `activate` (L328-332); tells whether all entry functions succeeded -/
def enterLoop (ent : List Nat → Bool) (w : List Nat) : Nat → Tree → List Nat → List (List Nat) → Res (Bool × List (List Nat))
  | 0, _, _, _ => .outOfFuel
  | k + 1, t, m, stack =>
    if m = w then .ok (true, stack)
    else
      match childWith t.desc 0 m w with
      | none => enterLoop ent w k t m stack
      | some (i, u) => if ent (m ++ [i]) then enterLoop ent w k u (m ++ [i]) ((m ++ [i]) :: stack) else .ok (false, stack)

/-- `drop_to` (commands.cpp L472-479) -/
def dropTo (m : List Nat) : List (List Nat) → Res (List (List Nat))
  | [] => .assertFail
  | a :: l => if a = m then .ok (a :: l) else dropTo m l

/-- what a command line leads to -/
inductive Outcome
  | notFound
  | ambiguous (names : List Name)
  | entryFailed
  | executed (e : Name × Nat)

/-- the case where the command was found (commands.cpp L382-396) -/
def foundCase (ent : List Nat → Bool) (fuel : Nat) (t : Tree) (m : List Nat) (stack : List (List Nat)) (r : Out) : Res (Outcome × List (List Nat)) :=
  match r.result, r.place with
  | some e, some w => do
    let (ok, stack) ← enterLoop ent w fuel t m stack
    return (if ok then .executed e else .entryFailed, stack)
  | _, _ => .undefined

/-- the search in ancestors (commands.cpp L367-377) -/
def ancestors (ent : List Nat → Bool) (fuel : Nat) (root : Tree) (name : Name) (full : List (List Nat)) : List (List Nat) → Status → Option (List Nat) → Res (Outcome × List (List Nat))
  | [], _, _ => .ok (.notFound, full)
  | m :: l, st, wh =>
    match root.sub m with
    | none => .undefined
    | some t =>
      let r := t.lookUp name m st wh
      if r.status = .found ∨ r.status = .partialMatch then do
        let stack ← dropTo m full
        foundCase ent fuel t m stack r
      else ancestors ent fuel root name full l r.status r.place

/-- one turn of the loop of `run` (commands.cpp L355-397) -/
def runOnce (ent : List Nat → Bool) (fuel : Nat) (root : Tree) (name : Name) (stack : List (List Nat)) : Res (Outcome × List (List Nat)) :=
  match stack with
  | [] => .undefined
  | m :: l =>
    match root.sub m with
    | none => .undefined
    | some t =>
      let r := t.lookUp name m .notFound none
      match r.status with
      | .notFound => ancestors ent fuel root name stack l r.status r.place
      | .ambiguous => .ok (.ambiguous (t.extensionList name), stack)
      | _ => foundCase ent fuel t m stack r

end Verif.Cmd
