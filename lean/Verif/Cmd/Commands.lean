import Verif.Common
/-
Model of the command interface of the program Fokko (interface/commands.cpp and commands.h).

Simplifications.  Names of commands are lists of character codes; actions are numbers.  A mode of the tree is identified by its path from the root, which replaces pointers; the result of `look_up` is
`none` where the code returns an uninitialised iterator.  Prompts, tags and help texts are left out.
-/
namespace Verif.Cmd
open Verif

abbrev Name := List Nat

/-- `strcmp(a,b)<0` (commands.h L60-64, class `StrCmp`) -/
def ltName : Name → Name → Bool
  | [], [] => false
  | [], _ :: _ => true
  | _ :: _, [] => false
  | a :: l, b :: m => a < b || (a = b && ltName l m)

/-- `isInitial` (commands.cpp L131-137) -/
def isInitial : Name → Name → Bool
  | [], _ => true
  | _ :: _, [] => false
  | a :: l, b :: m => a = b && isInitial l m

/-- `std::map::insert` for `CommandDict` and `std::set::insert` (commands.h L96, L168): an entry that is present is kept -/
def insertCmd {α : Type} (e : Name × α) : List (Name × α) → List (Name × α)
  | [] => [e]
  | d :: l => if ltName e.1 d.1 then e :: d :: l else if ltName d.1 e.1 then d :: insertCmd e l else d :: l

/-- `CommandNode::add` (commands.cpp L177-184) -/
def addCmd {α : Type} (e : Name × α) (l : List (Name × α)) : Res (List (Name × α)) := if l.any (fun d => d.1 = e.1) then .assertFail else .ok (insertCmd e l)

/-- `CommandNode::addCommands` (commands.cpp L201-205) -/
def addCommands {α : Type} (source : List (Name × α)) (l : List (Name × α)) : List (Name × α) := source.foldl (fun l e => insertCmd e l) l

/-- `CommandTree` (commands.h L149-189) -/
inductive Tree
  | node (cmds : List (Name × Nat)) (desc : List Tree)

/-- the commands of a mode -/
def Tree.cmds : Tree → List (Name × Nat)
  | .node c _ => c

/-- its descendants -/
def Tree.desc : Tree → List Tree
  | .node _ d => d

/-- `CommandTree::add_descendant` (commands.cpp L316-322) for the mode itself -/
def Tree.addDescendant (t : Tree) (c : List (Name × Nat)) : Tree := .node t.cmds (t.desc ++ [.node (addCommands t.cmds c) []])

/-- `add_descendant` for the mode with the given path -/
def Tree.addAt : List Nat → List (Name × Nat) → Tree → Tree
  | [], c, t => t.addDescendant c
  | i :: p, c, t => .node t.cmds (t.desc.modify i (Tree.addAt p c))

/-- `find_prefix` (commands.h L138-139) -/
def findPrefix {α : Type} (name : Name) (l : List (Name × α)) : List (Name × α) := l.dropWhile fun e => ltName e.1 name

/-- `CheckResult` (commands.h L31) -/
inductive Status
  | notFound | partialMatch | ambiguous | found
  deriving DecidableEq, Repr

/-- the result of `look_up` with its arguments that are changed -/
structure Out where
  result : Option (Name × Nat)
  status : Status
  place : Option (List Nat)
  deriving DecidableEq, Repr

/-- the first part of `look_up` (commands.cpp L234-250), in the mode with path `here` -/
def own (name : Name) (cmds : List (Name × Nat)) (here : List Nat) (st : Status) (wh : Option (List Nat)) : Out :=
  match findPrefix name cmds with
  | [] => ⟨none, st, wh⟩
  | e :: l =>
    if isInitial name e.1 then
      if name = e.1 then ⟨some e, .found, some here⟩
      else if st ≠ .notFound then ⟨none, .ambiguous, wh⟩
      else ⟨some e, if l.head?.any (fun d => isInitial name d.1) then .ambiguous else .partialMatch, some here⟩
    else ⟨none, st, wh⟩

mutual
/-- `CommandTree::look_up` (commands.cpp L231-268) -/
def Tree.lookUp (name : Name) : Tree → List Nat → Status → Option (List Nat) → Out
  | .node cmds desc, here, st, wh =>
    let r := own name cmds here st wh
    if r.status = .found then r else lookLoop name desc 0 here (r.status = .notFound) r
/-- its loop over descendants (commands.cpp L252-264) -/
def lookLoop (name : Name) : List Tree → Nat → List Nat → Bool → Out → Out
  | [], _, _, _, r => r
  | t :: l, i, here, before, r =>
    let q := t.lookUp name (here ++ [i]) r.status r.place
    if q.status = .found then q
    else if before && q.status ≠ .notFound then lookLoop name l (i + 1) here false q
    else lookLoop name l (i + 1) here before { q with result := r.result }
end

mutual
/-- `CommandTree::extensions` (commands.cpp L276-290) -/
def Tree.extensions (name : Name) : Tree → List (Name × Unit) → List (Name × Unit)
  | .node cmds desc, e => extLoop name desc (((findPrefix name cmds).takeWhile fun d => isInitial name d.1).foldl (fun e d => insertCmd (d.1, ()) e) e)
/-- its loop over descendants -/
def extLoop (name : Name) : List Tree → List (Name × Unit) → List (Name × Unit)
  | [], e => e
  | t :: l, e => extLoop name l (t.extensions name e)
end

/-- `CommandTree::extensions` (commands.cpp L299-305) -/
def Tree.extensionList (t : Tree) (name : Name) : List Name := (t.extensions name []).map (·.1)

end Verif.Cmd
