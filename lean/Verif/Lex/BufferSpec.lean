import Verif.Lex.Buffer
import Mathlib.Data.List.DropRight
/-
Specification for C81 and C82: lines of text.
-/
namespace Verif.Lex

/-- the lines of a text; the last one need not be ended by a newline -/
def physical : List Nat → List (List Nat)
  | [] => []
  | c :: t =>
    if c = 10 then [] :: physical t
    else
      match physical t with
      | [] => [[c]]
      | l :: ls => (c :: l) :: ls

/-- white space at the end is insignificant -/
def trimEnd (l : List Nat) : List Nat := l.rdropWhile fun c => c = 32 || (9 ≤ c && c ≤ 13)

/-- a line after joining continued ones: the number of lines joined, the text, and whether it ends normally (and not by a continuation after which there is nothing) -/
structure Logical where
  count : Nat
  text : List Nat
  ended : Bool
  deriving DecidableEq, Repr

/-- a line that ends with a backslash (92) is continued by the next one -/
def logical : List (List Nat) → List Logical
  | [] => []
  | l :: ls =>
    if (trimEnd l).getLast? = some 92 then
      match logical ls with
      | [] => [⟨1, (trimEnd l).dropLast, false⟩]
      | r :: rs => ⟨r.count + 1, (trimEnd l).dropLast ++ r.text, r.ended⟩ :: rs
    else ⟨1, trimEnd l, true⟩ :: logical ls

/-- the lines of a text, each with the number of its first line and ended by a newline, when the first line of the text has number `n` -/
def numbered (n : Nat) : List Logical → List (Nat × List Nat)
  | [] => []
  | r :: rs => (n, r.text ++ [10]) :: numbered (n + r.count) rs

/-- read lines as long as there are any: their numbers and contents, and the final state -/
def readAll : Nat → Nat → Buf → Res (List (Nat × List Nat) × Buf)
  | 0, _, _ => .outOfFuel
  | k + 1, fuel, b => do
    let (ok, b) ← b.getline fuel
    if ok then do
      let (l, b') ← readAll k fuel b
      return ((b.lineNo, b.line) :: l, b')
    else return ([], b)

/-- read `k` lines -/
def readLines : Nat → Nat → Buf → Res (List (Nat × List Nat) × Buf)
  | 0, _, b => .ok ([], b)
  | k + 1, fuel, b => do
    let (ok, b) ← b.getline fuel
    if ok then do
      let (l, b') ← readLines k fuel b
      return ((b.lineNo, b.line) :: l, b')
    else .throw

/-- the characters obtained by `shift` until a null character -/
def readChars : Nat → Nat → Buf → Res (List Nat)
  | 0, _, _ => .outOfFuel
  | k + 1, fuel, b => do
    let (c, b) ← b.shift fuel
    if c = 0 then return []
    else return c :: (← readChars k fuel b)

/-- states reached by any sequence of operations (the files there are may change in the mean time) -/
inductive Reached : Buf → Prop
  | make (content : List Nat) : Reached (Buf.make content)
  | getline {b b' : Buf} {fuel : Nat} {ok : Bool} : Reached b → b.getline fuel = .ok (ok, b') → Reached b'
  | shift {b b' : Buf} {fuel c : Nat} : Reached b → b.shift fuel = .ok (c, b') → Reached b'
  | unshift {b : Buf} : Reached b → Reached b.unshift
  | reset {b : Buf} : Reached b → Reached b.reset
  | push {b : Buf} (fs : Files) (name : List Nat) (skip : Bool) : Reached b → Reached (b.pushFile fs name skip).2
  | close {b : Buf} : Reached b → Reached b.closeIncludes

/-- the file with this path name is being read -/
def Buf.active (b : Buf) (p : List Nat) : Prop := ∃ r ∈ b.stack, b.seen[r.name]? = some p

/-- the file with this path name has been read to its end -/
def Buf.done (b : Buf) (p : List Nat) : Prop := ∃ n : Nat, b.seen[n]? = some p ∧ b.completed[n]? = some true

/-- the path names to be tried for a file name, in order: for each directory of the search path and then the empty one, the name, and the name with the default extension unless it has that already -/
def candidates (path : List (List Nat)) (ext : Option (List Nat)) (name : List Nat) : List (List Nat) :=
  (path ++ [[]]).flatMap fun d => (d ++ name) ::
    match ext with
    | none => []
    | some e => if e <:+ d ++ name then [] else [d ++ name ++ e]

/-- states while reading a file included from the main input, and files it includes; `n` is the number of the line of the main input that comes next, and `s` the state it is in -/
inductive Inside : Nat → Stream → Buf → Prop
  | enter {b : Buf} (fs : Files) (name : List Nat) (skip : Bool) : Reached b → b.stack = [] → (b.pushFile fs name skip).2.stack ≠ [] → Inside (b.lineNo + b.curLines) b.base (b.pushFile fs name skip).2
  | getline {n : Nat} {s : Stream} {b b' : Buf} {fuel : Nat} {ok : Bool} : Inside n s b → b.getline fuel = .ok (ok, b') → b'.stack ≠ [] → Inside n s b'
  | shift {n : Nat} {s : Stream} {b b' : Buf} {fuel c : Nat} : Inside n s b → b.shift fuel = .ok (c, b') → b'.stack ≠ [] → Inside n s b'
  | unshift {n : Nat} {s : Stream} {b : Buf} : Inside n s b → Inside n s b.unshift
  | reset {n : Nat} {s : Stream} {b : Buf} : Inside n s b → Inside n s b.reset
  | push {n : Nat} {s : Stream} {b : Buf} (fs : Files) (name : List Nat) (skip : Bool) : Inside n s b → Inside n s (b.pushFile fs name skip).2

end Verif.Lex
