import Verif.Common
/-
Model of io/ioutils.cpp: the number of digits and the folding of lines.

Simplifications.  Characters are their codes; numbers of type `size_t` are natural numbers, as lengths of strings are far below the maximum.  Output is the list of characters written.
-/
namespace Verif.Io
open Verif

/-- the loop of `digits` (ioutils.cpp L36-40) -/
def digitsLoop (b : Nat) : Nat → Nat → Nat → Res Nat
  | 0, _, _ => .outOfFuel
  | k + 1, d, a => if a ≥ b then digitsLoop b k (d + 1) (a / b) else .ok d

/-- `digits` (ioutils.cpp L32-42) for a number of type `unsigned long`; division by 0 is undefined -/
def digits (a b : Nat) : Res Nat := if b = 0 then .undefined else digitsLoop b (a + 1) 1 a

/-- the breaking up of the list of hyphens (ioutils.cpp L80-87, L88-95): the characters up to a newline or the end of the list form a hyphen, `cur` are those seen so far -/
def splitLoop : List Nat → List Nat → Res (List (List Nat))
  | [], cur => if cur = [] then .assertFail else .ok [cur]
  | c :: l, cur =>
    if c = 10 then
      if cur = [] then .assertFail
      else if l = [] then .ok [cur]
      else do
        let r ← splitLoop l []
        return cur :: r
    else splitLoop l (cur ++ [c])

/-- the same with the test for the end of the list -/
def splitHyphens (s : List Nat) : Res (List (List Nat)) := if s = [] then .ok [] else splitLoop s []

/-- `std::string::rfind` for a string that is not empty: the last position, not beyond the one given, where it occurs -/
def rfind (line s : List Nat) : Nat → Option Nat
  | 0 => if s.isPrefixOf line then some 0 else none
  | i + 1 => if s.isPrefixOf (line.drop (i + 1)) then some (i + 1) else rfind line s i

/-- the breaks before hyphens (ioutils.cpp L106-111); `top` is `old_break+lineSize-indent` -/
def preLoop (line : List Nat) (top : Nat) : List (List Nat) → Nat → Nat
  | [], point => point
  | s :: l, point =>
    match rfind line s top with
    | some bp => preLoop line top l (if bp > point then bp else point)
    | none => preLoop line top l point

/-- the breaks after hyphens (ioutils.cpp L112-117) -/
def postLoop (line : List Nat) (top : Nat) : List (List Nat) → Nat → Nat
  | [], point => point
  | s :: l, point =>
    match rfind line s top with
    | some bp => postLoop line top l (if bp + s.length > point then bp + s.length else point)
    | none => postLoop line top l point

/-- the choice of a break (ioutils.cpp L106-120), with `width` for `lineSize-indent` -/
def nextBreak (line : List Nat) (pre post : List (List Nat)) (old width : Nat) : Nat :=
  let point := postLoop line (old + width) post (preLoop line (old + width) pre old)
  if point = old then point + width else point

/-- the loop (ioutils.cpp L101-125) and the last line (L129-130) -/
def foldLoop (line : List Nat) (pre post : List (List Nat)) (h size : Nat) : Nat → Nat → Res (List Nat)
  | 0, _ => .outOfFuel
  | k + 1, old =>
    let indent := if old = 0 then 0 else h
    let point := nextBreak line pre post old (size - indent)
    if old > line.length then .throw
    else
      let out := List.replicate indent 32 ++ (line.drop old).take (point - old) ++ [10]
      if line.length > point + size - h then do
        let r ← foldLoop line pre post h size k point
        return out ++ r
      else .ok (out ++ if point < line.length then List.replicate h 32 ++ line.drop point else [])

/-- `foldLine` (ioutils.cpp L67-133) -/
def foldLine (line preHyphens postHyphens : List Nat) (h size : Nat) : Res (List Nat) :=
  if line.length ≤ size then .ok line
  else if h < size then do
    let pre ← splitHyphens preHyphens
    let post ← splitHyphens postHyphens
    foldLoop line pre post h size line.length 0
  else .assertFail

end Verif.Io
