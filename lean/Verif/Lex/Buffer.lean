import Verif.Common
/-
Model of the class `BufferedInput` (/repo/sources/interpreter/buffer.w).  Characters are natural numbers.  A stream is what remains to be read with its state `good()`; streams do not fail other than
by reaching their end.  Lines come from `std::getline` (L995-997); the use of the readline library, prompts, history and messages are left out.  The table of the names of files is a list
(its numbering is the subject of C80).  Numbers of lines are natural numbers.
-/
namespace Verif.Lex
open Verif

/-- an input stream -/
structure Stream where
  rest : List Nat
  good : Bool
  deriving DecidableEq, Repr

/-- `std::getline(stream,line,'\n')`, on a stream that is `good()` -/
def stdGetline (s : Stream) : List Nat × Stream :=
  match s.rest.dropWhile (· ≠ 10) with
  | [] => (s.rest, ⟨[], false⟩)
  | _ :: r => (s.rest.takeWhile (· ≠ 10), ⟨r, s.good⟩)

/-- `input_record` (L612-620) -/
structure InRec where
  stream : Stream
  name : Nat
  lineNo : Nat
  deriving DecidableEq, Repr

/-- `BufferedInput` (L516-531); the pointer `stream` always refers to the top of the stack or else to the base stream -/
structure Buf where
  base : Stream
  line : List Nat
  pos : Option Nat
  lineNo : Nat
  curLines : Nat
  stack : List InRec
  seen : List (List Nat)
  completed : List Bool
  deriving DecidableEq, Repr

/-- the constructor (L549-566) -/
def Buf.make (content : List Nat) : Buf := ⟨⟨content, true⟩, [], none, 1, 0, [], [], []⟩

/-- `*stream` -/
def Buf.cur (b : Buf) : Stream :=
  match b.stack with
  | [] => b.base
  | r :: _ => r.stream

/-- change of state of `*stream` -/
def Buf.setCur (b : Buf) (s : Stream) : Buf :=
  match b.stack with
  | [] => { b with base := s }
  | r :: l => { b with stack := { r with stream := s } :: l }

/-- `eol` (L538) -/
def Buf.eol (b : Buf) : Bool :=
  match b.pos with
  | none => true
  | some p => b.line[p]?.getD 0 = 0

/-- `reset` (L665) -/
def Buf.reset (b : Buf) : Buf := { b with pos := none }

/-- `pop_file` (L668-675), with a non empty stack -/
def Buf.popFile (b : Buf) : Buf :=
  match b.stack with
  | [] => b
  | r :: l => { b with lineNo := r.lineNo, completed := b.completed.set r.name true, stack := l }

/-- the loop of `close_includes` (L678-683) -/
def closeLoop (n : Nat) : List InRec → Nat
  | [] => n
  | r :: l => closeLoop r.lineNo l

/-- `close_includes` (L677-685) -/
def Buf.closeIncludes (b : Buf) : Buf := { b with lineNo := closeLoop b.lineNo b.stack, stack := [] }

/-- `std::isspace` -/
def isSpace (c : Nat) : Bool := c = 32 || (9 ≤ c && c ≤ 13)

/-- a line up to trailing space (L887-889) -/
def backUp (l : List Nat) : List Nat := (l.reverse.dropWhile isSpace).reverse

/-- a line without newline from the stream, if it is good (L932-933) -/
def Buf.readLine (b : Buf) : List Nat × Buf :=
  if b.cur.good then ((stdGetline b.cur).1, b.setCur (stdGetline b.cur).2) else ([], b)

/-- the loop of `getline` (L880-898, L932-951); `lines` are the lines read, the last one first.  The result tells whether something was obtained, and whether a file was popped -/
def getLoop : Nat → Buf → List (List Nat) → Res (Bool × Bool × List (List Nat) × Buf)
  | 0, _, _ => .outOfFuel
  | k + 1, b, lines =>
    let (line, b) := b.readLine
    if line.isEmpty && !b.cur.good then
      if b.curLines > 0 then
        if b.stack.isEmpty then .ok (true, false, [] :: lines, b)
        else .ok (true, true, [] :: lines, b.popFile)
      else if b.stack.isEmpty then .ok (false, false, lines, b)
      else .ok (true, true, [] :: lines, b.popFile)
    else
      let b := { b with curLines := b.curLines + 1 }
      let l := backUp line
      if l.getLast? = some 92 then getLoop k b (l.dropLast :: lines)
      else .ok (true, false, l :: lines, b)

/-- `getline` (L874-903, L1011-1018) -/
def Buf.getline (fuel : Nat) (b : Buf) : Res (Bool × Buf) := do
  let b := { b with line := [], lineNo := b.lineNo + b.curLines, curLines := 0 }
  let (ok, popped, lines, b) ← getLoop fuel b []
  if ok then return (true, { b with line := lines.reverse.flatten ++ [if popped then 12 else 10], pos := some 0 })
  else return (false, b)

/-- the end of `shift` (L1036-1038), for the outcome of `getline` if that was called -/
def deliver (r : Bool × Buf) : Res (Nat × Buf) :=
  if r.1 then
    match r.2.pos with
    | none => .undefined
    | some p => .ok (r.2.line[p]?.getD 0, { r.2 with pos := some (p + 1) })
  else .ok (0, { r.2 with pos := none })

/-- `shift` (L1034-1039) -/
def Buf.shift (fuel : Nat) (b : Buf) : Res (Nat × Buf) :=
  if b.eol then b.getline fuel >>= deliver else deliver (true, b)

/-- `unshift` (L1042-1044) -/
def Buf.unshift (b : Buf) : Buf := { b with pos := b.pos.map (· - 1) }

/-- the files there are, by path name; the search path (L706-707); the default extension -/
structure Files where
  content : List Nat → Option (List Nat)
  path : List (List Nat)
  ext : Option (List Nat)

/-- whether the extension can be added (L738-740) -/
def Files.mayExtend (fs : Files) (p : List Nat) : Option (List Nat) :=
  match fs.ext with
  | none => none
  | some e => if e.isSuffixOf p then none else some (p ++ e)

/-- try one place (L733-747) -/
def Files.tryAt (fs : Files) (p : List Nat) : Option (List Nat × List Nat) :=
  match fs.content p with
  | some c => some (p, c)
  | none =>
    match fs.mayExtend p with
    | none => none
    | some q => (fs.content q).map fun c => (q, c)

/-- the constructor of `input_record` (L726-750), as far as opening the file goes: the path name and content of the file -/
def Files.open (fs : Files) (name : List Nat) : Option (List Nat × List Nat) :=
  (fs.path ++ [[]]).findSome? fun d => fs.tryAt (d ++ name)

/-- `push_file` (L770-789, L805-827) -/
def Buf.pushFile (fs : Files) (b : Buf) (name : List Nat) (skipSeen : Bool) : Bool × Buf :=
  if skipSeen && b.seen.contains name && b.completed.getD (b.seen.idxOf name) false then (true, b)
  else
    match fs.open name with
    | none => (false, b)
    | some (p, c) =>
      let nr := b.seen.idxOf p
      let b := { b with seen := if b.seen.contains p then b.seen else b.seen ++ [p] }
      let new := nr == b.completed.length
      let b := { b with completed := if new then b.completed ++ [false] else b.completed }
      let skip := !new && ((skipSeen && b.completed.getD nr false) || b.stack.any (·.name == nr))
      if skip then (true, b)
      else (true, { b with stack := ⟨⟨c, true⟩, nr, b.lineNo + b.curLines⟩ :: b.stack, lineNo := 1, curLines := 0 })

end Verif.Lex
