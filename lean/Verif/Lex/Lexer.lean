import Verif.Lex.Buffer
/-
Model of the lexical analyser (interpreter/lexer.w, all line numbers refer to that file).

Simplifications.  Characters are numbers (Ascii).  The input is given by the list of characters that calls of `shift` are going to produce (`C81_characters`); it contains no null character, and
once it is exhausted `shift` produces null characters.  Only the last character can be put back by `unshift` (`C81_unshift`), and nothing after a null character; this is how the code uses it.
`input.point()` refers to the current line, which always ends with a newline or a form-feed, so looking ahead from there is looking at the characters to come up to there.  Identifiers are represented by
their text instead of their number (`C80_injective_partial`), and the contents of the tables consulted by a function that classifies them.  Comments are delimited by braces, as set in
main.w L288.  Error messages are counted.  Locations are left out.
-/
namespace Verif.Lex
open Verif

/-- `states` (L93) -/
inductive LState
  | initial | normal | typeDefining | ended
  deriving DecidableEq, Repr

/-- `Lexical_analyser` (L92-128), with the temporary prompt of the input buffer (top first) -/
structure Lx where
  last : Option Nat
  rest : List Nat
  prompt : List Nat
  nest : List (List (List Nat))
  typeVars : List (List Nat)
  prevent : Nat
  previous : Nat
  state : LState
  messages : Nat
  deriving DecidableEq, Repr

/-- the constructor (L162-170) -/
def Lx.make (input : List Nat) : Lx := ⟨none, input, [], [], [], 0, 0, .initial, 0⟩

/-- `input.shift` -/
def Lx.shift (x : Lx) : Nat × Lx :=
  match x.rest with
  | [] => (0, { x with last := none })
  | c :: t => (c, { x with last := some c, rest := t })

/-- `input.unshift` -/
def Lx.unshift (x : Lx) : Lx :=
  match x.last with
  | none => x
  | some c => { x with last := none, rest := c :: x.rest }

/-- `input.push_prompt` (buffer.w L1136-1137) -/
def Lx.pushPrompt (x : Lx) (c : Nat) : Lx := { x with prompt := c :: x.prompt }

/-- `input.pop_prompt` (buffer.w L1144-1148) -/
def Lx.popPrompt (x : Lx) : Lx := { x with prompt := x.prompt.tail }

/-- `push_nest` (L118) -/
def Lx.pushNest (x : Lx) : Lx := { x with nest := [] :: x.nest }

/-- `pop_nest` (L611-618) -/
def Lx.popNest (x : Lx) : Lx :=
  match x.nest with
  | [] => x
  | e :: n => { x with typeVars := x.typeVars.filter fun v => !e.contains v, nest := n }

/-- `put_type_variable` (L606-610) -/
def Lx.putTypeVar (x : Lx) (v : List Nat) : Lx :=
  { x with typeVars := if x.typeVars.contains v then x.typeVars else v :: x.typeVars,
           nest := match x.nest with
             | [] => []
             | e :: n => (e ++ [v]) :: n }

/-- `reset` (L195-201); what remains of the line is discarded, which is here given by the input to come after that -/
def Lx.reset (x : Lx) (input : List Nat) : Lx := { x with last := none, rest := input, prompt := [], nest := [], typeVars := [], state := .initial }

/-- skipping of a comment (L273-298), at the given level of nesting -/
def commentLoop : Nat → Nat → Lx → Res Lx
  | 0, _, _ => .outOfFuel
  | k + 1, level, x =>
    let (c, x) := x.shift
    if c = 0 ∨ c = 12 then .ok { x.unshift with messages := x.messages + 1 }
    else if c = 123 then commentLoop k (level + 1) (x.pushPrompt 123)
    else if c = 125 then
      if level - 1 > 0 then commentLoop k (level - 1) x.popPrompt else .ok x.popPrompt
    else commentLoop k level x

/-- the loop of `skip_space` (L230-241) -/
def skipLoop : Nat → Lx → Res Lx
  | 0, _ => .outOfFuel
  | k + 1, x =>
    let (c, x) := x.shift
    if isSpace c then
      if c = 12 ∨ (c = 10 ∧ x.prevent = 0 ∧ x.nest = []) then .ok x else skipLoop k x
    else if c = 123 then do
      let x ← commentLoop k 1 (x.pushPrompt 123)
      skipLoop k x
    else .ok x

/-- `skip_space` (L228-244) -/
def Lx.skipSpace (fuel : Nat) (x : Lx) : Res Lx := do
  let y ← skipLoop fuel (if x.prevent ≠ 0 then x.pushPrompt x.prevent else x)
  return (if x.prevent ≠ 0 then y.popPrompt else y).unshift

/-- the loops of `scan_quoted_string` (L313-324); the text is given last character first, and the result tells whether the string was broken off -/
def quotedLoop : Nat → List Nat → Lx → Res (List Nat × Bool × Lx)
  | 0, _, _ => .outOfFuel
  | k + 1, acc, x =>
    let (c, x) := x.shift
    if c = 34 then
      let (d, x) := x.shift
      if d ≠ 34 then .ok (acc.reverse, false, x) else quotedLoop k (34 :: acc) x
    else if c = 10 ∨ c = 0 then .ok (acc.reverse, true, x)
    else quotedLoop k (c :: acc) x

/-- `scan_quoted_string` (L310-333), after the opening quote -/
def Lx.quoted (fuel : Nat) (x : Lx) : Res (List Nat × Lx) := do
  let (s, broken, x) ← quotedLoop fuel [] x
  return (s, { x.unshift with messages := if broken then x.messages + 1 else x.messages })

/-- `std::isalpha` -/
def isAlpha (c : Nat) : Bool := (65 ≤ c && c ≤ 90) || (97 ≤ c && c ≤ 122)

/-- `std::isdigit` -/
def isDigit (c : Nat) : Bool := 48 ≤ c && c ≤ 57

/-- characters of identifiers after the first (L465) -/
def isWord (c : Nat) : Bool := isAlpha c || isDigit c || c = 95

/-- scanning while a condition holds (L463-466, L570-573, L687-690, L753-756); the text is given last character first -/
def runLoop (p : Nat → Bool) : Nat → List Nat → Lx → Res (List Nat × Lx)
  | 0, _, _ => .outOfFuel
  | k + 1, acc, x =>
    let (c, x) := x.shift
    if p c then runLoop p k (c :: acc) x else .ok (acc.reverse, x.unshift)

/-- the string ".-+~_=!?@#$%&|" (L913) -/
def nameChars : List Nat := [46, 45, 43, 126, 95, 61, 33, 63, 64, 35, 36, 37, 38, 124]

/-- the test in L913: `std::strchr` also finds the null character -/
def inName (c : Nat) : Bool := isAlpha c || isDigit c || nameChars.contains c || c = 0

/-- the loop in L913-914 -/
def nameLoop : Nat → Nat → List Nat → Lx → Res (List Nat × Lx)
  | 0, _, _, _ => .outOfFuel
  | k + 1, c, acc, x =>
    if inName c then nameLoop k x.shift.1 (c :: acc) x.shift.2 else .ok (acc.reverse, x.unshift)

/-- reading a file name (L909-916) -/
def Lx.fileName (fuel : Nat) (x : Lx) : Res (List Nat × Lx) := do
  let x ← x.skipSpace fuel
  let (c, x) := x.shift
  if c = 34 then x.quoted fuel else nameLoop fuel c [] x

/-- what a keyword does (L499-522) -/
inductive Kw
  | letKw | opening | inKw | closing | plain
  | prevents (c : Nat)
  deriving DecidableEq, Repr

/-- what an identifier is found to be in the tables (L467-490) -/
inductive Word
  | keyword (code : Nat) (k : Kw)
  | prim (code : Nat)
  | constr | defined | other
  deriving DecidableEq, Repr

/-- tokens with their values; operators that are a single character token have that character -/
inductive Tok
  | nul
  | chr (c : Nat)
  | keyword (code : Nat)
  | prim (code : Nat)
  | typeVar (n : Nat)
  | constr (s : List Nat)
  | typeId (s : List Nat)
  | ident (s : List Nat)
  | int (s : List Nat)
  | str (s : List Nat)
  | op (c : Option Nat) (s : List Nat) (priority : Nat)
  | opBecomes (s : List Nat) (priority : Nat)
  | becomes | arrow | tlsub | endOfFile
  | fromFile (force : Bool) (name : List Nat)
  | toFile (add : Bool) (name : List Nat)
  deriving DecidableEq, Repr

/-- the loop for the number of a type variable (L532-546): `none` until it has been seen -/
def countLoop (v : List Nat) : Option Nat → List (List (List Nat)) → Option Nat
  | r, [] => r
  | some n, e :: l => countLoop v (some (n + e.length)) l
  | none, e :: l => countLoop v (if e.contains v then some (e.idxOf v) else none) l

/-- `typevar_level` (L556-562) -/
def Lx.typeVarLevel (x : Lx) : Nat := x.nest.foldl (fun n e => n + e.length) 0

/-- scanning of a keyword (L499-522) -/
def Lx.keyword (x : Lx) : Kw → Lx
  | .letKw => x.pushNest.pushPrompt 76
  | .opening => x.pushNest.pushPrompt 71
  | .inKw => if x.prompt.head? = some 76 then { x.popNest.popPrompt with prevent := 73 } else x
  | .closing => x.popNest.popPrompt
  | .prevents c => { x with prevent := c }
  | .plain => x

/-- an identifier (L467-490) -/
def Lx.word (cls : List Nat → Word) (s : List Nat) (x : Lx) : Res (Tok × Lx) :=
  match cls s with
  | .keyword code k => .ok (.keyword code, x.keyword k)
  | .prim code => .ok (.prim code, x)
  | w =>
    if x.typeVars.contains s then
      match countLoop s none x.nest with
      | none => .assertFail
      | some n => .ok (.typeVar n, x)
    else if w = .constr then .ok (.constr s, x)
    else if x.state = .typeDefining ∨ w = .defined then .ok (.typeId s, x)
    else .ok (.ident s, x)

/-- `operator_termination` (L651-652) -/
def Lx.opTerm (x : Lx) (c : Nat) : Lx := { x with prevent := if x.previous = 46 then 0 else c }

/-- `becomes_follows` (L629-638) -/
def Lx.becomesFollows (fuel : Nat) (x : Lx) : Res (Bool × Lx) := do
  let x ← x.skipSpace fuel
  match x.rest with
  | 58 :: 61 :: _ => return (true, { x.shift.2.shift.2 with prevent := 58 })
  | _ => return (false, x)

/-- an operator that may be contracted with a following `:=`; `c` is its character in case it is a single character token otherwise -/
def Lx.operator (fuel : Nat) (c : Option Nat) (s : List Nat) (priority : Nat) (x : Lx) : Res (Tok × Lx) := do
  let (b, x) ← x.becomesFollows fuel
  return (if b then .opBecomes s priority else .op c s priority, x)

/-- characters of relation symbols (L688, L755) -/
def isRel (c : Nat) : Bool := c = 60 || c = 61 || c = 62

/-- look-ahead after a tilde (L811-817) -/
def tildeSpecial : List Nat → Bool
  | 58 :: _ => true
  | 93 :: _ => true
  | 44 :: _ => true
  | 100 :: 111 :: l => !(l.head?.any isWord)
  | 111 :: 100 :: l => !(l.head?.any isWord)
  | 105 :: 102 :: l => !(l.head?.any isWord)
  | 102 :: 111 :: 114 :: l => !(l.head?.any isWord)
  | _ => false

/-- the scanning of a token that starts with `<` or `>` (L741-769) -/
def Lx.relation (fuel : Nat) (c : Nat) (x : Lx) : Res (Tok × Lx) :=
  if x.state = .initial then do
    let (d, y) := x.shift
    let (s, z) ← (if d = c then y else y.unshift).fileName fuel
    return (if c = 60 then .fromFile (d = c) s else .toFile (d = c) s, z)
  else do
    let (s, y) ← runLoop isRel fuel [c] x
    if s.length ≠ 1 then return (.op none s 2, y.opTerm c) else return (.op (some c) s 2, y)

/-- a token that does not start with a letter, underscore or digit (L669-717, L802-883) -/
def Lx.symbol (fuel : Nat) (c : Nat) (x : Lx) : Res (Tok × Lx) :=
  if c = 34 then do
    let (s, x) ← x.quoted fuel
    return (.str s, x)
  else if c = 40 ∨ c = 123 ∨ c = 91 then .ok (.chr c, x.pushNest.pushPrompt c)
  else if c = 41 ∨ c = 125 ∨ c = 93 then .ok (.chr c, x.popNest.popPrompt)
  else if c = 44 ∨ c = 59 ∨ c = 46 then .ok (.chr c, { x with prevent := c })
  else if c = 58 then
    let x := { x with prevent := c }
    if x.shift.1 = 61 then .ok (.becomes, x.shift.2) else .ok (.chr c, x.shift.2.unshift)
  else if c = 61 then do
    let (s, y) ← runLoop isRel fuel [c] (x.opTerm c)
    return (.op (if s.length = 1 then some 61 else none) s 2, y)
  else if c = 33 then
    if x.shift.1 = 61 then .ok (.op none [33, 61] 2, x.shift.2.opTerm 61) else .ok (.op (some 33) [33] 10, x.shift.2.unshift)
  else if c = 60 ∨ c = 62 then x.relation fuel c
  else if c = 126 then
    if x.shift.1 = 91 then .ok (.tlsub, x.shift.2.pushNest.pushPrompt 91)
    else do
      let x ← ({ x.shift.2.unshift with prevent := 126 }).skipSpace fuel
      if tildeSpecial x.rest then return (.chr 126, x) else x.operator fuel none [126] 8
  else if c = 12 then .ok (.endOfFile, x)
  else if c = 43 then (x.opTerm c).operator fuel none [c] 4
  else if c = 45 then
    let x := x.opTerm c
    if x.shift.1 = 62 then .ok (.arrow, x.shift.2) else x.shift.2.unshift.operator fuel none [c] 4
  else if c = 38 then (x.opTerm c).operator fuel none [c] 5
  else if c = 42 then (x.opTerm c).operator fuel (some 42) [c] 6
  else if c = 37 ∨ c = 47 then (x.opTerm c).operator fuel none [c] 6
  else if c = 92 then
    let x := x.opTerm c
    if x.shift.1 = 37 then ({ x.shift.2 with prevent := 37 }).operator fuel none [92, 37] 6 else x.shift.2.unshift.operator fuel none [c] 6
  else if c = 94 then (x.opTerm c).operator fuel none [c] 7
  else if c = 35 then
    let x := x.opTerm c
    if x.shift.1 = 35 then x.shift.2.operator fuel none [35, 35] 8 else x.shift.2.unshift.operator fuel none [c] 8
  else if c = 10 then .ok (.chr 10, { x with state := .ended })
  else .ok (.chr c, x)

/-- scanning a token (L415-430) -/
def Lx.scan (cls : List Nat → Word) (fuel : Nat) (x : Lx) : Res (Tok × Lx) := do
  let x ← x.skipSpace fuel
  let x := { x with previous := x.prevent, prevent := 0 }
  let (c, x) := x.shift
  if isAlpha c || c = 95 then do
    let (s, x) ← runLoop isWord fuel [c] x
    x.word cls s
  else if isDigit c then do
    let (s, x) ← runLoop isDigit fuel [c] x
    return (.int s, x)
  else x.symbol fuel c

/-- `get_token` (L394-403) -/
def Lx.getToken (cls : List Nat → Word) (fuel : Nat) (x : Lx) : Res (Tok × Lx) :=
  if x.state = .ended then .ok (.nul, { x with state := .initial })
  else do
    let (t, x) ← x.scan cls fuel
    return (t, if x.state = .initial then { x with state := .normal } else x)

end Verif.Lex
