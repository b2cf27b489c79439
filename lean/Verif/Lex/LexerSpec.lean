import Verif.Lex.Lexer
/-
Specification for C83 to C86: space and comments, denotations of strings, names of files, ends of commands.
-/
namespace Verif.Lex

/-- the number of opening braces minus that of closing braces -/
def balance (l : List Nat) : Int := (l.count 123 : Int) - l.count 125

/-- a comment starts with a brace and ends where braces are balanced for the first time; it lies inside a single file -/
def Comment (l : List Nat) : Prop := l.head? = some 123 ∧ 12 ∉ l ∧ balance l = 0 ∧ ∀ q, q <+: l → q ≠ [] → q ≠ l → 0 < balance q

/-- the start of a comment, without its end -/
def Unclosed (l : List Nat) : Prop := l.head? = some 123 ∧ 12 ∉ l ∧ ∀ q, q <+: l → q ≠ [] → 0 < balance q

/-- white space other than the end of a file: a blank, tab, vertical tab, carriage return, and a newline if that is allowed -/
def SpaceChar (nl : Prop) (c : Nat) : Prop := c = 32 ∨ c = 9 ∨ c = 11 ∨ c = 13 ∨ (c = 10 ∧ nl)

/-- text that separates tokens: white space and comments -/
inductive Blank (nl : Prop) : List Nat → Prop
  | nil : Blank nl []
  | space {c : Nat} {l : List Nat} : SpaceChar nl c → Blank nl l → Blank nl (c :: l)
  | comment {a l : List Nat} : Comment a → Blank nl l → Blank nl (a ++ l)

/-- text that starts with neither white space nor a comment -/
def Stop (nl : Prop) (l : List Nat) : Prop := ∀ c, l.head? = some c → ¬ SpaceChar nl c ∧ c ≠ 123

/-- a command may go on at the next line: inside brackets, or after a token that cannot end a command -/
def Lx.goesOn (x : Lx) : Prop := x.nest ≠ [] ∨ x.prevent ≠ 0

/-- the text of a string in its denotation: each quote is doubled -/
def doubled (s : List Nat) : List Nat := s.flatMap fun c => if c = 34 then [34, 34] else [c]

/-- characters in names of files that are not quoted: letters, digits and some others -/
def NameChar (c : Nat) : Prop := (65 ≤ c ∧ c ≤ 90) ∨ (97 ≤ c ∧ c ≤ 122) ∨ (48 ≤ c ∧ c ≤ 57) ∨ c ∈ [46, 45, 43, 126, 95, 61, 33, 63, 64, 35, 36, 37, 38, 124]

/-- the first character of an identifier: a letter or an underscore -/
def WordStart (c : Nat) : Prop := (65 ≤ c ∧ c ≤ 90) ∨ (97 ≤ c ∧ c ≤ 122) ∨ c = 95

/-- further characters of an identifier -/
def WordChar (c : Nat) : Prop := WordStart c ∨ (48 ≤ c ∧ c ≤ 57)

/-- the next characters obtained from the input buffer -/
def readShifts : Nat → Nat → Buf → Res (List Nat)
  | 0, _, _ => .ok []
  | k + 1, fuel, b => do
    let (c, b) ← b.shift fuel
    return c :: (← readShifts k fuel b)

/-- what a token does to grouping: it starts a group, ends one, may end one (the keyword `in`), or nothing -/
inductive Grouping
  | opens | closes | mayClose | none
  deriving DecidableEq

/-- brackets and keywords group; `kind` tells what the keywords do -/
def grouping (kind : Nat → Kw) : Tok → Grouping
  | .chr c => if c = 40 ∨ c = 123 ∨ c = 91 then .opens else if c = 41 ∨ c = 125 ∨ c = 93 then .closes else .none
  | .tlsub => .opens
  | .keyword code =>
    match kind code with
    | .letKw => .opens
    | .opening => .opens
    | .closing => .closes
    | .inKw => .mayClose
    | _ => .none
  | _ => .none

/-- histories of scanning tokens, where the parser may start a group itself, announce type variables inside a group, and start afresh.  Keywords are those given by `kind` -/
inductive Scanned (kind : Nat → Kw) : Lx → Prop
  | make (input : List Nat) : Scanned kind (Lx.make input)
  | token {x y : Lx} {t : Tok} {fuel : Nat} (cls : List Nat → Word) : Scanned kind x → (∀ s code k, cls s = .keyword code k → kind code = k) → x.getToken cls fuel = .ok (t, y) → Scanned kind y
  | push {x : Lx} : Scanned kind x → Scanned kind x.pushNest
  | pop {x : Lx} : Scanned kind x → Scanned kind x.popNest
  | announce {x : Lx} (v : List Nat) : Scanned kind x → x.nest ≠ [] → Scanned kind (x.putTypeVar v)
  | reset {x : Lx} (input : List Nat) : Scanned kind x → Scanned kind (x.reset input)

/-- the type variables announced, in order, those of the outermost group first -/
def Lx.announced (x : Lx) : List (List Nat) := x.nest.reverse.flatten

end Verif.Lex
