import Verif.Lex.LexerSpec
/-
Specification for C88: operator symbols.
-/
namespace Verif.Lex

/-- the operator symbols that can be followed by `:=`, other than the tilde, with their priorities: `+`, `-`, `&`, `*`, `%`, `/`, `\`, `\%`, `^`, `#`, `##` -/
def operators : List (List Nat × Nat) :=
  [([43], 4), ([45], 4), ([38], 5), ([42], 6), ([37], 6), ([47], 6), ([92], 6), ([92, 37], 6), ([94], 7), ([35], 8), ([35, 35], 8)]

/-- the text `r` does not make a symbol longer: there are `->`, `\%` and `##` -/
def NotContinued (s r : List Nat) : Prop := (s = [45] → r.head? ≠ some 62) ∧ (s = [92] → r.head? ≠ some 37) ∧ (s = [35] → r.head? ≠ some 35)

/-- a line can end after the symbol `s` without being the end of the command: inside brackets, or if the token before was not a dot; after `\%` always -/
def Lx.openAfter (x : Lx) (s : List Nat) : Prop := x.nest ≠ [] ∨ x.prevent ≠ 46 ∨ s = [92, 37]

/-- the text starts with `:=` and goes on with `r` -/
def Becomes (t r : List Nat) : Prop := t = 58 :: 61 :: r

/-- characters of relation symbols: `<`, `=`, `>` -/
def RelChar (c : Nat) : Prop := c = 60 ∨ c = 61 ∨ c = 62

/-- what makes a tilde before it a mark of reversal: `:`, `]`, `,`, or one of the keywords `do`, `od`, `if`, `for` -/
def Reversal (t : List Nat) : Prop := (∃ c, t.head? = some c ∧ (c = 58 ∨ c = 93 ∨ c = 44)) ∨
  ∃ w r, t = w ++ r ∧ (w = [100, 111] ∨ w = [111, 100] ∨ w = [105, 102] ∨ w = [102, 111, 114]) ∧ ∀ c, r.head? = some c → ¬ WordChar c

end Verif.Lex
