/-
Specification for C91: the folding of lines.
-/
namespace Verif.Io

/-- a list of hyphens, as it is given: separated by newlines -/
def joined : List (List Nat) → List Nat
  | [] => []
  | [s] => s
  | s :: l => s ++ 10 :: joined l

/-- hyphens: not empty, without newlines -/
def Hyphens (l : List (List Nat)) : Prop := ∀ s ∈ l, s ≠ [] ∧ 10 ∉ s

/-- the string occurs in the line at this position -/
def OccursAt (line s : List Nat) (i : Nat) : Prop := s <+: line.drop i

/-- a break that is allowed at position `b` of the line: just before a string in `pre` or just after a string in `post`, that starts not beyond position `top` -/
def Allowed (line : List Nat) (pre post : List (List Nat)) (top b : Nat) : Prop :=
  (∃ s ∈ pre, OccursAt line s b ∧ b ≤ top) ∨ (∃ s ∈ post, ∃ i, b = i + s.length ∧ OccursAt line s i ∧ i ≤ top)

/-- the right break after the one at `old`, for lines of the given width: the last one allowed, and if there is none then where the width is exhausted -/
def IsBreak (line : List Nat) (pre post : List (List Nat)) (old width b : Nat) : Prop :=
  (old < b ∧ Allowed line pre post (old + width) b ∧ ∀ c, Allowed line pre post (old + width) c → c ≤ b) ∨ ((∀ c, Allowed line pre post (old + width) c → c ≤ old) ∧ b = old + width)

/-- the remainder of a line after the break at `old > 0` is cut into these parts; all but the last are followed by a break, and the last one fits -/
inductive Cut (line : List Nat) (pre post : List (List Nat)) (width : Nat) : Nat → List (List Nat) → Prop
  | last {old : Nat} : line.length ≤ old + width → Cut line pre post width old [line.drop old]
  | more {old b : Nat} {l : List (List Nat)} : old + width < line.length → IsBreak line pre post old width b → Cut line pre post width b l → Cut line pre post width old ((line.drop old).take (b - old) :: l)

/-- the parts on lines of their own, indented by `h`; nothing is written for a last part that is empty -/
def shown (h : Nat) : List (List Nat) → List Nat
  | [] => []
  | [p] => if p = [] then [] else List.replicate h 32 ++ p
  | p :: l => List.replicate h 32 ++ p ++ 10 :: shown h l

end Verif.Io
