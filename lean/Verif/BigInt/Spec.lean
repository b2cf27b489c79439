import Verif.BigInt.Model
/-
Specification side for `big_int`: what integer a digit vector denotes, and what
it means to be in canonical (shortest) form.  Nothing here refers to how the
operations work.
-/
namespace Verif.BigInt

/-- unsigned value of a little-endian digit list -/
def uval : Digits → Nat
  | [] => 0
  | x :: l => x + 𝐁 * uval l

/-- The integer denoted by a digit vector: two's complement, the top bit of the
last digit having negative weight. -/
def value (d : Digits) : Int :=
  (uval d : Int) - (if 𝐇 ≤ d.getLastD 0 then (𝐁 : Int) ^ d.length else 0)

/-- every digit fits in 32 bits and there is at least one -/
def WF (d : Digits) : Prop := d ≠ [] ∧ ∀ x ∈ d, x < 𝐁

/-- canonical: well formed, and no shorter vector denotes the same integer -/
def Canon (d : Digits) : Prop :=
  WF d ∧ ∀ d', WF d' → value d' = value d → d.length ≤ d'.length

/-- `d` is the canonical representation of the integer `n` -/
def Rep (d : Digits) (n : Int) : Prop := Canon d ∧ value d = n

end Verif.BigInt
