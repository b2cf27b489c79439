import Verif.BigInt.Spec
/-
Specification side for the bitwise operations on `big_int`: an integer is
considered as an infinite sequence of bits, two's complement (C++ comments at
bigint.h L112-117).  Nothing here refers to digits.
-/
namespace Verif.BigInt

/-- bit `k` of the infinite two's complement expansion of `n` -/
def Bit (n : Int) (k : Nat) : Prop := n / 2 ^ k % 2 = 1

instance (n : Int) (k : Nat) : Decidable (Bit n k) := by unfold Bit; infer_instance

/-- the number of set bits of `n` at positions below `p` -/
def bitsBelow (n : Int) : Nat → Nat
  | 0 => 0
  | p + 1 => bitsBelow n p + (if Bit n p then 1 else 0)

end Verif.BigInt
