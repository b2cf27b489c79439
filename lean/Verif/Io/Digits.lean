import Verif.BigInt.Model
import Verif.Common
/-
Model of `digits` for numbers of arbitrary size (io/ioutils.cpp L44-53), on the model of `big_int`.
-/
namespace Verif.Io
open Verif

/-- its loop (ioutils.cpp L48-50), with the number of digits counted so far -/
def digitsBigLoop (b : Nat) : Nat → Nat → BigInt.Digits → Res Nat
  | 0, _, _ => .outOfFuel
  | k + 1, d, a => if BigInt.isZero (BigInt.shiftModulo a b).1 then .ok (d + 1) else digitsBigLoop b k (d + 1) (BigInt.shiftModulo a b).1

/-- `digits` (ioutils.cpp L44-53); division by 0 is undefined -/
def digitsBig (fuel : Nat) (a : BigInt.Digits) (b : Nat) : Res Nat := if b = 0 then .undefined else digitsBigLoop b fuel 0 a

end Verif.Io
