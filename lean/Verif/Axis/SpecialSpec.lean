import Verif.Axis.Close
/-
Specification for C76: refinement of types with undetermined parts.
-/
namespace Verif.Axis
open Verif

mutual
/-- `Refines s t`: the type `s` is obtained from `t` by filling in some of the undetermined parts -/
def Refines : Ty → Ty → Prop
  | _, .undet => True
  | .prim m, .prim n => m = n
  | .var m, .var n => m = n
  | .func a r, .func a' r' => Refines a a' ∧ Refines r r'
  | .row c, .row c' => Refines c c'
  | .tuple l, .tuple l' => RefinesL l l'
  | .union l, .union l' => RefinesL l l'
  | _, _ => False
def RefinesL : List Ty → List Ty → Prop
  | [], [] => True
  | a :: l, b :: l' => Refines a b ∧ RefinesL l l'
  | _, _ => False
end

end Verif.Axis
