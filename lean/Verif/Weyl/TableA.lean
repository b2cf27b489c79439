import Verif.Weyl.Fast
/-
Evaluation, by the kernel, of the construction of all transducers of type A.
-/
namespace Verif.Weyl
open Verif

set_option maxRecDepth 100000

theorem test_A0 : testMake coxA 0 2 = true := by decide +kernel
theorem test_A1 : testMake coxA 1 3 = true := by decide +kernel
theorem test_A2 : testMake coxA 2 4 = true := by decide +kernel
theorem test_A3 : testMake coxA 3 5 = true := by decide +kernel
theorem test_A4 : testMake coxA 4 6 = true := by decide +kernel
theorem test_A5 : testMake coxA 5 7 = true := by decide +kernel
theorem test_A6 : testMake coxA 6 8 = true := by decide +kernel
theorem test_A7 : testMake coxA 7 9 = true := by decide +kernel
theorem test_A8 : testMake coxA 8 10 = true := by decide +kernel
theorem test_A9 : testMake coxA 9 11 = true := by decide +kernel
theorem test_A10 : testMake coxA 10 12 = true := by decide +kernel
theorem test_A11 : testMake coxA 11 13 = true := by decide +kernel
theorem test_A12 : testMake coxA 12 14 = true := by decide +kernel
theorem test_A13 : testMake coxA 13 15 = true := by decide +kernel
theorem test_A14 : testMake coxA 14 16 = true := by decide +kernel
theorem test_A15 : testMake coxA 15 17 = true := by decide +kernel
theorem test_A16 : testMake coxA 16 18 = true := by decide +kernel
theorem test_A17 : testMake coxA 17 19 = true := by decide +kernel
theorem test_A18 : testMake coxA 18 20 = true := by decide +kernel
theorem test_A19 : testMake coxA 19 21 = true := by decide +kernel
theorem test_A20 : testMake coxA 20 22 = true := by decide +kernel
theorem test_A21 : testMake coxA 21 23 = true := by decide +kernel
theorem test_A22 : testMake coxA 22 24 = true := by decide +kernel
theorem test_A23 : testMake coxA 23 25 = true := by decide +kernel
theorem test_A24 : testMake coxA 24 26 = true := by decide +kernel
theorem test_A25 : testMake coxA 25 27 = true := by decide +kernel
theorem test_A26 : testMake coxA 26 28 = true := by decide +kernel
theorem test_A27 : testMake coxA 27 29 = true := by decide +kernel
theorem test_A28 : testMake coxA 28 30 = true := by decide +kernel
theorem test_A29 : testMake coxA 29 31 = true := by decide +kernel
theorem test_A30 : testMake coxA 30 32 = true := by decide +kernel
theorem test_A31 : testMake coxA 31 33 = true := by decide +kernel

theorem test_A : ∀ r < 32, testMake coxA r (Ty.states .A r) = true
  | 0, _ => test_A0
  | 1, _ => test_A1
  | 2, _ => test_A2
  | 3, _ => test_A3
  | 4, _ => test_A4
  | 5, _ => test_A5
  | 6, _ => test_A6
  | 7, _ => test_A7
  | 8, _ => test_A8
  | 9, _ => test_A9
  | 10, _ => test_A10
  | 11, _ => test_A11
  | 12, _ => test_A12
  | 13, _ => test_A13
  | 14, _ => test_A14
  | 15, _ => test_A15
  | 16, _ => test_A16
  | 17, _ => test_A17
  | 18, _ => test_A18
  | 19, _ => test_A19
  | 20, _ => test_A20
  | 21, _ => test_A21
  | 22, _ => test_A22
  | 23, _ => test_A23
  | 24, _ => test_A24
  | 25, _ => test_A25
  | 26, _ => test_A26
  | 27, _ => test_A27
  | 28, _ => test_A28
  | 29, _ => test_A29
  | 30, _ => test_A30
  | 31, _ => test_A31
  | _ + 32, h => absurd h (by omega)

end Verif.Weyl
