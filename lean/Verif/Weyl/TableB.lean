import Verif.Weyl.Fast
/-
Evaluation, by the kernel, of the construction of all transducers of type B and C.
-/
namespace Verif.Weyl
open Verif

set_option maxRecDepth 100000

theorem test_B0 : testMake coxB 0 2 = true := by decide +kernel
theorem test_B1 : testMake coxB 1 4 = true := by decide +kernel
theorem test_B2 : testMake coxB 2 6 = true := by decide +kernel
theorem test_B3 : testMake coxB 3 8 = true := by decide +kernel
theorem test_B4 : testMake coxB 4 10 = true := by decide +kernel
theorem test_B5 : testMake coxB 5 12 = true := by decide +kernel
theorem test_B6 : testMake coxB 6 14 = true := by decide +kernel
theorem test_B7 : testMake coxB 7 16 = true := by decide +kernel
theorem test_B8 : testMake coxB 8 18 = true := by decide +kernel
theorem test_B9 : testMake coxB 9 20 = true := by decide +kernel
theorem test_B10 : testMake coxB 10 22 = true := by decide +kernel
theorem test_B11 : testMake coxB 11 24 = true := by decide +kernel
theorem test_B12 : testMake coxB 12 26 = true := by decide +kernel
theorem test_B13 : testMake coxB 13 28 = true := by decide +kernel
theorem test_B14 : testMake coxB 14 30 = true := by decide +kernel
theorem test_B15 : testMake coxB 15 32 = true := by decide +kernel
theorem test_B16 : testMake coxB 16 34 = true := by decide +kernel
theorem test_B17 : testMake coxB 17 36 = true := by decide +kernel
theorem test_B18 : testMake coxB 18 38 = true := by decide +kernel
theorem test_B19 : testMake coxB 19 40 = true := by decide +kernel
theorem test_B20 : testMake coxB 20 42 = true := by decide +kernel
theorem test_B21 : testMake coxB 21 44 = true := by decide +kernel
theorem test_B22 : testMake coxB 22 46 = true := by decide +kernel
theorem test_B23 : testMake coxB 23 48 = true := by decide +kernel
theorem test_B24 : testMake coxB 24 50 = true := by decide +kernel
theorem test_B25 : testMake coxB 25 52 = true := by decide +kernel
theorem test_B26 : testMake coxB 26 54 = true := by decide +kernel
theorem test_B27 : testMake coxB 27 56 = true := by decide +kernel
theorem test_B28 : testMake coxB 28 58 = true := by decide +kernel
theorem test_B29 : testMake coxB 29 60 = true := by decide +kernel
theorem test_B30 : testMake coxB 30 62 = true := by decide +kernel
theorem test_B31 : testMake coxB 31 64 = true := by decide +kernel

theorem test_B : ∀ r < 32, testMake coxB r (Ty.states .B r) = true
  | 0, _ => test_B0
  | 1, _ => test_B1
  | 2, _ => test_B2
  | 3, _ => test_B3
  | 4, _ => test_B4
  | 5, _ => test_B5
  | 6, _ => test_B6
  | 7, _ => test_B7
  | 8, _ => test_B8
  | 9, _ => test_B9
  | 10, _ => test_B10
  | 11, _ => test_B11
  | 12, _ => test_B12
  | 13, _ => test_B13
  | 14, _ => test_B14
  | 15, _ => test_B15
  | 16, _ => test_B16
  | 17, _ => test_B17
  | 18, _ => test_B18
  | 19, _ => test_B19
  | 20, _ => test_B20
  | 21, _ => test_B21
  | 22, _ => test_B22
  | 23, _ => test_B23
  | 24, _ => test_B24
  | 25, _ => test_B25
  | 26, _ => test_B26
  | 27, _ => test_B27
  | 28, _ => test_B28
  | 29, _ => test_B29
  | 30, _ => test_B30
  | 31, _ => test_B31
  | _ + 32, h => absurd h (by omega)

end Verif.Weyl
