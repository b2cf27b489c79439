import Verif.Weyl.Fast
/-
Evaluation, by the kernel, of the construction of all transducers of type D.
-/
namespace Verif.Weyl
open Verif

set_option maxRecDepth 100000

theorem test_D0 : testMake coxD 0 2 = true := by decide +kernel
theorem test_D1 : testMake coxD 1 2 = true := by decide +kernel
theorem test_D2 : testMake coxD 2 6 = true := by decide +kernel
theorem test_D3 : testMake coxD 3 8 = true := by decide +kernel
theorem test_D4 : testMake coxD 4 10 = true := by decide +kernel
theorem test_D5 : testMake coxD 5 12 = true := by decide +kernel
theorem test_D6 : testMake coxD 6 14 = true := by decide +kernel
theorem test_D7 : testMake coxD 7 16 = true := by decide +kernel
theorem test_D8 : testMake coxD 8 18 = true := by decide +kernel
theorem test_D9 : testMake coxD 9 20 = true := by decide +kernel
theorem test_D10 : testMake coxD 10 22 = true := by decide +kernel
theorem test_D11 : testMake coxD 11 24 = true := by decide +kernel
theorem test_D12 : testMake coxD 12 26 = true := by decide +kernel
theorem test_D13 : testMake coxD 13 28 = true := by decide +kernel
theorem test_D14 : testMake coxD 14 30 = true := by decide +kernel
theorem test_D15 : testMake coxD 15 32 = true := by decide +kernel
theorem test_D16 : testMake coxD 16 34 = true := by decide +kernel
theorem test_D17 : testMake coxD 17 36 = true := by decide +kernel
theorem test_D18 : testMake coxD 18 38 = true := by decide +kernel
theorem test_D19 : testMake coxD 19 40 = true := by decide +kernel
theorem test_D20 : testMake coxD 20 42 = true := by decide +kernel
theorem test_D21 : testMake coxD 21 44 = true := by decide +kernel
theorem test_D22 : testMake coxD 22 46 = true := by decide +kernel
theorem test_D23 : testMake coxD 23 48 = true := by decide +kernel
theorem test_D24 : testMake coxD 24 50 = true := by decide +kernel
theorem test_D25 : testMake coxD 25 52 = true := by decide +kernel
theorem test_D26 : testMake coxD 26 54 = true := by decide +kernel
theorem test_D27 : testMake coxD 27 56 = true := by decide +kernel
theorem test_D28 : testMake coxD 28 58 = true := by decide +kernel
theorem test_D29 : testMake coxD 29 60 = true := by decide +kernel
theorem test_D30 : testMake coxD 30 62 = true := by decide +kernel
theorem test_D31 : testMake coxD 31 64 = true := by decide +kernel

theorem test_D : ∀ r < 32, testMake coxD r (Ty.states .D r) = true
  | 0, _ => test_D0
  | 1, _ => test_D1
  | 2, _ => test_D2
  | 3, _ => test_D3
  | 4, _ => test_D4
  | 5, _ => test_D5
  | 6, _ => test_D6
  | 7, _ => test_D7
  | 8, _ => test_D8
  | 9, _ => test_D9
  | 10, _ => test_D10
  | 11, _ => test_D11
  | 12, _ => test_D12
  | 13, _ => test_D13
  | 14, _ => test_D14
  | 15, _ => test_D15
  | 16, _ => test_D16
  | 17, _ => test_D17
  | 18, _ => test_D18
  | 19, _ => test_D19
  | 20, _ => test_D20
  | 21, _ => test_D21
  | 22, _ => test_D22
  | 23, _ => test_D23
  | 24, _ => test_D24
  | 25, _ => test_D25
  | 26, _ => test_D26
  | 27, _ => test_D27
  | 28, _ => test_D28
  | 29, _ => test_D29
  | 30, _ => test_D30
  | 31, _ => test_D31
  | _ + 32, h => absurd h (by omega)

end Verif.Weyl
