import Verif.Weyl.Fast
/-
Evaluation, by the kernel, of the construction of all transducers of the exceptional types.
-/
namespace Verif.Weyl
open Verif

set_option maxRecDepth 100000

theorem test_E0 : testMake (coxeter .E) 0 2 = true := by decide +kernel
theorem test_E1 : testMake (coxeter .E) 1 2 = true := by decide +kernel
theorem test_E2 : testMake (coxeter .E) 2 3 = true := by decide +kernel
theorem test_E3 : testMake (coxeter .E) 3 10 = true := by decide +kernel
theorem test_E4 : testMake (coxeter .E) 4 16 = true := by decide +kernel
theorem test_E5 : testMake (coxeter .E) 5 27 = true := by decide +kernel
theorem test_E6 : testMake (coxeter .E) 6 56 = true := by decide +kernel
theorem test_E7 : testMake (coxeter .E) 7 240 = true := by decide +kernel

theorem test_E : ∀ r < 8, testMake (coxeter .E) r (Ty.states .E r) = true
  | 0, _ => test_E0
  | 1, _ => test_E1
  | 2, _ => test_E2
  | 3, _ => test_E3
  | 4, _ => test_E4
  | 5, _ => test_E5
  | 6, _ => test_E6
  | 7, _ => test_E7
  | _ + 8, h => absurd h (by omega)

theorem test_F0 : testMake (coxeter .F) 0 2 = true := by decide +kernel
theorem test_F1 : testMake (coxeter .F) 1 3 = true := by decide +kernel
theorem test_F2 : testMake (coxeter .F) 2 8 = true := by decide +kernel
theorem test_F3 : testMake (coxeter .F) 3 24 = true := by decide +kernel

theorem test_F : ∀ r < 4, testMake (coxeter .F) r (Ty.states .F r) = true
  | 0, _ => test_F0
  | 1, _ => test_F1
  | 2, _ => test_F2
  | 3, _ => test_F3
  | _ + 4, h => absurd h (by omega)

theorem test_G0 : testMake (coxeter .G) 0 2 = true := by decide +kernel
theorem test_G1 : testMake (coxeter .G) 1 6 = true := by decide +kernel

theorem test_G : ∀ r < 2, testMake (coxeter .G) r (Ty.states .G r) = true
  | 0, _ => test_G0
  | 1, _ => test_G1
  | _ + 2, h => absurd h (by omega)

end Verif.Weyl
