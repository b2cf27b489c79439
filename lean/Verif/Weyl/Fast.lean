import Verif.Weyl.Check
/-
Expressions for the Coxeter matrices of the classical types that evaluate faster.
-/
namespace Verif.Weyl
open Verif

def coxA (i j : Nat) : Nat :=
  bif Nat.beq (i + 1) j then 3 else bif Nat.beq (j + 1) i then 3 else bif Nat.beq i j then 1 else 2

def coxB (i j : Nat) : Nat :=
  bif Nat.beq (i + 1) j then (bif Nat.beq i 0 then 4 else 3) else bif Nat.beq (j + 1) i then (bif Nat.beq j 0 then 4 else 3)
  else bif Nat.beq i j then 1 else 2

def coxD (i j : Nat) : Nat :=
  bif Nat.beq (i + 1) j then (bif Nat.beq i 0 then 2 else 3) else bif Nat.beq (j + 1) i then (bif Nat.beq j 0 then 2 else 3)
  else bif Nat.beq i 0 then (bif Nat.beq j 2 then 3 else 2) else bif Nat.beq j 0 then (bif Nat.beq i 2 then 3 else 2) else 2

theorem coxeter_A : coxeter .A = coxA := by
  funext i j
  simp only [coxeter, coxeterLe, coxA, cond_eq_ite, Nat.beq_eq]
  grind

theorem coxeter_B : coxeter .B = coxB := by
  funext i j
  simp only [coxeter, coxeterLe, coxB, cond_eq_ite, Nat.beq_eq]
  grind

theorem coxeter_C : coxeter .C = coxB := by
  funext i j
  simp only [coxeter, coxeterLe, coxB, cond_eq_ite, Nat.beq_eq]
  grind

theorem coxeter_D : coxeter .D = coxD := by
  funext i j
  simp only [coxeter, coxeterLe, coxD, cond_eq_ite, Nat.beq_eq]
  grind

end Verif.Weyl
