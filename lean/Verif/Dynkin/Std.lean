import Verif.Dynkin.Spec
import Mathlib.Tactic.SplitIfs

/-! The standard Cartan matrices. -/

namespace Verif.Dynkin

open Verif.Weyl (Ty)

/-- neighbours in the standard diagram -/
def Nb : Ty → Nat → Nat → Nat → Prop
  | .D, n, i, j => (j + 1 < n ∧ i + 1 < n ∧ (j = i + 1 ∨ i = j + 1)) ∨ (j + 1 = n ∧ i + 3 = n) ∨
      (i + 1 = n ∧ j + 3 = n)
  | .E, _, i, j => (i = 0 ∧ j = 2) ∨ (i = 2 ∧ j = 0) ∨ (i = 1 ∧ j = 3) ∨ (i = 3 ∧ j = 1) ∨
      (2 ≤ i ∧ j = i + 1) ∨ (2 ≤ j ∧ i = j + 1)
  | _, _, i, j => j = i + 1 ∨ i = j + 1

/-- labelled edges of the standard diagram, from the long to the short root -/
def Lb : Ty → Nat → Nat → Nat → Prop
  | .B, n, i, j => i + 2 = n ∧ j + 1 = n
  | .C, n, i, j => i + 1 = n ∧ j + 2 = n
  | .F, _, i, j => i = 1 ∧ j = 2
  | .G, _, i, j => i = 1 ∧ j = 0
  | _, _, _, _ => False

theorem nb_D {n i j : Nat} : Nb .D n i j ↔ (j + 1 < n ∧ i + 1 < n ∧ (j = i + 1 ∨ i = j + 1)) ∨
    (j + 1 = n ∧ i + 3 = n) ∨ (i + 1 = n ∧ j + 3 = n) := Iff.rfl

theorem nb_E {n i j : Nat} : Nb .E n i j ↔ (i = 0 ∧ j = 2) ∨ (i = 2 ∧ j = 0) ∨ (i = 1 ∧ j = 3) ∨
    (i = 3 ∧ j = 1) ∨ (2 ≤ i ∧ j = i + 1) ∨ (2 ≤ j ∧ i = j + 1) := Iff.rfl

theorem cartan_self (ty : Ty) (n i : Nat) : cartan ty n i i = 2 := by simp [cartan]

theorem bond_ne {ty : Ty} {n i j : Nat} (hr : ty.RankOK n) (hi : i < n) (hj : j < n) :
    (i ≠ j ∧ Weyl.bond ty n i j ≠ 0) ↔ Nb ty n i j := by
  cases ty <;> simp only [Weyl.Ty.RankOK] at hr <;> simp only [Weyl.bond, Weyl.bondLt, Nb] <;>
    split_ifs <;> omega

theorem cartan_ne {ty : Ty} {n i j : Nat} (hr : ty.RankOK n) (hi : i < n) (hj : j < n) :
    (i ≠ j ∧ cartan ty n i j ≠ 0) ↔ Nb ty n i j := by
  rw [← bond_ne hr hi hj]
  constructor
  · rintro ⟨h, h'⟩
    refine ⟨h, ?_⟩
    intro e
    simp [cartan, h, e] at h'
  · rintro ⟨h, h'⟩
    refine ⟨h, ?_⟩
    unfold cartan
    rw [if_neg h, if_neg h']
    cases ty <;> dsimp only <;> (try split_ifs) <;> decide

theorem cartan_lt {ty : Ty} {n i j : Nat} (hr : ty.RankOK n) (hi : i < n) (hj : j < n) :
    cartan ty n i j < -1 ↔ Lb ty n i j := by
  unfold cartan
  cases ty <;> simp only [Weyl.Ty.RankOK] at hr <;>
    simp only [Weyl.bond, Weyl.bondLt, Lb] <;> split_ifs <;>
    first | omega | (constructor <;> intro h <;> first | omega | (exfalso; omega))

theorem cartan_bound {ty : Ty} {n i j : Nat} (hr : ty.RankOK n) (hn : 2 < n) :
    cartan ty n i j ≠ -3 := by
  unfold cartan
  cases ty <;> simp only [Weyl.Ty.RankOK] at hr <;> dsimp only <;> split_ifs <;> omega

/-- the entries of a standard Cartan matrix are determined by its edges and labels -/
theorem cartan_eq {ty : Ty} {n i j : Nat} (hr : ty.RankOK n) (hn : 2 < n) (hi : i < n) (hj : j < n)
    {x : Int} (h1 : i = j → x = 2) (h2 : i ≠ j → -2 ≤ x ∧ x ≤ 0) (h3 : i ≠ j → (x ≠ 0 ↔ Nb ty n i j))
    (h4 : i ≠ j → (x < -1 ↔ Lb ty n i j)) : x = cartan ty n i j := by
  by_cases e : i = j
  · rw [h1 e, e, cartan_self]
  · have a2 := h2 e
    have a3 := h3 e
    have a4 := h4 e
    have b1 := cartan_ne hr hi hj
    have b2 := cartan_lt hr hi hj
    have b3 : cartan ty n i j ≤ 0 ∧ -3 ≤ cartan ty n i j := by
      unfold cartan
      rw [if_neg e]
      cases ty <;> dsimp only <;> split_ifs <;> omega
    have b4 := cartan_bound (i := i) (j := j) hr hn
    rw [← a3] at b1
    rw [← a4] at b2
    have b5 : cartan ty n i j ≠ 0 ↔ x ≠ 0 := ⟨fun h => b1.1 ⟨e, h⟩, fun h => (b1.2 h).2⟩
    omega

theorem nb_four {ty : Ty} {n i a b c d : Nat} (ha : a < n) (hb : b < n)
    (hc : c < n) (hd : d < n) (h1 : Nb ty n i a) (h2 : Nb ty n i b) (h3 : Nb ty n i c)
    (h4 : Nb ty n i d) (e1 : a ≠ b) (e2 : a ≠ c) (e3 : a ≠ d) (e4 : b ≠ c) (e5 : b ≠ d) (e6 : c ≠ d) :
    False := by
  cases ty <;> simp only [Nb] at h1 h2 h3 h4 <;> omega

theorem nb_three {ty : Ty} {n i a b c : Nat} (ha : a < n) (hb : b < n)
    (hc : c < n) (h1 : Nb ty n i a) (h2 : Nb ty n i b) (h3 : Nb ty n i c)
    (e1 : a ≠ b) (e2 : a ≠ c) (e4 : b ≠ c) : (ty = .D ∧ i + 3 = n) ∨ (ty = .E ∧ i = 3) := by
  cases ty <;> simp only [Nb] at h1 h2 h3 <;> simp <;> omega

theorem nb_first {ty : Ty} {n a b : Nat} (hr : ty.RankOK n) (hn : 2 < n) (ha : a < n) (hb : b < n)
    (h1 : Nb ty n 0 a) (h2 : Nb ty n 0 b) : a = b := by
  cases ty <;> simp only [Weyl.Ty.RankOK] at hr <;> simp only [Nb] at h1 h2 <;> omega

theorem nb_last {ty : Ty} {n a b : Nat} (hr : ty.RankOK n) (hn : 2 < n) (ha : a < n) (hb : b < n)
    (h1 : Nb ty n (n - 1) a) (h2 : Nb ty n (n - 1) b) : a = b := by
  cases ty <;> simp only [Weyl.Ty.RankOK] at hr <;> simp only [Nb] at h1 h2 <;> omega

theorem lb_one {ty : Ty} {n i j i' j' : Nat} (h : Lb ty n i j) (h' : Lb ty n i' j') :
    i = i' ∧ j = j' := by
  cases ty <;> simp only [Lb] at h h' <;> omega

end Verif.Dynkin
