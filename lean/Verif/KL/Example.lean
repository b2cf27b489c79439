import Verif.KL.Rep
import Mathlib.Tactic.IntervalCases
import Mathlib.Tactic.FinCases

/-!
# A block that meets the hypotheses

The block of the split real form of `SL(3)` that contains the trivial representation: six
parameters, with lengths 0, 1, 1, 2, 2, 2.
-/

namespace Verif.KL.Example

open Polynomial

def st (s x : ℕ) : Status :=
  match s, x with
  | 0, 0 => .complexAscent | 1, 0 => .complexAscent
  | 0, 1 => .complexDescent | 1, 1 => .imaginaryTypeII
  | 0, 2 => .imaginaryTypeII | 1, 2 => .complexDescent
  | 0, 3 => .realTypeII | 1, 3 => .realTypeII
  | 0, 4 => .realNonparity | 1, 4 => .realTypeII
  | 0, 5 => .realTypeII | 1, 5 => .realNonparity
  | _, _ => .realNonparity

def len (x : ℕ) : ℕ := [0, 1, 1, 2, 2, 2].getD x 0

def cross (s x : ℕ) : ℕ := ([[1, 0, 2, 5, 4, 3], [2, 1, 0, 4, 3, 5]].getD s []).getD x 0

def cay (s x : ℕ) : ℕ × ℕ :=
  match s, x with
  | 0, 2 => (3, 5) | 1, 1 => (3, 4) | 0, 3 => (2, 0) | 0, 5 => (2, 0) | 1, 3 => (1, 0)
  | 1, 4 => (1, 0) | _, _ => (0, 0)

/-- the block of the specification -/
def b : Blk (Fin 6) where
  rank := 2
  len x := len x
  st s x := st s x
  cross s x := Fin.ofNat 6 (cross s x)
  cay s x := (Fin.ofNat 6 (cay s x).1, Fin.ofNat 6 (cay s x).2)

/-- the block of the program -/
def bt : Block where
  rank := 2
  size := 6
  length := len
  status := st
  crossImage s x := some (cross s x)
  cayleyImage s x :=
    match s, x with
    | 0, 2 => (some 3, some 5) | 1, 1 => (some 3, some 4)
    | 0, 3 => (some 2, none) | 0, 5 => (some 2, none)
    | 1, 3 => (some 1, none) | 1, 4 => (some 1, none) | _, _ => (none, none)

def el (i : ℕ) : Fin 6 := Fin.ofNat 6 i

def le (x y : Fin 6) : Bool :=
  ([[true], [true, true], [true, false, true], [true, true, true, true],
    [false, true, false, false, true], [false, false, true, false, false, true]].getD y []).getD x false

noncomputable def P (x y : Fin 6) : ℕ[X] := if le x y then 1 else 0

instance (s : ℕ) (x : Fin 6) : Decidable (b.Rel s x) := by
  unfold Blk.Rel
  cases b.st s x <;> infer_instance

theorem wf : b.WF := by
  have h : ∀ s < 2, ∀ x : Fin 6, b.Rel s x := by decide +kernel
  exact h

local notation "inv" => (LaurentPolynomial.invert (R := ℤ))
local notation "r" => (LaurentPolynomial.T (-1) : L)

/-- the duality: the coefficients of the self-dual basis of the polynomials, conjugated -/
noncomputable def D (m : Mod (Fin 6)) : Mod (Fin 6) := fun x =>
  match x with
  | 0 => inv (m 0 - m 1 - m 2 + m 3 + m 4 + m 5) + r * inv (m 1 - m 3 - m 4) +
      r * inv (m 2 - m 3 - m 5) + r * r * inv (m 3)
  | 1 => r * inv (m 1 - m 3 - m 4) + r * r * inv (m 3) + r * r * inv (m 4)
  | 2 => r * inv (m 2 - m 3 - m 5) + r * r * inv (m 3) + r * r * inv (m 5)
  | 3 => r * r * inv (m 3)
  | 4 => r * r * inv (m 4)
  | 5 => r * r * inv (m 5)

theorem qr : q * r = 1 := by
  rw [← LaurentPolynomial.T_add]; simp

theorem inv_q : inv q = r := by simp [q]

section
variable (m : Mod (Fin 6))
theorem T00 : b.T 0 m 0 = q * m 1 := rfl
theorem T01 : b.T 0 m 1 = m 0 + (q - 1) * m 1 := rfl
theorem T02 : b.T 0 m 2 = m 2 + (q - 1) * (m 3 + m 5) := rfl
theorem T03 : b.T 0 m 3 = m 2 + (q - 1) * m 3 - m 5 := rfl
theorem T04 : b.T 0 m 4 = - m 4 := rfl
theorem T05 : b.T 0 m 5 = m 2 + (q - 1) * m 5 - m 3 := rfl
theorem T10 : b.T 1 m 0 = q * m 2 := rfl
theorem T11 : b.T 1 m 1 = m 1 + (q - 1) * (m 3 + m 4) := rfl
theorem T12 : b.T 1 m 2 = m 0 + (q - 1) * m 2 := rfl
theorem T13 : b.T 1 m 3 = m 1 + (q - 1) * m 3 - m 4 := rfl
theorem T14 : b.T 1 m 4 = m 1 + (q - 1) * m 4 - m 3 := rfl
theorem T15 : b.T 1 m 5 = - m 5 := rfl

theorem D0 : D m 0 = inv (m 0 - m 1 - m 2 + m 3 + m 4 + m 5) + r * inv (m 1 - m 3 - m 4) +
      r * inv (m 2 - m 3 - m 5) + r * r * inv (m 3) := rfl
theorem D1 : D m 1 = r * inv (m 1 - m 3 - m 4) + r * r * inv (m 3) + r * r * inv (m 4) := rfl
theorem D2 : D m 2 = r * inv (m 2 - m 3 - m 5) + r * r * inv (m 3) + r * r * inv (m 5) := rfl
theorem D3 : D m 3 = r * r * inv (m 3) := rfl
theorem D4 : D m 4 = r * r * inv (m 4) := rfl
theorem D5 : D m 5 = r * r * inv (m 5) := rfl
end

theorem hecke (s : ℕ) (hs : s < 2) (m : Mod (Fin 6)) :
    q • D (b.T s m) = b.T s (D m) - (q - 1) • D m := by
  have h := qr
  funext x
  rw [Pi.smul_apply, Pi.sub_apply, Pi.smul_apply, smul_eq_mul, smul_eq_mul]
  interval_cases s <;> fin_cases x <;> dsimp only [Fin.zero_eta, Fin.mk_one, Fin.reduceFinMk] <;>
    simp only [D0, D1, D2, D3, D4, D5, T00, T01, T02, T03, T04, T05, T10, T11, T12, T13, T14, T15,
      map_add, map_sub, map_mul, map_neg, map_one, inv_q] <;>
    generalize inv (m 0) = a0 <;> generalize inv (m 1) = a1 <;> generalize inv (m 2) = a2 <;>
    generalize inv (m 3) = a3 <;> generalize inv (m 4) = a4 <;> generalize inv (m 5) = a5 <;>
    generalize r = r' at h ⊢ <;> generalize q = q' at h ⊢ <;> grind

theorem basis_eq (y : Fin 6) : (basis y : Mod (Fin 6)) = fun x => if x = y then 1 else 0 := by
  funext x; simp [basis, Pi.single_apply]

theorem rr : r * r = LaurentPolynomial.T (-2) := by rw [← LaurentPolynomial.T_add]; rfl

theorem dual : IsDuality b D where
  add m n := by
    funext x
    rw [Pi.add_apply]
    fin_cases x <;> dsimp only [Fin.zero_eta, Fin.mk_one, Fin.reduceFinMk] <;>
      simp only [D0, D1, D2, D3, D4, D5, Pi.add_apply, map_add, map_sub] <;> ring
  smul a m := by
    funext x
    rw [Pi.smul_apply, smul_eq_mul]
    fin_cases x <;> dsimp only [Fin.zero_eta, Fin.mk_one, Fin.reduceFinMk] <;>
      simp only [D0, D1, D2, D3, D4, D5, Pi.smul_apply, smul_eq_mul, map_add, map_sub, map_mul] <;>
      ring
  hecke := hecke
  diag x := by
    rw [basis_eq]
    fin_cases x <;> dsimp only [Fin.zero_eta, Fin.mk_one, Fin.reduceFinMk] <;>
      simp [D0, D1, D2, D3, D4, D5, b, len, rr]
  tri x z := by
    rw [basis_eq]
    intro hne
    by_contra hcon
    apply hne
    fin_cases x <;> fin_cases z <;> dsimp only [Fin.zero_eta, Fin.mk_one, Fin.reduceFinMk] <;>
      first
      | (exfalso; revert hcon; decide)
      | simp [D0, D1, D2, D3, D4, D5]

theorem klv : IsKLV b D P where
  one y := by fin_cases y <;> simp [P, le]
  deg x y hxy i hi := by
    have hle : le x y = true := by
      by_contra h
      rw [P, if_neg h] at hi; simp at hi
    have h0 : i = 0 := by
      by_contra h
      rw [P, if_pos hle, coeff_one, if_neg (by omega)] at hi; exact hi rfl
    subst h0
    have : ∀ x y : Fin 6, x ≠ y → le x y = true → 1 + b.len x ≤ b.len y := by decide
    simpa using this x y hxy hle
  dual y := by
    have hc : ∀ y x, cvec P y x = if le x y then 1 else 0 := by
      intro y x; rw [cvec, P]; split <;> simp
    have h := qr
    funext x
    rw [Pi.smul_apply, smul_eq_mul]
    fin_cases y <;> fin_cases x <;> dsimp only [Fin.zero_eta, Fin.mk_one, Fin.reduceFinMk] <;>
      simp [D0, D1, D2, D3, D4, D5, hc, le, b, len, rr]

theorem rep : Represents bt b el where
  rank := rfl
  inj := by
    intro i j hi hj
    have h : ∀ i < 6, ∀ j < 6, el i = el j → i = j := by decide
    exact h i hi j hj
  len := by
    intro i hi
    have h : ∀ i < 6, bt.length i = b.len (el i) := by decide
    exact h i hi
  mono := by
    intro i j h1 h2
    have h : ∀ j < 6, ∀ i ≤ j, bt.length i ≤ bt.length j := by decide
    exact h j h2 i h1
  bound := by
    intro i hi
    have h : ∀ i < 6, bt.length i < 2 ^ 16 := by decide
    exact h i hi
  st := by
    intro s i hs hi
    have h : ∀ s < 2, ∀ i < 6, bt.status s i = b.st s (el i) := by decide
    exact h s hs i hi
  cross := by
    intro s i hs hi
    have h : ∀ s < 2, ∀ i < 6, cross s i < 6 ∧ el (cross s i) = b.cross s (el i) := by decide
    exact h s hs i hi
  cay1 := by
    intro s i hs hi h1
    have h : ∀ s < 2, ∀ i < 6, bt.status s i ∈ [.imaginaryTypeI, .imaginaryTypeII, .realTypeI,
      .realTypeII] → ∃ j < 6, (bt.cayleyImage s i).1 = some j ∧ el j = (b.cay s (el i)).1 := by
      decide
    obtain ⟨j, h2, h3, h4⟩ := h s hs i hi h1
    rw [h3]; exact ⟨h2, h4⟩
  cay2 := by
    intro s i hs hi h1
    have h : ∀ s < 2, ∀ i < 6, bt.status s i ∈ [.imaginaryTypeII, .realTypeI] →
      ∃ j < 6, (bt.cayleyImage s i).2 = some j ∧ el j = (b.cay s (el i)).2 := by
      decide
    obtain ⟨j, h2, h3, h4⟩ := h s hs i hi h1
    rw [h3]; exact ⟨h2, h4⟩
  cay2_i1 := by
    intro s i hs hi h1
    have h : ∀ s < 2, ∀ i < 6, bt.status s i = .imaginaryTypeI →
      (bt.cayleyImage s i).2 = none := by decide
    exact h s hs i hi h1

theorem vanishing : Vanishing b P := by
  intro x y h1 h2 h3 h4 _
  have h : ∀ x y : Fin 6, b.len x < b.len y →
      (∀ s < 2, (b.st s y).isDescent = true → (b.st s x).isDescent = true) →
      (∀ s < 2, b.st s y ≠ .complexDescent ∧ b.st s y ≠ .realTypeI) →
      (∀ s < 2, b.st s y = .realNonparity → b.st s x ≠ .complexAscent ∧
        b.st s x ≠ .imaginaryTypeII ∧ b.st s x ≠ .imaginaryCompact) → le x y = false := by decide
  rw [P, h x y h1 h2 h3 h4]; simp

theorem ctx : Ctx bt b D P el (2 ^ 32) where
  data := ⟨wf, dual, klv⟩
  rep := rep
  closed _ _ z _ := ⟨z, z.2, by simp [el]⟩
  vanishing := vanishing
  two := by norm_num

theorem small : Small P (2 ^ 32) := by
  intro x y i
  rw [P]
  split
  · rw [coeff_one]; split <;> norm_num
  · simp

end Verif.KL.Example
