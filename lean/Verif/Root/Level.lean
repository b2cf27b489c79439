import Verif.Root.Count
import Mathlib.Algebra.BigOperators.Intervals
import Mathlib.Logic.Equiv.Basic
/-
Bounds for the levels of roots, by type.
-/
namespace Verif.Root
open Verif.Coxeter CoxeterSystem

/-! ### components -/

/-- simple reflection in coordinates of a component -/
def crefl (n : Nat) (K : Nat → Nat → ℤ) (i : Nat) (x : Nat → ℤ) : Nat → ℤ := Function.update x i (x i - ∑ j ∈ Finset.range n, x j * K j i)

/-- a set containing the roots of a component, with the bound on levels -/
structure Closed (n : Nat) (K : Nat → Nat → ℤ) (P : (Nat → ℤ) → Prop) : Prop where
  simple : ∀ i < n, P fun k => if k = i then 1 else 0
  refl : ∀ x, P x → ∀ i < n, P (crefl n K i x)
  bound : ∀ x, P x → ∑ j ∈ Finset.range n, x j ≤ 4 * n - 2
  coef : ∀ x, P x → ∀ j < n, |x j| ≤ 6

/-- Cartan matrix of a component -/
structure CompCartan (ty : Weyl.Ty) (n : Nat) (K : Nat → Nat → ℤ) : Prop where
  ok : ty.RankOK n
  diag : ∀ i < n, K i i = 2
  nonpos : ∀ i < n, ∀ j < n, i ≠ j → K i j ≤ 0
  zero : ∀ i < n, ∀ j < n, K i j = 0 → K j i = 0
  prod : ∀ i < n, ∀ j < n, i ≠ j → K i j * K j i = Weyl.bond ty n i j

theorem bond_comm (ty : Weyl.Ty) (n i j : Nat) : Weyl.bond ty n i j = Weyl.bond ty n j i := by
  unfold Weyl.bond
  rcases Nat.lt_trichotomy i j with hij | rfl | hij
  · rw [if_pos hij, if_neg (by omega)]
  · rfl
  · rw [if_neg (by omega), if_pos hij]

theorem CompCartan.single {ty : Weyl.Ty} {n : Nat} {K : Nat → Nat → ℤ} (h : CompCartan ty n K) {i j : Nat} (hi : i < n) (hj : j < n) (hij : i ≠ j)
    (hb : Weyl.bond ty n i j ≤ 1) : K i j = -(Weyl.bond ty n i j : ℤ) := by
  have h1 := h.nonpos i hi j hj hij
  have h2 := h.nonpos j hj i hi (Ne.symm hij)
  have h3 := h.prod i hi j hj hij
  have h4 := h.zero j hj i hi
  have : Weyl.bond ty n i j = 0 ∨ Weyl.bond ty n i j = 1 := by omega
  rcases this with e | e
  · rw [e] at h3 ⊢
    rcases mul_eq_zero.mp h3 with h5 | h5
    · simpa using h5
    · simpa using h4 h5
  · rw [e] at h3 ⊢
    have := Int.eq_one_or_neg_one_of_mul_eq_one (by simpa using h3)
    omega

theorem CompCartan.double {ty : Weyl.Ty} {n : Nat} {K : Nat → Nat → ℤ} (h : CompCartan ty n K) {i j : Nat} (hi : i < n) (hj : j < n) (hij : i ≠ j)
    (hb : Weyl.bond ty n i j = 2) : (K i j = -1 ∧ K j i = -2) ∨ (K i j = -2 ∧ K j i = -1) := by
  have h1 := h.nonpos i hi j hj hij
  have h2 := h.nonpos j hj i hi (Ne.symm hij)
  have h3 := h.prod i hi j hj hij
  rw [hb] at h3
  have h6 : K j i ≠ 0 := fun e => by rw [e] at h3; simp at h3
  have h5 : -2 ≤ K i j := by
    push_cast at h3
    have h7 : K j i ≤ -1 := by omega
    nlinarith [mul_nonneg (neg_nonneg.mpr h1) (by omega : 0 ≤ -1 - K j i)]
  have : K i j = 0 ∨ K i j = -1 ∨ K i j = -2 := by omega
  rcases this with e | e | e <;> rw [e] at h3 <;> push_cast at h3 <;> omega

theorem CompCartan.triple {ty : Weyl.Ty} {n : Nat} {K : Nat → Nat → ℤ} (h : CompCartan ty n K) {i j : Nat} (hi : i < n) (hj : j < n) (hij : i ≠ j)
    (hb : Weyl.bond ty n i j = 3) : (K i j = -1 ∧ K j i = -3) ∨ (K i j = -3 ∧ K j i = -1) := by
  have h1 := h.nonpos i hi j hj hij
  have h2 := h.nonpos j hj i hi (Ne.symm hij)
  have h3 := h.prod i hi j hj hij
  rw [hb] at h3
  have h6 : K j i ≠ 0 := fun e => by rw [e] at h3; simp at h3
  have h5 : -3 ≤ K i j := by
    push_cast at h3
    have h7 : K j i ≤ -1 := by omega
    nlinarith [mul_nonneg (neg_nonneg.mpr h1) (by omega : 0 ≤ -1 - K j i)]
  have : K i j = 0 ∨ K i j = -1 ∨ K i j = -2 ∨ K i j = -3 := by omega
  rcases this with e | e | e | e <;> rw [e] at h3 <;> push_cast at h3 <;> omega

/-! ### classical types: the sum of absolute values of coordinates -/

/-- coordinates in an orthonormal basis -/
def dif (y : Nat → ℤ) (k : Nat) : ℤ := y k - if k = 0 then 0 else y (k - 1)

theorem dif_zero (y : Nat → ℤ) : dif y 0 = y 0 := by simp [dif]

theorem dif_succ (y : Nat → ℤ) (k : Nat) : dif y (k + 1) = y (k + 1) - y k := by simp [dif]

def L1 (m : Nat) (y : Nat → ℤ) : ℤ := ∑ k ∈ Finset.range m, |dif y k|

theorem sum_swap {m i : Nat} {e e' : Nat → ℤ} (hi : i + 1 < m) (h : ∀ k < m, k ≠ i → k ≠ i + 1 → |e' k| = |e k|) (h1 : |e' i| = |e (i + 1)|) (h2 : |e' (i + 1)| = |e i|) :
    ∑ k ∈ Finset.range m, |e' k| = ∑ k ∈ Finset.range m, |e k| := by
  refine Finset.sum_equiv (Equiv.swap i (i + 1)) ?_ ?_
  · intro k
    simp only [Finset.mem_range]
    by_cases hk : k = i
    · subst hk; rw [Equiv.swap_apply_left]; omega
    · by_cases hk' : k = i + 1
      · subst hk'; rw [Equiv.swap_apply_right]; omega
      · rw [Equiv.swap_apply_of_ne_of_ne hk hk']
  · intro k hk
    rw [Finset.mem_range] at hk
    by_cases hk1 : k = i
    · subst hk1; rw [Equiv.swap_apply_left, h1]
    · by_cases hk' : k = i + 1
      · subst hk'; rw [Equiv.swap_apply_right, h2]
      · rw [Equiv.swap_apply_of_ne_of_ne hk1 hk', h k hk hk1 hk']

theorem L1_step {m i : Nat} (hi : i + 1 < m) (y y' : Nat → ℤ) (h : ∀ k < m, k ≠ i → y' k = y k) (h1 : y' i = (if i = 0 then 0 else y (i - 1)) + y (i + 1) - y i) :
    L1 m y' = L1 m y := by
  refine sum_swap hi ?_ ?_ ?_
  · intro k hk hk1 hk2
    congr 1
    unfold dif
    rw [h k hk hk1]
    by_cases h0 : k = 0
    · rw [if_pos h0, if_pos h0]
    · rw [if_neg h0, if_neg h0, h (k - 1) (by omega) (by omega)]
  · congr 1
    unfold dif
    rw [h1, if_neg (Nat.succ_ne_zero i), Nat.add_sub_cancel]
    by_cases h0 : i = 0
    · rw [if_pos h0, if_pos h0]; ring
    · rw [if_neg h0, if_neg h0, h (i - 1) (by omega) (by omega)]; ring
  · congr 1
    unfold dif
    rw [if_neg (by omega), Nat.add_sub_cancel, h1, h (i + 1) hi (by omega)]
    ring

theorem L1_last {n : Nat} (y y' : Nat → ℤ) (h : ∀ k < n, y' k = y k) (h1 : y' n = 2 * (if n = 0 then 0 else y (n - 1)) - y n) : L1 (n + 1) y' = L1 (n + 1) y := by
  refine Finset.sum_congr rfl fun k hk => ?_
  rw [Finset.mem_range] at hk
  by_cases hkn : k = n
  · subst hkn
    unfold dif
    rw [h1]
    by_cases h0 : k = 0
    · rw [if_pos h0, if_pos h0, ← abs_neg]; congr 1; ring
    · rw [if_neg h0, if_neg h0, h (k - 1) (by omega), ← abs_neg]; congr 1; ring
  · congr 1
    unfold dif
    rw [h k (by omega)]
    by_cases h0 : k = 0
    · rw [if_pos h0, if_pos h0]
    · rw [if_neg h0, if_neg h0, h (k - 1) (by omega)]

theorem L1_bound {m : Nat} (y : Nat → ℤ) : ∀ k < m, |y k| ≤ L1 (k + 1) y := by
  intro k
  induction k with
  | zero =>
    intro _
    simp [L1, dif]
  | succ k ih =>
    intro hk
    have h1 := ih (by omega)
    rw [L1, Finset.sum_range_succ]
    have h2 : y (k + 1) = y k + dif y (k + 1) := by
      unfold dif
      rw [if_neg (by omega), Nat.add_sub_cancel]
      ring
    have h3 := abs_add_le (y k) (dif y (k + 1))
    rw [← h2] at h3
    unfold L1 at h1
    omega

theorem L1_mono {m m' : Nat} (h : m ≤ m') (y : Nat → ℤ) : L1 m y ≤ L1 m' y := by
  refine Finset.sum_le_sum_of_subset_of_nonneg ?_ fun _ _ _ => abs_nonneg _
  intro k hk
  rw [Finset.mem_range] at hk ⊢
  omega

theorem le_of_L1 {m : Nat} {y : Nat → ℤ} (h : L1 m y ≤ 2) {k : Nat} (hk : k < m) : y k ≤ 2 := by
  have h1 := L1_bound y k hk
  have h2 := L1_mono (m := k + 1) (m' := m) (by omega) y
  have h3 := le_abs_self (y k)
  omega

theorem abs_le_of_L1 {m : Nat} {y : Nat → ℤ} (h : L1 m y ≤ 2) {k : Nat} (hk : k < m) : |y k| ≤ 2 :=
  le_trans (L1_bound y k hk) (le_trans (L1_mono (by omega) y) h)

theorem L1_le {m i : Nat} (y : Nat → ℤ) (h : ∀ k < m, |dif y k| ≤ (if k = i then 1 else 0) + if k = i + 1 then 1 else 0) : L1 m y ≤ 2 := by
  refine le_trans (Finset.sum_le_sum fun k hk => h k (Finset.mem_range.mp hk)) ?_
  rw [Finset.sum_add_distrib]
  have : ∀ a, ∑ k ∈ Finset.range m, (if k = a then (1 : ℤ) else 0) ≤ 1 := by
    intro a
    rw [Finset.sum_ite_eq' (Finset.range m) a fun _ => (1 : ℤ)]
    split <;> omega
  have h1 := this i
  have h2 := this (i + 1)
  omega

theorem L1_simple (m i : Nat) (y : Nat → ℤ) (h : ∀ k < m, y k = if k = i then 1 else 0) : L1 m y ≤ 2 := by
  refine L1_le (i := i) y fun k hk => ?_
  unfold dif
  rw [h k hk]
  by_cases h0 : k = 0
  · subst h0
    rw [if_pos rfl]
    by_cases h1 : 0 = i
    · subst h1; simp
    · rw [if_neg h1, if_neg (by omega)]; simp
  · rw [if_neg h0, h (k - 1) (by omega)]
    by_cases h1 : k = i
    · rw [if_pos h1, if_neg (show ¬ k - 1 = i by omega), if_neg (show ¬ k = i + 1 by omega)]; simp
    · by_cases h2 : k = i + 1
      · rw [if_neg h1, if_pos (by omega), if_pos h2]; simp
      · rw [if_neg h1, if_neg (by omega), if_neg h2]; simp

/-- sums with few terms -/
theorem sum_few {n : Nat} (f : Nat → ℤ) (S : Finset Nat) (hS : ∀ j ∈ S, j < n) (h0 : ∀ j < n, j ∉ S → f j = 0) : ∑ j ∈ Finset.range n, f j = ∑ j ∈ S, f j := by
  refine (Finset.sum_subset (fun j hj => Finset.mem_range.mpr (hS j hj)) fun j hj hjS => h0 j (Finset.mem_range.mp hj) hjS).symm

theorem sum_tri {n i : Nat} (hi : i < n) (x : Nat → ℤ) (K : Nat → Nat → ℤ) (h0 : ∀ j < n, j ≠ i → j + 1 ≠ i → j ≠ i + 1 → K j i = 0) :
    ∑ j ∈ Finset.range n, x j * K j i = (if i = 0 then 0 else x (i - 1) * K (i - 1) i) + x i * K i i + if i + 1 < n then x (i + 1) * K (i + 1) i else 0 := by
  by_cases h1 : i = 0
  · by_cases h2 : i + 1 < n
    · rw [sum_few _ {i, i + 1} (by simp; omega) (fun j hj hjS => by simp at hjS; rw [h0 j hj (by omega) (by omega) (by omega), mul_zero]), if_pos h1, if_pos h2,
        Finset.sum_pair (by omega)]
      ring
    · rw [sum_few _ {i} (by simp; omega) (fun j hj hjS => by simp at hjS; rw [h0 j hj (by omega) (by omega) (by omega), mul_zero]), if_pos h1, if_neg h2,
        Finset.sum_singleton]
      ring
  · by_cases h2 : i + 1 < n
    · rw [sum_few _ {i - 1, i, i + 1} (by simp; omega) (fun j hj hjS => by simp at hjS; rw [h0 j hj (by omega) (by omega) (by omega), mul_zero]), if_neg h1, if_pos h2,
        Finset.sum_insert (by simp; omega), Finset.sum_pair (by omega)]
      ring
    · rw [sum_few _ {i - 1, i} (by simp; omega) (fun j hj hjS => by simp at hjS; rw [h0 j hj (by omega) (by omega) (by omega), mul_zero]), if_neg h1, if_neg h2,
        Finset.sum_pair (by omega)]
      ring

theorem crefl_ne {n : Nat} {K : Nat → Nat → ℤ} {i k : Nat} (x : Nat → ℤ) (hk : k ≠ i) : crefl n K i x k = x k := Function.update_of_ne hk _ _

theorem crefl_self {n : Nat} {K : Nat → Nat → ℤ} {i : Nat} (x : Nat → ℤ) : crefl n K i x i = x i - ∑ j ∈ Finset.range n, x j * K j i := Function.update_self _ _ _

theorem closed_A {n : Nat} {K : Nat → Nat → ℤ} (h : CompCartan .A n K) : Closed n K fun x => (∀ k, n ≤ k → x k = 0) ∧ L1 (n + 1) x ≤ 2 := by
  have hn : 1 ≤ n := h.ok
  have hb : ∀ i < n, ∀ j < n, Weyl.bond .A n i j = if i + 1 = j ∨ j + 1 = i then 1 else 0 := by
    intro i hi j hj
    simp only [Weyl.bond, Weyl.bondLt]
    by_cases h1 : i + 1 = j ∨ j + 1 = i
    · rw [if_pos h1]; split <;> split <;> omega
    · rw [if_neg h1]; split <;> split <;> omega
  have hK : ∀ i < n, ∀ j < n, i ≠ j → K i j = if i + 1 = j ∨ j + 1 = i then -1 else 0 := by
    intro i hi j hj hij
    have e := hb i hi j hj
    rw [h.single hi hj hij (by rw [e]; split <;> omega), e]
    split <;> simp
  refine ⟨?_, ?_, ?_, ?_⟩
  · intro i hi
    exact ⟨fun k hk => if_neg (by omega), L1_simple _ i _ fun k _ => rfl⟩
  · rintro x ⟨h1, h2⟩ i hi
    refine ⟨fun k hk => by rw [crefl_ne x (by omega), h1 k hk], ?_⟩
    rw [L1_step (i := i) (by omega) x _ (fun k _ hk => crefl_ne x hk)]
    · exact h2
    · rw [crefl_self, sum_tri hi x K fun j hj h3 h4 h5 => by rw [hK j hj i hi h3, if_neg (by omega)], h.diag i hi]
      have e1 : ∀ {j}, j + 1 = i → K j i = -1 := fun {j} hj => by rw [hK j (by omega) i hi (by omega), if_pos (by omega)]
      by_cases h6 : i + 1 < n
      · have e2 : K (i + 1) i = -1 := by rw [hK (i + 1) h6 i hi (by omega), if_pos (by omega)]
        rw [if_pos h6, e2]
        by_cases h7 : i = 0
        · rw [if_pos h7, if_pos h7]; ring
        · rw [if_neg h7, if_neg h7, e1 (by omega)]; ring
      · rw [if_neg h6, h1 (i + 1) (by omega)]
        by_cases h7 : i = 0
        · rw [if_pos h7, if_pos h7]; ring
        · rw [if_neg h7, if_neg h7, e1 (by omega)]; ring
  · rintro x ⟨h1, h2⟩
    refine le_trans (Finset.sum_le_sum (g := fun _ => (2 : ℤ)) fun k hk => le_of_L1 h2 (by rw [Finset.mem_range] at hk; omega)) ?_
    rw [Finset.sum_const, Finset.card_range, nsmul_eq_mul]
    omega
  · rintro x ⟨-, h2⟩ j hj
    exact le_trans (abs_le_of_L1 h2 (by omega)) (by omega)

/-- types B and C -/
theorem closed_BC {ty : Weyl.Ty} (hty : ty = .B ∨ ty = .C) {n : Nat} {K : Nat → Nat → ℤ} (h : CompCartan ty n K) : ∃ P, Closed n K P := by
  have hn : 2 ≤ n := by rcases hty with rfl | rfl <;> exact h.ok
  obtain ⟨m, rfl⟩ : ∃ m, n = m + 2 := ⟨n - 2, by omega⟩
  have hb : ∀ i < m + 2, ∀ j < m + 2, Weyl.bond ty (m + 2) i j = if i + 1 = j ∨ j + 1 = i then (if i = m + 1 ∨ j = m + 1 then 2 else 1) else 0 := by
    intro i hi j hj
    rcases hty with rfl | rfl <;> simp only [Weyl.bond, Weyl.bondLt] <;>
    · by_cases h1 : i + 1 = j ∨ j + 1 = i
      · rw [if_pos h1]
        by_cases h2 : i = m + 1 ∨ j = m + 1
        · rw [if_pos h2]; split <;> split <;> (try split) <;> omega
        · rw [if_neg h2]; split <;> split <;> (try split) <;> omega
      · rw [if_neg h1]; split <;> split <;> omega
  have hK : ∀ i < m + 2, ∀ j < m + 2, i ≠ j → (i < m + 1 ∧ j < m + 1 ∨ ¬ (i + 1 = j ∨ j + 1 = i)) → K i j = if i + 1 = j ∨ j + 1 = i then -1 else 0 := by
    intro i hi j hj hij hc
    have e := hb i hi j hj
    have e' : Weyl.bond ty (m + 2) i j = if i + 1 = j ∨ j + 1 = i then 1 else 0 := by
      rw [e]
      by_cases h1 : i + 1 = j ∨ j + 1 = i
      · rw [if_pos h1, if_pos h1, if_neg (by omega)]
      · rw [if_neg h1, if_neg h1]
    rw [h.single hi hj hij (by rw [e']; split <;> omega), e']
    split <;> simp
  have hd := h.double (i := m) (j := m + 1) (by omega) (by omega) (by omega) (by rw [hb m (by omega) _ (by omega), if_pos (by omega), if_pos (by omega)])
  -- the factor by which the last coordinate is multiplied
  obtain ⟨c, hc, hc1, hc2⟩ : ∃ c : ℤ, (c = 1 ∨ c = 2) ∧ c * K m (m + 1) = -2 ∧ K (m + 1) m = -c := by
    rcases hd with ⟨e1, e2⟩ | ⟨e1, e2⟩
    · exact ⟨2, .inr rfl, by rw [e1]; ring, e2⟩
    · exact ⟨1, .inl rfl, by rw [e1]; ring, e2⟩
  obtain ⟨tr, tr1, tr2⟩ : ∃ tr : (Nat → ℤ) → Nat → ℤ, (∀ x, tr x (m + 1) = c * x (m + 1)) ∧ ∀ x k, k ≠ m + 1 → tr x k = x k :=
    ⟨fun x k => if k = m + 1 then c * x k else x k, fun x => if_pos rfl, fun x k hk => if_neg hk⟩
  refine ⟨fun x => L1 (m + 2) (tr x) ≤ 2, ?_, ?_, ?_, ?_⟩
  · intro i hi
    by_cases him : i = m + 1
    · subst him
      have : L1 (m + 2) (tr fun k => if k = m + 1 then 1 else 0) = c := by
        rw [L1, Finset.sum_range_succ, Finset.sum_eq_zero]
        · rw [dif_succ, tr1, tr2 _ m (by omega), if_pos rfl, if_neg (by omega)]
          rcases hc with rfl | rfl <;> simp
        · intro k hk
          rw [Finset.mem_range] at hk
          cases k with
          | zero => rw [dif_zero, tr2 _ 0 (by omega), if_neg (by omega), abs_zero]
          | succ k => rw [dif_succ, tr2 _ _ (by omega), tr2 _ k (by omega), if_neg (by omega), if_neg (by omega), sub_zero, abs_zero]
      rw [this]
      rcases hc with rfl | rfl <;> omega
    · refine L1_simple _ i _ fun k hk => ?_
      by_cases hkm : k = m + 1
      · subst hkm
        rw [tr1, if_neg (by omega), mul_zero]
      · rw [tr2 _ _ hkm]
  · intro x hx i hi
    have hsum := sum_tri hi x K fun j hj h3 h4 h5 => by rw [hK j hj i hi h3 (by omega), if_neg (by omega)]
    have e1 : ∀ {j}, j + 1 = i → i ≠ m + 1 → K j i = -1 := fun {j} hj hm => by rw [hK j (by omega) i hi (by omega) (by omega), if_pos (by omega)]
    have hkeep : ∀ k, k ≠ i → tr (crefl (m + 2) K i x) k = tr x k := by
      intro k hk
      by_cases hkm : k = m + 1
      · subst hkm
        rw [tr1, tr1, crefl_ne x hk]
      · rw [tr2 _ _ hkm, tr2 _ _ hkm, crefl_ne x hk]
    by_cases him : i = m + 1
    · subst him
      rw [L1_last (n := m + 1) (tr x) _ fun k hk => hkeep k (by omega)]
      · exact hx
      · rw [tr1, tr1, crefl_self, hsum, if_neg (Nat.succ_ne_zero m), if_neg (lt_irrefl (m + 2)), if_neg (Nat.succ_ne_zero m), h.diag _ hi, Nat.add_sub_cancel, tr2 x m (by omega)]
        linear_combination (-x m) * hc1
    · rw [L1_step (i := i) (by omega) (tr x) _ fun k _ hk => hkeep k hk]
      · exact hx
      · have e2 : ∀ k, k < m + 1 → tr x k = x k := fun k hk => tr2 x k (by omega)
        rw [e2 i (by omega)]
        have e3 : tr (crefl (m + 2) K i x) i = crefl (m + 2) K i x i := tr2 _ _ him
        rw [e3, crefl_self, hsum, h.diag _ hi, if_pos (show i + 1 < m + 2 by omega)]
        have e4 : x (i + 1) * K (i + 1) i = -tr x (i + 1) := by
          by_cases h5 : i = m
          · subst h5
            rw [tr1, hc2]
            ring
          · rw [e2 _ (by omega), hK (i + 1) (by omega) i hi (by omega) (by omega), if_pos (by omega)]
            ring
        rw [e4]
        by_cases h7 : i = 0
        · rw [if_pos h7, if_pos h7]; ring
        · rw [if_neg h7, if_neg h7, e1 (by omega) him, e2 (i - 1) (by omega)]; ring
  · intro x hx
    refine le_trans (Finset.sum_le_sum (g := fun _ => (2 : ℤ)) fun k hk => ?_) ?_
    · rw [Finset.mem_range] at hk
      have h1 := le_of_L1 hx hk
      by_cases hkm : k = m + 1
      · subst hkm
        rw [tr1] at h1
        rcases hc with rfl | rfl <;> omega
      · rwa [tr2 _ _ hkm] at h1
    · rw [Finset.sum_const, Finset.card_range, nsmul_eq_mul]
      push_cast
      omega
  · intro x hx k hk
    have h1 := abs_le_of_L1 hx hk
    by_cases hkm : k = m + 1
    · subst hkm
      rw [tr1] at h1
      rw [abs_le] at h1 ⊢
      rcases hc with rfl | rfl <;> omega
    · rw [tr2 _ _ hkm] at h1
      omega

end Verif.Root
