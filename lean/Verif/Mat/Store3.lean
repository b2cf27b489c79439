import Verif.Mat.Store2
import Verif.Perm.Lemmas
/-
Storage level functions, continued: adding a column, inverting triangular matrices, permutations.
-/
namespace Verif.Mat

open Finset

variable {R : Type}

/-! ### adding a column -/

section addColumn
variable [CommRing R]

/-- contents of the storage while `add_column` has moved entries down to position `dst` -/
private def mid (m n : Nat) (f : Nat → Nat → R) (g : Nat → R) (dst : Nat) : List R :=
  vk (m * (n + 1)) fun p => if dst ≤ p then (if p % (n + 1) = n then g (p / (n + 1)) else f (p / (n + 1)) (p % (n + 1)))
    else if p < m * n then f (p / n) (p % n) else 0

private theorem mid_put {m n : Nat} (f : Nat → Nat → R) (g : Nat → R) (dst : Nat) (h : dst < m * (n + 1)) (x : R)
    (hx : x = if dst % (n + 1) = n then g (dst / (n + 1)) else f (dst / (n + 1)) (dst % (n + 1))) :
    Vec.put (mid m n f g (dst + 1)) dst x = .ok (mid m n f g dst) := by
  rw [mid, put_vk _ h, mid]
  refine congrArg Res.ok (vk_congr fun p _ => ?_)
  by_cases c : p = dst
  · rw [if_pos c, if_pos (by omega), hx, c]
  · rw [if_neg c]
    by_cases c' : dst + 1 ≤ p
    · rw [if_pos c', if_pos (show dst ≤ p by omega)]
    · rw [if_neg c', if_neg (show ¬ dst ≤ p by omega)]

private theorem shiftRow_mid {m n : Nat} (f : Nat → Nat → R) (g : Nat → R) (i : Nat) (hi : i < m) (k : Nat) (hk : k ≤ n) :
    shiftRow k (mid m n f g (i * (n + 1) + k), i * (n + 1) + k, i * n + k) = .ok (mid m n f g (i * (n + 1)), i * (n + 1), i * n) := by
  induction k with
  | zero => rfl
  | succ k ih =>
    have h1 : i * n + k < m * n := idx_lt hi (by omega)
    have h2 : i * (n + 1) + k < m * (n + 1) := idx_lt hi (by omega)
    have h3 : i * (n + 1) = i * n + i := by rw [Nat.mul_add, Nat.mul_one]
    rw [shiftRow, if_neg (by omega), show i * n + (k + 1) - 1 = i * n + k by omega,
      show i * (n + 1) + (k + 1) - 1 = i * (n + 1) + k by omega]
    have e1 : Vec.get (mid m n f g (i * (n + 1) + (k + 1))) (i * n + k) = .ok (f i k) := by
      rw [mid, get_vk _ (by omega), if_neg (by omega), if_pos h1, idx_div (by omega), idx_mod (by omega)]
    rw [e1, Res.ok_bind, ← Nat.add_assoc, mid_put f g _ h2, Res.ok_bind]
    · exact ih (by omega)
    · rw [idx_mod (by omega), idx_div (by omega), if_neg (by omega)]

theorem addColumn_tb (nd : Bool) {m n : Nat} (f : Nat → Nat → R) (g : Nat → R) (hs : m * (n + 1) < 2 ^ 32) :
    addColumn nd (tb m n f) (vk m g) = .ok (tb m (n + 1) fun i j => if j = n then g i else f i j) := by
  rw [addColumn, Res.assertIn_bind nd (by simp)]
  simp only [rows_tb, cols_tb, data_tb, Nat.mod_eq_of_lt hs]
  have h0 : m * (n + 1) = m * n + m := by rw [Nat.mul_add, Nat.mul_one]
  rw [resize_vk _ _ (by omega)]
  have e0 : (vk (m * (n + 1)) fun p => if p < m * n then f (p / n) (p % n) else 0) = mid m n f g (m * (n + 1)) :=
    vk_congr fun p hp => by rw [if_neg (show ¬ m * (n + 1) ≤ p by omega)]
  rw [length_vk, if_neg (by omega), e0]
  rw [forDown_ok (t := (mid m n f g 0, 0, 0)) (fun t => (mid m n f g (t * (n + 1)), t * (n + 1), t * n))]
  · rw [Res.ok_bind, tb, mid]
    refine congrArg Res.ok (congrArg (Mat.mk m (n + 1)) (vk_congr fun p _ => ?_))
    rw [if_pos (by omega)]
  · refine congrArg _ (congrArg _ ?_); omega
  · simp
  · intro i hi
    have h1 : (i + 1) * (n + 1) = i * (n + 1) + n + 1 := by rw [Nat.add_mul]; omega
    have h2 : (i + 1) * n = i * n + n := by rw [Nat.add_mul, Nat.one_mul]
    simp only [h1]
    rw [if_neg (by omega), get_vk g hi, Res.ok_bind, show i * (n + 1) + n + 1 - 1 = i * (n + 1) + n by omega,
      mid_put f g _ (idx_lt hi (by omega)), Res.ok_bind, h2]
    · exact shiftRow_mid f g i hi n le_rfl
    · rw [idx_mod (by omega), idx_div (by omega), if_pos rfl]

end addColumn

/-! ### triangular matrices -/

section triangular
variable [CommRing R]

theorem sum_window {n i j : Nat} (F : Nat → R) (hij : i ≤ j) (hj : j < n) (h1 : ∀ k, k < i → F k = 0)
    (h2 : ∀ k, j < k → k < n → F k = 0) : ∑ k ∈ range n, F k = (∑ t ∈ range (j - i), F (t + i + 1)) + F i := by
  have e1 : ∑ k ∈ Ico i (j + 1), F k = ∑ k ∈ range n, F k := by
    apply Finset.sum_subset
    · intro x hx; rw [Finset.mem_Ico] at hx; rw [Finset.mem_range]; omega
    · intro x hx hn
      rw [Finset.mem_range] at hx
      rw [Finset.mem_Ico] at hn
      by_cases c : x < i
      · exact h1 x c
      · exact h2 x (by omega) hx
  rw [← e1, Finset.sum_Ico_eq_sum_range, show j + 1 - i = (j - i) + 1 by omega, Finset.sum_range_succ']
  congr 1
  apply Finset.sum_congr rfl
  intro t _
  congr 1; omega

variable [DecidableEq R]

/-- `inverse_upper_triangular` throws an error if some diagonal entry differs from `1`, and otherwise finds the inverse of
the upper triangular part -/
theorem inverseUpper_tb {n : Nat} (f : Nat → Nat → R) (hd : ∀ i, i < n → f i i = 1) :
    ∃ s : Nat → Nat → R, inverseUpper (tb n n f) = .ok (tb n n s) ∧ (∀ i j, i < n → j < n → j < i → s i j = 0) ∧
      ∀ i j, i < n → j < n → ∑ k ∈ range n, (if i ≤ k then f i k else 0) * s k j = if i = j then 1 else 0 := by
  rw [inverseUpper, if_neg (show ¬ ((tb n n f).rows ≠ (tb n n f).cols) by simp), cols_tb, filled_tb]
  obtain ⟨S, h1, s, rfl, h2, h3⟩ := forUp_inv (body := upperStep (tb n n f))
    (fun t S => ∃ s : Nat → Nat → R, S = tb n n s ∧ (∀ i j, i < n → j < n → (j < i ∨ t ≤ j) → s i j = 0) ∧
      ∀ i j, i < n → j < t → ∑ k ∈ range n, (if i ≤ k then f i k else 0) * s k j = if i = j then 1 else 0) n 0
    (tb n n fun _ _ => 0) ⟨_, rfl, fun _ _ _ _ _ => rfl, fun i j _ hj => absurd hj (by omega)⟩ (by
      rintro t S _ ht ⟨s, rfl, h2, h3⟩
      have ht : t < n := by omega
      rw [upperStep, get_tb f ht ht, Res.ok_bind, if_neg (by rw [hd t ht]; simp), set_tb s ht ht, Res.ok_bind]
      have g1 : ∀ i j, i < n → j < n → j ≠ t → (fun r c => if r = t ∧ c = t then 1 else s r c) i j = s i j := by
        intro i j _ _ hne
        show (if i = t ∧ j = t then 1 else s i j) = _
        rw [if_neg (by omega)]
      have g2 : ∀ i, i < n → (i < t ∨ t < i) → (fun r c => if r = t ∧ c = t then 1 else s r c) i t = 0 := by
        intro i hi hc
        show (if i = t ∧ t = t then 1 else s i t) = 0
        rw [if_neg (by omega)]; exact h2 i t hi ht (by omega)
      have g3 : ∀ i, i < n → t ≤ i → ∑ k ∈ range n, (if i ≤ k then f i k else 0) *
          (fun r c => if r = t ∧ c = t then 1 else s r c) k t = if i = t then 1 else 0 := by
        intro i hi hti
        show ∑ k ∈ range n, (if i ≤ k then f i k else 0) * (if k = t ∧ t = t then 1 else s k t) = _
        rw [Finset.sum_eq_single t]
        · rw [if_pos (show t = t ∧ t = t from ⟨rfl, rfl⟩)]
          by_cases c : i = t
          · subst c; rw [if_pos le_rfl, hd i hi, if_pos rfl]; ring
          · rw [if_neg (show ¬ i ≤ t by omega), if_neg c]; ring
        · intro k hk hne
          rw [if_neg (by omega : ¬ (k = t ∧ t = t)), h2 k t (Finset.mem_range.1 hk) ht (by omega)]; ring
        · intro h; exact absurd (Finset.mem_range.2 ht) h
      obtain ⟨S', e1, s', rfl, k1, k2, k3⟩ := forDown_inv (body := fun i (S : Mat R) => do
          let sum ← forDown (fun k c => do pure (c + (← (tb n n f).get i (k + i + 1)) * (← S.get (k + i + 1) t))) (t - i) (0 : R)
          S.set i t (-sum))
        (fun u S => ∃ s' : Nat → Nat → R, S = tb n n s' ∧ (∀ i j, i < n → j < n → j ≠ t → s' i j = s i j) ∧
          (∀ i, i < n → (i < u ∨ t < i) → s' i t = 0) ∧
          ∀ i, i < n → u ≤ i → ∑ k ∈ range n, (if i ≤ k then f i k else 0) * s' k t = if i = t then 1 else 0) t
        (tb n n fun r c => if r = t ∧ c = t then 1 else s r c) ⟨_, rfl, g1, g2, g3⟩ (by
          rintro u S hu ⟨s', rfl, k1, k2, k3⟩
          have e : forDown (fun k c => do pure (c + (← (tb n n f).get u (k + u + 1)) * (← (tb n n s').get (k + u + 1) t))) (t - u) (0 : R) =
              .ok (∑ k ∈ range (t - u), f u (k + u + 1) * s' (k + u + 1) t) := by
            apply sumDown
            intro k hk c
            rw [get_tb f (by omega) (by omega), Res.ok_bind, get_tb s' (by omega) ht, Res.ok_bind, Res.pure_eq]
          rw [e, Res.ok_bind, set_tb s' (by omega) ht]
          refine ⟨_, rfl, _, rfl, ?_, ?_, ?_⟩
          · intro i j hi hj hne
            rw [if_neg (by omega)]; exact k1 i j hi hj hne
          · intro i hi hc
            rw [if_neg (by omega)]; exact k2 i hi (by omega)
          · intro i hi hui
            by_cases c : i = u
            · subst c
              rw [sum_window (i := i) (j := t) _ (by omega) ht]
              · rw [if_pos le_rfl, if_pos ⟨rfl, rfl⟩, hd i hi, if_neg (by omega)]
                have : ∑ k ∈ range (t - i), (if i ≤ k + i + 1 then f i (k + i + 1) else 0) *
                    (if k + i + 1 = i ∧ t = t then -∑ k ∈ range (t - i), f i (k + i + 1) * s' (k + i + 1) t else s' (k + i + 1) t) =
                    ∑ k ∈ range (t - i), f i (k + i + 1) * s' (k + i + 1) t := by
                  apply Finset.sum_congr rfl
                  intro k _
                  rw [if_pos (by omega), if_neg (by omega)]
                rw [this]; ring
              · intro k hk; rw [if_neg (by omega)]; ring
              · intro k hk hk'; rw [if_neg (by omega : ¬ (k = i ∧ t = t)), k2 k hk' (by omega)]; ring
            · rw [← k3 i hi (by omega)]
              apply Finset.sum_congr rfl
              intro k _
              by_cases c' : k = u
              · rw [if_neg (by omega)]; ring
              · rw [if_neg (by omega : ¬ (k = u ∧ t = t))])
      refine ⟨_, e1, s', rfl, ?_, ?_⟩
      · intro i j hi hj hc
        by_cases c : j = t
        · subst c; exact k2 i hi (by omega)
        · rw [k1 i j hi hj c]; exact h2 i j hi hj (by omega)
      · intro i j hi hj
        by_cases c : j = t
        · subst c; exact k3 i hi (by omega)
        · rw [← h3 i j hi (by omega)]
          apply Finset.sum_congr rfl
          intro k hk
          rw [k1 k j (Finset.mem_range.1 hk) (by omega) c])
  exact ⟨s, h1, fun i j hi hj hij => h2 i j hi hj (.inl hij), fun i j hi hj => h3 i j hi (by omega)⟩

/-- `inverse_lower_triangular` throws an error if some diagonal entry differs from `1`, and otherwise finds the inverse of
the lower triangular part -/
theorem inverseLower_tb {n : Nat} (f : Nat → Nat → R) (hd : ∀ i, i < n → f i i = 1) :
    ∃ s : Nat → Nat → R, inverseLower (tb n n f) = .ok (tb n n s) ∧ (∀ i j, i < n → j < n → i < j → s i j = 0) ∧
      ∀ i j, i < n → j < n → ∑ k ∈ range n, s i k * (if j ≤ k then f k j else 0) = if i = j then 1 else 0 := by
  rw [inverseLower, if_neg (show ¬ ((tb n n f).rows ≠ (tb n n f).cols) by simp), cols_tb, filled_tb]
  obtain ⟨S, h1, s, rfl, h2, h3⟩ := forUp_inv (body := lowerStep (tb n n f))
    (fun t S => ∃ s : Nat → Nat → R, S = tb n n s ∧ (∀ i j, i < n → j < n → (i < j ∨ t ≤ i) → s i j = 0) ∧
      ∀ i j, i < t → j < n → ∑ k ∈ range n, s i k * (if j ≤ k then f k j else 0) = if i = j then 1 else 0) n 0
    (tb n n fun _ _ => 0) ⟨_, rfl, fun _ _ _ _ _ => rfl, fun i j hi _ => absurd hi (by omega)⟩ (by
      rintro t S _ ht ⟨s, rfl, h2, h3⟩
      have ht : t < n := by omega
      rw [lowerStep, get_tb f ht ht, Res.ok_bind, if_neg (by rw [hd t ht]; simp), set_tb s ht ht, Res.ok_bind]
      have g1 : ∀ i j, i < n → j < n → i ≠ t → (fun r c => if r = t ∧ c = t then 1 else s r c) i j = s i j := by
        intro i j _ _ hne
        show (if i = t ∧ j = t then 1 else s i j) = _
        rw [if_neg (by omega)]
      have g2 : ∀ j, j < n → (j < t ∨ t < j) → (fun r c => if r = t ∧ c = t then 1 else s r c) t j = 0 := by
        intro j hj hc
        show (if t = t ∧ j = t then 1 else s t j) = 0
        rw [if_neg (by omega)]; exact h2 t j ht hj (by omega)
      have g3 : ∀ j, j < n → t ≤ j → ∑ k ∈ range n, (fun r c => if r = t ∧ c = t then 1 else s r c) t k *
          (if j ≤ k then f k j else 0) = if t = j then 1 else 0 := by
        intro j hj htj
        show ∑ k ∈ range n, (if t = t ∧ k = t then 1 else s t k) * (if j ≤ k then f k j else 0) = _
        rw [Finset.sum_eq_single t]
        · rw [if_pos (show t = t ∧ t = t from ⟨rfl, rfl⟩)]
          by_cases c : t = j
          · subst c; rw [if_pos le_rfl, hd t hj, if_pos rfl]; ring
          · rw [if_neg (show ¬ j ≤ t by omega), if_neg c]; ring
        · intro k hk hne
          rw [if_neg (by omega : ¬ (t = t ∧ k = t)), h2 t k ht (Finset.mem_range.1 hk) (by omega)]; ring
        · intro h; exact absurd (Finset.mem_range.2 ht) h
      obtain ⟨S', e1, s', rfl, k1, k2, k3⟩ := forDown_inv (body := fun j (S : Mat R) => do
          let sum ← forDown (fun k c => do pure (c + (← S.get t (k + j + 1)) * (← (tb n n f).get (k + j + 1) j))) (t - j) (0 : R)
          S.set t j (-sum))
        (fun u S => ∃ s' : Nat → Nat → R, S = tb n n s' ∧ (∀ i j, i < n → j < n → i ≠ t → s' i j = s i j) ∧
          (∀ j, j < n → (j < u ∨ t < j) → s' t j = 0) ∧
          ∀ j, j < n → u ≤ j → ∑ k ∈ range n, s' t k * (if j ≤ k then f k j else 0) = if t = j then 1 else 0) t
        (tb n n fun r c => if r = t ∧ c = t then 1 else s r c) ⟨_, rfl, g1, g2, g3⟩ (by
          rintro u S hu ⟨s', rfl, k1, k2, k3⟩
          have e : forDown (fun k c => do pure (c + (← (tb n n s').get t (k + u + 1)) * (← (tb n n f).get (k + u + 1) u))) (t - u) (0 : R) =
              .ok (∑ k ∈ range (t - u), s' t (k + u + 1) * f (k + u + 1) u) := by
            apply sumDown
            intro k hk c
            rw [get_tb s' ht (by omega), Res.ok_bind, get_tb f (by omega) (by omega), Res.ok_bind, Res.pure_eq]
          rw [e, Res.ok_bind, set_tb s' ht (by omega)]
          refine ⟨_, rfl, _, rfl, ?_, ?_, ?_⟩
          · intro i j hi hj hne
            rw [if_neg (by omega)]; exact k1 i j hi hj hne
          · intro i hi hc
            rw [if_neg (by omega)]; exact k2 i hi (by omega)
          · intro i hi hui
            by_cases c : i = u
            · subst c
              rw [sum_window (i := i) (j := t) _ (by omega) ht]
              · rw [if_pos (show i ≤ i from le_rfl), if_pos (show t = t ∧ i = i from ⟨rfl, rfl⟩), hd i hi, if_neg (show ¬ t = i by omega)]
                have : ∑ k ∈ range (t - i),
                    (if t = t ∧ k + i + 1 = i then -∑ k ∈ range (t - i), s' t (k + i + 1) * f (k + i + 1) i else s' t (k + i + 1)) *
                    (if i ≤ k + i + 1 then f (k + i + 1) i else 0) =
                    ∑ k ∈ range (t - i), s' t (k + i + 1) * f (k + i + 1) i := by
                  apply Finset.sum_congr rfl
                  intro k _
                  rw [if_neg (show ¬ (t = t ∧ k + i + 1 = i) by omega), if_pos (show i ≤ k + i + 1 by omega)]
                rw [this]; ring
              · intro k hk; rw [if_neg (show ¬ i ≤ k by omega)]; ring
              · intro k hk hk'; rw [if_neg (by omega : ¬ (t = t ∧ k = i)), k2 k hk' (by omega)]; ring
            · rw [← k3 i hi (by omega)]
              apply Finset.sum_congr rfl
              intro k _
              by_cases c' : k = u
              · rw [if_neg (show ¬ i ≤ k by omega)]; ring
              · rw [if_neg (by omega : ¬ (t = t ∧ k = u))])
      refine ⟨_, e1, s', rfl, ?_, ?_⟩
      · intro i j hi hj hc
        by_cases c : i = t
        · subst c; exact k2 j hj (by omega)
        · rw [k1 i j hi hj c]; exact h2 i j hi hj (by omega)
      · intro i j hi hj
        by_cases c : i = t
        · subst c; exact k3 j hj (by omega)
        · rw [← h3 i j (by omega) hj]
          apply Finset.sum_congr rfl
          intro k hk
          rw [k1 i k (by omega) (Finset.mem_range.1 hk) c])
  exact ⟨s, h1, fun i j hi hj hij => h2 i j hi hj (.inl hij), fun i j hi hj => h3 i j (by omega) hj⟩

/-- the first bad diagonal entry makes both functions throw an error -/
theorem inverseUpper_throw {n : Nat} (f : Nat → Nat → R) (hd : ∃ i, i < n ∧ f i i ≠ 1) : inverseUpper (tb n n f) = .throw := by
  obtain ⟨t, ⟨ht, hne⟩, hmin⟩ : ∃ t, (t < n ∧ f t t ≠ 1) ∧ ∀ i, i < t → ¬ (i < n ∧ f i i ≠ 1) :=
    ⟨Nat.find hd, Nat.find_spec hd, fun i hi => Nat.find_min hd hi⟩
  rw [inverseUpper, if_neg (show ¬ ((tb n n f).rows ≠ (tb n n f).cols) by simp), cols_tb, filled_tb]
  have key : ∀ k a (s : Nat → Nat → R), a + k = n → a ≤ t → forUp (upperStep (tb n n f)) k a (tb n n s) = .throw := by
    intro k
    induction k with
    | zero => intro a s h1 h2; omega
    | succ k ih =>
      intro a s h1 h2
      rw [forUp, upperStep, get_tb f (by omega) (by omega), Res.ok_bind]
      by_cases c : a = t
      · subst c; rw [if_pos hne, Res.throw_bind]
      · have hda : f a a = 1 := by
          by_contra h
          exact hmin a (by omega) ⟨by omega, h⟩
        rw [if_neg (by rw [hda]; simp), set_tb s (by omega) (by omega), Res.ok_bind]
        obtain ⟨S', e1, s', rfl⟩ := forDown_inv (body := fun i (S : Mat R) => do
            let sum ← forDown (fun k c => do pure (c + (← (tb n n f).get i (k + i + 1)) * (← S.get (k + i + 1) a))) (a - i) (0 : R)
            S.set i a (-sum)) (fun _ S => ∃ s' : Nat → Nat → R, S = tb n n s') a
          (tb n n fun r c => if r = a ∧ c = a then 1 else s r c) ⟨_, rfl⟩ (by
            rintro u S hu ⟨s', rfl⟩
            have e : forDown (fun k c => do pure (c + (← (tb n n f).get u (k + u + 1)) * (← (tb n n s').get (k + u + 1) a))) (a - u) (0 : R) =
                .ok (∑ k ∈ range (a - u), f u (k + u + 1) * s' (k + u + 1) a) := by
              apply sumDown
              intro k hk c
              rw [get_tb f (by omega) (by omega), Res.ok_bind, get_tb s' (by omega) (by omega), Res.ok_bind, Res.pure_eq]
            rw [e, Res.ok_bind, set_tb s' (by omega) (by omega)]
            exact ⟨_, rfl, _, rfl⟩)
        rw [e1, Res.ok_bind]
        exact ih (a + 1) s' (by omega) (by omega)
  exact key n 0 _ (by omega) (by omega)

theorem inverseLower_throw {n : Nat} (f : Nat → Nat → R) (hd : ∃ i, i < n ∧ f i i ≠ 1) : inverseLower (tb n n f) = .throw := by
  obtain ⟨t, ⟨ht, hne⟩, hmin⟩ : ∃ t, (t < n ∧ f t t ≠ 1) ∧ ∀ i, i < t → ¬ (i < n ∧ f i i ≠ 1) :=
    ⟨Nat.find hd, Nat.find_spec hd, fun i hi => Nat.find_min hd hi⟩
  rw [inverseLower, if_neg (show ¬ ((tb n n f).rows ≠ (tb n n f).cols) by simp), cols_tb, filled_tb]
  have key : ∀ k a (s : Nat → Nat → R), a + k = n → a ≤ t → forUp (lowerStep (tb n n f)) k a (tb n n s) = .throw := by
    intro k
    induction k with
    | zero => intro a s h1 h2; omega
    | succ k ih =>
      intro a s h1 h2
      rw [forUp, lowerStep, get_tb f (by omega) (by omega), Res.ok_bind]
      by_cases c : a = t
      · subst c; rw [if_pos hne, Res.throw_bind]
      · have hda : f a a = 1 := by
          by_contra h
          exact hmin a (by omega) ⟨by omega, h⟩
        rw [if_neg (by rw [hda]; simp), set_tb s (by omega) (by omega), Res.ok_bind]
        obtain ⟨S', e1, s', rfl⟩ := forDown_inv (body := fun j (S : Mat R) => do
            let sum ← forDown (fun k c => do pure (c + (← S.get a (k + j + 1)) * (← (tb n n f).get (k + j + 1) j))) (a - j) (0 : R)
            S.set a j (-sum)) (fun _ S => ∃ s' : Nat → Nat → R, S = tb n n s') a
          (tb n n fun r c => if r = a ∧ c = a then 1 else s r c) ⟨_, rfl⟩ (by
            rintro u S hu ⟨s', rfl⟩
            have e : forDown (fun k c => do pure (c + (← (tb n n s').get a (k + u + 1)) * (← (tb n n f).get (k + u + 1) u))) (a - u) (0 : R) =
                .ok (∑ k ∈ range (a - u), s' a (k + u + 1) * f (k + u + 1) u) := by
              apply sumDown
              intro k hk c
              rw [get_tb s' (by omega) (by omega), Res.ok_bind, get_tb f (by omega) (by omega), Res.ok_bind, Res.pure_eq]
            rw [e, Res.ok_bind, set_tb s' (by omega) (by omega)]
            exact ⟨_, rfl, _, rfl⟩)
        rw [e1, Res.ok_bind]
        exact ih (a + 1) s' (by omega) (by omega)
  exact key n 0 _ (by omega) (by omega)

end triangular

/-! ### permutations -/

section perm
open Verif.Perm

/-- the permutation as a function on the natural numbers -/
noncomputable def pf {n : Nat} {p : List Nat} (h : IsPerm n p) (i : Nat) : Nat := if hi : i < n then (h.toPerm ⟨i, hi⟩).val else i

/-- and its inverse -/
noncomputable def qf {n : Nat} {p : List Nat} (h : IsPerm n p) (i : Nat) : Nat := if hi : i < n then (h.toPerm.symm ⟨i, hi⟩).val else i

variable {n : Nat} {p : List Nat} (h : IsPerm n p)

theorem pf_lt {i : Nat} (hi : i < n) : pf h i < n := by rw [pf, dif_pos hi]; exact Fin.is_lt _
theorem qf_lt {i : Nat} (hi : i < n) : qf h i < n := by rw [qf, dif_pos hi]; exact Fin.is_lt _
theorem qf_pf {i : Nat} (hi : i < n) : qf h (pf h i) = i := by
  rw [qf, dif_pos (pf_lt h hi)]
  have : (⟨pf h i, pf_lt h hi⟩ : Fin n) = h.toPerm ⟨i, hi⟩ := Fin.ext (by show pf h i = _; rw [pf, dif_pos hi])
  rw [this, Equiv.symm_apply_apply]
theorem pf_qf {i : Nat} (hi : i < n) : pf h (qf h i) = i := by
  rw [pf, dif_pos (qf_lt h hi)]
  have : (⟨qf h i, qf_lt h hi⟩ : Fin n) = h.toPerm.symm ⟨i, hi⟩ := Fin.ext (by show qf h i = _; rw [qf, dif_pos hi])
  rw [this, Equiv.apply_symm_apply]
theorem pf_inj {i j : Nat} (hi : i < n) (hj : j < n) (e : pf h i = pf h j) : i = j := by
  rw [← qf_pf h hi, e, qf_pf h hj]
theorem get_pf {i : Nat} (hi : i < n) : Vec.get p i = .ok (pf h i) := by
  rw [pf, dif_pos hi]; exact h.get ⟨i, hi⟩

theorem conjugate_tb [CommRing R] (nd : Bool) (f : Nat → Nat → R) :
    conjugate nd p (tb n n f) = .ok (tb n n fun i j => f (qf h i) (qf h j)) := by
  rw [conjugate, Res.assertIn_bind nd (decide_eq_true (show (tb n n f).rows = p.length from h.length.symm)),
    Res.assertIn_bind nd (decide_eq_true (show (tb n n f).cols = p.length from h.length.symm)), h.length, blank_tb]
  refine forUp_ok (fun t => tb n n fun i j => if qf h i < t then f (qf h i) (qf h j) else 0) ?_ ?_ ?_
  · exact tb_congr fun i j _ _ => by rw [if_neg (by omega)]
  · exact tb_congr fun i j hi _ => by rw [if_pos (by have := qf_lt h hi; omega)]
  · intro t _ ht
    refine forUp_ok (fun s => tb n n fun i j => if qf h i < t ∨ (qf h i = t ∧ qf h j < s) then f (qf h i) (qf h j) else 0) ?_ ?_ ?_
    · refine tb_congr fun i j _ _ => ?_
      by_cases c : qf h i < t
      · rw [if_pos c, if_pos (.inl c)]
      · rw [if_neg c, if_neg (by omega)]
    · refine tb_congr fun i j _ hj => ?_
      have := qf_lt h hj
      by_cases c : qf h i < t + 1
      · rw [if_pos c, if_pos (by omega)]
      · rw [if_neg c, if_neg (by omega)]
    · intro s _ hs
      have ht' : t < n := by omega
      have hs' : s < n := by omega
      rw [get_pf h ht', Res.ok_bind, get_pf h hs', Res.ok_bind, get_tb f ht' hs', Res.ok_bind,
        set_tb _ (pf_lt h ht') (pf_lt h hs')]
      refine congrArg Res.ok (tb_congr fun i j hi hj => ?_)
      by_cases c : i = pf h t ∧ j = pf h s
      · obtain ⟨rfl, rfl⟩ := c
        rw [if_pos ⟨rfl, rfl⟩, qf_pf h ht', qf_pf h hs', if_pos (by omega)]
      · rw [if_neg c]
        have c' : ¬ (qf h i = t ∧ qf h j = s) := by
          rintro ⟨rfl, rfl⟩
          exact c ⟨(pf_qf h hi).symm, (pf_qf h hj).symm⟩
        by_cases c2 : qf h i < t ∨ (qf h i = t ∧ qf h j < s)
        · rw [if_pos c2, if_pos (by omega)]
        · rw [if_neg c2, if_neg (by omega)]

theorem invConjugate_tb [CommRing R] (nd : Bool) (f : Nat → Nat → R) :
    invConjugate nd p (tb n n f) = .ok (tb n n fun i j => f (pf h i) (pf h j)) := by
  rw [invConjugate, Res.assertIn_bind nd (decide_eq_true (show (tb n n f).rows = p.length from h.length.symm)),
    Res.assertIn_bind nd (decide_eq_true (show (tb n n f).cols = p.length from h.length.symm)), h.length, blank_tb]
  refine fill_tb _ _ (fun i j S => _) ?_
  intro i j hi hj g
  rw [get_pf h hi, Res.ok_bind, get_pf h hj, Res.ok_bind, get_tb f (pf_lt h hi) (pf_lt h hj), Res.ok_bind, set_tb g hi hj]

/-- the copying loop of `pull_back_columns` -/
theorem copyCol_tb {m N : Nat} (f : Nat → Nat → R) {l q : Nat} (hl : l < N) (hq : q < N) :
    forUp (fun i (M : Mat R) => do M.set i l (← M.get i q)) m 0 (tb m N f) = .ok (tb m N fun i c => if c = l then f i q else f i c) := by
  rw [forCol_tb f l hl 0 m (by omega) _ (fun i => f i q)]
  · refine congrArg Res.ok (tb_congr fun i c hi _ => ?_)
    by_cases e : c = l
    · rw [if_pos (by omega), if_pos e, Nat.sub_zero]
    · rw [if_neg (by omega), if_neg e]
  · intro t ht g hg
    rw [get_tb g ht hq, Res.ok_bind, set_tb g ht hl, hg t q ht hq (by omega), Nat.zero_add]

theorem pullCycle_spec (nd : Bool) {m N : Nat} (hN : n ≤ N) (f0 : Nat → Nat → R) {j : Fin n} (fuel : Nat) {l : Fin n}
    {ρ : Equiv.Perm (Fin n)} {s : List Bool} (f : Nat → Nat → R) (hi : Inner h.toPerm ρ j s (h.toPerm l)) (hlj : h.toPerm l ≠ j)
    (hk : ρ.support.card < fuel) (hseen : ∀ x : Fin n, x ≠ l → s[x.val]? = some true → ∀ i, i < m → f i x = f0 i (h.toPerm x))
    (hun : ∀ x : Fin n, s[x.val]? = some false → ∀ i, i < m → f i x = f0 i x)
    (hls : s[l.val]? = some true) (hjs : s[j.val]? = some true) (hout : ∀ x, n ≤ x → x < N → ∀ i, i < m → f i x = f0 i x) :
    ∃ (l' : Fin n) (f' : Nat → Nat → R) (s' : List Bool) (ρ' : Equiv.Perm (Fin n)),
      pullCycle nd p j.val fuel l.val (tb m N f) s = .ok (l'.val, tb m N f', s') ∧ Inner h.toPerm ρ' j s' j ∧ h.toPerm l' = j ∧
      (∀ x : Fin n, x ≠ l' → s'[x.val]? = some true → ∀ i, i < m → f' i x = f0 i (h.toPerm x)) ∧
      (∀ x : Fin n, s'[x.val]? = some false → ∀ i, i < m → f' i x = f0 i x) ∧
      (∀ x : Fin n, s[x.val]? = some true → s'[x.val]? = some true) ∧ s'[l'.val]? = some true ∧
      (∀ x, n ≤ x → x < N → ∀ i, i < m → f' i x = f0 i x) := by
  induction fuel generalizing l ρ s f with
  | zero => omega
  | succ k ih =>
    obtain ⟨g1, g2, g3, g4⟩ := hi.step hlj
    rw [pullCycle, h.get l, Res.ok_bind, rows_tb, copyCol_tb f (by omega) (by have := (h.toPerm l).2; omega), Res.ok_bind,
      get_bool g1, Res.ok_bind, Res.assertIn_bind nd (by rfl), Vec.put_ok (by rw [hi.len]; exact (h.toPerm l).2), Res.ok_bind,
      h.get (h.toPerm l), Res.ok_bind]
    have hne : h.toPerm l ≠ l := by
      intro e; rw [e] at g1; rw [g1] at hls; cases hls
    have a1 : ∀ x : Fin n, x ≠ h.toPerm l → (s.set (h.toPerm l).val true)[x.val]? = some true → ∀ i, i < m →
        (fun i c => if c = l.val then f i (h.toPerm l).val else f i c) i x.val = f0 i (h.toPerm x) := by
      intro x hx hs i him
      show (if x.val = l.val then f i (h.toPerm l).val else f i x.val) = _
      rw [set_get s hi.len, if_neg (Ne.symm hx)] at hs
      by_cases c : x = l
      · subst c; rw [if_pos rfl]; exact hun _ g1 i him
      · rw [if_neg (fun e => c (Fin.ext e))]; exact hseen x c hs i him
    have a2 : ∀ x : Fin n, (s.set (h.toPerm l).val true)[x.val]? = some false → ∀ i, i < m →
        (fun i c => if c = l.val then f i (h.toPerm l).val else f i c) i x.val = f0 i x := by
      intro x hs i him
      show (if x.val = l.val then f i (h.toPerm l).val else f i x.val) = _
      rw [set_get s hi.len] at hs
      by_cases c' : h.toPerm l = x
      · rw [if_pos c'] at hs; cases hs
      · rw [if_neg c'] at hs
        have : x ≠ l := by
          intro e; rw [e, hls] at hs; cases hs
        rw [if_neg (fun e => this (Fin.ext e))]
        exact hun x hs i him
    have a3 : ∀ x, n ≤ x → x < N → ∀ i, i < m → (fun i c => if c = l.val then f i (h.toPerm l).val else f i c) i x = f0 i x := by
      intro x hx hxN i him
      show (if x = l.val then f i (h.toPerm l).val else f i x) = _
      rw [if_neg (by have := l.2; omega)]; exact hout x hx hxN i him
    have a4 : ∀ x : Fin n, s[x.val]? = some true → (s.set (h.toPerm l).val true)[x.val]? = some true := by
      intro x hx
      rw [set_get s hi.len]
      split
      · rfl
      · exact hx
    have a5 : (s.set (h.toPerm l).val true)[(h.toPerm l).val]? = some true := by
      rw [set_get s hi.len, if_pos rfl]
    by_cases c : h.toPerm (h.toPerm l) = j
    · rw [if_neg (by rw [c]; simp)]
      rw [c] at g3
      exact ⟨h.toPerm l, _, _, _, rfl, g3, c, a1, a2, a4, a5, a3⟩
    · rw [if_pos (fun e => c (Fin.ext e))]
      obtain ⟨l', f', s', ρ', e1, e2, e3, e4, e5, e6, e7, e8⟩ := ih _ g3 c (by omega) a1 a2 a5 (a4 j hjs) a3
      exact ⟨l', f', s', ρ', e1, e2, e3, e4, e5, fun x hx => e6 x (a4 x hx), e7, e8⟩

theorem pullColsLoop_spec (nd : Bool) {m N : Nat} (hN : n ≤ N) (f0 : Nat → Nat → R) (k : Nat) {j : Nat}
    {ρ : Equiv.Perm (Fin n)} {s : List Bool} (f : Nat → Nat → R) (hi : Outer h.toPerm ρ j s) (hk : j + k = n)
    (hdone : ∀ x : Fin n, x.val < j → s[x.val]? = some true)
    (hseen : ∀ x : Fin n, s[x.val]? = some true → ∀ i, i < m → f i x = f0 i (h.toPerm x))
    (hun : ∀ x : Fin n, s[x.val]? = some false → ∀ i, i < m → f i x = f0 i x)
    (hout : ∀ x, n ≤ x → x < N → ∀ i, i < m → f i x = f0 i x) :
    pullColsLoop nd p k j (tb m N f) s = .ok (tb m N fun i c => if c < n then f0 i (pf h c) else f0 i c) := by
  induction k generalizing j ρ s f with
  | zero =>
    rw [pullColsLoop]
    refine congrArg Res.ok (tb_congr fun i c hi hc => ?_)
    by_cases e : c < n
    · rw [if_pos e, pf, dif_pos e]
      exact hseen ⟨c, e⟩ (hdone ⟨c, e⟩ (by show c < j; omega)) i hi
    · rw [if_neg e]; exact hout c (by omega) hc i hi
  | succ k ih =>
    have hj : j < n := by omega
    rw [pullColsLoop]
    rcases bool_or s hi.len ⟨j, hj⟩ with c | c
    · rw [get_bool c, Res.ok_bind, if_pos rfl]
      refine ih f (Outer.skip (i := ⟨j, hj⟩) hi c) (by omega) ?_ hseen hun hout
      intro x hx
      by_cases e : x.val = j
      · obtain rfl : x = ⟨j, hj⟩ := Fin.ext e
        exact c
      · exact hdone x (by omega)
    · rw [get_bool c, Res.ok_bind, if_neg (by simp), Vec.put_ok (by rw [hi.len]; exact hj), Res.ok_bind, h.get ⟨j, hj⟩, Res.ok_bind]
      have he := (Outer.enter (i := ⟨j, hj⟩) hi c).mark
      have hset : ∀ x : Fin n, s[x.val]? = some true → (s.set j true)[x.val]? = some true := by
        intro x hx
        rw [set_get s hi.len ⟨j, hj⟩]
        split
        · rfl
        · exact hx
      have hself : (s.set j true)[j]? = some true := by
        have := set_get s hi.len ⟨j, hj⟩ ⟨j, hj⟩ true
        rw [if_pos rfl] at this; exact this
      have hback : ∀ x : Fin n, x.val ≠ j → (s.set j true)[x.val]? = s[x.val]? := by
        intro x hx
        rw [set_get s hi.len ⟨j, hj⟩, if_neg (fun e => hx (congrArg Fin.val e).symm)]
      have hunset : ∀ x : Fin n, (s.set j true)[x.val]? = some false → x.val ≠ j ∧ s[x.val]? = some false := by
        intro x hx
        have hne : x.val ≠ j := by
          intro e; rw [e, hself] at hx; cases hx
        exact ⟨hne, by rw [← hback x hne]; exact hx⟩
      by_cases c2 : h.toPerm ⟨j, hj⟩ = ⟨j, hj⟩
      · rw [if_pos (by rw [c2])]
        rw [c2] at he
        refine ih f he.leave (by omega) ?_ ?_ ?_ hout
        · intro x hx
          by_cases e : x.val = j
          · rw [e]; exact hself
          · exact hset x (hdone x (by omega))
        · intro x hx i him
          by_cases e : x.val = j
          · obtain rfl : x = ⟨j, hj⟩ := Fin.ext e
            rw [c2]; exact hun _ c i him
          · exact hseen x (by rw [← hback x e]; exact hx) i him
        · intro x hx i him
          exact hun x (hunset x hx).2 i him
      · rw [if_neg (fun e => c2 (Fin.ext e)), column_tb nd f (by omega), Res.ok_bind]
        obtain ⟨l', f', s', ρ', e1, e2, e3, e4, e5, e6, e7, e8⟩ := pullCycle_spec h nd hN f0 (j := ⟨j, hj⟩) (l := ⟨j, hj⟩) (p.length + 1) f he c2
          (by rw [h.length]; exact support_card_lt ρ)
          (by
            intro x hx hs i him
            have : x.val ≠ j := fun e => hx (Fin.ext e)
            exact hseen x (by rw [← hback x this]; exact hs) i him)
          (by intro x hx i him; exact hun x (hunset x hx).2 i him) hself hself hout
        rw [e1, Res.ok_bind]
        show (setColumn nd (tb m N f') l'.val (vk m fun i => f i j) >>= fun M => pullColsLoop nd p k (j + 1) M s') = _
        rw [setColumn_tb nd f' (by have := l'.2; omega), Res.ok_bind]
        refine ih _ e2.leave (by omega) ?_ ?_ ?_ ?_
        · intro x hx
          by_cases e : x.val = j
          · obtain rfl : x = ⟨j, hj⟩ := Fin.ext e
            exact e6 _ hself
          · exact e6 x (hset x (hdone x (by omega)))
        · intro x hx i him
          by_cases e : x = l'
          · subst e
            rw [if_pos rfl, e3]
            exact hun ⟨j, hj⟩ c i him
          · rw [if_neg (fun e' => e (Fin.ext e'))]
            exact e4 x e hx i him
        · intro x hx i him
          have : x ≠ l' := by
            intro e; rw [e, e7] at hx; cases hx
          rw [if_neg (fun e' => this (Fin.ext e'))]
          exact e5 x hx i him
        · intro x hx hxN i him
          rw [if_neg (by have := l'.2; omega)]
          exact e8 x hx hxN i him

theorem pullBackColumns_tb (nd : Bool) {m N : Nat} (hN : n ≤ N) (f : Nat → Nat → R) :
    pullBackColumns nd (tb m N f) p = .ok (tb m N fun i c => if c < n then f i (pf h c) else f i c) := by
  rw [pullBackColumns, Res.assertIn_bind nd (decide_eq_true (show (tb m N f).cols ≥ p.length by rw [h.length]; exact hN)), h.length]
  refine pullColsLoop_spec h nd hN f n f (Outer.init h.toPerm) (by omega) ?_ ?_ (fun _ _ _ _ => rfl) (fun _ _ _ _ _ => rfl)
  · intro x hx; omega
  · intro x hx
    rw [List.getElem?_replicate_of_lt x.2] at hx; cases hx

end perm

end Verif.Mat
