import Verif.Mat.Store
import Mathlib.Tactic.LinearCombination
/-
Storage level functions, continued: products, blocks, transposition, elementary operations.
-/
namespace Verif.Mat

open Finset

variable {R : Type}

theorem pair_ext {α β : Type} {a a' : α} {b b' : β} (h : a = a') (h' : b = b') : (a, b) = (a', b') := by rw [h, h']

/-! ### filling a matrix by a double loop -/

theorem fill_tb {m n : Nat} (f : Nat → Nat → R) (x : Nat → Nat → R) (body : Nat → Nat → Mat R → Res (Mat R))
    (h : ∀ i j, i < m → j < n → ∀ g, body i j (tb m n g) = .ok (tb m n fun r c => if r = i ∧ c = j then x i j else g r c)) :
    forUp (fun i M => forUp (fun j M => body i j M) n 0 M) m 0 (tb m n f) = .ok (tb m n x) := by
  refine forUp_ok (fun t => tb m n fun r c => if r < t then x r c else f r c) ?_ ?_ ?_
  · exact tb_congr fun i j _ _ => by simp
  · exact tb_congr fun i j h _ => by simp [h]
  · intro t _ ht
    rw [forRow_tb _ t (by omega) 0 n (by omega) _ (x t)]
    · congr 1; apply tb_congr; intro r c hr hc
      by_cases e : r = t
      · subst e; rw [if_pos (by omega), if_pos (by omega), Nat.sub_zero]
      · rw [if_neg (by omega)]
        by_cases e' : r < t
        · rw [if_pos e', if_pos (by omega)]
        · rw [if_neg e', if_neg (by omega)]
    · intro s hs g _
      rw [h t s (by omega) hs g, Nat.zero_add]

/-! ### products -/

section ring
variable [CommRing R]

theorem mul_tb (nd : Bool) {m n p : Nat} (f g : Nat → Nat → R) :
    mul nd (tb m n f) (tb n p g) = .ok (tb m p fun i k => ∑ j ∈ range n, f i j * g j k) := by
  rw [mul, Res.assertIn_bind nd (decide_eq_true (show (tb m n f).cols = (tb n p g).rows from rfl)), blank_tb]
  refine fill_tb _ _ (fun i k M => _) ?_
  intro i k hi hk h
  have hi : i < m := hi
  have hk : k < p := hk
  rw [cols_tb, sumUp n (fun j => f i j * g j k), Res.ok_bind]
  · exact set_tb h hi hk _
  intro j hj c
  rw [get_tb f hi hj, Res.ok_bind, get_tb g hj hk, Res.ok_bind, Res.pure_eq]

theorem apply_tb (nd : Bool) {m n : Nat} (f : Nat → Nat → R) (w : Nat → R) :
    apply nd (tb m n f) (vk n w) = .ok (vk m fun i => ∑ j ∈ range n, f i j * w j) := by
  rw [apply, Res.assertIn_bind nd (decide_eq_true (show (tb m n f).cols = (vk n w).length by simp))]
  apply tab_ok
  intro i hi
  apply sumUp
  intro j hj c
  have hi : i < m := hi
  have hj : j < n := hj
  rw [get_tb f hi hj, Res.ok_bind, get_vk w hj, Res.ok_bind, Res.pure_eq]

theorem rightProd_tb (nd : Bool) {m n : Nat} (f : Nat → Nat → R) (w : Nat → R) :
    rightProd nd (tb m n f) (vk m w) = .ok (vk n fun j => ∑ i ∈ range m, w i * f i j) := by
  rw [rightProd, Res.assertIn_bind nd (decide_eq_true (show (tb m n f).rows = (vk m w).length by simp))]
  apply tab_ok
  intro j hj
  apply sumUp
  intro i hi c
  have hi : i < m := hi
  have hj : j < n := hj
  rw [get_vk w hi, Res.ok_bind, get_tb f hi hj, Res.ok_bind, Res.pure_eq]

theorem dot_vk (nd : Bool) {n : Nat} (g h : Nat → R) : dot nd (vk n g) (vk n h) = .ok (∑ i ∈ range n, g i * h i) := by
  rw [dot, Res.assertIn_bind nd (by simp), length_vk]
  apply sumUp
  intro i hi c
  rw [get_vk g hi, Res.ok_bind, get_vk h hi, Res.ok_bind, Res.pure_eq]

theorem vecAdd_vk (nd : Bool) {n : Nat} (g h : Nat → R) : vecAdd nd (vk n g) (vk n h) = .ok (vk n fun i => g i + h i) := by
  rw [vecAdd, Res.assertIn_bind nd (by simp), length_vk]
  refine tab_ok _ fun i hi => ?_
  rw [get_vk g hi, Res.ok_bind, get_vk h hi, Res.ok_bind, Res.pure_eq]

theorem vecSub_vk (nd : Bool) {n : Nat} (g h : Nat → R) : vecSub nd (vk n g) (vk n h) = .ok (vk n fun i => g i - h i) := by
  rw [vecSub, Res.assertIn_bind nd (by simp), length_vk]
  refine tab_ok _ fun i hi => ?_
  rw [get_vk g hi, Res.ok_bind, get_vk h hi, Res.ok_bind, Res.pure_eq]

theorem vecNegAdd_vk (nd : Bool) {n : Nat} (g h : Nat → R) : vecNegAdd nd (vk n g) (vk n h) = .ok (vk n fun i => h i - g i) := by
  rw [vecNegAdd, Res.assertIn_bind nd (by simp), length_vk]
  refine tab_ok _ fun i hi => ?_
  rw [get_vk h hi, Res.ok_bind, get_vk g hi, Res.ok_bind, Res.pure_eq]

theorem vecScale_vk {n : Nat} (g : Nat → R) (c : R) : vecScale (vk n g) c = .ok (vk n fun i => g i * c) := by
  rw [vecScale, length_vk]
  refine tab_ok _ fun i hi => ?_
  rw [get_vk g hi, Res.ok_bind, Res.pure_eq]

theorem vecNeg_vk {n : Nat} (g : Nat → R) : vecNeg (vk n g) = .ok (vk n fun i => -g i) := by
  rw [vecNeg, length_vk]
  refine tab_ok _ fun i hi => ?_
  rw [get_vk g hi, Res.ok_bind, Res.pure_eq]

theorem vecAddMul_vk [DecidableEq R] {n n' : Nat} (g h : Nat → R) (c : R) (hn : n ≤ n') :
    vecAddMul (vk n g) (vk n' h) c = .ok (vk n fun i => g i + h i * c) := by
  rw [vecAddMul]
  by_cases e : c = 0
  · rw [if_neg (by simpa using e)]
    congr 1
    apply vk_congr; intro i _; rw [e]; ring
  · rw [if_pos e, length_vk]
    refine tab_ok _ fun i hi => ?_
    rw [get_vk g hi, Res.ok_bind, get_vk h (by omega), Res.ok_bind, Res.pure_eq]

theorem addMat_tb (nd : Bool) {m n : Nat} (f g : Nat → Nat → R) :
    addMat nd (tb m n f) (tb m n g) = .ok (tb m n fun i j => f i j + g i j) := by
  rw [addMat, Res.assertIn_bind nd (decide_eq_true (show (tb m n f).rows = (tb m n g).rows from rfl)),
    Res.assertIn_bind nd (decide_eq_true (show (tb m n f).cols = (tb m n g).cols from rfl)), data_tb, data_tb, vecAdd_vk]
  rfl

theorem subMat_tb (nd : Bool) {m n : Nat} (f g : Nat → Nat → R) :
    subMat nd (tb m n f) (tb m n g) = .ok (tb m n fun i j => f i j - g i j) := by
  rw [subMat, Res.assertIn_bind nd (decide_eq_true (show (tb m n f).rows = (tb m n g).rows from rfl)),
    Res.assertIn_bind nd (decide_eq_true (show (tb m n f).cols = (tb m n g).cols from rfl)), data_tb, data_tb, vecSub_vk]
  rfl

theorem scale_tb {m n : Nat} (f : Nat → Nat → R) (c : R) : scale (tb m n f) c = .ok (tb m n fun i j => f i j * c) := by
  rw [scale, data_tb, vecScale_vk]; rfl

theorem negate_tb {m n : Nat} (f : Nat → Nat → R) : negate (tb m n f) = .ok (tb m n fun i j => -f i j) := by
  rw [negate, data_tb, vecNeg_vk]; rfl

/-! ### transposition -/

theorem transposed_tb {m n : Nat} (f : Nat → Nat → R) : transposed (tb m n f) = .ok (tb n m fun i j => f j i) := by
  have key : forUp (fun i (s : Mat R × Nat) => forUp (fun j (s : Mat R × Nat) => do
      let x ← Vec.get (tb m n f).data s.2
      let M ← s.1.set j i x
      pure (M, s.2 + 1)) n 0 s) m 0 (blank n m, 0) = .ok (tb n m fun i j => f j i, m * n) := by
    refine forUp_ok (fun t => (tb n m fun i j => if j < t then f j i else 0, t * n)) ?_ ?_ ?_
    · rw [blank_tb]
      refine pair_ext (tb_congr fun i j _ _ => by simp) (by simp)
    · refine pair_ext (tb_congr fun i j _ h => by simp [h]) (by simp)
    · intro t _ ht
      refine forUp_ok (fun s => (tb n m fun i j => if j < t ∨ (j = t ∧ i < s) then f j i else 0, t * n + s)) ?_ ?_ ?_
      · refine pair_ext (tb_congr fun i j _ _ => ?_) (by simp)
        by_cases c : j < t
        · rw [if_pos c, if_pos (.inl c)]
        · rw [if_neg c, if_neg (by omega)]
      · refine pair_ext (tb_congr fun i j hi _ => ?_) (by simp [Nat.add_mul])
        by_cases c : j < t + 1
        · rw [if_pos (by omega), if_pos c]
        · rw [if_neg (by omega), if_neg c]
      · intro s _ hs
        have e : Vec.get (tb m n f).data (t * n + s) = .ok (f t s) := get_tb f (show t < m by omega) (show s < n by omega)
        simp only [e, Res.ok_bind]
        rw [set_tb _ (by omega) (by omega), Res.ok_bind, Res.pure_eq]
        congr 1
        refine pair_ext (tb_congr fun i j hi hj => ?_) (by omega)
        by_cases c : i = s ∧ j = t
        · obtain ⟨rfl, rfl⟩ := c
          rw [if_pos ⟨rfl, rfl⟩, if_pos (by omega)]
        · rw [if_neg c]
          by_cases c' : j < t ∨ (j = t ∧ i < s)
          · rw [if_pos c', if_pos (by omega)]
          · rw [if_neg c', if_neg (by omega)]
  rw [transposed, cols_tb, rows_tb, key]
  rfl

theorem transpose_tb {m n : Nat} (f : Nat → Nat → R) : transpose (tb m n f) = .ok (tb n m fun i j => f j i) := by
  rw [transpose, rows_tb, cols_tb]
  by_cases c : m = n
  · subst c
    rw [if_pos rfl]
    refine forUp_ok (fun t => tb m m fun r c => if r < t ∨ c < t then f c r else f r c) ?_ ?_ ?_
    · exact tb_congr fun i j _ _ => by rw [if_neg (by omega)]
    · exact tb_congr fun i j _ _ => by rw [if_pos (by omega)]
    · intro t _ ht
      refine forUp_ok (fun s => tb m m fun r c => if (r < t ∨ c < t) ∨ (r = t ∧ c < s) ∨ (c = t ∧ r < s) then f c r else f r c) ?_ ?_ ?_
      · refine tb_congr fun r c hr hc => ?_
        by_cases e : r < t ∨ c < t
        · rw [if_pos e, if_pos (.inl e)]
        · rw [if_neg e]
          by_cases e' : r = t ∧ c = t
          · obtain ⟨rfl, rfl⟩ := e'; simp
          · rw [if_neg (by omega)]
      · refine tb_congr fun r c hr hc => ?_
        by_cases e : r < t + 1 ∨ c < t + 1
        · rw [if_pos e, if_pos (by omega)]
        · rw [if_neg e, if_neg (by omega)]
      · intro s h1 h2
        rw [get_tb _ (by omega) (by omega), Res.ok_bind, get_tb _ (by omega) (by omega), Res.ok_bind,
          set_tb _ (by omega) (by omega), Res.ok_bind, set_tb _ (by omega) (by omega)]
        congr 1
        refine tb_congr fun r c hr hc => ?_
        by_cases e1 : r = t ∧ c = s
        · obtain ⟨rfl, rfl⟩ := e1
          rw [if_pos ⟨rfl, rfl⟩, if_neg (by omega), if_pos (by omega)]
        · rw [if_neg e1]
          by_cases e2 : r = s ∧ c = t
          · obtain ⟨rfl, rfl⟩ := e2
            rw [if_pos ⟨rfl, rfl⟩, if_neg (by omega), if_pos (by omega)]
          · rw [if_neg e2]
            by_cases e3 : (r < t ∨ c < t) ∨ (r = t ∧ c < s) ∨ (c = t ∧ r < s)
            · rw [if_pos e3, if_pos (by omega)]
            · rw [if_neg e3, if_neg (by omega)]
  · rw [if_neg c]; exact transposed_tb f

theorem negTransposed_tb {m n : Nat} (f : Nat → Nat → R) : negTransposed (tb m n f) = .ok (tb n m fun i j => -f j i) := by
  rw [negTransposed, transposed_tb, Res.ok_bind, negate_tb]

/-! ### elementary operations -/

section dec
variable [DecidableEq R]

theorem rowOp_tb (nd : Bool) {m n : Nat} (f : Nat → Nat → R) {i k : Nat} (hi : i < m) (hk : k < m) (c : R) :
    rowOp nd (tb m n f) i k c = .ok (tb m n fun r j => if r = i then f i j + c * f k j else f r j) := by
  rw [rowOp, Res.assertIn_bind nd (by simp [hi, hk])]
  by_cases e : c = 0
  · rw [if_neg (by simpa using e)]
    refine congrArg Res.ok (tb_congr fun r j _ _ => ?_)
    by_cases e' : r = i
    · rw [if_pos e', e', e]; ring
    · rw [if_neg e']
  · rw [if_pos e, cols_tb, forRow_tb f i hi 0 n (by omega) _ (fun j => f i j + c * f k j)]
    · refine congrArg Res.ok (tb_congr fun r j _ hj => ?_)
      by_cases e' : r = i
      · rw [if_pos (by omega), if_pos e', Nat.sub_zero]
      · rw [if_neg (by omega), if_neg e']
    · intro t ht g hg
      rw [get_tb g hi ht, Res.ok_bind, get_tb g hk ht, Res.ok_bind, set_tb g hi ht, hg i t hi ht (by omega),
        hg k t hk ht (by omega), Nat.zero_add]

theorem colOp_tb (nd : Bool) {m n : Nat} (f : Nat → Nat → R) {j k : Nat} (hj : j < n) (hk : k < n) (c : R) :
    colOp nd (tb m n f) j k c = .ok (tb m n fun r l => if l = j then f r j + c * f r k else f r l) := by
  rw [colOp, Res.assertIn_bind nd (by simp [hj, hk])]
  by_cases e : c = 0
  · rw [if_neg (by simpa using e)]
    refine congrArg Res.ok (tb_congr fun r l _ _ => ?_)
    by_cases e' : l = j
    · rw [if_pos e', e', e]; ring
    · rw [if_neg e']
  · rw [if_pos e, rows_tb, forCol_tb f j hj 0 m (by omega) _ (fun r => f r j + c * f r k)]
    · refine congrArg Res.ok (tb_congr fun r l hr _ => ?_)
      by_cases e' : l = j
      · rw [if_pos (by omega), if_pos e', Nat.sub_zero]
      · rw [if_neg (by omega), if_neg e']
    · intro t ht g hg
      rw [get_tb g ht hj, Res.ok_bind, get_tb g ht hk, Res.ok_bind, set_tb g ht hj, hg t j ht hj (by omega),
        hg t k ht hk (by omega), Nat.zero_add]

theorem rowMul_tb (nd : Bool) {m n : Nat} (f : Nat → Nat → R) {i : Nat} (hi : i < m) (c : R) :
    rowMul nd (tb m n f) i c = .ok (tb m n fun r j => if r = i then f i j * c else f r j) := by
  rw [rowMul, Res.assertIn_bind nd (by simp [hi])]
  by_cases e : c = 1
  · rw [if_neg (by simpa using e)]
    refine congrArg Res.ok (tb_congr fun r j _ _ => ?_)
    by_cases e' : r = i
    · rw [if_pos e', e', e]; ring
    · rw [if_neg e']
  · rw [if_pos e, cols_tb, forRow_tb f i hi 0 n (by omega) _ (fun j => f i j * c)]
    · refine congrArg Res.ok (tb_congr fun r j _ hj => ?_)
      by_cases e' : r = i
      · rw [if_pos (by omega), if_pos e', Nat.sub_zero]
      · rw [if_neg (by omega), if_neg e']
    · intro t ht g hg
      rw [get_tb g hi ht, Res.ok_bind, set_tb g hi ht, hg i t hi ht (by omega), Nat.zero_add]

theorem colMul_tb (nd : Bool) {m n : Nat} (f : Nat → Nat → R) {j : Nat} (hj : j < n) (c : R) :
    colMul nd (tb m n f) j c = .ok (tb m n fun r l => if l = j then f r j * c else f r l) := by
  rw [colMul, Res.assertIn_bind nd (by simp [hj])]
  by_cases e : c = 1
  · rw [if_neg (by simpa using e)]
    refine congrArg Res.ok (tb_congr fun r l _ _ => ?_)
    by_cases e' : l = j
    · rw [if_pos e', e', e]; ring
    · rw [if_neg e']
  · rw [if_pos e, rows_tb, forCol_tb f j hj 0 m (by omega) _ (fun r => f r j * c)]
    · refine congrArg Res.ok (tb_congr fun r l hr _ => ?_)
      by_cases e' : l = j
      · rw [if_pos (by omega), if_pos e', Nat.sub_zero]
      · rw [if_neg (by omega), if_neg e']
    · intro t ht g hg
      rw [get_tb g ht hj, Res.ok_bind, set_tb g ht hj, hg t j ht hj (by omega), Nat.zero_add]

end dec

theorem rowApply_tb (nd : Bool) {m n k : Nat} (f ops : Nat → Nat → R) {i : Nat} (hi : i + k ≤ m) :
    rowApply nd (tb m n f) (tb k k ops) i =
      .ok (tb m n fun r c => if i ≤ r ∧ r < i + k then ∑ t ∈ range k, ops (r - i) t * f (i + t) c else f r c) := by
  rw [rowApply]
  rw [Res.assertIn_bind nd (decide_eq_true (show (tb k k ops).rows = (tb k k ops).cols from rfl)),
    Res.assertIn_bind nd (decide_eq_true (show i + (tb k k ops).rows ≤ (tb m n f).rows from hi))]
  simp only [rows_tb, cols_tb]
  refine forUp_ok (fun s => tb m n fun r c => if c < s ∧ i ≤ r ∧ r < i + k then
    ∑ t ∈ range k, ops (r - i) t * f (i + t) c else f r c) ?_ ?_ ?_
  · exact tb_congr fun r c _ _ => by rw [if_neg (by omega)]
  · refine tb_congr fun r c _ hc => ?_
    by_cases e : i ≤ r ∧ r < i + k
    · rw [if_pos (by omega), if_pos e]
    · rw [if_neg (by omega), if_neg e]
  · intro s _ hs
    rw [tab_ok (fun t => f (i + t) s), Res.ok_bind, apply_tb, Res.ok_bind,
      forCol_tb _ s (by omega) i k hi _ (fun r => ∑ t ∈ range k, ops r t * f (i + t) s)]
    · refine congrArg Res.ok (tb_congr fun r c _ hc => ?_)
      by_cases e : c = s ∧ i ≤ r ∧ r < i + k
      · obtain ⟨rfl, e⟩ := e
        rw [if_pos ⟨rfl, e⟩, if_pos (by omega)]
      · rw [if_neg e]
        by_cases e' : c < s ∧ i ≤ r ∧ r < i + k
        · rw [if_pos e', if_pos (by omega)]
        · rw [if_neg e', if_neg (by omega)]
    · intro t ht g _
      rw [get_vk _ ht, Res.ok_bind, set_tb g (by omega) (by omega)]
    · intro t ht
      rw [get_tb _ (by omega) (by omega), if_neg (by omega)]

theorem columnApply_tb (nd : Bool) {m n k : Nat} (f ops : Nat → Nat → R) {j : Nat} (hj : j + k ≤ n) :
    columnApply nd (tb m n f) (tb k k ops) j =
      .ok (tb m n fun r c => if j ≤ c ∧ c < j + k then ∑ t ∈ range k, f r (j + t) * ops t (c - j) else f r c) := by
  rw [columnApply]
  rw [Res.assertIn_bind nd (decide_eq_true (show (tb k k ops).rows = (tb k k ops).cols from rfl)),
    Res.assertIn_bind nd (decide_eq_true (show j + (tb k k ops).rows ≤ (tb m n f).cols from hj))]
  simp only [rows_tb, cols_tb]
  refine forUp_ok (fun s => tb m n fun r c => if r < s ∧ j ≤ c ∧ c < j + k then
    ∑ t ∈ range k, f r (j + t) * ops t (c - j) else f r c) ?_ ?_ ?_
  · exact tb_congr fun r c _ _ => by rw [if_neg (by omega)]
  · refine tb_congr fun r c hr _ => ?_
    by_cases e : j ≤ c ∧ c < j + k
    · rw [if_pos (by omega), if_pos e]
    · rw [if_neg (by omega), if_neg e]
  · intro s _ hs
    rw [tab_ok (fun t => f s (j + t)), Res.ok_bind, rightProd_tb, Res.ok_bind,
      forRow_tb _ s (by omega) j k hj _ (fun c => ∑ t ∈ range k, f s (j + t) * ops t c)]
    · refine congrArg Res.ok (tb_congr fun r c hr hc => ?_)
      by_cases e : r = s ∧ j ≤ c ∧ c < j + k
      · obtain ⟨rfl, e⟩ := e
        rw [if_pos ⟨rfl, e⟩, if_pos (by omega)]
      · rw [if_neg e]
        by_cases e' : r < s ∧ j ≤ c ∧ c < j + k
        · rw [if_pos e', if_pos (by omega)]
        · rw [if_neg e', if_neg (by omega)]
    · intro t ht g _
      rw [get_vk _ ht, Res.ok_bind, set_tb g (by omega) (by omega)]
    · intro t ht
      rw [get_tb _ (by omega) (by omega), if_neg (by omega)]

theorem addScalar_tb {m n : Nat} (f : Nat → Nat → R) (c : R) :
    addScalar (tb m n f) c = .ok (tb m n fun i j => if i = j then f i j + c else f i j) := by
  rw [addScalar, rows_tb, cols_tb]
  refine forDown_ok (fun t => tb m n fun i j => if i = j ∧ t ≤ i then f i j + c else f i j) ?_ ?_ ?_
  · refine tb_congr fun i j hi hj => ?_
    rw [if_neg (by omega)]
  · exact tb_congr fun i j _ _ => by simp
  · intro t ht
    rw [get_tb _ (by omega) (by omega), Res.ok_bind, set_tb _ (by omega) (by omega), if_neg (by omega)]
    refine congrArg Res.ok (tb_congr fun i j hi hj => ?_)
    by_cases e : i = t ∧ j = t
    · obtain ⟨rfl, rfl⟩ := e
      rw [if_pos ⟨rfl, rfl⟩, if_pos (by omega)]
    · rw [if_neg e]
      by_cases e' : i = j ∧ t + 1 ≤ i
      · rw [if_pos e', if_pos (by omega)]
      · rw [if_neg e', if_neg (by omega)]

theorem standardBasis_vk (r : Nat) : (standardBasis r : Res (List (List R))) = .ok (vk r fun i => vk r fun j => if j = i then 1 else 0) := by
  rw [standardBasis]
  refine forUp_ok (fun t => vk r fun i => vk r fun j => if j = i ∧ i < t then (1 : R) else 0) ?_ ?_ ?_
  · rw [replicate_vk, replicate_vk]
    refine vk_congr fun i _ => vk_congr fun j _ => by rw [if_neg (by omega)]
  · refine vk_congr fun i hi => vk_congr fun j _ => ?_
    by_cases e : j = i
    · rw [if_pos (by omega), if_pos e]
    · rw [if_neg (by omega), if_neg e]
  · intro t _ ht
    rw [get_vk _ (by omega), Res.ok_bind, put_vk _ (by omega), Res.ok_bind, put_vk _ (by omega)]
    refine congrArg Res.ok (vk_congr fun i hi => ?_)
    by_cases e : i = t
    · subst e
      rw [if_pos rfl]
      refine vk_congr fun j _ => ?_
      by_cases e' : j = i
      · rw [if_pos e', if_pos (by omega)]
      · rw [if_neg e', if_neg (by omega), if_neg (by omega)]
    · rw [if_neg e]
      refine vk_congr fun j _ => ?_
      by_cases e' : j = i ∧ i < t
      · rw [if_pos e', if_pos (by omega)]
      · rw [if_neg e', if_neg (by omega)]

end ring

theorem swapRows_tb (nd : Bool) {m n : Nat} (f : Nat → Nat → R) {i0 i1 : Nat} (h0 : i0 < m) (h1 : i1 < m) :
    swapRows nd (tb m n f) i0 i1 = .ok (tb m n fun r c => if r = i1 then f i0 c else if r = i0 then f i1 c else f r c) := by
  rw [swapRows, Res.assertIn_bind nd (by simp [h0, h1]), cols_tb]
  refine forUp_ok (fun s => tb m n fun r c => if c < s then (if r = i1 then f i0 c else if r = i0 then f i1 c else f r c) else f r c) ?_ ?_ ?_
  · exact tb_congr fun r c _ _ => by simp
  · exact tb_congr fun r c _ h => by simp [h]
  · intro s _ hs
    rw [get_tb _ h0 (by omega), Res.ok_bind, get_tb _ h1 (by omega), Res.ok_bind, set_tb _ h0 (by omega), Res.ok_bind,
      set_tb _ h1 (by omega)]
    refine congrArg Res.ok (tb_congr fun r c hr hc => ?_)
    rw [if_neg (by omega : ¬ s < s), if_neg (by omega : ¬ s < s)]
    by_cases e : c = s
    · subst e
      rw [if_pos (by omega : c < c + 1)]
      by_cases e1 : r = i1
      · rw [if_pos ⟨e1, rfl⟩, if_pos e1]
      · rw [if_neg (by omega), if_neg e1]
        by_cases e0 : r = i0
        · rw [if_pos ⟨e0, rfl⟩, if_pos e0]
        · rw [if_neg (by omega), if_neg e0, if_neg (by omega)]
    · rw [if_neg (by omega), if_neg (by omega)]
      by_cases e' : c < s
      · rw [if_pos e', if_pos (show c < s + 1 by omega)]
      · rw [if_neg e', if_neg (by omega)]

theorem swapCols_tb (nd : Bool) {m n : Nat} (f : Nat → Nat → R) {j0 j1 : Nat} (h0 : j0 < n) (h1 : j1 < n) :
    swapCols nd (tb m n f) j0 j1 = .ok (tb m n fun r c => if c = j1 then f r j0 else if c = j0 then f r j1 else f r c) := by
  rw [swapCols, Res.assertIn_bind nd (by simp [h0, h1]), rows_tb]
  refine forUp_ok (fun s => tb m n fun r c => if r < s then (if c = j1 then f r j0 else if c = j0 then f r j1 else f r c) else f r c) ?_ ?_ ?_
  · exact tb_congr fun r c _ _ => by simp
  · exact tb_congr fun r c h _ => by simp [h]
  · intro s _ hs
    rw [get_tb _ (by omega) h0, Res.ok_bind, get_tb _ (by omega) h1, Res.ok_bind, set_tb _ (by omega) h0, Res.ok_bind,
      set_tb _ (by omega) h1]
    refine congrArg Res.ok (tb_congr fun r c hr hc => ?_)
    rw [if_neg (by omega : ¬ s < s), if_neg (by omega : ¬ s < s)]
    by_cases e : r = s
    · subst e
      rw [if_pos (by omega : r < r + 1)]
      by_cases e1 : c = j1
      · rw [if_pos ⟨rfl, e1⟩, if_pos e1]
      · rw [if_neg (by omega), if_neg e1]
        by_cases e0 : c = j0
        · rw [if_pos ⟨rfl, e0⟩, if_pos e0]
        · rw [if_neg (by omega), if_neg e0, if_neg (by omega)]
    · rw [if_neg (by omega), if_neg (by omega)]
      by_cases e' : r < s
      · rw [if_pos e', if_pos (show r < s + 1 by omega)]
      · rw [if_neg e', if_neg (by omega)]

/-! ### blocks -/

theorem getBlock_tb (nd : Bool) {m n m' n' : Nat} (f g : Nat → Nat → R) {k l : Nat} (hk : k + m' ≤ m) (hl : l + n' ≤ n) :
    getBlock nd (tb m n f) (tb m' n' g) k l = .ok (tb m' n' fun i j => f (k + i) (l + j)) := by
  rw [getBlock, Res.assertIn_bind nd (by simp [hk, hl])]
  simp only [rows_tb, cols_tb]
  rw [forUp_ok (t := ((tb m' n' fun i j => f (k + i) (l + j)).data, m' * n'))
    (fun t => ((tb m' n' fun i j => if i < t - k then f (k + i) (l + j) else g i j).data, (t - k) * n'))]
  · rfl
  · refine pair_ext (congrArg Mat.data (tb_congr fun i j _ _ => ?_)) (by simp)
    rw [if_neg (by omega)]
  · refine pair_ext (congrArg Mat.data (tb_congr fun i j hi _ => ?_)) (by simp)
    rw [if_pos (by omega)]
  · intro t h1 h2
    have e1 := slice_tb f (i := t) (j := l) (l := l + n') (show t < m by omega) (by omega) hl
    simp only [e1, Res.ok_bind]
    have e2 := blit_tb (n := n') (fun i j => if i < t - k then f (k + i) (l + j) else g i j) (i := t - k) (j := 0) (k := n')
      (fun s => f t (l + s)) (show t - k < m' by omega) (by omega)
    simp only [Nat.add_zero] at e2
    rw [show l + n' - l = n' by omega, e2, Res.ok_bind, length_vk, Res.pure_eq]
    refine congrArg Res.ok (pair_ext (congrArg Mat.data (tb_congr fun i j hi hj => ?_)) ?_)
    · by_cases e : i = t - k
      · rw [if_pos (by omega), if_pos (by omega)]
        congr 1; omega
      · rw [if_neg (by omega)]
        by_cases e' : i < t - k
        · rw [if_pos e', if_pos (by omega)]
        · rw [if_neg e', if_neg (by omega)]
    · show (t - k) * n' + n' = (t + 1 - k) * n'
      rw [show t + 1 - k = (t - k) + 1 by omega, Nat.add_mul, Nat.one_mul]

theorem setBlock_tb (nd : Bool) {m n m' n' : Nat} (f g : Nat → Nat → R) {k l : Nat} (hk : k + m' ≤ m) (hl : l + n' ≤ n) :
    setBlock nd (tb m n f) k l (tb m' n' g) =
      .ok (tb m n fun i j => if k ≤ i ∧ i < k + m' ∧ l ≤ j ∧ j < l + n' then g (i - k) (j - l) else f i j) := by
  rw [setBlock, Res.assertIn_bind nd (by simp [hk, hl])]
  simp only [rows_tb, cols_tb]
  rw [forUp_ok (t := (tb m n fun i j => if k ≤ i ∧ i < k + m' ∧ l ≤ j ∧ j < l + n' then g (i - k) (j - l) else f i j).data)
    (fun t => (tb m n fun i j => if k ≤ i ∧ i < k + t ∧ l ≤ j ∧ j < l + n' then g (i - k) (j - l) else f i j).data)]
  · rfl
  · exact congrArg Mat.data (tb_congr fun i j _ _ => by rw [if_neg (by omega)])
  · simp
  · intro t _ ht
    have e1 : slice (tb m' n' g).data (t * n') ((t + 1) * n') = .ok (vk n' (g t)) := row_tb g (show t < m' by omega)
    rw [e1, Res.ok_bind, blit_tb (n := n) _ (i := k + t) (j := l) (k := n') (g t) (by omega) hl]
    refine congrArg Res.ok (congrArg Mat.data (tb_congr fun i j hi hj => ?_))
    by_cases e : i = k + t ∧ l ≤ j ∧ j < l + n'
    · rw [if_pos e, if_pos (by omega)]
      congr 1; omega
    · rw [if_neg e]
      by_cases e' : k ≤ i ∧ i < k + t ∧ l ≤ j ∧ j < l + n'
      · rw [if_pos e', if_pos (by omega)]
      · rw [if_neg e', if_neg (by omega)]

theorem block_tb [CommRing R] (nd : Bool) {m n : Nat} (f : Nat → Nat → R) {i0 j0 i1 j1 : Nat}
    (hi : i0 ≤ i1) (hi' : i1 ≤ m) (hj : j0 ≤ j1) (hj' : j1 ≤ n) :
    block nd (tb m n f) i0 j0 i1 j1 = .ok (tb (i1 - i0) (j1 - j0) fun i j => f (i0 + i) (j0 + j)) := by
  have h := getBlock_tb nd (m' := i1 - i0) (n' := j1 - j0) f (fun _ _ => 0) (k := i0) (l := j0) (m := m) (n := n) (by omega) (by omega)
  rw [getBlock, Res.assertIn_bind nd (c := decide (i0 + (tb (i1 - i0) (j1 - j0) fun _ _ => (0 : R)).rows ≤ (tb m n f).rows) &&
    decide (j0 + (tb (i1 - i0) (j1 - j0) fun _ _ => (0 : R)).cols ≤ (tb m n f).cols)) (by
      rw [Bool.and_eq_true]
      exact ⟨decide_eq_true (show i0 + (i1 - i0) ≤ m by omega), decide_eq_true (show j0 + (j1 - j0) ≤ n by omega)⟩)] at h
  rw [block, Res.assertIn_bind nd (by simp [hi, hi']), Res.assertIn_bind nd (by simp [hj, hj']), ← h, blank_tb]
  simp only [rows_tb, cols_tb]
  rw [show j0 + (j1 - j0) = j1 by omega]

theorem transposedBlock_tb [CommRing R] (nd : Bool) {m n : Nat} (f : Nat → Nat → R) {i0 j0 i1 j1 : Nat}
    (hi : i0 ≤ i1) (hi' : i1 ≤ n) (hj : j0 ≤ j1) (hj' : j1 ≤ m) :
    transposedBlock nd (tb m n f) i0 j0 i1 j1 = .ok (tb (i1 - i0) (j1 - j0) fun i j => f (j0 + j) (i0 + i)) := by
  rw [transposedBlock, Res.assertIn_bind nd (by simp [hi, hi']), Res.assertIn_bind nd (by simp [hj, hj']), blank_tb]
  refine fill_tb _ _ (fun i j S => _) ?_
  intro i j h1 h2 g
  rw [get_tb f (by omega) (by omega), Res.ok_bind, set_tb g h1 h2]

/-! ### erasing and adding -/

theorem eraseIdx_vk (N : Nat) (h : Nat → R) {p : Nat} (hp : p < N) :
    (vk N h).eraseIdx p = vk (N - 1) fun q => if q < p then h q else h (q + 1) := by
  apply eq_vk (by rw [List.length_eraseIdx, length_vk, if_pos hp])
  intro q hq
  rw [List.getElem_eraseIdx]
  by_cases c : q < p
  · rw [dif_pos c, if_pos c, getElem_vk]
  · rw [dif_neg c, if_neg c, getElem_vk]

theorem eraseRow_tb (nd : Bool) {m n : Nat} (f : Nat → Nat → R) {i : Nat} (hi : i < m) (hs : m * n < 2 ^ 32) :
    eraseRow nd (tb m n f) i = .ok (tb (m - 1) n fun r c => f (if r < i then r else r + 1) c) := by
  have h1 : i * n + n ≤ m * n := idx_le hi le_rfl
  rw [eraseRow, Res.assertIn_bind nd (by simp [hi])]
  simp only [rows_tb, cols_tb, data_tb, Nat.mod_eq_of_lt (show i * n < 2 ^ 32 by omega), length_vk]
  rw [if_neg (by omega), Res.pure_eq, tb]
  refine congrArg Res.ok (congrArg (Mat.mk (m - 1) n) ?_)
  have hm : (m - 1) * n + n = m * n := by
    obtain ⟨k, rfl⟩ : ∃ k, m = k + 1 := ⟨m - 1, by omega⟩
    rw [Nat.add_sub_cancel, Nat.add_mul, Nat.one_mul]
  apply eq_vk (by simp only [List.length_append, List.length_take, length_vk, List.length_drop]; omega)
  intro p hp
  simp only [List.length_append, List.length_take, length_vk, List.length_drop] at hp
  have hp' : p < (m - 1) * n := by omega
  obtain ⟨k1, k2, k3⟩ := idx_split hp'
  by_cases c : p / n < i
  · rw [if_pos c, List.getElem_append_left (by
      have : p / n * n + p % n < i * n := idx_lt c k2
      simp only [List.length_take, length_vk]; omega), List.getElem_take, getElem_vk]
  · have : i * n ≤ p / n * n := Nat.mul_le_mul_right n (by omega)
    rw [if_neg c, List.getElem_append_right (by simp only [List.length_take, length_vk]; omega), List.getElem_drop, getElem_vk]
    have e : i * n + n + (p - (List.take (i * n) (vk (m * n) fun k => f (k / n) (k % n))).length) = (p / n + 1) * n + p % n := by
      rw [List.length_take, length_vk, Nat.add_mul, Nat.one_mul]; omega
    rw [e, idx_div k2, idx_mod k2]

theorem eraseColumn_tb (nd : Bool) {m n : Nat} (f : Nat → Nat → R) {j : Nat} (hj : j < n) :
    eraseColumn nd (tb m n f) j = .ok (tb m (n - 1) fun r c => f r (if c < j then c else c + 1)) := by
  rw [eraseColumn, Res.assertIn_bind nd (by simp [hj])]
  simp only [rows_tb, cols_tb]
  have hmn : m * (n - 1) + m = m * n := by
    obtain ⟨k, rfl⟩ : ∃ k, n = k + 1 := ⟨n - 1, by omega⟩
    rw [Nat.add_sub_cancel, Nat.mul_add, Nat.mul_one]
  rw [forUp_ok (t := ((tb m (n - 1) fun r c => f r (if c < j then c else c + 1)).data, j + m * (n - 1)))
    (fun k => (vk (m * n - k) fun p => if p < j + k * (n - 1) then
      f (p / (n - 1)) (if p % (n - 1) < j then p % (n - 1) else p % (n - 1) + 1) else f ((p + k) / n) ((p + k) % n), j + k * (n - 1)))]
  · rfl
  · refine pair_ext ?_ (by simp)
    show vk (m * n) _ = vk (m * n) _
    apply vk_congr
    intro p hp
    by_cases c : p < j + 0 * (n - 1)
    · rw [if_pos c]
      rw [Nat.zero_mul, Nat.add_zero] at c
      rw [Nat.div_eq_of_lt (show p < n by omega), Nat.mod_eq_of_lt (show p < n by omega), Nat.div_eq_of_lt (show p < n - 1 by omega),
        Nat.mod_eq_of_lt (show p < n - 1 by omega), if_pos c]
    · rw [if_neg c, Nat.add_zero]
  · refine pair_ext ?_ (by simp)
    rw [Nat.zero_add, data_tb, show m * n - m = m * (n - 1) by omega]
    apply vk_congr
    intro p hp
    rw [if_pos (by omega)]
  · intro k _ hk
    have h1 : k * n + j < m * n := idx_lt (by omega) hj
    have h2 : k * (n - 1) + k = k * n := by
      obtain ⟨q, rfl⟩ : ∃ q, n = q + 1 := ⟨n - 1, by omega⟩
      rw [Nat.add_sub_cancel, Nat.mul_add, Nat.mul_one]
    have h3 : (k + 1) * n = k * n + n := by rw [Nat.add_mul, Nat.one_mul]
    have h4 : (k + 1) * (n - 1) = k * (n - 1) + (n - 1) := by rw [Nat.add_mul, Nat.one_mul]
    simp only [length_vk]
    rw [if_pos (by omega), eraseIdx_vk _ _ (by omega)]
    refine congrArg Res.ok (pair_ext ?_ (by simp only [h4]; omega))
    show vk (m * n - k - 1) _ = vk (m * n - (k + 1)) _
    rw [Nat.sub_sub]
    apply vk_congr
    intro p hp
    by_cases c : p < j + k * (n - 1)
    · rw [if_pos c, if_pos c, if_pos (show p < j + (k + 1) * (n - 1) by omega)]
    · rw [if_neg c, if_neg (by omega)]
      by_cases c' : p < j + (k + 1) * (n - 1)
      · rw [if_pos c']
        by_cases c2 : p < (k + 1) * (n - 1)
        · have e1 : p = k * (n - 1) + (p - k * (n - 1)) := by omega
          have e2 : p + 1 + k = k * n + (p - k * (n - 1) + 1) := by omega
          have h5 : p - k * (n - 1) < n - 1 := by omega
          rw [e2, idx_div (show p - k * (n - 1) + 1 < n by omega), idx_mod (show p - k * (n - 1) + 1 < n by omega)]
          have e3 : p / (n - 1) = k := by conv_lhs => rw [e1]; exact idx_div h5
          have e4 : p % (n - 1) = p - k * (n - 1) := by conv_lhs => rw [e1]; exact idx_mod h5
          rw [e3, e4, if_neg (by omega)]
        · have e1 : p = (k + 1) * (n - 1) + (p - (k + 1) * (n - 1)) := by omega
          have e2 : p + 1 + k = (k + 1) * n + (p - (k + 1) * (n - 1)) := by omega
          have h5 : p - (k + 1) * (n - 1) < n - 1 := by omega
          rw [e2, idx_div (show p - (k + 1) * (n - 1) < n by omega), idx_mod (show p - (k + 1) * (n - 1) < n by omega)]
          have e3 : p / (n - 1) = k + 1 := by conv_lhs => rw [e1]; exact idx_div h5
          have e4 : p % (n - 1) = p - (k + 1) * (n - 1) := by conv_lhs => rw [e1]; exact idx_mod h5
          rw [e3, e4, if_pos (by omega)]
      · rw [if_neg c', Nat.add_assoc, Nat.add_comm 1 k]

end Verif.Mat
