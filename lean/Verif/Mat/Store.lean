import Verif.Mat.Model
import Mathlib.Algebra.BigOperators.Group.Finset.Basic
import Mathlib.Algebra.BigOperators.Intervals
import Mathlib.Tactic.Ring
/-
What the storage level functions do, with vectors and matrices given as tables of functions on
the natural numbers.
-/
namespace Verif.Mat

open Finset

variable {R : Type} {σ : Type}

/-! ### loops -/

theorem forUp_fun (body : Nat → σ → Res σ) (inv : Nat → σ) (k a : Nat)
    (h : ∀ i, a ≤ i → i < a + k → body i (inv i) = .ok (inv (i + 1))) :
    forUp body k a (inv a) = .ok (inv (a + k)) := by
  induction k generalizing a with
  | zero => rfl
  | succ k ih =>
    rw [forUp, h a le_rfl (by omega), Res.ok_bind, ih (a + 1) (fun i h1 h2 => h i (by omega) (by omega))]
    congr 2; omega

theorem forUp_ok {body : Nat → σ → Res σ} {k a : Nat} {s t : σ} (inv : Nat → σ) (h0 : s = inv a) (h1 : inv (a + k) = t)
    (h : ∀ i, a ≤ i → i < a + k → body i (inv i) = .ok (inv (i + 1))) : forUp body k a s = .ok t := by
  rw [h0, forUp_fun body inv k a h, h1]

theorem forDown_fun (body : Nat → σ → Res σ) (inv : Nat → σ) (k : Nat)
    (h : ∀ i, i < k → body i (inv (i + 1)) = .ok (inv i)) : forDown body k (inv k) = .ok (inv 0) := by
  induction k with
  | zero => rfl
  | succ k ih => rw [forDown, h k (by omega), Res.ok_bind, ih (fun i hi => h i (by omega))]

theorem forDown_ok {body : Nat → σ → Res σ} {k : Nat} {s t : σ} (inv : Nat → σ) (h0 : s = inv k) (h1 : inv 0 = t)
    (h : ∀ i, i < k → body i (inv (i + 1)) = .ok (inv i)) : forDown body k s = .ok t := by
  rw [h0, forDown_fun body inv k h, h1]

/-- loops of which the state is only known to satisfy an invariant -/
theorem forUp_inv {body : Nat → σ → Res σ} (I : Nat → σ → Prop) (k a : Nat) (s : σ) (h0 : I a s)
    (h : ∀ i s, a ≤ i → i < a + k → I i s → ∃ s', body i s = .ok s' ∧ I (i + 1) s') :
    ∃ s', forUp body k a s = .ok s' ∧ I (a + k) s' := by
  induction k generalizing a s with
  | zero => exact ⟨s, rfl, h0⟩
  | succ k ih =>
    obtain ⟨s1, e1, h1⟩ := h a s le_rfl (by omega) h0
    obtain ⟨s2, e2, h2⟩ := ih (a + 1) s1 h1 (fun i s h1 h2 => h i s (by omega) (by omega))
    refine ⟨s2, ?_, ?_⟩
    · rw [forUp, e1, Res.ok_bind, e2]
    · rw [show a + (k + 1) = a + 1 + k by omega]; exact h2

theorem forDown_inv {body : Nat → σ → Res σ} (I : Nat → σ → Prop) (k : Nat) (s : σ) (h0 : I k s)
    (h : ∀ i s, i < k → I (i + 1) s → ∃ s', body i s = .ok s' ∧ I i s') :
    ∃ s', forDown body k s = .ok s' ∧ I 0 s' := by
  induction k generalizing s with
  | zero => exact ⟨s, rfl, h0⟩
  | succ k ih =>
    obtain ⟨s1, e1, h1⟩ := h k s (by omega) h0
    obtain ⟨s2, e2, h2⟩ := ih s1 h1 (fun i s h1 h2 => h i s (by omega) h2)
    exact ⟨s2, by rw [forDown, e1, Res.ok_bind, e2], h2⟩

theorem sumUp [CommRing R] {body : Nat → R → Res R} (n : Nat) (t : Nat → R)
    (h : ∀ i, i < n → ∀ c, body i c = .ok (c + t i)) : forUp body n 0 0 = .ok (∑ i ∈ range n, t i) := by
  refine forUp_ok (fun i => ∑ j ∈ range i, t j) (by simp) (by simp) ?_
  intro i _ hi
  rw [h i (by omega), sum_range_succ]

theorem sumDown [CommRing R] {body : Nat → R → Res R} (n : Nat) (t : Nat → R)
    (h : ∀ i, i < n → ∀ c, body i c = .ok (c + t i)) : forDown body n 0 = .ok (∑ i ∈ range n, t i) := by
  refine forDown_ok (fun i => ∑ j ∈ range (n - i), t (n - 1 - j)) (by simp) ?_ ?_
  · simp only [Nat.sub_zero]; exact sum_range_reflect t n
  intro i hi
  rw [h i hi]
  have e : n - i = (n - (i + 1)) + 1 := by omega
  show _ = Res.ok (∑ j ∈ range (n - i), t (n - 1 - j))
  rw [e, sum_range_succ]
  congr 3; omega

/-! ### vectors -/

/-- the vector of size `n` with entries `g i` -/
def vk (n : Nat) (g : Nat → R) : List R := (List.range n).map g

@[simp] theorem length_vk (n : Nat) (g : Nat → R) : (vk n g).length = n := by simp [vk]

theorem vk_congr {n : Nat} {g h : Nat → R} (e : ∀ i, i < n → g i = h i) : vk n g = vk n h := by
  apply List.map_congr_left
  intro i hi
  exact e i (List.mem_range.1 hi)

theorem getElem?_vk (n : Nat) (g : Nat → R) (i : Nat) : (vk n g)[i]? = if i < n then some (g i) else none := by
  by_cases h : i < n
  · simp [vk, h]
  · simp [vk, h, List.getElem?_eq_none]

theorem getElem_vk (n : Nat) (g : Nat → R) (i : Nat) (h : i < (vk n g).length) : (vk n g)[i] = g i := by
  simp [vk]

theorem vk_inj {n : Nat} {g h : Nat → R} (e : vk n g = vk n h) {i : Nat} (hi : i < n) : g i = h i := by
  have : (vk n g)[i]? = (vk n h)[i]? := by rw [e]
  rw [getElem?_vk, getElem?_vk, if_pos hi, if_pos hi] at this
  exact Option.some.inj this

theorem eq_vk {l : List R} {n : Nat} {g : Nat → R} (hl : l.length = n) (h : ∀ i (hi : i < l.length), l[i] = g i) : l = vk n g := by
  apply List.ext_getElem (by simp [hl])
  intro i h1 h2
  rw [h i h1, getElem_vk]

theorem get_vk {n : Nat} (g : Nat → R) {i : Nat} (h : i < n) : Vec.get (vk n g) i = .ok (g i) := by
  rw [Vec.get_ok (by simpa), getElem_vk]

theorem put_vk {n : Nat} (g : Nat → R) {i : Nat} (h : i < n) (x : R) :
    Vec.put (vk n g) i x = .ok (vk n fun k => if k = i then x else g k) := by
  rw [Vec.put_ok (by simpa)]
  congr 1
  apply eq_vk (by simp)
  intro k hk
  rw [List.getElem_set, getElem_vk]
  by_cases c : i = k
  · subst c; simp
  · rw [if_neg c, if_neg (by omega)]

theorem slice_vk {n : Nat} (g : Nat → R) {a b : Nat} (h1 : a ≤ b) (h2 : b ≤ n) :
    slice (vk n g) a b = .ok (vk (b - a) fun t => g (a + t)) := by
  rw [slice, if_pos ⟨h1, by simpa⟩]
  congr 1
  apply eq_vk (by simp; omega)
  intro k hk
  rw [List.getElem_take, List.getElem_drop, getElem_vk]

theorem blit_vk {n : Nat} (h : Nat → R) {a k : Nat} (g : Nat → R) (hk : a + k ≤ n) :
    blit (vk n h) a (vk k g) = .ok (vk n fun p => if a ≤ p ∧ p < a + k then g (p - a) else h p) := by
  rw [blit, if_pos (by simpa)]
  congr 1
  apply eq_vk (by simp; omega)
  intro p hp
  simp only [List.length_append, List.length_take, length_vk, List.length_drop] at hp
  by_cases c : p < a
  · rw [List.getElem_append_left (by simp; omega), List.getElem_append_left (by simp; omega), List.getElem_take,
      getElem_vk, if_neg (by omega)]
  · by_cases c' : p < a + k
    · rw [List.getElem_append_left (by simp; omega), List.getElem_append_right (by simp; omega), getElem_vk,
        if_pos (by omega)]
      congr 1; simp; omega
    · rw [List.getElem_append_right (by simp; omega), List.getElem_drop, getElem_vk, if_neg (by omega)]
      congr 1; simp; omega

theorem resize_vk {n : Nat} (h : Nat → R) (N : Nat) (hN : n ≤ N) (c : R) :
    resize (vk n h) N c = vk N fun p => if p < n then h p else c := by
  apply eq_vk (by simp [resize]; omega)
  intro p hp
  simp only [resize, length_vk]
  by_cases q : p < n
  · rw [List.getElem_append_left (by simp; omega), List.getElem_take, getElem_vk, if_pos q]
  · rw [List.getElem_append_right (by simp; omega), List.getElem_replicate, if_neg q]

theorem replicate_vk (n : Nat) (c : R) : List.replicate n c = vk n fun _ => c := by
  apply eq_vk (by simp)
  intro i hi; simp

theorem vk_succ (n : Nat) (g : Nat → R) : vk (n + 1) g = vk n g ++ [g n] := by
  simp [vk, List.range_succ]

theorem tab_ok {n : Nat} {f : Nat → Res R} (g : Nat → R) (h : ∀ i, i < n → f i = .ok (g i)) : tab n f = .ok (vk n g) := by
  refine forUp_ok (fun i => vk i g) rfl (by simp) ?_
  intro i _ hi
  simp only [h i (by omega), Res.ok_bind, Res.pure_eq, vk_succ]

theorem tab_eq {n : Nat} {f : Nat → Res R} {v : List R} (hl : v.length = n) (h : ∀ i (hi : i < v.length), f i = .ok v[i]) :
    tab n f = .ok v := by
  by_cases c : v = []
  · subst c; simp only [List.length_nil] at hl; subst hl; rfl
  · obtain ⟨d⟩ : Nonempty R := by
      cases v with
      | nil => exact absurd rfl c
      | cons x _ => exact ⟨x⟩
    rw [tab_ok (fun i => v.getD i d), ← eq_vk hl]
    · intro i hi; simp [hi]
    · intro i hi
      rw [h i (by omega)]; simp [hl, hi]

/-! ### tables -/

/-- the `m` by `n` matrix with entries `f i j` -/
def tb (m n : Nat) (f : Nat → Nat → R) : Mat R := ⟨m, n, vk (m * n) fun k => f (k / n) (k % n)⟩

@[simp] theorem rows_tb (m n : Nat) (f : Nat → Nat → R) : (tb m n f).rows = m := rfl
@[simp] theorem cols_tb (m n : Nat) (f : Nat → Nat → R) : (tb m n f).cols = n := rfl
theorem data_tb (m n : Nat) (f : Nat → Nat → R) : (tb m n f).data = vk (m * n) fun k => f (k / n) (k % n) := rfl

theorem idx_lt {m n i j : Nat} (hi : i < m) (hj : j < n) : i * n + j < m * n := by
  calc i * n + j < i * n + n := by omega
    _ = (i + 1) * n := by rw [Nat.add_mul]; omega
    _ ≤ m * n := Nat.mul_le_mul_right n hi

theorem idx_le {m n i j : Nat} (hi : i < m) (hj : j ≤ n) : i * n + j ≤ m * n := by
  calc i * n + j ≤ i * n + n := by omega
    _ = (i + 1) * n := by rw [Nat.add_mul]; omega
    _ ≤ m * n := Nat.mul_le_mul_right n hi

theorem idx_div {n i j : Nat} (hj : j < n) : (i * n + j) / n = i := by
  rw [Nat.mul_comm, Nat.mul_add_div (by omega), Nat.div_eq_of_lt hj, Nat.add_zero]

theorem idx_mod {n i j : Nat} (hj : j < n) : (i * n + j) % n = j := by
  rw [Nat.mul_comm, Nat.mul_add_mod, Nat.mod_eq_of_lt hj]

theorem idx_split {m n k : Nat} (h : k < m * n) : k / n < m ∧ k % n < n ∧ k / n * n + k % n = k := by
  have hn : 0 < n := by
    rcases Nat.eq_zero_or_pos n with c | c
    · subst c; simp at h
    · exact c
  exact ⟨by rw [Nat.div_lt_iff_lt_mul hn]; exact h, Nat.mod_lt _ hn, by rw [Nat.mul_comm]; exact Nat.div_add_mod k n⟩

theorem tb_congr {m n : Nat} {f g : Nat → Nat → R} (e : ∀ i j, i < m → j < n → f i j = g i j) : tb m n f = tb m n g := by
  rw [tb, tb]
  congr 1
  apply vk_congr
  intro k hk
  obtain ⟨h1, h2, _⟩ := idx_split hk
  exact e _ _ h1 h2

theorem tb_inj {m n : Nat} {f g : Nat → Nat → R} (e : tb m n f = tb m n g) {i j : Nat} (hi : i < m) (hj : j < n) :
    f i j = g i j := by
  have h : vk (m * n) (fun k => f (k / n) (k % n)) = vk (m * n) fun k => g (k / n) (k % n) := congrArg Mat.data e
  have := vk_inj h (idx_lt hi hj)
  simpa [idx_div hj, idx_mod hj] using this

theorem get_tb {m n : Nat} (f : Nat → Nat → R) {i j : Nat} (hi : i < m) (hj : j < n) : (tb m n f).get i j = .ok (f i j) := by
  show Vec.get (vk (m * n) _) (i * n + j) = _
  rw [get_vk _ (idx_lt hi hj), idx_div hj, idx_mod hj]

theorem set_tb {m n : Nat} (f : Nat → Nat → R) {i j : Nat} (hi : i < m) (hj : j < n) (x : R) :
    (tb m n f).set i j x = .ok (tb m n fun r c => if r = i ∧ c = j then x else f r c) := by
  have e : (tb m n f).set i j x = (Vec.put (vk (m * n) fun k => f (k / n) (k % n)) (i * n + j) x >>= fun d =>
    .ok ⟨m, n, d⟩) := rfl
  rw [e, put_vk _ (idx_lt hi hj), Res.ok_bind, tb]
  congr 2
  apply vk_congr
  intro k hk
  obtain ⟨h1, h2, h3⟩ := idx_split hk
  by_cases c : k = i * n + j
  · rw [if_pos c, if_pos ⟨by rw [c, idx_div hj], by rw [c, idx_mod hj]⟩]
  · rw [if_neg c, if_neg]
    rintro ⟨rfl, rfl⟩
    exact c h3.symm

theorem slice_tb {m n : Nat} (f : Nat → Nat → R) {i j l : Nat} (hi : i < m) (h1 : j ≤ l) (h2 : l ≤ n) :
    slice (tb m n f).data (i * n + j) (i * n + l) = .ok (vk (l - j) fun t => f i (j + t)) := by
  rw [data_tb, slice_vk _ (by omega) (idx_le hi h2)]
  congr 1
  rw [show i * n + l - (i * n + j) = l - j by omega]
  apply vk_congr
  intro t ht
  rw [Nat.add_assoc, idx_div (by omega), idx_mod (by omega)]

theorem blit_tb {m n : Nat} (f : Nat → Nat → R) {i j k : Nat} (g : Nat → R) (hi : i < m) (h : j + k ≤ n) :
    blit (tb m n f).data (i * n + j) (vk k g) =
      .ok (tb m n fun r c => if r = i ∧ j ≤ c ∧ c < j + k then g (c - j) else f r c).data := by
  rw [data_tb, blit_vk _ _ (by have := idx_le hi h; omega), data_tb]
  congr 1
  apply vk_congr
  intro p hp
  obtain ⟨h1, h2, h3⟩ := idx_split hp
  by_cases c : p / n = i ∧ j ≤ p % n ∧ p % n < j + k
  · obtain ⟨c1, c2, c3⟩ := c
    have e : p = i * n + p % n := by rw [c1] at h3; exact h3.symm
    rw [if_pos (show i * n + j ≤ p ∧ p < i * n + j + k by omega), if_pos ⟨c1, c2, c3⟩]
    congr 1; omega
  · rw [if_neg c, if_neg]
    rintro ⟨c1, c2⟩
    apply c
    have hlt : p - i * n < n := by omega
    have e : p = i * n + (p - i * n) := by omega
    rw [e, idx_div hlt, idx_mod hlt]
    omega

theorem filled_tb (m n : Nat) (c : R) : filled m n c = tb m n fun _ _ => c := by
  rw [filled, tb, replicate_vk]

theorem blank_tb [Zero R] (m n : Nat) : (blank m n : Mat R) = tb m n fun _ _ => 0 := filled_tb m n 0

/-! ### constructors and accessors -/

theorem identity_tb [CommRing R] (n : Nat) : (identity n : Res (Mat R)) = .ok (tb n n fun i j => if i = j then 1 else 0) := by
  refine forUp_ok (fun t => tb n n fun i j => if i = j ∧ i < t then 1 else 0) ?_ ?_ ?_
  · rw [filled_tb]; exact tb_congr fun i j _ _ => by simp
  · exact tb_congr fun i j h _ => by simp [h]
  · intro t _ ht
    rw [set_tb _ (by omega) (by omega)]
    congr 1
    apply tb_congr
    intro i j hi hj
    by_cases c : i = t ∧ j = t
    · obtain ⟨rfl, rfl⟩ := c; simp
    · rw [if_neg c]
      by_cases c' : i = j
      · subst c'
        have : i ≠ t := fun h => c ⟨h, h⟩
        simp only [true_and]
        by_cases c2 : i < t
        · rw [if_pos c2, if_pos (by omega)]
        · rw [if_neg c2, if_neg (by omega)]
      · rw [if_neg (by tauto), if_neg (by tauto)]

theorem rowMatrix_tb [CommRing R] (n : Nat) (g : Nat → R) : rowMatrix (vk n g) = .ok (tb 1 n fun _ j => g j) := by
  rw [rowMatrix, length_vk]
  refine forUp_ok (fun t => tb 1 n fun _ j => if j < t then g j else 0) ?_ ?_ ?_
  · rw [blank_tb]; exact tb_congr fun i j _ _ => by simp
  · exact tb_congr fun i j _ h => by simp [h]
  · intro t _ ht
    simp only [get_vk g (show t < n by omega), Res.ok_bind]
    rw [set_tb _ (by omega) (by omega)]
    congr 1
    apply tb_congr
    intro i j hi hj
    by_cases c : j = t
    · subst c; rw [if_pos ⟨by omega, rfl⟩, if_pos (by omega)]
    · rw [if_neg (by tauto)]
      by_cases c' : j < t
      · rw [if_pos c', if_pos (by omega)]
      · rw [if_neg c', if_neg (by omega)]

theorem columnMatrix_tb [CommRing R] (n : Nat) (g : Nat → R) : columnMatrix (vk n g) = .ok (tb n 1 fun i _ => g i) := by
  rw [columnMatrix, length_vk]
  refine forUp_ok (fun t => tb n 1 fun i _ => if i < t then g i else 0) ?_ ?_ ?_
  · rw [blank_tb]; exact tb_congr fun i j _ _ => by simp
  · exact tb_congr fun i j h _ => by simp [h]
  · intro t _ ht
    simp only [get_vk g (show t < n by omega), Res.ok_bind]
    rw [set_tb _ (by omega) (by omega)]
    congr 1
    apply tb_congr
    intro i j hi hj
    by_cases c : i = t
    · subst c; rw [if_pos ⟨rfl, by omega⟩, if_pos (by omega)]
    · rw [if_neg (by tauto)]
      by_cases c' : i < t
      · rw [if_pos c', if_pos (by omega)]
      · rw [if_neg c', if_neg (by omega)]

/-- running through part of a column, with body given by what it stores -/
theorem forCol_tb {m n : Nat} (f : Nat → Nat → R) (j : Nat) (hj : j < n) (off k : Nat) (hk : off + k ≤ m)
    (body : Nat → Mat R → Res (Mat R)) (x : Nat → R)
    (h : ∀ t, t < k → ∀ g : Nat → Nat → R, (∀ i c, i < m → c < n → ¬ (off ≤ i ∧ i < off + t ∧ c = j) → g i c = f i c) →
      body t (tb m n g) = .ok (tb m n fun i c => if i = off + t ∧ c = j then x t else g i c)) :
    forUp body k 0 (tb m n f) =
      .ok (tb m n fun i c => if c = j ∧ off ≤ i ∧ i < off + k then x (i - off) else f i c) := by
  refine forUp_ok (fun t => tb m n fun i c => if c = j ∧ off ≤ i ∧ i < off + t then x (i - off) else f i c) ?_ ?_ ?_
  · exact tb_congr fun i c _ _ => by rw [if_neg (by omega)]
  · simp
  · intro t _ ht
    rw [h t (by omega) _ (fun i c _ _ hne => by rw [if_neg (by omega)])]
    congr 1
    apply tb_congr
    intro i c hi hc
    by_cases e : i = off + t ∧ c = j
    · obtain ⟨e1, e2⟩ := e
      rw [if_pos ⟨e1, e2⟩, if_pos ⟨e2, by omega⟩]
      congr 1; omega
    · rw [if_neg e]
      by_cases e' : c = j ∧ off ≤ i ∧ i < off + t
      · rw [if_pos e', if_pos (by omega)]
      · rw [if_neg e', if_neg (by omega)]

/-- running through part of a row -/
theorem forRow_tb {m n : Nat} (f : Nat → Nat → R) (i : Nat) (hi : i < m) (off k : Nat) (hk : off + k ≤ n)
    (body : Nat → Mat R → Res (Mat R)) (x : Nat → R)
    (h : ∀ t, t < k → ∀ g : Nat → Nat → R, (∀ r c, r < m → c < n → ¬ (r = i ∧ off ≤ c ∧ c < off + t) → g r c = f r c) →
      body t (tb m n g) = .ok (tb m n fun r c => if r = i ∧ c = off + t then x t else g r c)) :
    forUp body k 0 (tb m n f) =
      .ok (tb m n fun r c => if r = i ∧ off ≤ c ∧ c < off + k then x (c - off) else f r c) := by
  refine forUp_ok (fun t => tb m n fun r c => if r = i ∧ off ≤ c ∧ c < off + t then x (c - off) else f r c) ?_ ?_ ?_
  · exact tb_congr fun r c _ _ => by rw [if_neg (by omega)]
  · simp
  · intro t _ ht
    rw [h t (by omega) _ (fun r c _ _ hne => by rw [if_neg (by omega)])]
    congr 1
    apply tb_congr
    intro r c hr hc
    by_cases e : r = i ∧ c = off + t
    · obtain ⟨e1, e2⟩ := e
      rw [if_pos ⟨e1, e2⟩, if_pos ⟨e1, by omega⟩]
      congr 1; omega
    · rw [if_neg e]
      by_cases e' : r = i ∧ off ≤ c ∧ c < off + t
      · rw [if_pos e', if_pos (by omega)]
      · rw [if_neg e', if_neg (by omega)]

theorem setColumn_tb (nd : Bool) {m n : Nat} (f : Nat → Nat → R) {j : Nat} (hj : j < n) (g : Nat → R) :
    setColumn nd (tb m n f) j (vk m g) = .ok (tb m n fun i c => if c = j then g i else f i c) := by
  rw [setColumn, Res.assertIn_bind nd (by simp), rows_tb, forCol_tb f j hj 0 m (by omega) _ g]
  · congr 1; apply tb_congr; intro i c hi _
    by_cases e : c = j
    · rw [if_pos (by omega), if_pos e, Nat.sub_zero]
    · rw [if_neg (by omega), if_neg e]
  · intro t ht g' _
    simp only [get_vk g ht, Res.ok_bind, set_tb g' ht hj, Nat.zero_add]

theorem ofColumns_tb [CommRing R] (nd : Bool) (m n : Nat) (b : Nat → Nat → R) :
    ofColumns nd (vk n fun j => vk m (b j)) m = .ok (tb m n fun i j => b j i) := by
  rw [ofColumns, length_vk]
  refine forUp_ok (fun t => tb m n fun i j => if j < t then b j i else 0) ?_ ?_ ?_
  · rw [blank_tb]; exact tb_congr fun i j _ _ => by simp
  · exact tb_congr fun i j _ h => by simp [h]
  · intro t _ ht
    rw [get_vk _ (show t < n by omega), Res.ok_bind, setColumn_tb nd _ (by omega)]
    congr 1
    apply tb_congr
    intro i j hi hj
    by_cases c : j = t
    · subst c; rw [if_pos rfl, if_pos (by omega)]
    · rw [if_neg c]
      by_cases c' : j < t
      · rw [if_pos c', if_pos (by omega)]
      · rw [if_neg c', if_neg (by omega)]

theorem ofColumnRange_tb [CommRing R] (m n : Nat) (b : Nat → Nat → R) (len : Nat → Nat) (hl : ∀ j, j < n → m ≤ len j) :
    ofColumnRange (vk n fun j => vk (len j) (b j)) m = .ok (tb m n fun i j => b j i) := by
  rw [ofColumnRange, length_vk]
  refine forUp_ok (fun t => tb m n fun i j => if j < t then b j i else 0) ?_ ?_ ?_
  · rw [blank_tb]; exact tb_congr fun i j _ _ => by simp
  · exact tb_congr fun i j _ h => by simp [h]
  · intro t _ ht
    rw [forCol_tb _ t (by omega) 0 m (by omega) _ (b t)]
    · congr 1; apply tb_congr; intro i j hi hj
      by_cases c : j = t
      · subst c; rw [if_pos (by omega), if_pos (by omega), Nat.sub_zero]
      · rw [if_neg (by tauto)]
        by_cases c' : j < t
        · rw [if_pos c', if_pos (by omega)]
        · rw [if_neg c', if_neg (by omega)]
    · intro s hs g' _
      have := hl t (by omega)
      simp only [get_vk _ (show t < n by omega), Res.ok_bind, get_vk (b t) (show s < len t by omega),
        set_tb g' hs (show t < n by omega), Nat.zero_add]

theorem row_tb {m n : Nat} (f : Nat → Nat → R) {i : Nat} (hi : i < m) : row (tb m n f) i = .ok (vk n (f i)) := by
  have := slice_tb f hi (Nat.zero_le n) le_rfl
  rw [row, cols_tb, show (i + 1) * n = i * n + n by rw [Nat.add_mul]; omega]
  simpa using this

theorem getRow_tb (nd : Bool) {m n : Nat} (f : Nat → Nat → R) {i : Nat} (hi : i < m) :
    getRow nd (tb m n f) i = .ok (vk n (f i)) := by
  rw [getRow, Res.assertIn_bind nd (decide_eq_true (show i < (tb m n f).rows from hi)), row_tb f hi]

theorem column_tb (nd : Bool) {m n : Nat} (f : Nat → Nat → R) {j : Nat} (hj : j < n) :
    column nd (tb m n f) j = .ok (vk m fun i => f i j) := by
  rw [column, Res.assertIn_bind nd (decide_eq_true (show j < (tb m n f).cols from hj)), rows_tb]
  exact tab_ok _ fun i hi => get_tb f hi hj

theorem allRows_tb (nd : Bool) {m n : Nat} (f : Nat → Nat → R) :
    allRows nd (tb m n f) = .ok (vk m fun i => vk n (f i)) := tab_ok _ fun i hi => getRow_tb nd f hi

theorem allColumns_tb (nd : Bool) {m n : Nat} (f : Nat → Nat → R) :
    allColumns nd (tb m n f) = .ok (vk n fun j => vk m fun i => f i j) := tab_ok _ fun j hj => column_tb nd f hj

theorem partialRow_tb {m n : Nat} (f : Nat → Nat → R) {i j l : Nat} (hi : i < m) (h1 : j ≤ l) (h2 : l ≤ n) :
    partialRow (tb m n f) i j l = .ok (vk (l - j) fun t => f i (j + t)) := slice_tb f hi h1 h2

theorem partialColumn_tb {m n : Nat} (f : Nat → Nat → R) {j i k : Nat} (hj : j < n) (h1 : i ≤ k) (h2 : k ≤ m) :
    partialColumn (tb m n f) j i k = .ok (vk (k - i) fun t => f (i + t) j) := by
  rw [partialColumn, if_neg (by omega)]
  exact tab_ok _ fun t ht => get_tb f (by omega) hj

theorem vecIsZero_iff [Zero R] [DecidableEq R] (l : List R) : vecIsZero l = true ↔ ∀ x ∈ l, x = 0 := by
  induction l with
  | nil => simp [vecIsZero]
  | cons x l ih =>
    rw [vecIsZero]
    by_cases c : x = 0
    · simp [c, ih]
    · simp [c]

theorem isZero_tb [Zero R] [DecidableEq R] {m n : Nat} (f : Nat → Nat → R) :
    isZero (tb m n f) = true ↔ ∀ i j, i < m → j < n → f i j = 0 := by
  rw [isZero, vecIsZero_iff, data_tb]
  constructor
  · intro h i j hi hj
    have := h (f i j) (by
      rw [List.mem_iff_getElem?]
      exact ⟨i * n + j, by rw [getElem?_vk, if_pos (idx_lt hi hj), idx_div hj, idx_mod hj]⟩)
    exact this
  · intro h x hx
    obtain ⟨k, hk, e⟩ := List.mem_iff_getElem.1 hx
    rw [getElem_vk] at e
    rw [length_vk] at hk
    obtain ⟨h1, h2, _⟩ := idx_split hk
    rw [← e]; exact h _ _ h1 h2

theorem eq_tb [DecidableEq R] {m n m' n' : Nat} (f g : Nat → Nat → R) :
    (tb m n f).eq (tb m' n' g) = true ↔ m = m' ∧ n = n' ∧ ∀ i j, i < m → j < n → f i j = g i j := by
  simp only [Mat.eq, Bool.and_eq_true, decide_eq_true_eq]
  show (m = m' ∧ n = n') ∧ _ ↔ _
  constructor
  · rintro ⟨⟨rfl, rfl⟩, h⟩
    refine ⟨rfl, rfl, fun i j hi hj => ?_⟩
    have := vk_inj h (idx_lt hi hj)
    simpa [idx_div hj, idx_mod hj] using this
  · rintro ⟨rfl, rfl, h⟩
    exact ⟨⟨rfl, rfl⟩, congrArg Mat.data (tb_congr h)⟩

theorem setRow_tb (nd : Bool) {m n : Nat} (f : Nat → Nat → R) {i : Nat} (hi : i < m) (g : Nat → R) :
    setRow nd (tb m n f) i (vk n g) = .ok (tb m n fun r c => if r = i then g c else f r c) := by
  rw [setRow, Res.assertIn_bind nd (by simp), cols_tb, slice_vk g (Nat.zero_le n) le_rfl, Res.ok_bind]
  have := blit_tb (n := n) f (j := 0) (k := n) (fun t => g (0 + t)) hi (by omega)
  rw [Nat.add_zero] at this
  rw [Nat.sub_zero, this, Res.ok_bind]
  refine congrArg Res.ok (tb_congr (f := fun r c => if r = i ∧ 0 ≤ c ∧ c < 0 + n then g (0 + (c - 0)) else f r c) ?_)
  intro r c hr hc
  by_cases e : r = i
  · rw [if_pos ⟨e, by omega⟩, if_pos e]; simp
  · rw [if_neg (by tauto), if_neg e]

theorem addRow_tb [CommRing R] (nd : Bool) {m n : Nat} (f : Nat → Nat → R) (g : Nat → R) (hs : (m + 1) * n < 2 ^ 32) :
    addRow nd (tb m n f) (vk n g) = .ok (tb (m + 1) n fun r c => if r = m then g c else f r c) := by
  rw [addRow, Res.assertIn_bind nd (by simp)]
  simp only [rows_tb, cols_tb, data_tb, Nat.mod_eq_of_lt hs]
  have hn : m * n ≤ (m + 1) * n := Nat.mul_le_mul_right n (by omega)
  rw [resize_vk _ _ hn, Nat.add_sub_cancel]
  have key : (vk ((m + 1) * n) fun p => if p < m * n then f (p / n) (p % n) else 0) =
      (tb (m + 1) n fun r c => if r < m then f r c else 0).data := by
    rw [data_tb]
    apply vk_congr
    intro p hp
    obtain ⟨h1, h2, h3⟩ := idx_split hp
    by_cases c : p / n < m
    · rw [if_pos (by rw [← h3]; exact idx_lt c h2), if_pos c]
    · rw [if_neg, if_neg c]
      have : m ≤ p / n := by omega
      have := Nat.mul_le_mul_right n this
      omega
  rw [key]
  have := blit_tb (m := m + 1) (n := n) (fun r c => if r < m then f r c else 0) (i := m) (j := 0) (k := n) g (by omega) (by omega)
  simp only [Nat.add_zero] at this
  rw [this, Res.ok_bind]
  refine congrArg Res.ok (tb_congr (f := fun r c => if r = m ∧ 0 ≤ c ∧ c < 0 + n then g (c - 0) else if r < m then f r c else 0) ?_)
  intro r c hr hc
  by_cases e : r = m
  · rw [if_pos ⟨e, by omega⟩, if_pos e]; simp
  · rw [if_neg (by tauto), if_neg e, if_pos (by omega)]

end Verif.Mat
