import Verif.Dynkin.Graph

/-! The first loop of the constructor of a diagram. -/

namespace Verif.Dynkin

/-- what the loop tests for one entry -/
def Cond (c : ℕ → ℕ → Int) (i j : ℕ) : Prop :=
  if i = j then c i j = 2 else -3 ≤ c i j ∧ c i j ≤ 0 ∧ (c i j ≠ 0 → c j i ≠ 0)

/-- neighbours -/
def Adj (c : ℕ → ℕ → Int) (i j : ℕ) : Prop := i ≠ j ∧ c i j ≠ 0

instance (c : ℕ → ℕ → Int) : DecidableRel (Adj c) := fun i j => by unfold Adj; infer_instance

theorem scanEntry_ok {c : ℕ → ℕ → Int} {i j : ℕ} (h : Cond c i j) (d : Diagram)
    (hj : j < d.star.length) :
    ∃ d', scanEntry c i j d = .ok d' ∧ d'.star.length = d.star.length ∧
      (∀ k, d'.nbrs k = d.nbrs k ++ if k = j ∧ Adj c i j then [i] else []) ∧
      d'.down = d.down ++ if i ≠ j ∧ c i j < -1 then [((i, j), -c i j)] else [] := by
  unfold Cond at h
  unfold scanEntry
  by_cases e : i = j
  · rw [if_pos e] at h
    rw [if_neg (by simpa using e), if_neg (by simpa using h)]
    refine ⟨d, rfl, rfl, ?_, ?_⟩
    · intro k; rw [if_neg (by rintro ⟨-, h1, -⟩; exact h1 e)]; simp
    · rw [if_neg (by rintro ⟨h1, -⟩; exact h1 e)]; simp
  · rw [if_neg e] at h
    obtain ⟨h1, h2, h3⟩ := h
    rw [if_pos e, if_neg (by omega), if_neg (by omega)]
    by_cases e0 : c i j = 0
    · rw [if_neg (by simpa using e0)]
      refine ⟨d, rfl, rfl, ?_, ?_⟩
      · intro k; rw [if_neg (by rintro ⟨-, -, h⟩; exact h e0)]; simp
      · rw [if_neg (by rintro ⟨-, h⟩; omega)]; simp
    · rw [if_pos e0, if_neg (h3 e0)]
      refine ⟨_, rfl, by simp, ?_, ?_⟩
      · intro k
        by_cases ek : k = j
        · subst ek
          rw [if_pos (show k = k ∧ Adj c i k from ⟨rfl, e, e0⟩)]
          simp [Diagram.nbrs, hj]
        · rw [if_neg (show ¬ (k = j ∧ Adj c i j) from fun h => ek h.1)]
          simp [Diagram.nbrs, Ne.symm ek]
      · dsimp only
        by_cases e1 : c i j < -1
        · rw [if_pos e1, if_pos ⟨e, e1⟩]
        · rw [if_neg e1, if_neg (fun h => e1 h.2)]; simp

theorem scanEntry_throw {c : ℕ → ℕ → Int} {i j : ℕ} (h : ¬ Cond c i j) (d : Diagram) :
    scanEntry c i j d = .throw := by
  unfold Cond at h
  unfold scanEntry
  by_cases e : i = j
  · rw [if_pos e] at h
    rw [if_neg (by simpa using e), if_pos h]
  · rw [if_neg e] at h
    rw [if_pos e]
    by_cases h1 : c i j < -3
    · rw [if_pos h1]
    · by_cases h2 : c i j > 0
      · rw [if_neg h1, if_pos h2]
      · rw [if_neg h1, if_neg h2]
        by_cases h3 : c i j = 0
        · exact absurd ⟨by omega, by omega, fun h => absurd h3 h⟩ h
        · rw [if_pos h3]
          by_cases h4 : c j i = 0
          · rw [if_pos h4]
          · exact absurd ⟨by omega, by omega, fun _ => h4⟩ h

/-- the multiple edges found in a row -/
def rowDown (c : ℕ → ℕ → Int) (i : ℕ) (js : List ℕ) : List ((ℕ × ℕ) × Int) :=
  js.flatMap fun j => if i ≠ j ∧ c i j < -1 then [((i, j), -c i j)] else []

theorem scanRow_ok {c : ℕ → ℕ → Int} {i : ℕ} : ∀ {js : List ℕ}, (∀ j ∈ js, Cond c i j) → js.Nodup →
    ∀ (d : Diagram), (∀ j ∈ js, j < d.star.length) →
    ∃ d', scanRow c i js d = .ok d' ∧ d'.star.length = d.star.length ∧
      (∀ k, d'.nbrs k = d.nbrs k ++ if k ∈ js ∧ Adj c i k then [i] else []) ∧
      d'.down = d.down ++ rowDown c i js := by
  intro js
  induction js with
  | nil => intro _ _ d _; exact ⟨d, rfl, rfl, by simp, by simp [rowDown]⟩
  | cons j js ih =>
    intro h hn d hd
    rw [List.nodup_cons] at hn
    obtain ⟨d1, a1, a2, a3, a4⟩ := scanEntry_ok (h j (by simp)) d (hd j (by simp))
    obtain ⟨d2, b1, b2, b3, b4⟩ := ih (fun k hk => h k (by simp [hk])) hn.2 d1
      (fun k hk => by rw [a2]; exact hd k (by simp [hk]))
    refine ⟨d2, by rw [scanRow, a1, Res.ok_bind, b1], by rw [b2, a2], ?_, ?_⟩
    · intro k
      rw [b3, a3]
      by_cases e : k = j
      · subst e
        rw [if_neg (show ¬ (k ∈ js ∧ Adj c i k) from fun h => hn.1 h.1)]
        by_cases e2 : Adj c i k <;> simp [e2]
      · by_cases e2 : Adj c i k <;> simp [e, e2]
    · rw [b4, a4]; simp [rowDown]

theorem scanRow_throw {c : ℕ → ℕ → Int} {i : ℕ} : ∀ {js : List ℕ}, (∃ j ∈ js, ¬ Cond c i j) → js.Nodup →
    ∀ (d : Diagram), (∀ j ∈ js, j < d.star.length) → scanRow c i js d = .throw := by
  intro js
  induction js with
  | nil => rintro ⟨j, h, -⟩; simp at h
  | cons j js ih =>
    intro h hn d hd
    rw [List.nodup_cons] at hn
    by_cases hj : Cond c i j
    · obtain ⟨d1, a1, a2, a3, a4⟩ := scanEntry_ok hj d (hd j (by simp))
      rw [scanRow, a1, Res.ok_bind]
      apply ih _ hn.2 d1 (fun k hk => by rw [a2]; exact hd k (by simp [hk]))
      obtain ⟨k, hk, hk'⟩ := h
      rcases List.mem_cons.1 hk with e | e
      · subst e; exact absurd hj hk'
      · exact ⟨k, e, hk'⟩
    · rw [scanRow, scanEntry_throw hj]; rfl

theorem scanRows_ok {c : ℕ → ℕ → Int} {cols : List ℕ} (hn : cols.Nodup) : ∀ {is : List ℕ},
    (∀ i ∈ is, ∀ j ∈ cols, Cond c i j) →
    ∀ (d : Diagram), (∀ j ∈ cols, j < d.star.length) →
    ∃ d', scanRows c cols is d = .ok d' ∧ d'.star.length = d.star.length ∧
      (∀ k ∈ cols, d'.nbrs k = d.nbrs k ++ is.filter (fun i => decide (Adj c i k))) ∧
      d'.down = d.down ++ is.flatMap (fun i => rowDown c i cols) := by
  intro is
  induction is with
  | nil => intro _ d _; exact ⟨d, rfl, rfl, by simp, by simp⟩
  | cons i is ih =>
    intro h d hd
    obtain ⟨d1, a1, a2, a3, a4⟩ := scanRow_ok (h i (by simp)) hn d hd
    obtain ⟨d2, b1, b2, b3, b4⟩ := ih (fun k hk => h k (by simp [hk])) d1
      (fun k hk => by rw [a2]; exact hd k hk)
    refine ⟨d2, by rw [scanRows, a1, Res.ok_bind, b1], by rw [b2, a2], ?_, ?_⟩
    · intro k hk
      rw [b3 k hk, a3]
      by_cases e2 : Adj c i k <;> simp [e2, hk]
    · rw [b4, a4]; simp

theorem scanRows_throw {c : ℕ → ℕ → Int} {cols : List ℕ} (hn : cols.Nodup) : ∀ {is : List ℕ},
    (∃ i ∈ is, ∃ j ∈ cols, ¬ Cond c i j) →
    ∀ (d : Diagram), (∀ j ∈ cols, j < d.star.length) → scanRows c cols is d = .throw := by
  intro is
  induction is with
  | nil => rintro ⟨j, h, -⟩; simp at h
  | cons i is ih =>
    intro h d hd
    by_cases hi : ∃ j ∈ cols, ¬ Cond c i j
    · rw [scanRows, scanRow_throw hi hn d hd]; rfl
    · push Not at hi
      obtain ⟨d1, a1, a2, a3, a4⟩ := scanRow_ok hi hn d hd
      rw [scanRows, a1, Res.ok_bind]
      apply ih _ d1 (fun k hk => by rw [a2]; exact hd k hk)
      obtain ⟨k, hk, hk'⟩ := h
      rcases List.mem_cons.1 hk with e | e
      · subst e; obtain ⟨j, hj, hj'⟩ := hk'; exact absurd (hi j hj) hj'
      · exact ⟨k, e, hk'⟩

/-- the tests of the first loop, for a matrix of size `n` -/
def Pre (n : ℕ) (c : ℕ → ℕ → Int) : Prop := ∀ i < n, ∀ j < n, Cond c i j

/-- the diagram represents the matrix -/
structure Good (n : ℕ) (c : ℕ → ℕ → Int) (d : Diagram) : Prop where
  pre : Pre n c
  len : d.star.length = n
  nbrs : ∀ k < n, d.nbrs k = (List.range n).filter (fun i => decide (Adj c i k))
  down : d.down = (List.range n).flatMap (fun i => rowDown c i (List.range n))

theorem scan_ok {n : ℕ} {c : ℕ → ℕ → Int} (h : Pre n c) :
    ∃ d, scanRows c (List.range n) (List.range n) ⟨List.replicate n [], []⟩ = .ok d ∧ Good n c d := by
  obtain ⟨d, a1, a2, a3, a4⟩ := scanRows_ok (c := c) (List.nodup_range (n := n)) (is := List.range n)
    (fun i hi j hj => h i (List.mem_range.1 hi) j (List.mem_range.1 hj)) ⟨List.replicate n [], []⟩
    (by simp)
  refine ⟨d, a1, h, by simpa using a2, ?_, by simpa using a4⟩
  intro k hk
  rw [a3 k (List.mem_range.2 hk)]
  simp [Diagram.nbrs, hk]

theorem scan_throw {n : ℕ} {c : ℕ → ℕ → Int} (h : ¬ Pre n c) :
    scanRows c (List.range n) (List.range n) ⟨List.replicate n [], []⟩ = .throw := by
  apply scanRows_throw List.nodup_range _ _ (by simp)
  unfold Pre at h
  push Not at h
  obtain ⟨i, hi, j, hj, h⟩ := h
  exact ⟨i, List.mem_range.2 hi, j, List.mem_range.2 hj, h⟩

/-- neighbours among the rows of the matrix -/
def AdjN (n : ℕ) (c : ℕ → ℕ → Int) (i j : ℕ) : Prop := i < n ∧ j < n ∧ Adj c i j

theorem AdjN.symm {n : ℕ} {c : ℕ → ℕ → Int} (h : Pre n c) {i j : ℕ} (hij : AdjN n c i j) :
    AdjN n c j i := by
  obtain ⟨hi, hj, hne, h0⟩ := hij
  have := h i hi j hj
  unfold Cond at this
  rw [if_neg hne] at this
  exact ⟨hj, hi, Ne.symm hne, this.2.2 h0⟩

theorem AdjN.irr {n : ℕ} {c : ℕ → ℕ → Int} (i : ℕ) : ¬ AdjN n c i i := fun h => h.2.2.1 rfl

theorem Good.mem_nbrs {n : ℕ} {c : ℕ → ℕ → Int} {d : Diagram} (h : Good n c d) (x y : ℕ) :
    y ∈ d.nbrs x ↔ AdjN n c x y := by
  by_cases hx : x < n
  · rw [h.nbrs x hx, List.mem_filter, List.mem_range, decide_eq_true_eq]
    constructor
    · rintro ⟨hy, ha⟩; exact AdjN.symm h.pre ⟨hy, hx, ha⟩
    · intro ha; have := AdjN.symm h.pre ha; exact ⟨this.1, this.2.2⟩
  · have : d.nbrs x = [] := by
      rw [Diagram.nbrs, List.getD, List.getElem?_eq_none (by rw [h.len]; omega)]; rfl
    rw [this]
    constructor
    · intro h; simp at h
    · intro ha; exact absurd ha.1 hx

theorem Good.nodup_nbrs {n : ℕ} {c : ℕ → ℕ → Int} {d : Diagram} (h : Good n c d) (x : ℕ) :
    (d.nbrs x).Nodup := by
  by_cases hx : x < n
  · rw [h.nbrs x hx]; exact List.nodup_range.filter _
  · have : d.nbrs x = [] := by
      rw [Diagram.nbrs, List.getD, List.getElem?_eq_none (by rw [h.len]; omega)]; rfl
    rw [this]; simp

theorem Good.mem_down {n : ℕ} {c : ℕ → ℕ → Int} {d : Diagram} (h : Good n c d) {i j : ℕ} {m : Int} :
    ((i, j), m) ∈ d.down ↔ i < n ∧ j < n ∧ i ≠ j ∧ c i j < -1 ∧ m = -c i j := by
  rw [h.down, List.mem_flatMap]
  simp only [rowDown, List.mem_flatMap, List.mem_range]
  constructor
  · rintro ⟨a, ha, b, hb, h⟩
    by_cases e : a ≠ b ∧ c a b < -1
    · rw [if_pos e] at h
      simp at h
      obtain ⟨⟨rfl, rfl⟩, rfl⟩ := h
      exact ⟨ha, hb, e.1, e.2, rfl⟩
    · rw [if_neg e] at h; simp at h
  · rintro ⟨hi, hj, hne, hlt, rfl⟩
    exact ⟨i, hi, j, hj, by rw [if_pos ⟨hne, hlt⟩]; simp⟩

theorem Good.down_nodup {n : ℕ} {c : ℕ → ℕ → Int} {d : Diagram} (h : Good n c d) :
    d.down.Nodup := by
  rw [h.down, List.nodup_flatMap]
  constructor
  · intro i _
    rw [rowDown, List.nodup_flatMap]
    constructor
    · intro j _
      by_cases e : i ≠ j ∧ c i j < -1
      · rw [if_pos e]; simp
      · rw [if_neg e]; simp
    · refine List.Pairwise.imp ?_ (List.nodup_range (n := n))
      intro a b hab
      show List.Disjoint _ _
      intro x hx hy
      dsimp only at hx hy
      by_cases e : i ≠ a ∧ c i a < -1
      · by_cases e' : i ≠ b ∧ c i b < -1
        · rw [if_pos e] at hx; rw [if_pos e'] at hy
          simp at hx hy
          rw [hx] at hy; simp at hy; exact hab hy.1
        · rw [if_neg e'] at hy; simp at hy
      · rw [if_neg e] at hx; simp at hx
  · refine List.Pairwise.imp ?_ (List.nodup_range (n := n))
    intro a b hab
    show List.Disjoint _ _
    intro x hx hy
    have key : ∀ a, x ∈ rowDown c a (List.range n) → x.1.1 = a := by
      intro a hx
      rw [rowDown, List.mem_flatMap] at hx
      obtain ⟨j, _, h⟩ := hx
      by_cases e : a ≠ j ∧ c a j < -1
      · rw [if_pos e] at h; simp at h; rw [h]
      · rw [if_neg e] at h; simp at h
    exact hab ((key a hx).symm.trans (key b hy))

end Verif.Dynkin
