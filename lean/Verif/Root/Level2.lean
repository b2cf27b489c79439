import Verif.Root.Level
/-
Bounds for the levels of roots, continued: type D, exceptional types, all diagrams.
-/
namespace Verif.Root
open Verif.Coxeter CoxeterSystem

theorem closed_D {n : Nat} {K : Nat → Nat → ℤ} (h : CompCartan .D n K) : ∃ P, Closed n K P := by
  have hn : 4 ≤ n := h.ok
  obtain ⟨m, rfl⟩ : ∃ m, n = m + 4 := ⟨n - 4, by omega⟩
  obtain ⟨adj, hadj⟩ : ∃ adj : Nat → Nat → Prop, ∀ i j, adj i j ↔ (i + 1 = j ∧ j < m + 3) ∨ (j + 1 = i ∧ i < m + 3) ∨ (i = m + 1 ∧ j = m + 3) ∨ (j = m + 1 ∧ i = m + 3) := ⟨_, fun _ _ => Iff.rfl⟩
  have hb : ∀ i < m + 4, ∀ j < m + 4, i ≠ j → (adj i j → Weyl.bond .D (m + 4) i j = 1) ∧ (¬ adj i j → Weyl.bond .D (m + 4) i j = 0) := by
    intro i hi j hj hij
    rw [hadj]
    simp only [Weyl.bond, Weyl.bondLt]
    constructor
    · intro h1
      split <;> split <;> (try split) <;> omega
    · intro h1
      split <;> split <;> (try split) <;> omega
  have hK1 : ∀ i < m + 4, ∀ j < m + 4, i ≠ j → adj i j → K i j = -1 := by
    intro i hi j hj hij ha
    have e := (hb i hi j hj hij).1 ha
    rw [h.single hi hj hij (by omega), e]
    rfl
  have hK0 : ∀ i < m + 4, ∀ j < m + 4, i ≠ j → ¬ adj i j → K i j = 0 := by
    intro i hi j hj hij ha
    have e := (hb i hi j hj hij).2 ha
    rw [h.single hi hj hij (by omega), e]
    rfl
  obtain ⟨tr, tr1, tr2, tr3⟩ : ∃ tr : (Nat → ℤ) → Nat → ℤ, (∀ x, tr x (m + 3) = 2 * x (m + 3)) ∧ (∀ x, tr x (m + 2) = x (m + 2) + x (m + 3)) ∧ ∀ x k, k < m + 2 → tr x k = x k :=
    ⟨fun x k => if k = m + 3 then 2 * x k else if k = m + 2 then x (m + 2) + x (m + 3) else x k, fun x => if_pos rfl, fun x => by
      beta_reduce; rw [if_neg (by omega), if_pos rfl], fun x k hk => by beta_reduce; rw [if_neg (by omega), if_neg (by omega)]⟩
  refine ⟨fun x => L1 (m + 4) (tr x) ≤ 2, ?_, ?_, ?_, ?_⟩
  · intro i hi
    by_cases hi3 : i = m + 3
    · subst hi3
      refine L1_le (i := m + 2) _ fun k hk => ?_
      by_cases h1 : k < m + 2
      · rw [if_neg (by omega), if_neg (by omega)]
        cases k with
        | zero => rw [dif_zero, tr3 _ 0 (by omega), if_neg (by omega)]; simp
        | succ k => rw [dif_succ, tr3 _ _ h1, tr3 _ k (by omega), if_neg (by omega), if_neg (by omega)]; simp
      · have : k = m + 2 ∨ k = m + 3 := by omega
        rcases this with rfl | rfl
        · rw [if_pos rfl, if_neg (by omega), dif_succ, tr2, tr3 _ _ (by omega), if_neg (by omega), if_pos rfl, if_neg (by omega)]; simp
        · rw [if_neg (by omega), if_pos rfl, dif_succ, tr2, tr1, if_pos rfl, if_neg (by omega)]; simp
    · refine L1_simple _ i _ fun k hk => ?_
      by_cases h1 : k < m + 2
      · rw [tr3 _ _ h1]
      · have : k = m + 2 ∨ k = m + 3 := by omega
        rcases this with rfl | rfl
        · rw [tr2, if_neg (Ne.symm hi3), add_zero]
        · rw [tr1, if_neg (Ne.symm hi3), mul_zero]
  · intro x hx i hi
    by_cases h0 : i ≤ m
    · rw [L1_step (i := i) (by omega) (tr x) _ fun k hk hki => ?_]
      · exact hx
      · rw [tr3 _ i (by omega), tr3 _ i (by omega), tr3 _ (i + 1) (by omega), crefl_self, sum_tri hi x K (fun j hj h3 h4 h5 => hK0 j hj i hi h3 (by rw [hadj]; omega)), h.diag _ hi,
          if_pos (show i + 1 < m + 4 by omega), hK1 (i + 1) (by omega) i hi (by omega) (by rw [hadj]; omega)]
        by_cases h7 : i = 0
        · rw [if_pos h7, if_pos h7]; ring
        · rw [if_neg h7, if_neg h7, hK1 (i - 1) (by omega) i hi (by omega) (by rw [hadj]; omega), tr3 _ (i - 1) (by omega)]; ring
      · by_cases h1 : k < m + 2
        · rw [tr3 _ _ h1, tr3 _ _ h1, crefl_ne x hki]
        · have : k = m + 2 ∨ k = m + 3 := by omega
          rcases this with rfl | rfl
          · rw [tr2, tr2, crefl_ne x (by omega), crefl_ne x (by omega)]
          · rw [tr1, tr1, crefl_ne x (by omega)]
    · have : i = m + 1 ∨ i = m + 2 ∨ i = m + 3 := by omega
      rcases this with rfl | rfl | rfl
      · have hsum : ∑ j ∈ Finset.range (m + 4), x j * K j (m + 1) = -x m + 2 * x (m + 1) - x (m + 2) - x (m + 3) := by
          rw [sum_few _ {m, m + 1, m + 2, m + 3} (by simp) (fun j hj hjS => by
            simp at hjS
            rw [hK0 j hj (m + 1) hi (by omega) (by rw [hadj]; omega), mul_zero]), Finset.sum_insert (by simp), Finset.sum_insert (by simp), Finset.sum_pair (by omega),
            h.diag _ hi, hK1 m (by omega) _ hi (by omega) (by rw [hadj]; omega), hK1 (m + 2) (by omega) _ hi (by omega) (by rw [hadj]; omega),
            hK1 (m + 3) (by omega) _ hi (by omega) (by rw [hadj]; omega)]
          ring
        rw [L1_step (i := m + 1) (by omega) (tr x) _ fun k hk hki => ?_]
        · exact hx
        · rw [tr3 _ (m + 1) (by omega), tr3 x (m + 1) (by omega), tr2, if_neg (Nat.succ_ne_zero m), Nat.add_sub_cancel, tr3 _ m (by omega), crefl_self, hsum]
          ring
        · by_cases h1 : k < m + 2
          · rw [tr3 _ _ h1, tr3 _ _ h1, crefl_ne x hki]
          · have : k = m + 2 ∨ k = m + 3 := by omega
            rcases this with rfl | rfl
            · rw [tr2, tr2, crefl_ne x (by omega), crefl_ne x (by omega)]
            · rw [tr1, tr1, crefl_ne x (by omega)]
      · have hsum : ∑ j ∈ Finset.range (m + 4), x j * K j (m + 2) = -x (m + 1) + 2 * x (m + 2) := by
          rw [sum_few _ {m + 1, m + 2} (by simp) (fun j hj hjS => by
            simp at hjS
            rw [hK0 j hj (m + 2) hi (by omega) (by rw [hadj]; omega), mul_zero]), Finset.sum_pair (by omega),
            h.diag _ hi, hK1 (m + 1) (by omega) _ hi (by omega) (by rw [hadj]; omega)]
          ring
        rw [L1_step (i := m + 2) (by omega) (tr x) _ fun k hk hki => ?_]
        · exact hx
        · rw [tr2, tr2, tr1, if_neg (Nat.succ_ne_zero (m + 1)), show m + 2 - 1 = m + 1 from rfl, tr3 _ _ (by omega), crefl_self, crefl_ne x (by omega), hsum]
          ring
        · by_cases h1 : k < m + 2
          · rw [tr3 _ _ h1, tr3 _ _ h1, crefl_ne x hki]
          · have : k = m + 3 := by omega
            subst this
            rw [tr1, tr1, crefl_ne x (by omega)]
      · have hsum : ∑ j ∈ Finset.range (m + 4), x j * K j (m + 3) = -x (m + 1) + 2 * x (m + 3) := by
          rw [sum_few _ {m + 1, m + 3} (by simp) (fun j hj hjS => by
            simp at hjS
            rw [hK0 j hj (m + 3) hi (by omega) (by rw [hadj]; omega), mul_zero]), Finset.sum_pair (by omega),
            h.diag _ hi, hK1 (m + 1) (by omega) _ hi (by omega) (by rw [hadj]; omega)]
          ring
        have key : L1 (m + 4) (tr (crefl (m + 4) K (m + 3) x)) = L1 (m + 4) (tr x) := by
          refine sum_swap (i := m + 2) (by omega) ?_ ?_ ?_
          · intro k hk h1 h2
            have hk2 : k < m + 2 := by omega
            cases k with
            | zero => rw [dif_zero, dif_zero, tr3 _ 0 hk2, tr3 _ 0 hk2, crefl_ne x (by omega)]
            | succ k => rw [dif_succ, dif_succ, tr3 _ _ hk2, tr3 _ _ hk2, tr3 _ k (by omega), tr3 _ k (by omega), crefl_ne x (by omega), crefl_ne x (by omega)]
          · rw [dif_succ, dif_succ, tr2, tr2, tr1, tr3 _ _ (by omega), crefl_self, crefl_ne x (by omega), crefl_ne x (by omega), hsum, ← abs_neg]
            congr 1
            ring
          · rw [dif_succ, dif_succ, tr2, tr2, tr1, tr3 _ _ (by omega), crefl_self, crefl_ne x (by omega), hsum, ← abs_neg]
            congr 1
            ring
        rw [key]
        exact hx
  · intro x hx
    have h1 : ∑ j ∈ Finset.range (m + 2), x j ≤ ∑ j ∈ Finset.range (m + 2), (2 : ℤ) := by
      refine Finset.sum_le_sum fun k hk => ?_
      rw [Finset.mem_range] at hk
      have := le_of_L1 hx (k := k) (by omega)
      rwa [tr3 _ _ hk] at this
    have h2 := le_of_L1 hx (k := m + 2) (by omega)
    rw [tr2] at h2
    rw [Finset.sum_const, Finset.card_range, nsmul_eq_mul] at h1
    rw [Finset.sum_range_succ, Finset.sum_range_succ]
    push_cast at h1 ⊢
    omega
  · intro x hx k hk
    have h1 := abs_le_of_L1 hx hk
    have h2 := abs_le_of_L1 hx (k := m + 2) (by omega)
    have h3 := abs_le_of_L1 hx (k := m + 3) (by omega)
    rw [tr2] at h2
    rw [tr1] at h3
    rw [abs_le] at h1 h2 h3 ⊢
    by_cases h4 : k < m + 2
    · rw [tr3 _ _ h4] at h1
      omega
    · have : k = m + 2 ∨ k = m + 3 := by omega
      rcases this with rfl | rfl <;> omega

/-! ### exceptional types: tables of positive roots -/

/-- simple reflection on lists -/
def lrefl (n : Nat) (K : Nat → Nat → ℤ) (i : Nat) (l : List ℤ) : List ℤ := l.set i (l.getD i 0 - ((List.range n).map fun j => l.getD j 0 * K j i).sum)

def lsimple (n i : Nat) : List ℤ := (List.range n).map fun k => if k = i then 1 else 0

/-- roots of successive levels -/
def raise (n : Nat) (K : Nat → Nat → ℤ) (l : List ℤ) : List (List ℤ) := ((List.range n).map fun i => lrefl n K i l).filter fun l' => decide (l.sum < l'.sum)

def addNew : List (List ℤ) → List (List ℤ) → List (List ℤ)
  | [], acc => acc
  | l :: ls, acc => if acc.contains l then addNew ls acc else addNew ls (acc ++ [l])

/-- table of the positive roots; entry number `k` is treated -/
def table (n : Nat) (K : Nat → Nat → ℤ) : Nat → Nat → List (List ℤ) → List (List ℤ)
  | 0, _, acc => acc
  | f + 1, k, acc => match acc[k]? with
    | none => acc
    | some l => table n K f (k + 1) (addNew (raise n K l) acc)

def check (n : Nat) (K : Nat → Nat → ℤ) (T : List (List ℤ)) : Bool :=
  ((List.range n).all fun i => T.contains (lsimple n i)) &&
  T.all fun l => (List.range n).all (fun i => (l == lsimple n i) || T.contains (lrefl n K i l)) && decide (0 ≤ l.sum ∧ l.sum ≤ 4 * n - 2) && l.all fun a => decide (|a| ≤ 6)

theorem closed_table {n : Nat} (hn : 1 ≤ n) {K : Nat → Nat → ℤ} (hd : ∀ i < n, K i i = 2) {T : List (List ℤ)} (hc : check n K T = true) : ∃ P, Closed n K P := by
  have tabGet : ∀ (x : Nat → ℤ) k, k < n → ((List.range n).map x).getD k 0 = x k := by
    intro x k hk
    simp [List.getD, List.getElem?_map, List.getElem?_range hk]
  have hrefl : ∀ (x : Nat → ℤ) i, i < n → (List.range n).map (crefl n K i x) = lrefl n K i ((List.range n).map x) := by
    intro x i hi
    rw [lrefl, tabGet x i hi]
    have e : ((List.range n).map fun j => ((List.range n).map x).getD j 0 * K j i).sum = ∑ j ∈ Finset.range n, x j * K j i := by
      rw [Finset.sum_range, ← List.sum_ofFn]
      congr 1
      apply List.ext_getElem
      · simp
      · intro k h1 h2
        rw [List.length_map, List.length_range] at h1
        rw [List.getElem_map, List.getElem_range, List.getElem_ofFn, tabGet x k h1]
    rw [e]
    apply List.ext_getElem
    · simp
    · intro k h1 h2
      rw [List.getElem_set]
      simp only [List.getElem_map, List.getElem_range]
      by_cases hk : i = k
      · subst hk; rw [if_pos rfl, crefl_self]
      · rw [if_neg hk, crefl_ne x (Ne.symm hk)]
  have hsum : ∀ x : Nat → ℤ, ((List.range n).map x).sum = ∑ j ∈ Finset.range n, x j := by
    intro x
    rw [Finset.sum_range, ← List.sum_ofFn]
    congr 1
    apply List.ext_getElem <;> simp
  have hneg : ∀ (x : Nat → ℤ) i, crefl n K i (fun k => -x k) = fun k => -crefl n K i x k := by
    intro x i
    funext k
    by_cases hk : k = i
    · subst hk
      rw [crefl_self, crefl_self]
      simp only [neg_mul, Finset.sum_neg_distrib]
      ring
    · rw [crefl_ne _ hk, crefl_ne _ hk]
  simp only [check, Bool.and_eq_true, List.all_eq_true, List.mem_range, Bool.or_eq_true, beq_iff_eq, decide_eq_true_eq, List.contains_iff_mem] at hc
  obtain ⟨hc1, hc2⟩ := hc
  -- reflections of positive roots
  have hstep : ∀ (x : Nat → ℤ) i, i < n → (List.range n).map x ∈ T → (List.range n).map (crefl n K i x) ∈ T ∨ (List.range n).map (fun k => -crefl n K i x k) ∈ T := by
    intro x i hi hx
    rcases (hc2 _ hx).1.1 i hi with e | e
    · right
      have hx' : ∀ k < n, x k = if k = i then 1 else 0 := by
        intro k hk
        have := congrArg (fun l => l.getD k 0) e
        rwa [tabGet x k hk, lsimple, tabGet _ k hk] at this
      have : (List.range n).map (fun k => -crefl n K i x k) = lsimple n i := by
        apply List.map_congr_left
        intro k hk
        rw [List.mem_range] at hk
        by_cases hki : k = i
        · subst hki
          have es : ∑ j ∈ Finset.range n, x j * K j k = 2 := by
            rw [Finset.sum_eq_single k]
            · rw [hx' k hk, if_pos rfl, hd k hk, one_mul]
            · intro j hj hjk
              rw [hx' j (Finset.mem_range.mp hj), if_neg hjk, zero_mul]
            · intro hh
              exact absurd (Finset.mem_range.mpr hk) hh
          rw [if_pos rfl, crefl_self, es, hx' k hk, if_pos rfl]
          rfl
        · rw [if_neg hki, crefl_ne x hki, hx' k hk, if_neg hki, neg_zero]
      rw [this]
      exact hc1 i hi
    · left
      rwa [hrefl x i hi]
  refine ⟨fun x => (List.range n).map x ∈ T ∨ (List.range n).map (fun k => -x k) ∈ T, ?_, ?_, ?_, ?_⟩
  · intro i hi
    exact .inl (hc1 i hi)
  · rintro x (hx | hx) i hi
    · exact hstep x i hi hx
    · have := hstep _ i hi hx
      rw [hneg] at this
      simp only [neg_neg] at this
      exact this.symm
  · rintro x (hx | hx)
    · rw [← hsum]
      exact (hc2 _ hx).1.2.2
    · have := (hc2 _ hx).1.2.1
      rw [hsum, Finset.sum_neg_distrib] at this
      omega
  · rintro x (hx | hx) j hj
    · exact (hc2 _ hx).2 _ (List.mem_map.mpr ⟨j, List.mem_range.mpr hj, rfl⟩)
    · have := (hc2 _ hx).2 _ (List.mem_map.mpr ⟨j, List.mem_range.mpr hj, rfl⟩)
      rwa [abs_neg] at this

/-- matrices of the exceptional types -/
def exMat (ty : Weyl.Ty) (n : Nat) (a b : ℤ) (i j : Nat) : ℤ :=
  if i = j then 2 else if Weyl.bond ty n i j ≤ 1 then -(Weyl.bond ty n i j : ℤ) else if i < j then a else b

def exTable (ty : Weyl.Ty) (n : Nat) (a b : ℤ) : List (List ℤ) := table n (exMat ty n a b) 130 0 ((List.range n).map (lsimple n))

theorem check_E6 : check 6 (exMat .E 6 0 0) (exTable .E 6 0 0) = true := by decide +kernel
theorem check_E7 : check 7 (exMat .E 7 0 0) (exTable .E 7 0 0) = true := by decide +kernel
theorem check_E8 : check 8 (exMat .E 8 0 0) (exTable .E 8 0 0) = true := by decide +kernel
theorem check_F4 : check 4 (exMat .F 4 (-1) (-2)) (exTable .F 4 (-1) (-2)) = true := by decide +kernel
theorem check_F4' : check 4 (exMat .F 4 (-2) (-1)) (exTable .F 4 (-2) (-1)) = true := by decide +kernel
theorem check_G2 : check 2 (exMat .G 2 (-1) (-3)) (exTable .G 2 (-1) (-3)) = true := by decide +kernel
theorem check_G2' : check 2 (exMat .G 2 (-3) (-1)) (exTable .G 2 (-3) (-1)) = true := by decide +kernel

theorem Closed.congr {n : Nat} {K K' : Nat → Nat → ℤ} (h : ∀ i < n, ∀ j < n, K i j = K' i j) {P : (Nat → ℤ) → Prop} (hc : Closed n K' P) : Closed n K P := by
  refine ⟨hc.simple, fun x hx i hi => ?_, hc.bound, hc.coef⟩
  have : crefl n K i x = crefl n K' i x := by
    unfold crefl
    congr 2
    exact Finset.sum_congr rfl fun j hj => by rw [h j (Finset.mem_range.mp hj) i hi]
  rw [this]
  exact hc.refl x hx i hi

theorem CompCartan.exMat {ty : Weyl.Ty} {n : Nat} {K : Nat → Nat → ℤ} (h : CompCartan ty n K) {a b : ℤ}
    (hab : ∀ i j, i < j → j < n → 1 < Weyl.bond ty n i j → K i j = a ∧ K j i = b) : ∀ i < n, ∀ j < n, K i j = exMat ty n a b i j := by
  intro i hi j hj
  unfold Root.exMat
  by_cases hij : i = j
  · subst hij; rw [if_pos rfl, h.diag i hi]
  · rw [if_neg hij]
    by_cases hb : Weyl.bond ty n i j ≤ 1
    · rw [if_pos hb, h.single hi hj hij hb]
    · rw [if_neg hb]
      by_cases hlt : i < j
      · rw [if_pos hlt, (hab i j hlt hj (by omega)).1]
      · rw [if_neg hlt, (hab j i (by omega) hi (by rw [bond_comm]; omega)).2]

theorem exMat_diag (ty : Weyl.Ty) (n : Nat) (a b : ℤ) : ∀ i < n, exMat ty n a b i i = 2 := fun i _ => if_pos rfl

theorem closed_exists {ty : Weyl.Ty} {n : Nat} {K : Nat → Nat → ℤ} (h : CompCartan ty n K) : ∃ P, Closed n K P := by
  have conv : ∀ {K'}, (∀ i < n, ∀ j < n, K i j = K' i j) → (∃ P, Closed n K' P) → ∃ P, Closed n K P := by
    rintro K' e ⟨P, hP⟩
    exact ⟨P, hP.congr e⟩
  cases ty with
  | A => exact ⟨_, closed_A h⟩
  | B => exact closed_BC (.inl rfl) h
  | C => exact closed_BC (.inr rfl) h
  | D => exact closed_D h
  | E =>
    have hb : ∀ i j, Weyl.bond .E n i j ≤ 1 := by
      intro i j
      simp only [Weyl.bond, Weyl.bondLt]
      split <;> split <;> omega
    have hok : 6 ≤ n ∧ n ≤ 8 := h.ok
    refine conv (h.exMat (a := 0) (b := 0) fun i j _ _ h1 => absurd (hb i j) (by omega)) ?_
    have : n = 6 ∨ n = 7 ∨ n = 8 := by omega
    rcases this with rfl | rfl | rfl
    · exact closed_table (by omega) (exMat_diag _ _ _ _) check_E6
    · exact closed_table (by omega) (exMat_diag _ _ _ _) check_E7
    · exact closed_table (by omega) (exMat_diag _ _ _ _) check_E8
  | F =>
    obtain rfl : n = 4 := h.ok
    have hb : ∀ i j, i < j → j < 4 → 1 < Weyl.bond .F 4 i j → i = 1 ∧ j = 2 := by
      intro i j hij _ hb
      simp only [Weyl.bond, Weyl.bondLt] at hb
      rw [if_pos hij] at hb
      by_cases h1 : j = i + 1
      · rw [if_pos h1] at hb
        by_cases h2 : i = 1
        · omega
        · rw [if_neg h2] at hb; omega
      · rw [if_neg h1] at hb; omega
    rcases h.double (i := 1) (j := 2) (by omega) (by omega) (by omega) rfl with ⟨e1, e2⟩ | ⟨e1, e2⟩
    · refine conv (h.exMat (a := -1) (b := -2) fun i j hij hj h1 => ?_) (closed_table (by omega) (exMat_diag _ _ _ _) check_F4)
      obtain ⟨rfl, rfl⟩ := hb i j hij hj h1
      exact ⟨e1, e2⟩
    · refine conv (h.exMat (a := -2) (b := -1) fun i j hij hj h1 => ?_) (closed_table (by omega) (exMat_diag _ _ _ _) check_F4')
      obtain ⟨rfl, rfl⟩ := hb i j hij hj h1
      exact ⟨e1, e2⟩
  | G =>
    obtain rfl : n = 2 := h.ok
    rcases h.triple (i := 0) (j := 1) (by omega) (by omega) (by omega) rfl with ⟨e1, e2⟩ | ⟨e1, e2⟩
    · refine conv (h.exMat (a := -1) (b := -3) fun i j hij hj h1 => ?_) (closed_table (by omega) (exMat_diag _ _ _ _) check_G2)
      obtain ⟨rfl, rfl⟩ : i = 0 ∧ j = 1 := by omega
      exact ⟨e1, e2⟩
    · refine conv (h.exMat (a := -3) (b := -1) fun i j hij hj h1 => ?_) (closed_table (by omega) (exMat_diag _ _ _ _) check_G2')
      obtain ⟨rfl, rfl⟩ : i = 0 ∧ j = 1 := by omega
      exact ⟨e1, e2⟩

end Verif.Root
