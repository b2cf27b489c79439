import Verif.F2.Basis
/-
C33: canonical bases, images and kernels over `Z/2`.
-/
namespace Verif.F2
open Verif

/-- C33: for vectors of size `n ≤ dim`, `Gauss_Jordan` is defined and replaces them by a reduced echelon basis of their
span, which is independent, and flags its leading positions. -/
theorem C33_gaussJordan (nd : Bool) {dim n : Nat} (hn : n ≤ dim) (hd : dim ≤ 64) (b : List BV) (hb : ∀ v ∈ b, Fits n v) :
    ∃ t a, gaussJordan nd dim b = .ok (t, a) ∧ IsReduced n t a ∧ Span a = Span b ∧ Independent a ∧ t < 2 ^ n := by
  obtain ⟨l, t, h1, h2, h3, h4, _, h6, h7⟩ := gaussJordan_spec nd hn hd b hb
  exact ⟨t, bvs n l, h1, h2.isReduced h3 h4, by rw [span_bvs, h7], h2.tri.independent, h6⟩

example : (∀ v ∈ [(⟨3, 3⟩ : BV), ⟨6, 3⟩, ⟨5, 3⟩], Fits 3 v) ∧
    gaussJordan false 32 [⟨3, 3⟩, ⟨6, 3⟩, ⟨5, 3⟩] = .ok (3, [⟨5, 3⟩, ⟨6, 3⟩]) := by
  refine ⟨?_, by decide +kernel⟩
  intro v hv
  fin_cases hv <;> exact ⟨rfl, by decide⟩

/-- C33: the basis found by `Gauss_Jordan` and the set of leading positions depend on the span only. -/
theorem C33_gaussJordan_canonical (nd : Bool) {dim n : Nat} (hn : n ≤ dim) (hd : dim ≤ 64) (b c : List BV) (hb : ∀ v ∈ b, Fits n v)
    (hc : ∀ v ∈ c, Fits n v) (he : Span b = Span c) : gaussJordan nd dim b = gaussJordan nd dim c := by
  obtain ⟨l, t, h1, h2, h3, h4, h5, h6, h7⟩ := gaussJordan_spec nd hn hd b hb
  obtain ⟨l', t', g1, g2, g3, g4, g5, g6, g7⟩ := gaussJordan_spec nd hn hd c hc
  have hl := h2.unique g2 h3 g3 (by rw [h7, g7, he])
  subst hl
  have ht : t = t' := Nat.eq_of_testBit_eq fun i => by rw [Bool.eq_iff_iff, h4, g4]
  rw [h1, g1, ht]

example : gaussJordan false 32 [⟨3, 3⟩, ⟨6, 3⟩] = gaussJordan false 32 [⟨5, 3⟩, ⟨3, 3⟩, ⟨0, 3⟩] := by decide +kernel

/-- C33: two lists of vectors span the same space exactly if `Gauss_Jordan` gives the same result. -/
theorem C33_gaussJordan_iff (nd : Bool) {dim n : Nat} (hn : n ≤ dim) (hd : dim ≤ 64) (b c : List BV) (hb : ∀ v ∈ b, Fits n v)
    (hc : ∀ v ∈ c, Fits n v) : gaussJordan nd dim b = gaussJordan nd dim c ↔ Span b = Span c := by
  refine ⟨fun h => ?_, C33_gaussJordan_canonical nd hn hd b c hb hc⟩
  obtain ⟨t, a, h1, _, h3, _⟩ := C33_gaussJordan nd hn hd b hb
  obtain ⟨t', a', g1, _, g3, _⟩ := C33_gaussJordan nd hn hd c hc
  rw [h1, g1] at h
  injection h with h
  injection h with _ h
  rw [← h3, ← g3, h]

example : gaussJordan false 32 [⟨3, 3⟩, ⟨6, 3⟩] ≠ gaussJordan false 32 [⟨4, 3⟩, ⟨3, 3⟩] := by decide +kernel

/-! ### Images -/

theorem IsMatrix.column {r c : Nat} {A : BM} (h : IsMatrix r c A) (nd : Bool) {j : Nat} (hj : j < c) :
    A.column nd j = .ok ⟨A.cols.getD j 0, r⟩ := by
  have hl : j < A.cols.length := by rw [h.length]; exact hj
  unfold BM.column
  rw [Res.assertIn_bind nd (by simpa [h.columns] using hj), Vec.get_ok hl, Res.ok_bind, Res.pure_eq, h.rows]
  simp [hl]

theorem IsMatrix.col_lt {r c : Nat} {A : BM} (h : IsMatrix r c A) (j : Nat) : A.cols.getD j 0 < 2 ^ r := by
  by_cases hj : j < A.cols.length
  · rw [List.getD_eq_getElem _ _ hj]; exact h.fits _ (List.getElem_mem hj)
  · rw [List.getD_eq_default _ _ (by omega)]; exact Nat.pow_pos (by omega)

theorem imageLoop_spec (nd : Bool) {dim r c : Nat} (hr : r ≤ dim) (hd : dim ≤ 64) {A : BM} (hA : IsMatrix r c A) :
    ∀ m j, j + m = c → ∀ l, Tri r l → ∃ l', imageLoop nd dim A m j (bvs r l) (piv l) = .ok (bvs r l') ∧ Tri r l' ∧
      sp l' = sp l ⊔ Submodule.span (ZMod 2) {u | ∃ i, j ≤ i ∧ i < c ∧ vec (A.cols.getD i 0) = u} := by
  intro m
  induction m with
  | zero =>
    intro j hj l hl
    refine ⟨l, rfl, hl, ?_⟩
    have : {u | ∃ i, j ≤ i ∧ i < c ∧ vec (A.cols.getD i 0) = u} = ∅ := by
      ext u; simp only [Set.mem_ofPred_eq, Set.mem_empty_iff_false, iff_false]
      rintro ⟨i, h1, h2, _⟩; omega
    rw [this]; simp
  | succ m ih =>
    intro j hj l hl
    obtain ⟨l1, h1, h2, h3⟩ := spanAdd_spec nd hr hd hl (hA.col_lt j)
    obtain ⟨l2, g1, g2, g3⟩ := ih (j + 1) (by omega) l1 h2
    refine ⟨l2, ?_, g2, ?_⟩
    · rw [imageLoop, hA.column nd (by omega), Res.ok_bind, h1, Res.ok_bind]; exact g1
    · rw [g3, h3, sup_assoc, ← Submodule.span_union]
      congr 2
      ext u
      simp only [Set.mem_union, Set.mem_singleton_iff, Set.mem_ofPred_eq]
      constructor
      · rintro (rfl | ⟨i, h1, h2, rfl⟩)
        · exact ⟨j, le_refl _, by omega, rfl⟩
        · exact ⟨i, by omega, h2, rfl⟩
      · rintro ⟨i, h1, h2, rfl⟩
        by_cases h : i = j
        · exact Or.inl (by rw [h])
        · exact Or.inr ⟨i, by omega, h2, rfl⟩

/-- the image of the linear map is the span of the columns -/
theorem mem_colspan {A : BM} {c : Nat} {u : Nat → ZMod 2} :
    u ∈ Submodule.span (ZMod 2) {u | ∃ i, i < c ∧ vec (A.cols.getD i 0) = u} ↔ ∃ x, act A c x = u := by
  have hlin : ∀ x, act A c x = ∑ j ∈ Finset.range c, x j • vec (A.cols.getD j 0) := by
    intro x; funext i
    rw [Finset.sum_apply]
    exact Finset.sum_congr rfl fun j _ => by rw [Pi.smul_apply, smul_eq_mul, mul_comm]; rfl
  constructor
  · intro hu
    induction hu using Submodule.span_induction with
    | mem u hu =>
      obtain ⟨i, hi, rfl⟩ := hu
      refine ⟨fun j => if j = i then 1 else 0, ?_⟩
      rw [hlin, Finset.sum_eq_single i]
      · simp
      · intro j _ hj; simp [hj]
      · intro hc; exact absurd (Finset.mem_range.2 hi) hc
    | zero => exact ⟨0, by rw [hlin]; simp⟩
    | add u v _ _ h1 h2 =>
      obtain ⟨x, rfl⟩ := h1
      obtain ⟨y, rfl⟩ := h2
      refine ⟨x + y, ?_⟩
      rw [hlin, hlin, hlin, ← Finset.sum_add_distrib]
      exact Finset.sum_congr rfl fun j _ => by rw [Pi.add_apply, add_smul]
    | smul a u _ h1 =>
      obtain ⟨x, rfl⟩ := h1
      refine ⟨a • x, ?_⟩
      rw [hlin, hlin, Finset.smul_sum]
      exact Finset.sum_congr rfl fun j _ => by rw [Pi.smul_apply, smul_eq_mul, mul_smul]
  · rintro ⟨x, rfl⟩
    rw [hlin]
    exact Submodule.sum_mem _ fun j hj => Submodule.smul_mem _ _ (Submodule.subset_span ⟨j, Finset.mem_range.1 hj, rfl⟩)

/-- C33: `image` returns a basis of the image of the linear map of the matrix: independent vectors whose span is the set
of values `A x`. -/
theorem C33_image (nd : Bool) {dim r c : Nat} (hr : r ≤ dim) (hd : dim ≤ 64) {A : BM} (hA : IsMatrix r c A) :
    ∃ b, A.image nd dim = .ok b ∧ (∀ v ∈ b, Fits r v) ∧ Independent b ∧ ∀ u, u ∈ Span b ↔ ∃ x, act A c x = u := by
  obtain ⟨l, h1, h2, h3⟩ := imageLoop_spec nd hr hd hA c 0 (by omega) [] ⟨by simp, by simp, List.Pairwise.nil⟩
  refine ⟨bvs r l, ?_, ?_, h2.independent, ?_⟩
  · unfold BM.image; rw [hA.columns]; exact h1
  · intro v hv
    obtain ⟨x, hx, rfl⟩ := List.mem_map.1 hv
    exact ⟨rfl, h2.lt x hx⟩
  · intro u
    have : sp [] = ⊥ := by unfold sp; simp
    rw [span_bvs, h3, this, bot_sup_eq, ← mem_colspan]
    simp

example : IsMatrix 3 3 ⟨[3, 6, 5], 3, 3⟩ ∧ (⟨[3, 6, 5], 3, 3⟩ : BM).image false 32 = .ok [⟨3, 3⟩, ⟨6, 3⟩] :=
  ⟨⟨rfl, rfl, rfl, by decide⟩, by decide +kernel⟩

/-! ### Kernels -/

theorem IsMatrix.test {r c : Nat} {A : BM} (h : IsMatrix r c A) (nd : Bool) {dim i j : Nat} (hr : r ≤ dim) (hi : i < r) (hj : j < c) :
    A.test nd dim i j = .ok ((A.cols.getD j 0).testBit i) := by
  have hl : j < A.cols.length := by rw [h.length]; exact hj
  unfold BM.test
  rw [Res.assertIn_bind nd (by simpa [h.rows] using hi), Res.assertIn_bind nd (by simpa [h.columns] using hj), Vec.get_ok hl, Res.ok_bind,
    bsTest_ok (by omega)]
  simp [hl]

theorem rowLoop_spec (nd : Bool) {dim r c : Nat} (hr : r ≤ dim) (hc : c ≤ dim) {A : BM} (hA : IsMatrix r c A) {i : Nat} (hi : i < r) :
    ∀ m j, j + m = c → ∀ w, w < 2 ^ c → ∃ w', rowLoop nd dim A i m j ⟨w, c⟩ = .ok ⟨w', c⟩ ∧ w' < 2 ^ c ∧
      ∀ k, w'.testBit k = if j ≤ k ∧ k < c then (A.cols.getD k 0).testBit i else w.testBit k := by
  intro m
  induction m with
  | zero =>
    intro j hj w hw
    exact ⟨w, rfl, hw, fun k => by rw [if_neg (by omega)]⟩
  | succ m ih =>
    intro j hj w hw
    obtain ⟨w', h1, h2, h3⟩ := ih (j + 1) (by omega) _ (putBit_lt (b := (A.cols.getD j 0).testBit i) hw (show j < c by omega))
    refine ⟨w', ?_, h2, ?_⟩
    · rw [rowLoop, hA.test nd hr hi (by omega), Res.ok_bind, BV.set_ok nd w (by omega) hc, Res.ok_bind]; exact h1
    · intro k
      rw [h3, testBit_putBit]
      by_cases hk : k = j
      · subst hk; rw [if_neg (by omega), if_pos rfl, if_pos (by omega)]
      · by_cases hk2 : j + 1 ≤ k ∧ k < c
        · rw [if_pos hk2, if_pos (by omega)]
        · rw [if_neg hk2, if_neg hk, if_neg (by omega)]

theorem row_spec (nd : Bool) {dim r c : Nat} (hr : r ≤ dim) (hc : c ≤ dim) {A : BM} (hA : IsMatrix r c A) {i : Nat} (hi : i < r) :
    ∃ w, A.row nd dim i = .ok ⟨w, c⟩ ∧ w < 2 ^ c ∧ ∀ k < c, w.testBit k = (A.cols.getD k 0).testBit i := by
  obtain ⟨w, h1, h2, h3⟩ := rowLoop_spec nd hr hc hA hi c 0 (by omega) 0 (Nat.pow_pos (by omega))
  refine ⟨w, ?_, h2, fun k hk => by rw [h3, if_pos (by omega)]⟩
  unfold BM.row
  rw [hA.columns, Res.assertIn_bind nd (by simpa using hc)]; exact h1

/-- C33: `row` returns the row of the matrix. -/
theorem C33_row (nd : Bool) {dim r c : Nat} (hr : r ≤ dim) (hc : c ≤ dim) {A : BM} (hA : IsMatrix r c A) {i : Nat} (hi : i < r) :
    ∃ v, A.row nd dim i = .ok v ∧ Fits c v ∧ ∀ k < c, vec v.data k = entry A i k := by
  obtain ⟨w, h1, h2, h3⟩ := row_spec nd hr hc hA hi
  exact ⟨_, h1, ⟨rfl, h2⟩, fun k hk => by unfold entry; rw [vec_apply, vec_apply, h3 k hk]⟩

example : (⟨[3, 6, 5], 3, 3⟩ : BM).row false 32 2 = .ok ⟨6, 3⟩ := by decide +kernel

theorem rowsLoop_spec (nd : Bool) {dim r c : Nat} (hr : r ≤ dim) (hc : c ≤ dim) {A : BM} (hA : IsMatrix r c A) :
    ∀ m i, i + m = r → ∃ l, rowsLoop nd dim A m i = .ok l ∧ (∀ v ∈ l, Fits c v) ∧
      ∀ v, v ∈ l → ∃ k, i ≤ k ∧ k < r ∧ ∀ j < c, v.data.testBit j = (A.cols.getD j 0).testBit k := by
  intro m
  induction m with
  | zero => intro i _; exact ⟨[], rfl, by simp, by simp⟩
  | succ m ih =>
    intro i hi
    obtain ⟨w, h1, h2, h3⟩ := row_spec nd hr hc hA (show i < r by omega)
    obtain ⟨l, g1, g2, g3⟩ := ih (i + 1) (by omega)
    refine ⟨⟨w, c⟩ :: l, by rw [rowsLoop, h1, Res.ok_bind, g1]; rfl, ?_, ?_⟩
    · intro v hv
      rcases List.mem_cons.1 hv with rfl | hv
      · exact ⟨rfl, h2⟩
      · exact g2 v hv
    · intro v hv
      rcases List.mem_cons.1 hv with rfl | hv
      · exact ⟨i, le_refl _, by omega, h3⟩
      · obtain ⟨k, a, b, e⟩ := g3 v hv
        exact ⟨k, by omega, b, e⟩

theorem rowsLoop_mem (nd : Bool) {dim r c : Nat} (hr : r ≤ dim) (hc : c ≤ dim) {A : BM} (hA : IsMatrix r c A) :
    ∀ m i, i + m = r → ∀ l, rowsLoop nd dim A m i = .ok l → ∀ k, i ≤ k → k < r →
      ∃ v ∈ l, ∀ j < c, v.data.testBit j = (A.cols.getD j 0).testBit k := by
  intro m
  induction m with
  | zero => intro i hi l _ k h1 h2; omega
  | succ m ih =>
    intro i hi l hl k h1 h2
    obtain ⟨w, g1, g2, g3⟩ := row_spec nd hr hc hA (show i < r by omega)
    rw [rowsLoop, g1, Res.ok_bind] at hl
    obtain ⟨l', g4, _, _⟩ := rowsLoop_spec nd hr hc hA m (i + 1) (by omega)
    rw [g4, Res.ok_bind, Res.pure_eq] at hl
    injection hl with hl
    subst hl
    by_cases hk : k = i
    · subst hk; exact ⟨_, List.mem_cons_self, g3⟩
    · obtain ⟨v, hv, e⟩ := ih (i + 1) (by omega) l' g4 k (by omega) h2
      exact ⟨v, List.mem_cons_of_mem _ hv, e⟩

/-- independence of the vectors attached to free positions -/
theorem KV.independent {n : Nat} {l : List (Nat × Nat)} {k : Nat → Nat} {J : List Nat} (hnd : J.Nodup)
    (hk : ∀ j ∈ J, j ∉ Verif.F2.piv l ∧ KV n l j (k j)) : Independent (J.map fun j => ⟨k j, n⟩) := by
  unfold Independent
  rw [Fintype.linearIndependent_iff]
  intro g hg i
  have hi : i.val < J.length := by simpa using i.2
  have hJi := hk _ (List.getElem_mem hi)
  have hg' := congrFun hg J[i.val]
  rw [Finset.sum_apply, Finset.sum_eq_single i] at hg'
  · rw [Pi.smul_apply] at hg'
    have : vec (J.map fun j => (⟨k j, n⟩ : BV))[i].data J[i.val] = 1 := by
      rw [vec_eq_one]
      have := hJi.2.free _ hJi.1
      simpa using this
    rw [this] at hg'
    simpa using hg'
  · intro j _ hji
    have hj : j.val < J.length := by simpa using j.2
    have hJj := hk _ (List.getElem_mem hj)
    have hne : J[i.val] ≠ J[j.val] := by
      intro e
      exact hji (Fin.ext ((List.Nodup.getElem_inj_iff hnd).1 e.symm))
    have : vec (J.map fun j => (⟨k j, n⟩ : BV))[j].data J[i.val] = 0 := by
      rw [vec_eq_zero]
      have := hJj.2.free _ hJi.1
      simpa [hne] using this
    rw [Pi.smul_apply, this, smul_zero]
  · intro hc; exact absurd (Finset.mem_univ _) hc

/-- C33: `kernel` returns a basis of the kernel: independent vectors whose span is the set of vectors `u` of size `c` with
`A u = 0`. -/
theorem C33_kernel (nd : Bool) {dim r c : Nat} (hr : r ≤ dim) (hc : c ≤ dim) (hd : dim ≤ 64) {A : BM} (hA : IsMatrix r c A) :
    ∃ b, A.kernel nd dim = .ok b ∧ (∀ v ∈ b, Fits c v) ∧ Independent b ∧
      ∀ u, u ∈ Span b ↔ (∀ i, c ≤ i → u i = 0) ∧ act A c u = 0 := by
  unfold BM.kernel
  by_cases hc0 : A.columns = 0
  · rw [if_pos hc0]
    have : c = 0 := by rw [← hA.columns]; exact hc0
    subst this
    refine ⟨[], rfl, by simp, ?_, ?_⟩
    · unfold Independent
      have : IsEmpty (Fin ([] : List BV).length) := inferInstanceAs (IsEmpty (Fin 0))
      exact linearIndependent_empty_type
    · intro u
      have : Span [] = ⊥ := by unfold Span; simp
      rw [this, Submodule.mem_bot]
      refine ⟨fun h => ⟨fun i _ => by rw [h]; rfl, by funext i; unfold act; simp⟩, fun h => ?_⟩
      funext i
      exact h.1 i (by omega)
  · rw [if_neg hc0, Res.assertIn_bind nd (by simpa [hA.columns] using hc)]
    obtain ⟨eqn, h1, h2, h3⟩ := rowsLoop_spec nd hr hc hA r 0 (by omega)
    rw [hA.rows, h1, Res.ok_bind]
    obtain ⟨l, t, g1, g2, g3, g4, g5, g6, g7⟩ := gaussJordan_spec nd hc hd eqn h2
    rw [g1, Res.ok_bind]
    obtain ⟨k, k1, k2⟩ := kernelLoop_spec nd hc g2 g5 g4
    simp only
    rw [hA.columns, k2 c 0 (by omega)]
    have hJ : ∀ j ∈ (List.range' 0 c).filter (fun i => i ∉ piv l), j < c ∧ j ∉ piv l := by
      intro j hj
      rw [List.mem_filter] at hj
      have := List.mem_range'_1.1 hj.1
      exact ⟨by omega, by simpa using hj.2⟩
    refine ⟨_, rfl, ?_, ?_, ?_⟩
    · intro v hv
      obtain ⟨j, hj, rfl⟩ := List.mem_map.1 hv
      exact ⟨rfl, (k1 j (hJ j hj).1 (hJ j hj).2).lt⟩
    · exact KV.independent (List.Nodup.filter _ List.nodup_range') fun j hj => ⟨(hJ j hj).2, k1 j (hJ j hj).1 (hJ j hj).2⟩
    · intro u
      have hS : Span (((List.range' 0 c).filter fun i => i ∉ piv l).map fun i => ⟨k i, c⟩) =
          Submodule.span (ZMod 2) {w | ∃ j < c, j ∉ piv l ∧ vec (k j) = w} := by
        unfold Span
        congr 1
        ext w
        constructor
        · rintro ⟨b, hb, rfl⟩
          obtain ⟨j, hj, rfl⟩ := List.mem_map.1 hb
          exact ⟨j, (hJ j hj).1, (hJ j hj).2, rfl⟩
        · rintro ⟨j, hj1, hj2, rfl⟩
          refine ⟨_, List.mem_map.2 ⟨j, ?_, rfl⟩, rfl⟩
          rw [List.mem_filter, List.mem_range'_1]
          exact ⟨by omega, by simpa using hj2⟩
      rw [hS, KV.span g2 k1]
      refine and_congr_right fun hlt => ?_
      have hdot : ∀ {v i : Nat}, (∀ j < c, v.testBit j = (A.cols.getD j 0).testBit i) → dotN c (vec v) u = act A c u i := by
        intro v i hv
        unfold dotN act entry
        exact Finset.sum_congr rfl fun j hj => by rw [vec_apply, vec_apply, hv j (Finset.mem_range.1 hj)]
      have e1 : (∀ x ∈ l, dotN c (vec x.1) u = 0) ↔ ∀ w ∈ sp l, dotN c w u = 0 := by
        unfold sp
        rw [dotN_span]
        exact ⟨fun h w ⟨x, hx, e⟩ => e ▸ h x hx, fun h x hx => h _ ⟨x, hx, rfl⟩⟩
      rw [e1, g7]
      unfold Span
      rw [dotN_span]
      constructor
      · intro h
        funext i
        by_cases hi : i < r
        · obtain ⟨v, hv, e⟩ := rowsLoop_mem nd hr hc hA r 0 (by omega) eqn h1 i (by omega) hi
          rw [← hdot e]
          exact h _ ⟨v, hv, rfl⟩
        · unfold act entry
          rw [Pi.zero_apply]
          refine Finset.sum_eq_zero fun j _ => ?_
          have : vec (A.cols.getD j 0) i = 0 := by
            rw [vec_eq_zero]
            exact Nat.testBit_lt_two_pow ((hA.col_lt j).trans_le (Nat.pow_le_pow_right (by omega) (by omega)))
          rw [this, zero_mul]
      · rintro h w ⟨v, hv, rfl⟩
        obtain ⟨i, _, hi, e⟩ := h3 v hv
        rw [hdot e, h]; rfl

example : IsMatrix 3 4 ⟨[3, 6, 5, 0], 3, 4⟩ ∧ (⟨[3, 6, 5, 0], 3, 4⟩ : BM).kernel false 32 = .ok [⟨7, 4⟩, ⟨8, 4⟩] :=
  ⟨⟨rfl, rfl, rfl, by decide⟩, by decide +kernel⟩

end Verif.F2
