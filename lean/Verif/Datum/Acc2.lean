import Verif.Datum.Acc
/-
The accessors of root data: indices, permutations, actions; all of C69.
-/
namespace Verif.Datum
open Verif Verif.Mat Verif.Root Verif.Coxeter CoxeterSystem
open scoped Matrix

variable {n r : Nat} {α αv : Fin n → Fin r → ℤ} {nd pc : Bool} {comps : List Weyl.Comp} {N : Nat} {R R' : Nat → Fin n → ℤ} {rd : RD}

theorem idxOf_vk {m : Nat} {f : Nat → Fin r → ℤ} (hf : ∀ k < m, ∀ l < m, f k = f l → k = l) {k : Nat} (hk : k < m) :
    (vk m fun k => List.ofFn (f k)).idxOf (List.ofFn (f k)) = k := by
  have hn : (vk m fun k => List.ofFn (f k)).Nodup := by
    rw [List.nodup_iff_injective_getElem]
    intro i j e
    have hi : i.1 < m := i.2.trans_eq (length_vk _ _)
    have hj : j.1 < m := j.2.trans_eq (length_vk _ _)
    simp only [getElem_vk] at e
    exact Fin.ext (hf _ hi _ hj (List.ofFn_injective e))
  have := hn.idxOf_getElem k (by rw [length_vk]; exact hk)
  rwa [getElem_vk] at this

theorem idxOf_vk_none {m : Nat} {f : Nat → Fin r → ℤ} {v : Fin r → ℤ} (h : ∀ k < m, v ≠ f k) : (vk m fun k => List.ofFn (f k)).idxOf (List.ofFn v) = m := by
  rw [List.idxOf_of_notMem, length_vk]
  intro hm
  obtain ⟨k, hk, e⟩ := List.getElem_of_mem hm
  rw [getElem_vk] at e
  rw [length_vk] at hk
  exact h k hk (List.ofFn_injective e).symm

section
variable (H : Holds nd α αv comps pc N R R' rd)
include H

theorem rootIndex_ok {k : Nat} (hk : k < 2 * N) : rd.rootIndex (List.ofFn (lin α (R k))) = k := by
  rw [RD.rootIndex, RD.findIndex, H.roots]
  exact idxOf_vk (f := fun k => lin α (R k)) (fun k hk l hl e => all_inj H.sys hk hl (Or.inl e)) hk

theorem corootIndex_ok {k : Nat} (hk : k < 2 * N) : rd.corootIndex (List.ofFn (lin αv (R' k))) = k := by
  rw [RD.corootIndex, RD.findIndex, H.coroots]
  exact idxOf_vk (f := fun k => lin αv (R' k)) (fun k hk l hl e => all_inj H.sys hk hl (Or.inr e)) hk

theorem rootIndex_none {v : Fin r → ℤ} (h : ∀ k < 2 * N, v ≠ lin α (R k)) : rd.rootIndex (List.ofFn v) = 2 * N := by
  rw [RD.rootIndex, RD.findIndex, H.roots]
  exact idxOf_vk_none (f := fun k => lin α (R k)) h

theorem corootIndex_none {v : Fin r → ℤ} (h : ∀ k < 2 * N, v ≠ lin αv (R' k)) : rd.corootIndex (List.ofFn v) = 2 * N := by
  rw [RD.corootIndex, RD.findIndex, H.coroots]
  exact idxOf_vk_none (f := fun k => lin αv (R' k)) h

theorem isRoot_ok (v : Fin r → ℤ) : rd.isRoot (List.ofFn v) = true ↔ ∃ k < 2 * N, v = lin α (R k) := by
  rw [RD.isRoot]
  have hl : rd.roots.length = 2 * N := by rw [H.roots, length_vk]
  rw [decide_eq_true_iff, hl]
  constructor
  · intro h
    by_contra hc
    push Not at hc
    exact h (rootIndex_none H hc)
  · rintro ⟨k, hk, rfl⟩
    have : RD.findIndex rd.roots (List.ofFn (lin α (R k))) = k := rootIndex_ok H hk
    omega

/-! ### the permutation of the roots by a matrix -/

/-- A matrix that permutes the roots preserves the pairing of roots with coroots. -/
theorem perm_pair {q : Matrix (Fin r) (Fin r) ℤ} (hq : ∀ k < 2 * N, ∃ m < 2 * N, q *ᵥ lin α (R k) = lin α (R m))
    (hi : ∀ k < 2 * N, ∀ l < 2 * N, q *ᵥ lin α (R k) = q *ᵥ lin α (R l) → k = l) {a b a' b' : Nat} (ha : a < 2 * N) (hb : b < 2 * N) (ha' : a' < 2 * N) (hb' : b' < 2 * N)
    (ea : q *ᵥ lin α (R a) = lin α (R a')) (eb : q *ᵥ lin α (R b) = lin α (R b')) :
    Spec.pair (cart α αv) (R a') (R' b') = Spec.pair (cart α αv) (R a) (R' b) := by
  have := H.sys.cartan.finite
  have cs := (Weyl.coxMatrix (cart α αv)).toCoxeterSystem
  have hC := H.sys.cartan.isCartan
  have hN := H.sys.numbering
  -- the numbers of the images
  choose! f hf1 hf2 using hq
  have hfi : ∀ k < 2 * N, ∀ l < 2 * N, f k = f l → k = l := fun k hk l hl e => hi k hk l hl (by rw [hf2 k hk, hf2 l hl, e])
  have hsurj : ∀ m < 2 * N, ∃ k < 2 * N, f k = m := by
    intro m hm
    have h1 : (Finset.range (2 * N)).image f = Finset.range (2 * N) := by
      refine Finset.eq_of_subset_of_card_le ?_ ?_
      · intro x hx
        obtain ⟨k, hk, rfl⟩ := Finset.mem_image.1 hx
        exact Finset.mem_range.2 (hf1 k (Finset.mem_range.1 hk))
      · rw [Finset.card_image_of_injOn]
        intro k hk l hl e
        exact hfi k (by simpa using hk) l (by simpa using hl) e
    have h2 : m ∈ (Finset.range (2 * N)).image f := by rw [h1]; exact Finset.mem_range.2 hm
    obtain ⟨k, hk, e⟩ := Finset.mem_image.1 h2
    exact ⟨k, Finset.mem_range.1 hk, e⟩
  -- the linear map on coefficients
  have hsl : ∀ i : Fin n, N + i.1 < 2 * N := fun i => simple_lt H i
  let T : (Fin n → ℤ) →ₗ[ℤ] (Fin n → ℤ) :=
    { toFun := fun x => ∑ i : Fin n, x i • R (f (N + i)),
      map_add' := fun x y => by simp [add_smul, Finset.sum_add_distrib],
      map_smul' := fun c x => by simp [Finset.smul_sum, mul_smul] }
  have hT : ∀ x, lin α (T x) = q *ᵥ lin α x := by
    intro x
    show lin α (∑ i : Fin n, x i • R (f (N + i))) = _
    have e1 : q *ᵥ lin α x = ∑ i, x i • (q *ᵥ α i) := by
      rw [lin]
      rw [← Matrix.mulVecLin_apply, map_sum]
      exact Finset.sum_congr rfl fun i _ => by rw [map_smul, Matrix.mulVecLin_apply]
    have e2 : ∀ g : Fin n → Fin n → ℤ, lin α (∑ i, x i • g i) = ∑ i, x i • lin α (g i) := by
      intro g
      have : ∀ S : Finset (Fin n), lin α (∑ i ∈ S, x i • g i) = ∑ i ∈ S, x i • lin α (g i) := by
        intro S
        induction S using Finset.induction_on with
        | empty => simp [lin]
        | insert a S ha ih => rw [Finset.sum_insert ha, lin_add, lin_smul, ih, Finset.sum_insert ha]
      exact this _
    rw [e1, e2]
    refine Finset.sum_congr rfl fun i _ => ?_
    rw [← hf2 _ (hsl i), (simple_lin H.sys i).1]
  have hTR : ∀ k < 2 * N, T (R k) = R (f k) := fun k hk => lin_inj cs hC (by rw [hT, hf2 k hk])
  have hTinj : Function.Injective T := by
    -- it is surjective, as its image contains the simple roots
    have hs : Function.Surjective T := by
      intro y
      have : ∀ i : Fin n, ∃ k < 2 * N, f k = N + i := fun i => hsurj _ (hsl i)
      choose g hg1 hg2 using this
      refine ⟨∑ i, y i • R (g i), ?_⟩
      rw [map_sum]
      funext j
      rw [Finset.sum_apply, Finset.sum_eq_single j]
      · rw [map_smul, hTR _ (hg1 j), hg2, (hN.simple.2 j).1]; simp [Spec.unit]
      · intro t _ ht
        rw [map_smul, hTR _ (hg1 t), hg2, (hN.simple.2 t).1]; simp [Spec.unit, Ne.symm ht]
      · simp
    exact OrzechProperty.injective_of_surjective_endomorphism T hs
  -- two functionals with reflections that preserve the roots
  let F : Nat → Module.Dual ℤ (Fin n → ℤ) := fun k =>
    { toFun := fun x => form (cart α αv) x (R' k), map_add' := fun x y => form_add_left _ _ _, map_smul' := fun c x => form_smul_left _ _ _ }
  let Φ : Set (Fin n → ℤ) := R '' {k | k < 2 * N}
  have hrefl : ∀ k < 2 * N, ∀ l < 2 * N, ∃ m < 2 * N, R m = R l - form (cart α αv) (R l) (R' k) • R k := fun k hk l hl => by
    obtain ⟨m, hm, -, h1, -⟩ := H.sys.answers.reflected k hk l hl
    exact ⟨m, hm, funext h1⟩
  have fb : f b = b' := all_inj H.sys (hf1 b hb) hb' (Or.inl (by rw [← hf2 b hb, eb]))
  have fa : f a = a' := all_inj H.sys (hf1 a ha) ha' (Or.inl (by rw [← hf2 a ha, ea]))
  have two : ∀ k < 2 * N, form (cart α αv) (R k) (R' k) = 2 := fun k hk => by
    obtain ⟨t, ht⟩ := hN.isRoot cs hC hk
    exact ht.form_self
  have key : F b = (F b').comp T := by
    refine Module.Dual.eq_of_preReflection_mapsTo (x := R b) (Φ := Φ) ?_ ?_ ?_ ?_ ?_ ?_
    · exact (Set.finite_lt_nat _).image _
    · rw [eq_top_iff]
      intro x _
      have : x = ∑ i : Fin n, x i • R (N + i) := by
        funext j
        rw [Finset.sum_apply, Finset.sum_eq_single j]
        · rw [(hN.simple.2 j).1]; simp [Spec.unit]
        · intro t _ ht
          rw [(hN.simple.2 t).1]; simp [Spec.unit, Ne.symm ht]
        · simp
      rw [this]
      exact Submodule.sum_mem _ fun i _ => Submodule.smul_mem _ _ (Submodule.subset_span ⟨_, hsl i, rfl⟩)
    · exact two b hb
    · rintro _ ⟨l, hl, rfl⟩
      obtain ⟨m, hm, e⟩ := hrefl b hb l hl
      exact ⟨m, hm, by rw [e]; rfl⟩
    · show form (cart α αv) (T (R b)) (R' b') = 2
      rw [hTR b hb, fb, two b' hb']
    · rintro _ ⟨l, hl, rfl⟩
      obtain ⟨m, hm, e⟩ := hrefl b' hb' (f l) (hf1 l hl)
      obtain ⟨m', hm', e'⟩ := hsurj m hm
      refine ⟨m', hm', hTinj ?_⟩
      rw [hTR m' hm', e', e]
      show _ = T (R l - form (cart α αv) (T (R l)) (R' b') • R b)
      rw [map_sub, map_smul, hTR l hl, hTR b hb, fb]
  have := LinearMap.congr_fun key (R a)
  have h2 : form (cart α αv) (R a) (R' b) = form (cart α αv) (T (R a)) (R' b') := this
  rw [hTR a ha, fa] at h2
  exact h2.symm

theorem rootPermutation_ok {q : Matrix (Fin r) (Fin r) ℤ} (hq : ∀ k < 2 * N, ∃ m < 2 * N, q *ᵥ lin α (R k) = lin α (R m))
    (hi : ∀ k < 2 * N, ∀ l < 2 * N, q *ᵥ lin α (R k) = q *ᵥ lin α (R l) → k = l) :
    ∃ p : List Nat, rd.rootPermutation nd (enc q) = .ok p ∧ p.length = 2 * N ∧ ∀ k < 2 * N, ∃ m < 2 * N, p[k]? = some m ∧ q *ᵥ lin α (R k) = lin α (R m) := by
  have hq' : ∀ i : Fin n, ∃ m < 2 * N, q *ᵥ α i = lin α (R m) := fun i => by
    have := hq (N + i) (simple_lt H i)
    rwa [(simple_lin H.sys i).1] at this
  choose im him1 him2 using hq'
  obtain ⟨p, h1, h2, -, h3⟩ := C51_extend H.sys him1 (fun i j => by
    rw [perm_pair H hq hi (simple_lt H i) (simple_lt H j) (him1 i) (him1 j) (by rw [(simple_lin H.sys i).1, him2]) (by rw [(simple_lin H.sys j).1, him2])]
    show form _ _ _ = _
    rw [← pair_lin, (simple_lin H.sys i).1, (simple_lin H.sys j).2])
  refine ⟨p, ?_, h2, fun k hk => ?_⟩
  · have htab : tab rd.ssRank (fun s => do
        let i := rd.rootIndex (← Mat.apply nd (enc q) (← rd.simpleRoot nd s))
        Res.assertIn nd (decide (i < rd.rs.numRoots))
        .ok i) = .ok (List.ofFn im) := by
      rw [show rd.ssRank = n from H.sys.answers.rank]
      have : List.ofFn im = vk n fun i => if h : i < n then im ⟨i, h⟩ else 0 := by
        rw [vk_ofFn]; congr 1; funext i; simp
      rw [this]
      refine tab_ok _ fun i hi => ?_
      rw [dif_pos hi, simpleRoot_ok H ⟨i, hi⟩, Res.ok_bind, C45_apply, Res.ok_bind, him2]
      simp only []
      rw [rootIndex_ok H (him1 _), H.sys.answers.numRoots, Res.assertIn_bind nd (by simpa using him1 _)]
    rw [RD.rootPermutation, htab, Res.ok_bind, h1]
  · obtain ⟨m, hm, h4, h5, -⟩ := h3 k hk
    refine ⟨m, hm, h4, ?_⟩
    have e1 : q *ᵥ lin α (R k) = ∑ i, R k i • lin α (R (im i)) := by
      rw [lin, ← Matrix.mulVecLin_apply, map_sum]
      exact Finset.sum_congr rfl fun i _ => by rw [map_smul, Matrix.mulVecLin_apply, him2]
    rw [e1]
    funext c
    simp only [lin, Finset.sum_apply, Pi.smul_apply, smul_eq_mul, Finset.mul_sum]
    rw [Finset.sum_comm]
    refine Finset.sum_congr rfl fun j _ => ?_
    rw [h5, Finset.sum_mul]
    exact Finset.sum_congr rfl fun i _ => by ring

/-! ### actions -/

theorem actInverse_ok (w : List (Fin n)) : ∀ v : Fin r → ℤ, rd.actInverse nd (List.ofFn v) (w.map Fin.val) = .ok (List.ofFn (act α αv w.reverse v)) := by
  induction w with
  | nil => intro v; rfl
  | cons s w ih =>
    intro v
    rw [List.map_cons, RD.actInverse, simpleReflect_ok H, Res.ok_bind, add_zero, ih, List.reverse_cons, act_append]
    rfl

theorem act_ok (w : List (Fin n)) (v : Fin r → ℤ) : rd.act nd (w.map Fin.val) (List.ofFn v) = .ok (List.ofFn (act α αv w v)) := by
  rw [RD.act, ← List.map_reverse, actInverse_ok H, List.reverse_reverse]

theorem actionLoop_ok (w : List (Fin n)) : ∀ A : Matrix (Fin r) (Fin r) ℤ, ∃ B : Matrix (Fin r) (Fin r) ℤ, rd.actionLoop nd (w.map Fin.val) (enc A) = .ok (enc B) ∧
    ∀ v, B *ᵥ v = A *ᵥ act α αv w v := by
  induction w with
  | nil => intro A; exact ⟨A, rfl, fun v => rfl⟩
  | cons s w ih =>
    intro A
    obtain ⟨B, h1, h2⟩ := ih (A * reflMat (α s) (αv s))
    refine ⟨B, ?_, fun v => ?_⟩
    · rw [List.map_cons, RD.actionLoop, simpleReflection_ok H, Res.ok_bind, C45_mul, Res.ok_bind, h1]
    · rw [h2, ← Matrix.mulVec_mulVec, (reflMat_mulVec _ _ _).1]; rfl

theorem dualAct_ok (w : List (Fin n)) : ∀ v : Fin r → ℤ, rd.dualAct nd (List.ofFn v) (w.map Fin.val) = .ok (List.ofFn (coact α αv v w)) := by
  induction w with
  | nil => intro v; rfl
  | cons s w ih =>
    intro v
    rw [List.map_cons, RD.dualAct, simpleCoreflect_ok H, Res.ok_bind, add_zero]
    exact ih _

omit H in
theorem coact_dot {ι : Type} {ro co : ι → Fin r → ℤ} (w : List ι) : ∀ v x : Fin r → ℤ, coact ro co v w ⬝ᵥ x = v ⬝ᵥ act ro co w x := by
  induction w with
  | nil => intro v x; rfl
  | cons s w ih =>
    intro v x
    rw [coact, ih, act, refl_dot, dotProduct_comm v (refl _ _ _), refl_dot, dotProduct_comm _ v, dotProduct_comm (ro s) v, dotProduct_comm (co s)]
    ring

omit H in
theorem sact_append {d : Fin n → ℤ} (u w : List (Fin n)) (v : Fin r → ℤ) : sact α αv d (u ++ w) v = sact α αv d u (sact α αv d w v) := by
  induction u with
  | nil => rfl
  | cons s u ih => simp only [List.cons_append, sact, ih]

theorem shiftedLoop_ok (d : Fin n → ℤ) (w : List (Fin n)) : ∀ v : Fin r → ℤ, rd.shiftedLoop nd (List.ofFn d) (List.ofFn v) (w.map Fin.val) = .ok (List.ofFn (sact α αv d w.reverse v)) := by
  induction w with
  | nil => intro v; rfl
  | cons s w ih =>
    intro v
    rw [List.map_cons, RD.shiftedLoop, ofFn_vk d, get_vk _ s.2, Res.ok_bind, exv_fin, simpleReflect_ok H, Res.ok_bind, ← ofFn_vk d, ih, List.reverse_cons, sact_append]
    rfl

theorem shiftedDualAct_ok (d : Fin n → ℤ) (w : List (Fin n)) : ∀ v : Fin r → ℤ, rd.shiftedDualAct nd (List.ofFn d) (List.ofFn v) (w.map Fin.val) = .ok (List.ofFn (scoact α αv d v w)) := by
  induction w with
  | nil => intro v; rfl
  | cons s w ih =>
    intro v
    rw [List.map_cons, RD.shiftedDualAct, ofFn_vk d, get_vk _ s.2, Res.ok_bind, exv_fin, simpleCoreflect_ok H, Res.ok_bind, ← ofFn_vk d, ih]
    rfl

theorem get_ofFn {A : Type} {m : Nat} (f : Fin m → A) (i : Fin m) : Vec.get (List.ofFn f) i = .ok (f i) := by
  rw [Vec.get_ok (by simp)]; simp

/-- the members determine all answers -/
theorem Holds.isDatum : IsDatum nd α αv N R R' rd where
  rank := H.rank
  ssRank := H.sys.answers.rank
  isSemisimple := by rw [RD.isSemisimple, H.rank, RD.ssRank, H.sys.answers.rank]
  root := fun k hk => root_ok H hk
  coroot := fun k hk => coroot_ok H hk
  simpleRoot := simpleRoot_ok H
  simpleCoroot := simpleCoroot_ok H
  posRoot := fun k hk => by
    rw [RD.posRoot, H.sys.answers.numPos, Res.assertIn_bind nd (by simpa using hk), H.roots, get_vk _ (by omega)]
  posCoroot := fun k hk => by
    rw [RD.posCoroot, H.sys.answers.numPos, Res.assertIn_bind nd (by simpa using hk), H.coroots, get_vk _ (by omega)]
  inj := fun k hk l hl e => all_inj H.sys hk hl e
  rootIndex := fun k hk => rootIndex_ok H hk
  rootIndex_none := fun v h => rootIndex_none H h
  corootIndex := fun k hk => corootIndex_ok H hk
  corootIndex_none := fun v h => corootIndex_none H h
  isRoot := isRoot_ok H
  twoRho := H.twoRho
  dualTwoRho := H.dualTwoRho
  rho := rho_two H.sys
  fundamentalWeight := fun s => by
    obtain ⟨A, h1, h2, h3, h4, h5, h6⟩ := H.inv
    refine ⟨A s, rd.denom, ?_, h2 (by have := s.2; omega), fun t => ?_⟩
    · rw [RD.fundamentalWeight, h5, get_ofFn H, Res.ok_bind]
    · have := congrFun (congrFun h4 s) t
      rw [lin_dot]
      rw [Matrix.mul_apply, Matrix.smul_apply, Matrix.one_apply] at this
      refine Eq.trans this ?_
      by_cases e : s = t
      · rw [if_pos e, if_pos e.symm]; simp
      · rw [if_neg e, if_neg (Ne.symm e)]; simp
  fundamentalCoweight := fun s => by
    obtain ⟨A, h1, h2, h3, h4, h5, h6⟩ := H.inv
    refine ⟨Aᵀ s, rd.denom, ?_, h2 (by have := s.2; omega), fun t => ?_⟩
    · rw [RD.fundamentalCoweight, h6, get_ofFn H, Res.ok_bind]
    · have := congrFun (congrFun h3 t) s
      rw [lin_dot]
      rw [Matrix.mul_apply, Matrix.smul_apply, Matrix.one_apply] at this
      have e2 : ∑ u, Aᵀ s u * (αv u ⬝ᵥ α t) = ∑ u, Matrix.of (cart α αv) t u * A u s :=
        Finset.sum_congr rfl fun u _ => by rw [Matrix.transpose_apply, mul_comm, dotProduct_comm]; rfl
      rw [e2, this]
      by_cases e : t = s
      · rw [if_pos e, if_pos e]; simp
      · rw [if_neg e, if_neg e]; simp
  radical := by
    obtain ⟨k, K, h1, h2⟩ := H.radical
    exact ⟨k, K, h1, by rw [RD.radicalRank, h1, cols, List.length_ofFn], h2⟩
  coradical := H.coradical
  isAdjoint := H.isAdjoint
  isSimplyConnected := H.isSimplyConnected
  scalarProduct := fun v k hk => by rw [RD.scalarProduct, coroot_ok H hk, Res.ok_bind, C45_dot]
  cartan := fun s t => by rw [RD.cartan, simpleRoot_ok H, Res.ok_bind, simpleCoroot_ok H, Res.ok_bind, C45_dot]
  reflect := fun v d k hk => reflect_ok H v d hk
  coreflect := fun v d k hk => coreflect_ok H v d hk
  simpleReflect := simpleReflect_ok H
  simpleCoreflect := simpleCoreflect_ok H
  reflMat_mulVec := reflMat_mulVec
  rootReflection := fun k hk => rootReflection_ok H hk
  simpleReflection := simpleReflection_ok H
  reflectLeft := fun m M k hk => reflectLeft_ok H M hk
  reflectRight := fun m M k hk => reflectRight_ok H M hk
  simpleReflectLeft := fun m M s => by
    rw [RD.simpleReflectLeft, H.sys.answers.simpleNbr, Res.ok_bind, reflectLeft_ok H M (simple_lt H s), (simple_lin H.sys s).1, (simple_lin H.sys s).2]
  simpleReflectRight := fun m M s => by
    rw [RD.simpleReflectRight, H.sys.answers.simpleNbr, Res.ok_bind, reflectRight_ok H M (simple_lt H s), (simple_lin H.sys s).1, (simple_lin H.sys s).2]
  rootPermutation := fun q hq hi => rootPermutation_ok H hq hi
  act := act_ok H
  actInverse := actInverse_ok H
  actionMatrix := fun w => by
    obtain ⟨B, h1, h2⟩ := actionLoop_ok H w 1
    refine ⟨B, by rw [RD.actionMatrix, H.rank, C45_identity, Res.ok_bind, h1], fun v => by rw [h2, Matrix.one_mulVec]⟩
  dualAct := fun w v => ⟨dualAct_ok H w v, coact_dot w v⟩
  shiftedAct := fun d w v => by rw [RD.shiftedAct, ← List.map_reverse, shiftedLoop_ok H, List.reverse_reverse]
  shiftedDualAct := shiftedDualAct_ok H

end

end Verif.Datum
