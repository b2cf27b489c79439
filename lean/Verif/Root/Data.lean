import Verif.Root.Gen2
/-
What the generation of a root system has established: numbering of the positive roots, descents and links; computation of coroots.
-/
namespace Verif.Root
open Verif.Coxeter CoxeterSystem

section
variable {rk : Nat} {M : CoxeterMatrix (Fin rk)} {W : Type} [Group W] {cs : CoxeterSystem M W} {C : Fin rk → Fin rk → ℤ} {h : IsCartan C M}

/-- numbering of the positive roots, with their coroots, descents, ascents and links -/
structure RData (cs : CoxeterSystem M W) (h : IsCartan C M) (n : Nat) (β β' : Nat → Fin rk → ℤ) (fd fa : Nat → Nat → Bool) (fl : Nat → Nat → Nat) : Prop where
  rkn : rk ≤ n
  isRoot : ∀ j < n, ∃ t, IsRoot cs h (β j) (β' j) t
  pos : ∀ j < n, ∀ i, 0 ≤ β j i
  inj : ∀ j < n, ∀ k < n, β j = β k → j = k
  surj : ∀ v, PosRoot cs h v → ∃ j < n, β j = v
  simple : ∀ i : Fin rk, β i = root i
  desc : ∀ j < n, ∀ k, fd j k = true ↔ ∃ hk : k < rk, 0 < pairing C ⟨k, hk⟩ (β j)
  asc : ∀ j < n, ∀ k, fa j k = true ↔ ∃ hk : k < rk, pairing C ⟨k, hk⟩ (β j) < 0
  link : ∀ j < n, ∀ i : Fin rk, β j ≠ root i → fl j i < n ∧ β (fl j i) = srefl C i (β j)
  down : ∀ j < n, ∀ i : Fin rk, β j ≠ root i → 0 < pairing C i (β j) → fl j i < j

theorem isRoot_root_iff {v v' : Fin rk → ℤ} {t : W} (hr : IsRoot cs h v v' t) (i : Fin rk) : v = root i ↔ v' = root i := by
  constructor
  · rintro rfl
    exact (hr.unique (isRoot_simple i)).1
  · rintro rfl
    exact (hr.unique_dual (isRoot_simple i)).1

theorem isRoot_pos_iff {v v' : Fin rk → ℤ} {t : W} (hr : IsRoot cs h v v' t) : (∀ i, 0 ≤ v i) ↔ ∀ i, 0 ≤ v' i := by
  rcases hr.sign with ⟨h1, h2⟩ | ⟨h1, h2⟩
  · exact ⟨fun _ => h2, fun _ => h1⟩
  · constructor
    · intro h3
      exact absurd (funext fun i => le_antisymm (h1 i) (h3 i)) hr.ne_zero
    · intro h3
      exact absurd (funext fun i => le_antisymm (h2 i) (h3 i)) hr.dual.ne_zero

variable {n : Nat} {β β' : Nat → Fin rk → ℤ} {fd fa : Nat → Nat → Bool} {fl : Nat → Nat → Nat}

theorem RData.co_simple (D : RData cs h n β β' fd fa fl) (i : Fin rk) : β' i = root i := by
  obtain ⟨t, ht⟩ := D.isRoot i (lt_of_lt_of_le i.2 D.rkn)
  exact (isRoot_root_iff ht i).mp (D.simple i)

theorem RData.co_inj (D : RData cs h n β β' fd fa fl) : ∀ j < n, ∀ k < n, β' j = β' k → j = k := by
  intro j hj k hk e
  obtain ⟨t, ht⟩ := D.isRoot j hj
  obtain ⟨u, hu⟩ := D.isRoot k hk
  rw [e] at ht
  exact D.inj j hj k hk (ht.unique_dual hu).1

theorem isRoot_pairing_sign [Finite W] {v v' : Fin rk → ℤ} {t : W} (hr : IsRoot cs h v v' t) (i : Fin rk) :
    (0 < pairing C i v ↔ 0 < pairing (fun s t => C t s) i v') ∧ (pairing C i v < 0 ↔ pairing (fun s t => C t s) i v' < 0) := by
  have h1 := (isRoot_simple (cs := cs) (h := h) i).pair hr
  rw [form_root_right, form_root_left] at h1
  refine ⟨h1.1, ?_⟩
  have h2 := h1.1
  have h3 := h1.2.1
  omega

theorem RData.dual [Finite W] (D : RData cs h n β β' fd fa fl) : RData cs h.dual n β' β fd fa fl where
  rkn := D.rkn
  isRoot j hj := by
    obtain ⟨t, ht⟩ := D.isRoot j hj
    exact ⟨t, ht.dual⟩
  pos j hj := by
    obtain ⟨t, ht⟩ := D.isRoot j hj
    exact (isRoot_pos_iff ht).mp (D.pos j hj)
  inj := D.co_inj
  surj v hv := by
    obtain ⟨⟨v', t, hr⟩, hp⟩ := hv
    obtain ⟨j, hj, e⟩ := D.surj v' ⟨⟨v, t, hr.dual⟩, (isRoot_pos_iff hr).mp hp⟩
    obtain ⟨u, hu⟩ := D.isRoot j hj
    rw [e] at hu
    exact ⟨j, hj, (hu.unique hr.dual).1⟩
  simple := D.co_simple
  desc j hj k := by
    obtain ⟨t, ht⟩ := D.isRoot j hj
    rw [D.desc j hj]
    exact ⟨fun ⟨hk, hx⟩ => ⟨hk, (isRoot_pairing_sign ht _).1.mp hx⟩, fun ⟨hk, hx⟩ => ⟨hk, (isRoot_pairing_sign ht _).1.mpr hx⟩⟩
  asc j hj k := by
    obtain ⟨t, ht⟩ := D.isRoot j hj
    rw [D.asc j hj]
    exact ⟨fun ⟨hk, hx⟩ => ⟨hk, (isRoot_pairing_sign ht _).2.mp hx⟩, fun ⟨hk, hx⟩ => ⟨hk, (isRoot_pairing_sign ht _).2.mpr hx⟩⟩
  link j hj i hne := by
    obtain ⟨t, ht⟩ := D.isRoot j hj
    rw [ne_eq, ← isRoot_root_iff ht] at hne
    obtain ⟨h1, h2⟩ := D.link j hj i hne
    refine ⟨h1, ?_⟩
    obtain ⟨u, hu⟩ := D.isRoot _ h1
    have h3 := ht.act (cs.simple i)
    rw [geom_simple, geom_simple, ← h2] at h3
    exact (hu.unique h3).1
  down j hj i hne hp := by
    obtain ⟨t, ht⟩ := D.isRoot j hj
    rw [ne_eq, ← isRoot_root_iff ht] at hne
    exact D.down j hj i hne ((isRoot_pairing_sign ht i).1.mpr hp)

/-- the first descent of a positive root that is not simple -/
theorem RData.firstBit_ok (D : RData cs h n β β' fd fa fl) (hrk : rk ≤ 32) {j : Nat} (hj : j < n) (hjr : rk ≤ j) :
    ∃ i : Fin rk, firstBit ((List.range 32).map (fd j)) = i.1 ∧ 0 < pairing C i (β j) ∧ β j ≠ root i := by
  obtain ⟨t, ht⟩ := D.isRoot j hj
  obtain ⟨s, hs⟩ := ht.exists_descent (D.pos j hj)
  have hmem : true ∈ (List.range 32).map (fd j) := by
    rw [List.mem_map]
    exact ⟨s.1, List.mem_range.mpr (by have := s.2; omega), (D.desc j hj s).mpr ⟨s.2, hs⟩⟩
  have hlt := List.idxOf_lt_length_iff.mpr hmem
  have hv : ((List.range 32).map (fd j))[((List.range 32).map (fd j)).idxOf true] = true := List.getElem_idxOf hlt
  rw [List.getElem_map, List.getElem_range] at hv
  obtain ⟨hk, hp⟩ := (D.desc j hj _).mp hv
  refine ⟨⟨_, hk⟩, rfl, hp, ?_⟩
  intro e
  have := D.inj j hj _ (lt_of_lt_of_le hk D.rkn) (e.trans (D.simple ⟨_, hk⟩).symm)
  omega

/-! ### from the generation phase -/

/-- the coroot of a root -/
noncomputable def coOf (cs : CoxeterSystem M W) (h : IsCartan C M) (v : Fin rk → ℤ) : Fin rk → ℤ :=
  @dite _ (∃ v' t, IsRoot cs h v v' t) (Classical.propDecidable _) (fun e => e.choose) fun _ => 0

theorem coOf_spec {v v' : Fin rk → ℤ} {t : W} (hr : IsRoot cs h v v' t) : coOf cs h v = v' := by
  have e : ∃ v' t, IsRoot cs h v v' t := ⟨v', t, hr⟩
  rw [coOf, dif_pos e]
  obtain ⟨u, hu⟩ := e.choose_spec
  exact (hu.unique hr).1

theorem before_asymm {v w : Fin rk → ℤ} (h1 : before v w) (h2 : before w v) : False := by
  rcases h1 with h1 | ⟨h1, h3⟩ <;> rcases h2 with h2 | ⟨h2, h4⟩
  · omega
  · omega
  · omega
  · exact less_asymm h3 h4

/-- the simple roots come first -/
theorem simple_first {R : List (Fin rk → ℤ)} (hp : ∀ v ∈ R, PosRoot cs h v) (ho : R.Pairwise before) (hc : ∀ v, PosRoot cs h v → v ∈ R) :
    R = (List.finRange rk).map root ++ R.filter fun v => decide (lev v ≠ 1) := by
  refine List.Perm.eq_of_pairwise (le := before) (fun a b _ _ h1 h2 => (before_asymm h1 h2).elim) ho ?_ ?_
  · rw [List.pairwise_append]
    refine ⟨?_, ho.filter _, ?_⟩
    · rw [List.pairwise_map]
      exact (List.pairwise_lt_finRange rk).imp fun hab => .inr ⟨by rw [lev_root, lev_root], less_root hab⟩
    · intro v hv w hw
      obtain ⟨i, -, rfl⟩ := List.mem_map.mp hv
      rw [List.mem_filter, decide_eq_true_iff] at hw
      left
      rw [lev_root]
      have := (hp w hw.1).lev_pos
      omega
  · refine (List.perm_ext_iff_of_nodup (order_nodup ho) ?_).mpr fun v => ?_
    · rw [List.nodup_append]
      refine ⟨?_, (order_nodup ho).filter _, ?_⟩
      · refine List.Nodup.map ?_ (List.nodup_finRange rk)
        intro a b e
        have := congrFun e a
        rw [root_apply, root_apply, if_pos rfl] at this
        by_contra hne
        rw [if_neg hne] at this
        omega
      · rintro v hv w hw rfl
        obtain ⟨i, -, rfl⟩ := List.mem_map.mp hv
        rw [List.mem_filter, decide_eq_true_iff, lev_root] at hw
        exact hw.2 rfl
    · rw [List.mem_append, List.mem_map, List.mem_filter, decide_eq_true_iff]
      constructor
      · intro hv
        by_cases h1 : lev v = 1
        · left
          obtain ⟨i, hi⟩ := eq_root_of_lev (hp v hv).2 h1
          exact ⟨i, List.mem_finRange i, hi.symm⟩
        · exact .inr ⟨hv, h1⟩
      · rintro (⟨i, -, rfl⟩ | hv)
        · exact hc _ (posRoot_simple i)
        · exact hv.1

/-- the order of the numbering -/
def InOrder (n : Nat) (β : Nat → Fin rk → ℤ) : Prop := ∀ j k, j < k → k < n → before (β j) (β k)

/-- The generation phase establishes the data. -/
theorem rdata_of_gen {l : Nat} {R : List (Fin rk → ℤ)} {g : Gen} (hg : GInv cs h l R g) (hc : ∀ v, PosRoot cs h v → v ∈ R) :
    ∃ fd fa fl, g.roots = (List.range R.length).map (fun j => enc (R[j]?.getD 0)) ∧ g.desc = tab R.length 32 fd ∧ g.asc = tab R.length 32 fa ∧ g.link = tab R.length rk fl ∧
      RData cs h R.length (fun j => R[j]?.getD 0) (fun j => coOf cs h (R[j]?.getD 0)) fd fa fl ∧ InOrder R.length fun j => R[j]?.getD 0 := by
  obtain ⟨fd, hd1, hd2⟩ := hg.desc
  obtain ⟨fa, ha1, ha2⟩ := hg.asc
  obtain ⟨fl, hl1, hl2⟩ := hg.link
  have hget : ∀ j (hj : j < R.length), R[j]?.getD 0 = R[j] := fun j hj => by rw [List.getElem?_eq_getElem hj]; rfl
  have hnd := order_nodup hg.order
  have hord : InOrder R.length fun j => R[j]?.getD 0 := by
    intro j k hjk hk
    beta_reduce
    rw [hget j (by omega), hget k hk]
    exact List.pairwise_iff_getElem.mp hg.order j k (by omega) hk hjk
  have hsf := simple_first hg.pos hg.order hc
  have hrkn : rk ≤ R.length := by
    have := congrArg List.length hsf
    rw [List.length_append, List.length_map, List.length_finRange] at this
    omega
  have hlink : ∀ j < R.length, ∀ i : Fin rk, R[j]?.getD 0 ≠ root i → fl j i < R.length ∧ R[fl j i]?.getD 0 = srefl C i (R[j]?.getD 0) := by
    intro j hj i hne
    rw [hget j hj] at hne ⊢
    have hm := hc _ ((hg.pos _ (List.getElem_mem hj)).refl hne)
    have e : fl j i = R.idxOf (srefl C i R[j]) := by rw [hl2 j hj i, linkVal, if_neg hne, if_pos hm]
    have hlt := List.idxOf_lt_length_iff.mpr hm
    rw [e]
    refine ⟨hlt, ?_⟩
    rw [hget _ hlt, List.getElem_idxOf]
  refine ⟨fd, fa, fl, ?_, hd1, ha1, hl1, ⟨hrkn, ?_, ?_, ?_, ?_, ?_, ?_, ?_, hlink, ?_⟩, hord⟩
  · rw [hg.roots]
    apply List.ext_getElem
    · simp
    · intro k h1 h2
      simp only [List.length_map] at h1
      simp [hget k h1]
  · intro j hj
    rw [hget j hj]
    obtain ⟨v', t, hr⟩ := (hg.pos _ (List.getElem_mem hj)).1
    exact ⟨t, by rw [coOf_spec hr]; exact hr⟩
  · intro j hj
    rw [hget j hj]
    exact (hg.pos _ (List.getElem_mem hj)).2
  · intro j hj k hk e
    rw [hget j hj, hget k hk] at e
    exact (List.Nodup.getElem_inj_iff hnd).mp e
  · intro v hv
    have hm := hc v hv
    have hlt := List.idxOf_lt_length_iff.mpr hm
    exact ⟨R.idxOf v, hlt, by rw [hget _ hlt, List.getElem_idxOf]⟩
  · intro i
    rw [hsf, List.getElem?_append_left (by simp)]
    simp
  · intro j hj k
    rw [hget j hj]
    exact hd2 j hj k
  · intro j hj k
    rw [hget j hj]
    exact ha2 j hj k
  · intro j hj i hne hp
    obtain ⟨h1, h2⟩ := hlink j hj i hne
    have h3 := congrArg lev h2
    rw [lev_srefl] at h3
    by_contra hcon
    by_cases he : fl j i = j
    · rw [he] at h3; omega
    · have := hord j (fl j i) (by omega) h1
      beta_reduce at this
      rcases this with h4 | ⟨h4, -⟩ <;> omega

/-! ### coroots -/

theorem coInit_ok {f : Nat → BV} (n : Nat) : ∀ (d k : Nat), k + d ≤ n → ∀ {co : List BV}, co.length = n → (∀ j < k, co[j]? = some (f j)) →
    ∃ co', coInit ((List.range n).map f) (List.range' k d) co = .ok co' ∧ co'.length = n ∧ ∀ j < k + d, co'[j]? = some (f j)
  | 0, k, hk, co, h1, h2 => ⟨co, rfl, h1, h2⟩
  | d + 1, k, hk, co, h1, h2 => by
    have key := coInit_ok (f := f) n d (k + 1) (by omega) (co := co.set k (f k)) (by rw [List.length_set, h1]) ?_
    · obtain ⟨co', h3, h4, h5⟩ := key
      refine ⟨co', ?_, h4, fun j hj => h5 j (by omega)⟩
      rw [List.range'_succ, coInit, row_get _ (by omega), Res.ok_bind, Vec.put_ok (by omega), Res.ok_bind, h3]
    · intro j hj
      by_cases hjk : j = k
      · subst hjk; rw [List.getElem?_set_self (by omega)]
      · rw [List.getElem?_set_ne (by omega), h2 j (by omega)]

/-- the loop computing coroots -/
theorem coLoop_ok (nd : Bool) (hrk : rk ≤ 32) (D : RData cs h n β β' fd fa fl) : ∀ (d k : Nat), k + d = n → rk ≤ k → ∀ {co : List BV}, co.length = n →
    (∀ j < k, co[j]? = some (enc (β' j))) → coLoop nd (encM C) (tab n 32 fd) (tab n rk fl) (List.range' k d) co = .ok ((List.range n).map fun j => enc (β' j))
  | 0, k, hk, hkr, co, h1, h2 => by
    rw [List.range'_zero, coLoop]
    congr 1
    apply List.ext_getElem?
    intro j
    by_cases hj : j < n
    · rw [h2 j (by omega), List.getElem?_map, List.getElem?_range hj]
      rfl
    · rw [List.getElem?_eq_none (by omega), List.getElem?_eq_none (by simpa using by omega)]
  | d + 1, k, hk, hkr, co, h1, h2 => by
    obtain ⟨i, hi1, hi2, hi3⟩ := D.firstBit_ok hrk (j := k) (by omega) hkr
    obtain ⟨h3, h4⟩ := D.link k (by omega) i hi3
    have h5 := D.down k (by omega) i hi3 hi2
    have hcb : Vec.get co (fl k i) = .ok (enc (β' (fl k i))) := by rw [Vec.get, h2 _ h5]
    obtain ⟨t, ht⟩ := D.isRoot k (by omega)
    obtain ⟨u, hu⟩ := D.isRoot _ h3
    have hco : β' k = srefl (fun s t => C t s) i (β' (fl k i)) := by
      have := hu.act (cs.simple i)
      rw [geom_simple, geom_simple, h4, srefl_srefl h] at this
      exact (ht.unique this).1
    have hdot : dot (enc (β' (fl k i))) (enc (C i)) = pairing (fun s t => C t s) i (β' (fl k i)) := by rw [dot_enc]; rfl
    rw [List.range'_succ, coLoop, tab_get _ (by omega), Res.ok_bind, tab_get _ (by omega), Res.ok_bind]
    simp only [hi1]
    rw [row_get _ i.2, Res.ok_bind, Res.assertIn_bind nd (decide_eq_true h5), hcb, Res.ok_bind, Vec.put_ok (by omega), Res.ok_bind, enc_get, Res.ok_bind, encM_row,
      Res.ok_bind, hdot, enc_put, Res.ok_bind, Vec.put_ok (by rw [List.length_set]; omega), Res.ok_bind, update_eq_srefl, ← hco, List.set_set]
    refine coLoop_ok nd hrk D d (k + 1) (by omega) (by omega) (by rw [List.length_set, h1]) ?_
    intro j hj
    by_cases hjk : j = k
    · subst hjk; rw [List.getElem?_set_self (by omega)]
    · rw [List.getElem?_set_ne (by omega), h2 j (by omega)]

/-- both loops -/
theorem coroots_ok (nd : Bool) (hrk : rk ≤ 32) (D : RData cs h n β β' fd fa fl) :
    ∃ co, coInit ((List.range n).map fun j => enc (β j)) (List.range rk) (List.replicate n []) = .ok co ∧
      coLoop nd (encM C) (tab n 32 fd) (tab n rk fl) (List.range' rk (n - rk)) co = .ok ((List.range n).map fun j => enc (β' j)) := by
  have hrkn := D.rkn
  obtain ⟨co, h1, h2, h3⟩ := coInit_ok (f := fun j => enc (β j)) n rk 0 (by omega) (co := List.replicate n []) (by simp) (by intro j hj; omega)
  refine ⟨co, by rw [List.range_eq_range' (n := rk)]; exact h1, coLoop_ok nd hrk D (n - rk) rk (by omega) (le_refl _) h2 ?_⟩
  intro j hj
  rw [h3 j (by omega), D.simple ⟨j, hj⟩, ← D.co_simple ⟨j, hj⟩]

end

end Verif.Root
