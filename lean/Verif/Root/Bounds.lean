import Verif.Root.Level2
import Verif.Weyl.TwistedProps
/-
For every Dynkin diagram the levels and the number of the roots are small enough for the construction.
-/
namespace Verif.Root
open Verif.Coxeter CoxeterSystem

variable {rk : Nat} {C : Fin rk → Fin rk → ℤ} {comps : List Weyl.Comp} {M : CoxeterMatrix (Fin rk)} {W : Type} [Group W]

/-- every index occurs in a component, in one place -/
theorem dynkin_pos (hD : Weyl.IsDynkin rk C comps) {c : Weyl.Comp} (hc : c ∈ comps) :
    ∃ p : Fin c.rank → Fin rk, Function.Injective p ∧ (∀ i : Fin c.rank, c.position[i.1]? = some (p i).1) ∧ ∀ s : Fin rk, s.1 ∈ c.position ↔ ∃ i, p i = s := by
  have hlt : ∀ s ∈ c.position, s < rk := by
    intro s hs
    exact List.mem_range.mp (hD.perm.subset (List.mem_flatMap.mpr ⟨c, hc, hs⟩))
  have hnd : c.position.Nodup := by
    have h1 : (comps.flatMap Weyl.Comp.position).Nodup := hD.perm.nodup_iff.mpr List.nodup_range
    rw [List.nodup_flatMap] at h1
    exact h1.1 c hc
  refine ⟨fun i => ⟨c.position[i.1]'i.2, hlt _ (List.getElem_mem _)⟩, ?_, ?_, ?_⟩
  · intro i j e
    have := Fin.mk.inj_iff.mp e
    exact Fin.ext ((List.Nodup.getElem_inj_iff hnd).mp this)
  · intro i
    exact List.getElem?_eq_getElem i.2
  · intro s
    constructor
    · intro hs
      obtain ⟨i, hi, e⟩ := List.getElem_of_mem hs
      exact ⟨⟨i, hi⟩, Fin.ext e⟩
    · rintro ⟨i, rfl⟩
      exact List.getElem_mem _

/-- the coordinates in a component -/
def coords {n : Nat} (p : Fin n → Fin rk) (v : Fin rk → ℤ) (k : Nat) : ℤ := if hk : k < n then v (p ⟨k, hk⟩) else 0

def cmat {n : Nat} (p : Fin n → Fin rk) (C : Fin rk → Fin rk → ℤ) (i j : Nat) : ℤ := if h : i < n ∧ j < n then C (p ⟨i, h.1⟩) (p ⟨j, h.2⟩) else 0

theorem cmat_eq {n : Nat} (p : Fin n → Fin rk) {i j : Nat} (hi : i < n) (hj : j < n) : cmat p C i j = C (p ⟨i, hi⟩) (p ⟨j, hj⟩) := dif_pos ⟨hi, hj⟩

theorem coords_eq {n : Nat} (p : Fin n → Fin rk) (v : Fin rk → ℤ) {k : Nat} (hk : k < n) : coords p v k = v (p ⟨k, hk⟩) := dif_pos hk

theorem comp_cartan (hD : Weyl.IsDynkin rk C comps) (h : IsCartan C M) {c : Weyl.Comp} (hc : c ∈ comps) {p : Fin c.rank → Fin rk} (hp1 : Function.Injective p)
    (hp2 : ∀ i : Fin c.rank, c.position[i.1]? = some (p i).1) : CompCartan c.ty c.rank (cmat p C) := by
  refine ⟨hD.ranks c hc, ?_, ?_, ?_, ?_⟩
  · intro i hi
    rw [cmat_eq p hi hi, h.diag]
  · intro i hi j hj hij
    rw [cmat_eq p hi hj]
    exact h.nonpos _ _ fun e => hij (Fin.mk.inj_iff.mp (hp1 e))
  · intro i hi j hj
    rw [cmat_eq p hi hj, cmat_eq p hj hi]
    exact h.zero _ _
  · intro i hi j hj hij
    rw [cmat_eq p hi hj, cmat_eq p hj hi]
    exact hD.inside c hc _ _ i j hij (hp2 ⟨i, hi⟩) (hp2 ⟨j, hj⟩)

/-- sums over a component -/
theorem sum_comp {n : Nat} {p : Fin n → Fin rk} (hp : Function.Injective p) (f : Fin rk → ℤ) (h0 : ∀ s, (∀ i, p i ≠ s) → f s = 0) (g : Nat → ℤ)
    (hg : ∀ k (hk : k < n), g k = f (p ⟨k, hk⟩)) : ∑ s, f s = ∑ k ∈ Finset.range n, g k := by
  rw [Finset.sum_range]
  symm
  refine Fintype.sum_of_injective p hp _ _ ?_ ?_
  · intro s hs
    exact h0 s fun i e => hs ⟨i, e⟩
  · intro i
    exact hg i.1 i.2

/-- the roots belong to one component, and to any closed set of vectors of that component -/
theorem root_closed (hD : Weyl.IsDynkin rk C comps) (h : IsCartan C M) (cs : CoxeterSystem M W) {c : Weyl.Comp} (hc : c ∈ comps)
    {p : Fin c.rank → Fin rk} (hp1 : Function.Injective p) (hp3 : ∀ s : Fin rk, s.1 ∈ c.position ↔ ∃ i, p i = s) {P : (Nat → ℤ) → Prop} (hP : Closed c.rank (cmat p C) P)
    (w : W) (i : Fin c.rank) : (∀ s, (∀ j, p j ≠ s) → geom cs h w (root (p i)) s = 0) ∧ P (coords p (geom cs h w (root (p i)))) := by
  induction w using cs.simple_induction_left with
  | one =>
    rw [map_one]
    refine ⟨fun s hs => ?_, ?_⟩
    · show root (p i) s = 0
      rw [root_apply, if_neg fun e => hs i e.symm]
    · have : coords p ((1 : Module.End ℤ (Fin rk → ℤ)) (root (p i))) = fun k => if k = i.1 then 1 else 0 := by
        funext k
        by_cases hk : k < c.rank
        · rw [coords_eq p _ hk]
          show root (p i) _ = _
          rw [root_apply]
          by_cases hki : k = i.1
          · subst hki; rw [if_pos rfl, if_pos rfl]
          · rw [if_neg fun e => hki (congrArg Fin.val (hp1 e)), if_neg hki]
        · rw [coords, dif_neg hk, if_neg (by omega)]
      rw [this]
      exact hP.simple i.1 i.2
  | mul_simple_left w s ih =>
    obtain ⟨ih1, ih2⟩ := ih
    rw [geom_mul, geom_simple, srefl_apply]
    generalize geom cs h w (root (p i)) = v at ih1 ih2
    by_cases hs : s.1 ∈ c.position
    · obtain ⟨j, rfl⟩ := (hp3 s).mp hs
      refine ⟨fun t ht => ?_, ?_⟩
      · rw [Pi.sub_apply, Pi.smul_apply, ih1 t ht, root_apply, if_neg fun e => ht j e.symm]
        simp
      · have : coords p (v - pairing C (p j) v • root (p j)) = crefl c.rank (cmat p C) j (coords p v) := by
          have hpair : pairing C (p j) v = ∑ k ∈ Finset.range c.rank, coords p v k * cmat p C k j := by
            refine sum_comp (f := fun t => v t * C t (p j)) hp1 ?_ _ ?_
            · intro t ht
              beta_reduce
              rw [ih1 t ht, zero_mul]
            · intro k hk
              rw [coords_eq p v hk, cmat_eq p hk j.2]
          funext k
          by_cases hkj : k = j.1
          · subst hkj
            rw [crefl_self, coords_eq p _ j.2, coords_eq p _ j.2, ← hpair]
            rw [Pi.sub_apply, Pi.smul_apply, root_apply, if_pos rfl, smul_eq_mul, mul_one]
          · rw [crefl_ne _ hkj]
            by_cases hk : k < c.rank
            · rw [coords_eq p _ hk, coords_eq p _ hk, Pi.sub_apply, Pi.smul_apply, root_apply, if_neg fun e => hkj (congrArg Fin.val (hp1 e))]
              simp
            · rw [coords, coords, dif_neg hk, dif_neg hk]
        rw [this]
        exact hP.refl _ ih2 j.1 j.2
    · -- a reflection of another component
      have hz : pairing C s v = 0 := by
        show ∑ t, v t * C t s = 0
        refine Finset.sum_eq_zero fun t _ => ?_
        by_cases ht : ∃ j, p j = t
        · have htc := (hp3 t).mpr ht
          have hsm : ∃ c' ∈ comps, s.1 ∈ c'.position := by
            have := hD.perm.symm.subset (List.mem_range.2 s.2)
            simpa using this
          obtain ⟨c', hc', hs'⟩ := hsm
          have hne : c ≠ c' := fun e => hs (e ▸ hs')
          have := hD.across c hc c' hc' hne t s htc hs'
          rcases mul_eq_zero.mp this with e | e
          · rw [e, mul_zero]
          · rw [h.zero _ _ e, mul_zero]
        · push Not at ht
          rw [ih1 t ht, zero_mul]
      rw [hz, zero_smul, sub_zero]
      exact ⟨ih1, ih2⟩

/-- bound for the level -/
theorem level_le (hD : Weyl.IsDynkin rk C comps) (h : IsCartan C M) (cs : CoxeterSystem M W) {v v' : Fin rk → ℤ} {t : W} (hv : IsRoot cs h v v' t) :
    lev v ≤ 4 * rk - 2 := by
  obtain ⟨w, s, rfl, -⟩ := hv
  have hsm : ∃ c ∈ comps, s.1 ∈ c.position := by
    have := hD.perm.symm.subset (List.mem_range.2 s.2)
    simpa using this
  obtain ⟨c, hc, hs⟩ := hsm
  obtain ⟨p, hp1, hp2, hp3⟩ := dynkin_pos hD hc
  obtain ⟨i, rfl⟩ := (hp3 s).mp hs
  obtain ⟨P, hP⟩ := closed_exists (comp_cartan hD h hc hp1 hp2)
  obtain ⟨h1, h2⟩ := root_closed hD h cs hc hp1 hp3 hP w i
  have h3 := hP.bound _ h2
  have h4 : lev (geom cs h w (root (p i))) = ∑ k ∈ Finset.range c.rank, coords p (geom cs h w (root (p i))) k :=
    sum_comp hp1 _ h1 _ fun k hk => coords_eq p _ hk
  rw [h4]
  refine le_trans h3 ?_
  have : c.rank ≤ rk := by
    have := Fintype.card_le_of_injective p hp1
    simpa using this
  omega

/-- bound for the coefficients -/
theorem coef_le (hD : Weyl.IsDynkin rk C comps) (h : IsCartan C M) (cs : CoxeterSystem M W) {v v' : Fin rk → ℤ} {t : W} (hv : IsRoot cs h v v' t) (s : Fin rk) : |v s| ≤ 6 := by
  obtain ⟨w, s', rfl, -⟩ := hv
  have hsm : ∃ c ∈ comps, s'.1 ∈ c.position := by
    have := hD.perm.symm.subset (List.mem_range.2 s'.2)
    simpa using this
  obtain ⟨c, hc, hs⟩ := hsm
  obtain ⟨p, hp1, hp2, hp3⟩ := dynkin_pos hD hc
  obtain ⟨i, rfl⟩ := (hp3 s').mp hs
  obtain ⟨P, hP⟩ := closed_exists (comp_cartan hD h hc hp1 hp2)
  obtain ⟨h1, h2⟩ := root_closed hD h cs hc hp1 hp3 hP w i
  by_cases hsc : ∃ j, p j = s
  · obtain ⟨j, rfl⟩ := hsc
    have := hP.coef _ h2 j.1 j.2
    rwa [coords_eq p _ j.2] at this
  · push Not at hsc
    rw [h1 s hsc]
    simp

/-- the transposed matrix has the same diagram -/
theorem dynkin_dual (hD : Weyl.IsDynkin rk C comps) : Weyl.IsDynkin rk (fun s t => C t s) comps where
  rank_le := hD.rank_le
  ranks := hD.ranks
  offsets := hD.offsets
  perm := hD.perm
  inside c hc s t i j hij hs ht := by rw [mul_comm]; exact hD.inside c hc s t i j hij hs ht
  across c hc c' hc' hne s t hs ht := by rw [mul_comm]; exact hD.across c hc c' hc' hne s t hs ht

theorem count_le_rank (hD : Weyl.IsDynkin rk C comps) {C' : Fin rk → Fin rk → ℤ} (h : IsCartan C' (Weyl.coxMatrix C)) (cs : CoxeterSystem (Weyl.coxMatrix C) W)
    {L : List (Fin rk → ℤ)} (hnd : L.Nodup) (hL : ∀ v ∈ L, PosRoot cs h v) : L.length ≤ 63 * rk := by
  obtain ⟨w0, h1, h2⟩ := exists_longest hD cs
  exact le_trans (count_le h1 hnd hL) h2

theorem bounds (hD : Weyl.IsDynkin rk C comps) (h : IsCartan C (Weyl.coxMatrix C)) (cs : CoxeterSystem (Weyl.coxMatrix C) W) : Bounds cs h ∧ Bounds cs h.dual := by
  have hr := hD.rank_le
  refine ⟨⟨hr, ?_, ?_⟩, ⟨hr, ?_, ?_⟩⟩
  · rintro v ⟨⟨v', t, hv⟩, -⟩
    exact level_le hD h cs hv
  · intro L hL hnd
    have := count_le_rank hD h cs hL hnd
    unfold undef
    omega
  · rintro v ⟨⟨v', t, hv⟩, -⟩
    exact level_le (dynkin_dual hD) h.dual cs hv
  · intro L hL hnd
    have := count_le_rank hD h.dual cs hL hnd
    unfold undef
    omega

end Verif.Root
