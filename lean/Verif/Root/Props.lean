import Verif.Root.Answers
import Verif.Root.Bounds
import Verif.Weyl.TwistedProps
/-
Property C48: root systems.
-/
namespace Verif.Root
open Verif.Coxeter CoxeterSystem

section
variable {rk : Nat} {C : Fin rk → Fin rk → ℤ} {comps : List Weyl.Comp} {nd pc : Bool} {rs rs' : RS} {N : Nat} {R R' : Nat → Fin rk → ℤ}

theorem Spec.Cartan.isCartan (hC : Spec.Cartan C comps) : IsCartan C (Weyl.coxMatrix C) := Weyl.isCartan_of_dynkin hC.dynkin hC.diag hC.nonpos hC.zero

theorem Spec.Cartan.finite (hC : Spec.Cartan C comps) : Finite (Weyl.coxMatrix C).Group := by
  obtain ⟨W, φ, hW, hI⟩ := Weyl.C40_weylGroup true hC.dynkin (Weyl.coxMatrix C).toCoxeterSystem
  exact Weyl.tw_finite (T := ⟨W, []⟩) hI

theorem Spec.Cartan.dual (hC : Spec.Cartan C comps) : Spec.Cartan (fun i j => C j i) comps where
  dynkin := dynkin_dual hC.dynkin
  diag := hC.diag
  nonpos s t hst := hC.nonpos t s (Ne.symm hst)
  zero s t := hC.zero t s

/-- bound for the number of positive roots -/
theorem rdata_count (hC : Spec.Cartan C comps) {cs : CoxeterSystem (Weyl.coxMatrix C) (Weyl.coxMatrix C).Group} {β β' : Nat → Fin rk → ℤ} {fd fa : Nat → Nat → Bool}
    {fl : Nat → Nat → Nat} (D : RData cs hC.isCartan N β β' fd fa fl) : N ≤ 63 * rk := by
  have h1 := count_le_rank hC.dynkin hC.isCartan cs (L := (List.range N).map β) ?_ ?_
  · simpa using h1
  · rw [List.nodup_map_iff_inj_on List.nodup_range]
    exact fun a ha b hb e => D.inj a (List.mem_range.mp ha) b (List.mem_range.mp hb) e
  · intro v hv
    obtain ⟨a, ha, rfl⟩ := List.mem_map.mp hv
    obtain ⟨t, ht⟩ := D.isRoot a (List.mem_range.mp ha)
    exact ⟨⟨_, t, ht⟩, D.pos a (List.mem_range.mp ha)⟩

/-- what the constructors establish -/
def Real (C : Fin rk → Fin rk → ℤ) (pc : Bool) (rs : RS) : Prop :=
  ∃ (M : CoxeterMatrix (Fin rk)) (W : Type) (_ : Group W) (cs : CoxeterSystem M W) (h : IsCartan C M) (_ : Finite W) (n : Nat) (β β' : Nat → Fin rk → ℤ) (fd fa : Nat → Nat → Bool)
    (fl : Nat → Nat → Nat), n < 32768 ∧ Holds cs h pc n β β' fd fa fl rs

theorem make_real (nd pc : Bool) (hC : Spec.Cartan C comps) : ∃ rs, RS.make nd (encM C) pc = .ok rs ∧ Real C pc rs := by
  have hfin := hC.finite
  have hb : if pc then Bounds (Weyl.coxMatrix C).toCoxeterSystem hC.isCartan.dual else Bounds (Weyl.coxMatrix C).toCoxeterSystem hC.isCartan := by
    cases pc with
    | false => exact (bounds hC.dynkin hC.isCartan _).1
    | true => exact (bounds hC.dynkin hC.isCartan _).2
  obtain ⟨rs, n, β, β', fd, fa, fl, h1, h2⟩ := make_ok nd pc hb
  have := rdata_count hC h2.data
  have := hC.dynkin.rank_le
  exact ⟨rs, h1, _, _, _, _, _, hfin, n, β, β', fd, fa, fl, by omega, h2⟩

theorem built_real (hC : Spec.Cartan C comps) (hB : Spec.Built nd C pc rs) : Real C pc rs := by
  induction hB with
  | make e =>
    obtain ⟨rs', h1, h2⟩ := make_real _ _ hC
    rw [h1] at e
    cases e
    exact h2
  | dual _ e ih =>
    obtain ⟨M, W, g, cs, h, hf, n, β, β', fd, fa, fl, hn, H⟩ := ih hC.dual
    obtain ⟨rs', e', H'⟩ := dual_ok H
    rw [e'] at e
    cases e
    exact ⟨M, W, g, cs, h.dual, hf, n, β', β, fd, fa, fl, hn, H'⟩

theorem Real.answers (nd : Bool) (hrk : rk ≤ 32) (hR : Real C pc rs) : ∃ N R R', Spec.Numbering C pc N R R' ∧ Spec.Answers nd C pc N R R' rs := by
  obtain ⟨M, W, g, cs, h, hf, n, β, β', fd, fa, fl, hn, H⟩ := hR
  exact ⟨n, _, _, H.numbering, H.answers nd hrk hn⟩

/-- **C48**: for every Cartan matrix of finite type the constructor succeeds, and the accessors of the root system it makes describe the
roots and coroots of that matrix. -/
theorem C48_make (nd pc : Bool) (hC : Spec.Cartan C comps) :
    ∃ rs N R R', RS.make nd (List.ofFn fun i => List.ofFn (C i)) pc = .ok rs ∧ Spec.Numbering C pc N R R' ∧ Spec.Answers nd C pc N R R' rs := by
  obtain ⟨rs, h1, h2⟩ := make_real nd pc hC
  obtain ⟨N, R, R', h3, h4⟩ := h2.answers nd hC.dynkin.rank_le
  exact ⟨rs, N, R, R', h1, h3, h4⟩

/-- **C48**: constructing the dual system always succeeds; it has the same numbers, with roots and coroots interchanged. -/
theorem C48_dual (hC : Spec.Cartan C comps) (hB : Spec.Built nd C pc rs) : ∃ rs' N R R', RS.dual rs = .ok rs' ∧
    Spec.Numbering C pc N R R' ∧ Spec.Answers nd C pc N R R' rs ∧
    Spec.Numbering (fun i j => C j i) (!pc) N R' R ∧ Spec.Answers nd (fun i j => C j i) (!pc) N R' R rs' := by
  obtain ⟨M, W, g, cs, h, hf, n, β, β', fd, fa, fl, hn, H⟩ := built_real hC hB
  obtain ⟨rs', e', H'⟩ := dual_ok H
  have hrk := hC.dynkin.rank_le
  exact ⟨rs', n, _, _, e', H.numbering, H.answers nd hrk hn, H'.numbering, H'.answers nd hrk hn⟩

/-- **C48**: every root system obtained from the constructors describes the roots and coroots of its Cartan matrix. -/
theorem C48_built (hC : Spec.Cartan C comps) (hB : Spec.Built nd C pc rs) : ∃ N R R', Spec.Numbering C pc N R R' ∧ Spec.Answers nd C pc N R R' rs :=
  (built_real hC hB).answers nd hC.dynkin.rank_le

/-- **C48**: coefficients and sums of two coefficients fit a `signed char`, and root numbers fit an `unsigned short`. -/
theorem C48_fits (hC : Spec.Cartan C comps) (hN : Spec.Numbering C pc N R R') : 2 * N ≤ 4032 ∧ ∀ k < 2 * N, ∀ i, |R k i| ≤ 6 ∧ |R' k i| ≤ 6 := by
  have hrk := hC.dynkin.rank_le
  have key : ∀ k < 2 * N, ∃ t, IsRoot (Weyl.coxMatrix C).toCoxeterSystem hC.isCartan (R k) (R' k) t := fun k hk => (spec_isRoot _ _ _ _).mp (hN.root k hk)
  refine ⟨?_, fun k hk i => ?_⟩
  · have h1 := count_le_rank hC.dynkin hC.isCartan (Weyl.coxMatrix C).toCoxeterSystem (L := (List.range N).map fun a => R (N + a)) ?_ ?_
    · rw [List.length_map, List.length_range] at h1
      omega
    · rw [List.nodup_map_iff_inj_on List.nodup_range]
      intro a ha b hb e
      have ha' := List.mem_range.mp ha
      have hb' := List.mem_range.mp hb
      have := hN.inj (N + a) (by omega) (N + b) (by omega) e
      omega
    · intro v hv
      obtain ⟨a, ha, rfl⟩ := List.mem_map.mp hv
      have ha' := List.mem_range.mp ha
      obtain ⟨t, ht⟩ := key (N + a) (by omega)
      exact ⟨⟨_, t, ht⟩, fun i => (hN.pos (N + a) (by omega) (by omega) i).1⟩
  · obtain ⟨t, ht⟩ := key k hk
    exact ⟨coef_le hC.dynkin hC.isCartan _ ht i, coef_le (dynkin_dual hC.dynkin) hC.isCartan.dual _ ht.dual i⟩

end

/-! ### an example: type B3+G2 -/

theorem exCartan : Spec.Cartan Weyl.exC Weyl.exComps := ⟨Weyl.exDynkin, by decide, by decide, by decide⟩

/-- the hypotheses are met -/
example : ∃ rs N R R', RS.make false (List.ofFn fun i => List.ofFn (Weyl.exC i)) true = .ok rs ∧ Spec.Numbering Weyl.exC true N R R' ∧ Spec.Answers false Weyl.exC true N R R' rs :=
  C48_make false true exCartan

example : ∃ rs, Spec.Built false Weyl.exC true rs ∧ ∃ rs', Spec.Built false (fun i j => Weyl.exC j i) false rs' := by
  obtain ⟨rs, _, _, _, h1, -⟩ := C48_make false true exCartan
  obtain ⟨rs', _, _, _, h2, -⟩ := C48_dual exCartan (Spec.Built.make h1)
  exact ⟨rs, .make h1, rs', .dual (.make h1) h2⟩

end Verif.Root
