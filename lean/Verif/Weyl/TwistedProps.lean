import Verif.Weyl.TwistedImpl2
import Verif.Weyl.Props
/-
C47: the class `TwistedWeylGroup` computes in a Weyl group with an automorphism of its diagram.
-/
namespace Verif.Weyl
open Verif Verif.Coxeter

variable {rank : Nat} {C : Fin rank → Fin rank → Int} {comps : List Comp} {G : Type} [Group G]

theorem bondLt_le (ty : Ty) (n i j : Nat) : bondLt ty n i j ≤ 3 := by
  cases ty <;> simp only [bondLt] <;> (try split) <;> (try split) <;> omega

theorem bond_le (ty : Ty) (n i j : Nat) : bond ty n i j ≤ 3 := by
  unfold bond; split <;> exact bondLt_le _ _ _ _

theorem isCartan_of_dynkin (h : IsDynkin rank C comps) (hd : ∀ s, C s s = 2) (hn : ∀ s t, s ≠ t → C s t ≤ 0)
    (hz : ∀ s t, C s t = 0 → C t s = 0) : IsCartan C (coxMatrix C) := by
  refine ⟨hd, hn, hz, ?_⟩
  intro s t hst
  have hM : coxMatrix C s t = bondOrder (C s t * C t s) := if_neg hst
  have mem : ∀ s : Fin rank, ∃ c ∈ comps, s.1 ∈ c.position := by
    intro s
    have := h.perm.symm.subset (List.mem_range.2 s.2)
    simpa using this
  have hb : ∃ k : Nat, k ≤ 3 ∧ C s t * C t s = k := by
    obtain ⟨c, hc, hs⟩ := mem s
    obtain ⟨c', hc', ht⟩ := mem t
    by_cases hcc : c = c'
    · subst hcc
      obtain ⟨i, hi, ei⟩ := List.getElem_of_mem hs
      obtain ⟨j, hj, ej⟩ := List.getElem_of_mem ht
      have hij : i ≠ j := by
        rintro rfl
        exact hst (Fin.ext (ei.symm.trans ej))
      exact ⟨_, bond_le _ _ _ _, h.inside c hc s t i j hij (by rw [List.getElem?_eq_getElem hi, ei]) (by rw [List.getElem?_eq_getElem hj, ej])⟩
    · exact ⟨0, by omega, h.across c hc c' hc' hcc s t hs ht⟩
  obtain ⟨k, hk, e⟩ := hb
  rw [hM, e]
  have : k = 0 ∨ k = 1 ∨ k = 2 ∨ k = 3 := by omega
  rcases this with rfl | rfl | rfl | rfl <;> simp [bondOrder]

/-- an automorphism of the diagram defines an automorphism of the group -/
theorem exists_twist (cs : CoxeterSystem (coxMatrix C) G) {f : Fin rank → Fin rank} (hf1 : ∀ s, f (f s) = s)
    (hf2 : ∀ s t, C (f s) (f t) = C s t) : ∃ θ : G →* G, IsTwist cs f θ := by
  have hinj : ∀ s t, f s = f t → s = t := fun s t e => by rw [← hf1 s, e, hf1]
  have hM : ∀ s t, coxMatrix C (f s) (f t) = coxMatrix C s t := by
    intro s t
    show (if f s = f t then 1 else bondOrder (C (f s) (f t) * C (f t) (f s))) = if s = t then 1 else bondOrder (C s t * C t s)
    rw [hf2, hf2]
    by_cases h : s = t
    · rw [if_pos h, if_pos (congrArg f h)]
    · rw [if_neg h, if_neg fun e => h (hinj _ _ e)]
  have hl : (coxMatrix C).IsLiftable fun s => cs.simple (f s) := by
    intro s t
    rw [← hM]
    exact cs.simple_mul_simple_pow _ _
  exact ⟨cs.lift ⟨_, hl⟩, fun s => cs.lift_apply_simple hl s, hf1⟩

section
variable {M : CoxeterMatrix (Fin rank)} {cs : CoxeterSystem M G} (hC : IsCartan C M)
include hC

theorem simple_inj (s t : Fin rank) (h : cs.simple s = cs.simple t) : s = t := by
  by_contra hst
  have h1 := congrArg (fun g => geom cs hC g (root s) s) h
  simp only [geom_simple, srefl_apply, pairing_root, Pi.sub_apply, Pi.smul_apply, root_apply] at h1
  rw [if_neg hst] at h1
  simp only [if_true, smul_zero, sub_zero, smul_eq_mul, hC.diag] at h1
  omega

theorem orbit_relation {f : Fin rank → Fin rank} (hf1 : ∀ s, f (f s) = s) (hf2 : ∀ s t, C (f s) (f t) = C s t) (s : Fin rank) (hs : f s ≠ s) :
    cs.simple s * cs.simple (f s) = cs.simple (f s) * cs.simple s ∨
      cs.simple s * cs.simple (f s) * cs.simple s = cs.simple (f s) * cs.simple s * cs.simple (f s) := by
  have e : C (f s) s = C s (f s) := by
    have := hf2 s (f s)
    rwa [hf1] at this
  have hp := cs.simple_mul_simple_pow s (f s)
  rcases hC.cases (Ne.symm hs) with ⟨h1, h2, h3⟩ | ⟨h1, h2, h3⟩ | ⟨h1, h2, h3⟩ | ⟨h1, h2, h3⟩ | ⟨h1, h2, h3⟩ | ⟨h1, h2, h3⟩ <;> try (exfalso; omega)
  · left
    rw [h3, pow_two] at hp
    have := congrArg (cs.simple (f s) * cs.simple s * ·) hp
    simp only [mul_assoc, mul_one] at this
    rw [cs.simple_mul_simple_cancel_left, cs.simple_mul_simple_cancel_left] at this
    exact this
  · right
    rw [h3, pow_succ, pow_two] at hp
    have := congrArg (· * (cs.simple (f s) * cs.simple s * cs.simple (f s))) hp
    simp only [mul_assoc, one_mul] at this
    rw [cs.simple_mul_simple_cancel_left, cs.simple_mul_simple_cancel_left, cs.simple_mul_simple_self, mul_one] at this
    simpa only [mul_assoc] using this

end

/-- **C47**: for every Dynkin diagram and every involutive automorphism of it, the class computes in the Weyl group with the
automorphism given by the twist. -/
theorem C47_twisted (nd : Bool) (h : IsDynkin rank C comps) (hd : ∀ s, C s s = 2) (hn : ∀ s t, s ≠ t → C s t ≤ 0)
    (hz : ∀ s t, C s t = 0 → C t s = 0) {f : Fin rank → Fin rank} (hf1 : ∀ s, f (f s) = s) (hf2 : ∀ s t, C (f s) (f t) = C s t)
    (cs : CoxeterSystem (coxMatrix C) G) (tw : List Nat) (ht : ∀ s : Fin rank, tw[s.1]? = some (f s).1) :
    ∃ W φ θ, WG.make nd rank comps = .ok W ∧ Implements nd cs W φ ∧ IsTwist cs f θ ∧ ImplementsTwisted nd cs ⟨W, tw⟩ φ f θ := by
  obtain ⟨W, φ, hW, hI⟩ := C40_weylGroup nd h cs
  obtain ⟨θ, hθ⟩ := exists_twist cs hf1 hf2
  have hC := isCartan_of_dynkin h hd hn hz
  have hI' : Implements nd cs (TWG.mk W tw).W φ := hI
  have hT : ∀ s : Fin rank, (TWG.mk W tw).twist[s.1]? = some (f s).1 := ht
  have hr := h.rank_le
  have hlen : ∀ {g}, IsTI θ g → ∀ l l', RedExpr cs θ l g → RedExpr cs θ l' g → l.length = l'.length := by
    intro g _ l l' h1 h2
    have e1 := h1.length hθ hC hf2
    have e2 := h2.length hθ hC hf2
    omega
  have hInvLen : ∀ g, IsTI θ g → ∃ n, (∀ fuel, cs.length g < fuel → (TWG.mk W tw).involutionLength nd fuel (φ g) = .ok n) ∧
      ∀ l, RedExpr cs θ l g → l.length = n := by
    intro g hg
    obtain ⟨l, h1, h2, h3⟩ := tw_expr hI' hθ hT hr g hg
    exact ⟨l.length, fun fuel hf => by rw [TWG.involutionLength, h3 fuel hf, zero_add], fun l' hl' => hlen hg _ _ hl' h1⟩
  refine ⟨W, φ, θ, hW, hI, hθ, ?_⟩
  exact {
    twistedGen := fun s => tw_get hT s
    twisted := tw_twisted hI' hθ hT
    dual := tw_dual hI' hθ hT hr
    orbits := tw_orbits hI' hθ hT hr
    conjGen := tw_conjGen hI' hθ hT
    conjWord := tw_conjWord hI' hθ hT
    inverseConjWord := fun g l => by rw [TWG.inverseConjWord, tw_inverseConjLoop hI' hθ hT, zero_add]
    conjElt := tw_conjElt hI' hθ hT
    twistedClass := tw_class hI' hθ hT
    hasTwistedCommutation := tw_commutation hI' hθ hT
    involutionExpr := fun g hg => by
      obtain ⟨l, h1, h2, h3⟩ := tw_expr hI' hθ hT hr g hg
      refine ⟨l, h1, fun fuel hf => ?_⟩
      obtain ⟨n, hn, -⟩ := hInvLen g hg
      rw [TWG.involutionExpr, hn fuel hf, Res.ok_bind, h2 fuel hf, List.nil_append]
    canonicalExpr := fun g hg => by
      obtain ⟨l, h1, h2, h3⟩ := tw_canonical hI' hθ hT g hg
      refine ⟨l, h1, h2, fun fuel hf => ?_⟩
      obtain ⟨n, hn, -⟩ := hInvLen g hg
      rw [TWG.canonicalInvolutionExpr, hn fuel hf, Res.ok_bind, h3 fuel hf, List.nil_append]
    involutionLength := hInvLen
    extendedExpr := fun g hg hfix => by
      obtain ⟨l, h1, h2, h3⟩ := tw_extended hI' hθ hT (simple_inj hC) (orbit_relation hC hf1 hf2) g hg hfix
      refine ⟨l, _, tw_twistOrbits hI' hθ hT, h1, h2, fun fuel hf => ?_⟩
      obtain ⟨n, hn, -⟩ := hInvLen g hg
      rw [TWG.extendedInvolutionExpr, tw_twisted hI' hθ hT, Res.ok_bind, hfix, Res.assertIn_bind nd (decide_eq_true rfl),
        tw_twistOrbits hI' hθ hT, Res.ok_bind, hn fuel hf, Res.ok_bind, h3 fuel hf, List.nil_append] }

/-! ### the length of a twisted involution -/

/-- elements reached from the identity by `n` moves: multiplication by a generator that commutes with the element, or twisted
conjugation by a generator -/
inductive Reached {M : CoxeterMatrix (Fin rank)} (cs : CoxeterSystem M G) (θ : G →* G) : Nat → G → Prop
  | one : Reached cs θ 0 1
  | mul {n w} (s : Fin rank) : Reached cs θ n w → cs.simple s * w = w * θ (cs.simple s) → Reached cs θ (n + 1) (cs.simple s * w)
  | conj {n w} (s : Fin rank) : Reached cs θ n w → Reached cs θ (n + 1) (cs.simple s * w * θ (cs.simple s))

/-- **C47**, the length: `involutionLength` is a quarter of twice the length of the element plus the decrease of the trace of the
involution on the root lattice, and it is the least number of moves that lead from the identity to the element. -/
theorem C47_involutionLength (nd : Bool) {M : CoxeterMatrix (Fin rank)} {cs : CoxeterSystem M G} {T : TWG} {φ : G → List Nat}
    {f : Fin rank → Fin rank} {θ : G →* G} (hC : IsCartan C M) (hf2 : ∀ s t, C (f s) (f t) = C s t) (hθ : IsTwist cs f θ)
    (hi : ImplementsTwisted nd cs T φ f θ) (g : G) (hg : IsTI θ g) :
    ∃ n, (∀ fuel, cs.length g < fuel → T.involutionLength nd fuel (φ g) = .ok n) ∧
      4 * (n : Int) = 2 * cs.length g + LinearMap.trace ℤ (Fin rank → ℤ) (geom cs hC 1 * permRoot f) -
        LinearMap.trace ℤ (Fin rank → ℤ) (geom cs hC g * permRoot f) ∧
      Reached cs θ n g ∧ ∀ m, Reached cs θ m g → n ≤ m := by
  have hlen : ∀ {g}, ∀ l l', RedExpr cs θ l g → RedExpr cs θ l' g → l.length = l'.length := by
    intro g l l' h1 h2
    have e1 := h1.length hθ hC hf2
    have e2 := h2.length hθ hC hf2
    omega
  obtain ⟨n, h1, h2⟩ := hi.involutionLength g hg
  obtain ⟨l, hl⟩ := exists_redExpr hθ g hg
  refine ⟨n, h1, ?_, ?_, ?_⟩
  · rw [← h2 l hl]
    exact hl.length hθ hC hf2
  · rw [← h2 l hl]
    clear h2 h1 hg
    induction hl with
    | nil => exact .one
    | mul _ hc _ ih => exact .mul _ ih hc
    | conj _ _ _ ih => exact .conj _ ih
  · intro m hm
    have key : ∀ m g, Reached cs θ m g → IsTI θ g ∧ ∃ l, RedExpr cs θ l g ∧ l.length ≤ m := by
      intro m g hm
      induction hm with
      | one => exact ⟨isTI_one, [], .nil, by simp⟩
      | @mul n w s hw hc ih =>
        obtain ⟨hti, l, hl, hle⟩ := ih
        have hti' := IsTI.commute hθ hti hc
        refine ⟨hti', ?_⟩
        by_cases hs : cs.length (cs.simple s * w) < cs.length w
        · obtain ⟨l', hl'⟩ := exists_redExpr hθ _ hti'
          have := hlen _ _ hl (hl'.of_mul hθ hs hc)
          rw [List.length_cons] at this
          exact ⟨l', hl', by omega⟩
        · refine ⟨_, hl.mul hc (by have := cs.length_simple_mul w s; omega), by simpa using hle⟩
      | @conj n w s hw ih =>
        obtain ⟨hti, l, hl, hle⟩ := ih
        have hti' := IsTI.conjSimple hθ hti s
        refine ⟨hti', ?_⟩
        by_cases hc : cs.simple s * w = w * θ (cs.simple s)
        · have e : cs.simple s * w * θ (cs.simple s) = w := by rw [hc, hθ.simple]; simp
          rw [e]
          exact ⟨l, hl, by omega⟩
        · by_cases hs : cs.length (cs.simple s * w) < cs.length w
          · obtain ⟨l', hl'⟩ := exists_redExpr hθ _ hti'
            have := hlen _ _ hl (hl'.of_conj hθ hti hs hc)
            rw [List.length_cons] at this
            exact ⟨l', hl', by omega⟩
          · refine ⟨_, hl.conj hc (by have := cs.length_simple_mul w s; omega), by simpa using hle⟩
    obtain ⟨-, l', hl', hle⟩ := key m g hm
    rw [h2 l' hl'] at hle
    exact hle

/-! ### an example: type A4, with the non-trivial automorphism of its diagram -/

def exCA : Fin 4 → Fin 4 → Int := fun i j => if i = j then 2 else if i.1 + 1 = j.1 ∨ j.1 + 1 = i.1 then -1 else 0

def exCompsA : List Comp := [⟨.A, 0, [0, 1, 2, 3]⟩]

def exTwist : Fin 4 → Fin 4 := fun i => ⟨3 - i.1, by omega⟩

theorem exDynkinA : IsDynkin 4 exCA exCompsA := dynkin_of_test (by simp [exCompsA, Ty.RankOK, Comp.rank]) (by decide)

theorem exTwisted : ∃ W φ θ, WG.make false 4 exCompsA = .ok W ∧ Implements false (coxMatrix exCA).toCoxeterSystem W φ ∧
    IsTwist (coxMatrix exCA).toCoxeterSystem exTwist θ ∧
    ImplementsTwisted false (coxMatrix exCA).toCoxeterSystem ⟨W, [3, 2, 1, 0]⟩ φ exTwist θ :=
  C47_twisted false exDynkinA (by decide) (by decide) (by decide) (by decide) (by decide) _ _ (by decide)

/-- the hypotheses of `C47_involutionLength` are met, for a twisted involution other than the identity -/
example : ∃ (W : WG) (φ : (coxMatrix exCA).Group → List Nat) (θ : (coxMatrix exCA).Group →* (coxMatrix exCA).Group) (g : (coxMatrix exCA).Group) (n : Nat),
    WG.make false 4 exCompsA = .ok W ∧ IsTI θ g ∧ g ≠ 1 ∧
    ∀ fuel, (coxMatrix exCA).toCoxeterSystem.length g < fuel → TWG.involutionLength false ⟨W, [3, 2, 1, 0]⟩ fuel (φ g) = .ok n := by
  obtain ⟨W, φ, θ, h1, h2, h3, h4⟩ := exTwisted
  have hC := isCartan_of_dynkin exDynkinA (by decide) (by decide) (by decide)
  have hg : IsTI θ ((coxMatrix exCA).toCoxeterSystem.simple 0 * 1 * θ ((coxMatrix exCA).toCoxeterSystem.simple 0)) := IsTI.conjSimple h3 isTI_one 0
  obtain ⟨n, e, -⟩ := C47_involutionLength false hC (by decide) h3 h4 _ hg
  refine ⟨W, φ, θ, _, n, h1, hg, ?_, e⟩
  rw [mul_one, h3.simple]
  intro e1
  have := eq_inv_of_mul_eq_one_left e1
  rw [CoxeterSystem.inv_simple] at this
  exact absurd (simple_inj hC _ _ this) (by decide)

end Verif.Weyl
