import Verif.Canon.Code
import Verif.Inv.Total
/-
**C73**: canonical twisted involutions.
-/
set_option linter.unusedSectionVars false

namespace Verif.Canon
open Verif Verif.Root Verif.Mat Verif.Datum Verif.Weyl Verif.Inv Verif.Coxeter CoxeterSystem
open scoped Matrix

variable {n r : Nat} {Mx : CoxeterMatrix (Fin n)} {G : Type} [Group G]
variable {nd : Bool} {cs : CoxeterSystem Mx G} {α αv : Fin n → Fin r → ℤ} {comps : List Comp} {pc : Bool} {rd : RD} {N : Nat} {R R' : Nat → Fin n → ℤ}
  {T : TWG} {φ : G → List Nat} {f : Fin n → Fin n} {θ : G →* G} {δ : Matrix (Fin r) (Fin r) ℤ} {A : G →* Matrix (Fin r) (Fin r) ℤ} {Γ : Fin n → Prop}
  {gens : List Bool} {fuel : Nat}

theorem par_all (cs : CoxeterSystem Mx G) (g : G) : Par cs (fun _ => True) g := by
  obtain ⟨l, rfl⟩ := cs.wordProd_surjective g
  exact ⟨l, fun _ _ => trivial, rfl⟩

theorem conj_all (cs : CoxeterSystem Mx G) (θ : G →* G) (w x : G) : Conj cs θ (fun _ => True) w x ↔ InClass θ w x :=
  ⟨fun ⟨h, _, e⟩ => ⟨h, e⟩, fun ⟨h, e⟩ => ⟨h, par_all cs h, e⟩⟩

theorem isGens_all (hn : n ≤ 32) : IsGens n (allGens n) fun _ => True := by
  have hb : ∀ k, RS.bit (allGens n) k = true ↔ k < n := fun k => by
    unfold RS.bit allGens
    rw [List.getElem?_map]
    by_cases hk : k < 32
    · rw [List.getElem?_range hk]; simp
    · rw [List.getElem?_eq_none (by simp; omega)]; simp; omega
  exact ⟨by simp [allGens], fun s => by simp [hb], fun k hk => (hb k).1 hk⟩

theorem conj_symm {w x : G} (h : Conj cs θ Γ w x) : Conj cs θ Γ x w := by
  obtain ⟨g, hg, rfl⟩ := h
  exact ⟨g⁻¹, par_inv hg, by rw [map_inv]; group⟩

theorem conj_trans {w x y : G} (h1 : Conj cs θ Γ w x) (h2 : Conj cs θ Γ x y) : Conj cs θ Γ w y := by
  obtain ⟨g, hg, rfl⟩ := h1
  obtain ⟨k, hk, rfl⟩ := h2
  exact ⟨k * g, par_mul hk hg, by rw [map_mul]; group⟩

section
variable (H : Input nd cs α αv comps pc rd N R R' T φ f θ δ A)
include H

/-- **C73**: in each class for conjugation by products of generators in `Γ` there is at most one canonical element. -/
theorem C73_unique {w x : G} (hw : IsTI θ w) (hx : IsTI θ x) (hc : Conj cs θ Γ w x) (h1 : IsCanonical α αv N R Γ (invMat A δ w))
    (h2 : IsCanonical α αv N R Γ (invMat A δ x)) : w = x := by
  have := H.finite
  obtain ⟨g, hg, e⟩ := hc
  exact (can_unique H.cartan H.twist H.cartf (isPos H) hw hx hg e ((canonical_iff H w).1 h1) ((canonical_iff H x).1 h2)).symm

variable (hg : IsGens n gens Γ) (hf1 : N < fuel) (hf2 : ∀ w, cs.length w < fuel)
include hg hf1 hf2

/-- **C73**: `canonicalize` ends; it replaces a twisted involution by a canonical one, and returns a word in the given generators which conjugates the latter to
the former. -/
theorem C73_canonicalize {w : G} (hw : IsTI θ w) : ∃ (x : G) (l : List (Fin n)), canonicalize nd fuel rd T (φ w) gens = .ok (l.map Fin.val, φ x) ∧
    (∀ s ∈ l, Γ s) ∧ w = cs.wordProd l * x * (θ (cs.wordProd l))⁻¹ ∧ IsTI θ x ∧ IsCanonical α αv N R Γ (invMat A δ x) := by
  obtain ⟨x, l, h1, h2, h3, h4, -, h5⟩ := canonicalize_ok H hg hf1 hf2 hw
  exact ⟨x, l, h5, h1, h2, h3, (canonical_iff H x).2 h4⟩

/-- **C73**: what is canonical is not changed. -/
theorem C73_fixed {w : G} (hw : IsTI θ w) (hc : IsCanonical α αv N R Γ (invMat A δ w)) : canonicalize nd fuel rd T (φ w) gens = .ok ([], φ w) := by
  obtain ⟨x, l, h1, h2, h3, h4, h6, h5⟩ := canonicalize_ok H hg hf1 hf2 hw
  have e := h6 ((canonical_iff H w).1 hc)
  subst e
  have e2 : w = x := by simpa using h2
  subst e2
  exact h5

/-- **C73**: two twisted involutions get the same canonical form just if a product of the generators conjugates them. -/
theorem C73_iff {w w' : G} (hw : IsTI θ w) (hw' : IsTI θ w') {l l' x x' : List Nat} (e : canonicalize nd fuel rd T (φ w) gens = .ok (l, x))
    (e' : canonicalize nd fuel rd T (φ w') gens = .ok (l', x')) : x = x' ↔ Conj cs θ Γ w w' := by
  obtain ⟨y, k, h1, h2, h3, h4, h5⟩ := C73_canonicalize H hg hf1 hf2 hw
  obtain ⟨y', k', h1', h2', h3', h4', h5'⟩ := C73_canonicalize H hg hf1 hf2 hw'
  rw [e] at h1
  rw [e'] at h1'
  cases h1
  cases h1'
  have c : Conj cs θ Γ y w := ⟨_, ⟨k, h2, rfl⟩, h3⟩
  have c' : Conj cs θ Γ y' w' := ⟨_, ⟨k', h2', rfl⟩, h3'⟩
  constructor
  · intro q
    have q := H.weyl.injective q
    subst q
    exact conj_trans (conj_symm c) c'
  · intro q
    rw [C73_unique H h4 h4' (conj_trans c (conj_trans q (conj_symm c'))) h5 h5']

omit hg

theorem all_gens : canonicalizeAll nd fuel rd T (w : List Nat) = canonicalize nd fuel rd T w (allGens n) := by
  unfold canonicalizeAll
  rw [(C69_datum H.datum).ssRank]

/-- **C73**: with all generators, two twisted involutions get the same canonical form just if they are in the same twisted conjugacy class. -/
theorem C73_all {w w' : G} (hw : IsTI θ w) (hw' : IsTI θ w') : ∃ l x l' x', canonicalizeAll nd fuel rd T (φ w) = .ok (l, x) ∧
    canonicalizeAll nd fuel rd T (φ w') = .ok (l', x') ∧ (x = x' ↔ InClass θ w w') := by
  have hn : n ≤ 32 := H.datum.cartan.dynkin.rank_le
  obtain ⟨y, k, h1, -⟩ := C73_canonicalize H (isGens_all hn) hf1 hf2 hw
  obtain ⟨y', k', h1', -⟩ := C73_canonicalize H (isGens_all hn) hf1 hf2 hw'
  refine ⟨_, _, _, _, (all_gens H hf1 hf2).trans h1, (all_gens H hf1 hf2).trans h1', ?_⟩
  rw [C73_iff H (isGens_all hn) hf1 hf2 hw hw' h1 h1', conj_all]

/-- **C73**: `class_number` finds the number of the class of a twisted involution, among the classes of which the canonical representatives are listed; if it is in none of
them then an assertion fails, and without assertions the result is `undef_CartanNbr`. -/
theorem C73_classNumber {c : Nat → G} {K : Nat} (hc : ∀ k < K, IsTI θ (c k) ∧ IsCanonical α αv N R (fun _ => True) (invMat A δ (c k)))
    (hd : ∀ k < K, ∀ l < K, InClass θ (c k) (c l) → k = l) {w : G} (hw : IsTI θ w) :
    (∀ k < K, InClass θ (c k) w → classNumber nd fuel rd T ((List.range K).map fun k => φ (c k)) (φ w) = .ok k) ∧
    ((∀ k < K, ¬ InClass θ (c k) w) → classNumber nd fuel rd T ((List.range K).map fun k => φ (c k)) (φ w) = if nd then .ok 65535 else .assertFail) := by
  have hn : n ≤ 32 := H.datum.cartan.dynkin.rank_le
  obtain ⟨y, k, h1, h2, h3, h4, h5⟩ := C73_canonicalize H (isGens_all hn) hf1 hf2 hw
  have hy : InClass θ y w := ⟨_, h3⟩
  have hidx : ∀ k < K, InClass θ (c k) w ↔ c k = y := fun k hk => by
    constructor
    · intro h
      exact C73_unique H (hc k hk).1 h4 ((conj_all cs θ _ _).2 (inClass_trans h (inClass_symm hy))) (hc k hk).2 h5
    · rintro rfl; exact hy
  unfold classNumber
  rw [(all_gens H hf1 hf2).trans h1, Res.ok_bind]
  simp only []
  refine ⟨fun k hk hin => ?_, fun hno => ?_⟩
  · have e := (hidx k hk).1 hin
    have hmem : φ y ∈ (List.range K).map fun k => φ (c k) := List.mem_map.2 ⟨k, List.mem_range.2 hk, by rw [e]⟩
    have hlt := List.idxOf_lt_length_iff.2 hmem
    rw [if_pos hlt]
    have hge := List.getElem_idxOf hlt
    have hlt' : ((List.range K).map fun k => φ (c k)).idxOf (φ y) < K := by simpa using hlt
    rw [List.getElem_map, List.getElem_range] at hge
    have hge := H.weyl.injective hge
    rw [← e] at hge hlt' ⊢
    congr 1
    refine hd _ hlt' k hk ?_
    rw [hge]
    exact inClass_refl _
  · rw [if_neg]
    · cases nd <;> rfl
    · intro hlt
      obtain ⟨k, hk, e⟩ := List.mem_map.1 (List.idxOf_lt_length_iff.1 hlt)
      have hk := List.mem_range.1 hk
      exact hno k hk ((hidx k hk).2 (H.weyl.injective e))

end

/-- the hypotheses are met: a set of two generators which the twist does not preserve, and two different classes -/
example : ∃ (G : Type) (_ : Group G) (cs : CoxeterSystem (coxMatrix (cart Tits.exRoot Tits.exRoot)) G) (T : TWG) (φ : G → List Nat) (θ : G →* G) (rd : RD)
    (N : Nat) (R R' : Nat → Fin 4 → ℤ) (A : G →* Matrix (Fin 5) (Fin 5) ℤ) (w w' : G) (fuel : Nat),
    Input false cs Tits.exRoot Tits.exRoot exCompsA true rd N R R' T φ exTwist θ Tits.exDelta A ∧ IsTI θ w ∧ IsTI θ w' ∧ ¬ InClass θ w w' ∧ N < fuel ∧ (∀ w, cs.length w < fuel) ∧
    IsGens 4 ([false, true, false, true] ++ List.replicate 28 false) (fun s => s = 1 ∨ s = 3) := by
  obtain ⟨G, _, cs, T, φ, θ, rd, N, R, R', A, classes, c, H, hc, hl, hf, hf2⟩ := exInput
  refine ⟨G, _, cs, T, φ, θ, rd, N, R, R', A, c 0, c 1, max 200 (N + 1), H, hc.isTI 0 (by omega), hc.isTI 1 (by omega),
    fun h => absurd (hc.different 0 (by omega) 1 (by omega) h) (by decide), by omega, fun w => lt_of_lt_of_le (hf w) (by omega), rfl, by decide, fun k hk => ?_⟩
  by_contra hk4
  have : ∀ j < 32, 4 ≤ j → RS.bit ([false, true, false, true] ++ List.replicate 28 false) j = false := by decide
  by_cases h32 : k < 32
  · rw [this k h32 (by omega)] at hk; cases hk
  · unfold RS.bit at hk
    rw [List.getElem?_eq_none (by simp; omega)] at hk
    cases hk

end Verif.Canon
