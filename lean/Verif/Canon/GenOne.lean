import Verif.Canon.Math
/-
The identity is canonical: the sum of the positive roots fixed by a diagram automorphism is dominant.
-/
namespace Verif.Canon
open Verif.Coxeter CoxeterSystem

variable {B : Type} [Fintype B] [DecidableEq B] {M : CoxeterMatrix B} {W : Type} [Group W] [Finite W] {C : B → B → ℤ}
variable {cs : CoxeterSystem M W} {f : B → B} {θ : W →* W} {Γ : B → Prop}
variable (h : IsCartan C M) (hθ : IsTwist cs f θ) (hf : ∀ s t, C (f s) (f t) = C s t) {Φ : Finset (B → ℤ)} (hΦ : IsPos cs h Φ)

omit [Finite W] in
theorem trueInv_one (x : B → ℤ) : trueInv cs h f 1 x = permRoot f x := by rw [trueInv_apply, map_one]; rfl

include hθ hf in
omit [Finite W] in
theorem pairing_perm (s : B) (x : B → ℤ) : pairing C (f s) (permRoot f x) = pairing C s x := by
  show ∑ i, x (f i) * C i (f s) = ∑ i, x i * C i s
  let e : B ≃ B := ⟨f, f, hθ.invol, hθ.invol⟩
  rw [← Equiv.sum_comp e]
  refine Finset.sum_congr rfl fun i _ => ?_
  show x (f (f i)) * C (f i) (f s) = x i * C i s
  rw [hθ.invol, hf]

include hθ hf in
omit [Finite W] in
/-- an element of the group that acts on fixed vectors as a reflection in the sum of two exchanged simple roots -/
theorem pair_refl {s : B} (hs : f s ≠ s) : ∃ (t : W) (m : ℤ), 0 < m ∧ (C (f s) s = 0 ∨ C (f s) s = -1) ∧ m * (2 + C (f s) s) = 2 ∧
    ∀ x, permRoot f x = x → geom cs h t x = x - (m * pairing C s x) • (root s + root (f s)) := by
  have e1 : C (f s) s = C s (f s) := by have := hf s (f s); rwa [hθ.invol] at this
  have hp : ∀ x, permRoot f x = x → pairing C (f s) x = pairing C s x := fun x hx => by
    have := pairing_perm hθ hf s x; rwa [hx] at this
  have hc : C (f s) s = 0 ∨ C (f s) s = -1 := by
    rcases h.cases hs with q | q | q | q | q | q <;> omega
  rcases hc with q | q
  · refine ⟨cs.simple s * cs.simple (f s), 1, by omega, .inl q, by omega, fun x hx => ?_⟩
    rw [geom_mul, geom_simple, geom_simple, srefl_apply, srefl_apply, map_sub, map_smul, pairing_root, q, hp x hx, smul_eq_mul, mul_zero, sub_zero, one_mul, smul_add]
    abel
  · refine ⟨cs.simple s * cs.simple (f s) * cs.simple s, 2, by omega, .inr q, by omega, fun x hx => ?_⟩
    have q' : C s (f s) = -1 := by omega
    rw [geom_mul, geom_mul, geom_simple, geom_simple, srefl_apply, srefl_apply, srefl_apply]
    simp only [map_sub, map_smul, pairing_root, q, q', hp x hx, h.diag, smul_eq_mul]
    module

include hθ hf hΦ in
theorem xs_one_nonneg {s : B} (hs : f s ≠ s) : 0 ≤ pairing C s (xs cs h f Φ 1 1) := by
  classical
  obtain ⟨t, m, hm, hc, hmc, ht⟩ := pair_refl (cs := cs) h hθ hf hs
  have hfix : ∀ x, x ∈ eig cs h f Φ 1 1 ↔ x ∈ Φ ∧ permRoot f x = x := fun x => by rw [mem_eig, trueInv_one, one_smul]
  unfold xs
  rw [map_sum, ← Finset.sum_filter_add_sum_filter_not _ (fun x : B → ℤ => ∃ i, i ≠ s ∧ i ≠ f s ∧ x i ≠ 0)]
  have hoff : ∀ x : B → ℤ, permRoot f x = x → ∀ i, i ≠ s → i ≠ f s → geom cs h t x i = x i := fun x hx i h1 h2 => by
    rw [ht x hx]
    simp [root_apply, h1, h2]
  have hpf : ∀ x : B → ℤ, permRoot f x = x → permRoot f (geom cs h t x) = geom cs h t x := fun x hx => by
    rw [ht x hx, map_sub, map_smul, map_add, permRoot_root hθ, permRoot_root hθ, hθ.invol, hx, add_comm (root (f s))]
  have hpair : ∀ x : B → ℤ, permRoot f x = x → pairing C s (geom cs h t x) = -pairing C s x := fun x hx => by
    rw [ht x hx, map_sub, map_smul, map_add, pairing_root, pairing_root, h.diag, smul_eq_mul]
    linear_combination (-pairing C s x) * hmc
  have htt : ∀ x : B → ℤ, permRoot f x = x → geom cs h t (geom cs h t x) = x := fun x hx => by
    rw [ht _ (hpf x hx), hpair x hx, ht x hx]; module
  have hin : ∀ x ∈ (eig cs h f Φ 1 1).filter (fun x : B → ℤ => ∃ i, i ≠ s ∧ i ≠ f s ∧ x i ≠ 0),
      geom cs h t x ∈ (eig cs h f Φ 1 1).filter (fun x : B → ℤ => ∃ i, i ≠ s ∧ i ≠ f s ∧ x i ≠ 0) := by
    intro x hx
    rw [Finset.mem_filter, hfix] at hx ⊢
    obtain ⟨⟨h1, h2⟩, i, i1, i2, i3⟩ := hx
    obtain ⟨⟨x', u, hr⟩, hp⟩ := (hΦ x).1 h1
    have e := hoff x h2 i i1 i2
    refine ⟨⟨(hΦ _).2 ⟨⟨_, _, hr.act t⟩, ?_⟩, hpf x h2⟩, i, i1, i2, by rwa [e]⟩
    rcases (hr.act t).sign with q | q
    · exact q.1
    · have := q.1 i
      have := hp i
      omega
  have hfx : ∀ x ∈ (eig cs h f Φ 1 1).filter (fun x : B → ℤ => ∃ i, i ≠ s ∧ i ≠ f s ∧ x i ≠ 0), permRoot f x = x := fun x hx =>
    ((hfix x).1 (Finset.mem_filter.1 hx).1).2
  have key : ∑ x ∈ (eig cs h f Φ 1 1).filter (fun x : B → ℤ => ∃ i, i ≠ s ∧ i ≠ f s ∧ x i ≠ 0), pairing C s x =
      ∑ x ∈ (eig cs h f Φ 1 1).filter (fun x : B → ℤ => ∃ i, i ≠ s ∧ i ≠ f s ∧ x i ≠ 0), -pairing C s x := by
    refine Finset.sum_nbij' (geom cs h t) (geom cs h t) hin hin ?_ ?_ ?_
    · intro x hx; exact htt x (hfx x hx)
    · intro x hx; exact htt x (hfx x hx)
    · intro x hx; rw [hpair x (hfx x hx), neg_neg]
  rw [Finset.sum_neg_distrib] at key
  have hrest : 0 ≤ ∑ x ∈ (eig cs h f Φ 1 1).filter (fun x : B → ℤ => ¬ ∃ i, i ≠ s ∧ i ≠ f s ∧ x i ≠ 0), pairing C s x := by
    refine Finset.sum_nonneg fun x hx => ?_
    rw [Finset.mem_filter, hfix] at hx
    obtain ⟨⟨h1, h2⟩, h3⟩ := hx
    push Not at h3
    have hp := ((hΦ x).1 h1).2 s
    have hxs : x (f s) = x s := congrFun h2 s
    have e : x = x s • (root s + root (f s)) := by
      funext i
      rw [Pi.smul_apply, Pi.add_apply, root_apply, root_apply, smul_eq_mul]
      by_cases i1 : i = s
      · rw [if_pos i1, if_neg (by rw [i1]; exact hs.symm), i1]; ring
      · by_cases i2 : i = f s
        · rw [if_neg i1, if_pos i2, i2, hxs]; ring
        · rw [if_neg i1, if_neg i2, h3 i i1 i2]; ring
    rw [e, map_smul, map_add, pairing_root, pairing_root, h.diag, smul_eq_mul]
    exact mul_nonneg hp (by omega)
  omega

include hθ hf hΦ in
/-- The identity is canonical. -/
theorem can_one : Can cs h f Φ Γ 1 := by
  have hr : xs cs h f Φ (-1) 1 = 0 := by
    unfold xs
    refine Finset.sum_eq_zero fun x hx => ?_
    obtain ⟨h1, h2⟩ := (mem_eig h).1 hx
    have hp := ((hΦ x).1 h1).2
    rw [trueInv_one] at h2
    refine not_both hp fun i => ?_
    have e := congrFun h2 i
    have e' : x (f i) = -x i := by rw [show x (f i) = permRoot f x i from rfl, e]; simp
    have := hp (f i)
    omega
  have hi : ∀ s, 0 ≤ pairing C s (xs cs h f Φ 1 1) := fun s => by
    by_cases hs : f s = s
    · rw [xs_two h hΦ (by rw [trueInv_one, permRoot_root hθ, hs, one_smul])]; omega
    · exact xs_one_nonneg h hθ hf hΦ hs
  refine ⟨fun s _ => ⟨by rw [hr, map_zero], fun _ => hi s⟩, fun s _ _ _ i => ?_⟩
  rw [trueInv_one, permRoot_root hθ, root_apply]
  split <;> omega

end Verif.Canon
