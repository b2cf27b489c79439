import Verif.Coxeter.Roots
import Verif.Coxeter.Twist
/-
Subgroups of a Coxeter group generated by some of the generators: support of roots, and representatives of double cosets.
-/
namespace Verif.Canon
open Verif.Coxeter CoxeterSystem

variable {B : Type} [Fintype B] [DecidableEq B] {M : CoxeterMatrix B} {W : Type} [Group W] {C : B → B → ℤ}

/-- products of the generators with property `Γ` -/
def Par (cs : CoxeterSystem M W) (Γ : B → Prop) (h : W) : Prop := ∃ l : List B, (∀ s ∈ l, Γ s) ∧ h = cs.wordProd l

variable {cs : CoxeterSystem M W} {Γ : B → Prop}

section
omit [Fintype B] [DecidableEq B]

theorem par_one : Par cs Γ 1 := ⟨[], by simp, by simp⟩

theorem par_simple {s : B} (hs : Γ s) : Par cs Γ (cs.simple s) := ⟨[s], by simpa using hs, by simp⟩

theorem par_mul {a b : W} (ha : Par cs Γ a) (hb : Par cs Γ b) : Par cs Γ (a * b) := by
  obtain ⟨l, h1, rfl⟩ := ha
  obtain ⟨m, h2, rfl⟩ := hb
  refine ⟨l ++ m, fun s hs => ?_, by rw [cs.wordProd_append]⟩
  rcases List.mem_append.1 hs with hs | hs
  · exact h1 s hs
  · exact h2 s hs

theorem par_inv {a : W} (ha : Par cs Γ a) : Par cs Γ a⁻¹ := by
  obtain ⟨l, h1, rfl⟩ := ha
  exact ⟨l.reverse, fun s hs => h1 s (List.mem_reverse.1 hs), by rw [cs.wordProd_reverse]⟩

theorem par_mono {Δ : B → Prop} (h : ∀ s, Γ s → Δ s) {a : W} (ha : Par cs Γ a) : Par cs Δ a := by
  obtain ⟨l, h1, rfl⟩ := ha
  exact ⟨l, fun s hs => h s (h1 s hs), rfl⟩

theorem par_theta {f : B → B} {θ : W →* W} (hθ : IsTwist cs f θ) {a : W} (ha : Par cs Γ a) : Par cs (fun t => Γ (f t)) (θ a) := by
  obtain ⟨l, h1, rfl⟩ := ha
  refine ⟨l.map f, fun s hs => ?_, hθ.wordProd l⟩
  obtain ⟨t, ht, rfl⟩ := List.mem_map.1 hs
  rw [hθ.invol]
  exact h1 t ht

end

variable (h : IsCartan C M)

/-- coefficients at other generators do not change -/
theorem par_coef {a : W} (ha : Par cs Γ a) (x : B → ℤ) {i : B} (hi : ¬ Γ i) : geom cs h a x i = x i := by
  obtain ⟨l, h1, rfl⟩ := ha
  induction l with
  | nil => simp
  | cons s l ih =>
    rw [cs.wordProd_cons, geom_mul, geom_simple, srefl_apply, Pi.sub_apply, Pi.smul_apply, root_apply, if_neg, smul_zero, sub_zero]
    · exact ih fun s hs => h1 s (by simp [hs])
    · rintro rfl; exact hi (h1 _ (by simp))

theorem par_desc {a : W} (ha : Par cs Γ a) {s : B} (hn : ∀ i, geom cs h a (root s) i ≤ 0) : Γ s := by
  by_contra hs
  have := par_coef h ha (root s) hs
  have h2 := hn s
  rw [this, root_apply, if_pos rfl] at h2
  omega

/-- a nontrivial element makes one of the simple roots negative -/
theorem par_exists {a : W} (ha : Par cs Γ a) (h1 : a ≠ 1) : ∃ s, Γ s ∧ (∀ i, geom cs h a (root s) i ≤ 0) ∧ cs.length (a * cs.simple s) < cs.length a := by
  obtain ⟨s, hs⟩ := cs.exists_rightDescent_of_ne_one h1
  have hn := geom_neg cs h hs
  exact ⟨s, par_desc h ha hn, hn, hs⟩

theorem geom_inv' (w : W) (x : B → ℤ) : geom cs h w (geom cs h w⁻¹ x) = x := by
  rw [← geom_mul, mul_inv_cancel, map_one]; rfl

/-- the image of a combination -/
theorem geom_expand (w : W) (x : B → ℤ) : geom cs h w x = ∑ t, x t • geom cs h w (root t) := by
  conv_lhs => rw [show x = ∑ t, x t • root t from by
    funext i
    rw [Finset.sum_apply, Finset.sum_eq_single i]
    · simp [root_apply]
    · intro t _ ht; simp [root_apply, Ne.symm ht]
    · simp]
  rw [map_sum]
  exact Finset.sum_congr rfl fun t _ => by rw [map_smul]

/-- an element that keeps the simple roots of `Γ` positive keeps all roots supported there positive -/
theorem pos_expand {w : W} (hw : ∀ t, Γ t → ∀ i, 0 ≤ geom cs h w (root t) i) {x : B → ℤ} (hx : ∀ i, 0 ≤ x i) (h0 : ∀ i, ¬ Γ i → x i = 0) :
    ∀ i, 0 ≤ geom cs h w x i := by
  intro i
  rw [geom_expand h w x, Finset.sum_apply]
  refine Finset.sum_nonneg fun t _ => ?_
  rw [Pi.smul_apply, smul_eq_mul]
  by_cases ht : Γ t
  · exact mul_nonneg (hx t) (hw t ht i)
  · rw [h0 t ht, zero_mul]

omit [Fintype B] [DecidableEq B] in
theorem not_both {x : B → ℤ} (h1 : ∀ i, 0 ≤ x i) (h2 : ∀ i, x i ≤ 0) : x = 0 := funext fun i => le_antisymm (h2 i) (h1 i)

/-- Double cosets have only one representative that keeps the simple roots positive on both sides. -/
theorem double [Finite W] {J K : B → Prop} (k : ℕ) : ∀ {a b w w' : W}, cs.length a = k → Par cs J a → Par cs K b → a * w = w' * b →
    (∀ s, J s → ∀ i, 0 ≤ geom cs h w⁻¹ (root s) i) → (∀ t, K t → ∀ i, 0 ≤ geom cs h w (root t) i) →
    (∀ s, J s → ∀ i, 0 ≤ geom cs h w'⁻¹ (root s) i) → (∀ t, K t → ∀ i, 0 ≤ geom cs h w' (root t) i) → w = w' := by
  induction k using Nat.strong_induction_on with
  | _ k ih =>
    intro a b w w' hk ha hb e p1 p2 p3 p4
    by_cases h1 : a = 1
    · subst h1
      rw [one_mul] at e
      by_cases h2 : b = 1
      · rw [e, h2, mul_one]
      · obtain ⟨t, ht, hn, -⟩ := par_exists h hb h2
        have q1 := p2 t ht
        have q2 := pos_expand h p4 (x := -geom cs h b (root t)) (fun i => by have := hn i; simp; omega) (fun i hi => by
          rw [Pi.neg_apply, par_coef h hb _ hi, root_apply, if_neg (by rintro rfl; exact hi ht), neg_zero])
        rw [map_neg, ← geom_mul, ← e] at q2
        have hr : IsRoot cs h (geom cs h w (root t)) _ _ := (isRoot_simple t).act w
        exact absurd (not_both q1 fun i => by have := q2 i; simp at this; omega) hr.ne_zero
    · have h1' : a⁻¹ ≠ 1 := fun e => h1 (inv_eq_one.1 e)
      obtain ⟨s, hs, hn, hl⟩ := par_exists h (par_inv ha) h1'
      -- the root `γ`
      have g1 := p3 s hs
      have hγ : IsRoot cs h (geom cs h w'⁻¹ (root s)) _ _ := (isRoot_simple s).act w'⁻¹
      have g2 : ∀ i, geom cs h b⁻¹ (geom cs h w'⁻¹ (root s)) i ≤ 0 := by
        have q := pos_expand h p1 (x := -geom cs h a⁻¹ (root s)) (fun i => by have := hn i; simp; omega) (fun i hi => by
          rw [Pi.neg_apply, par_coef h (par_inv ha) _ hi, root_apply, if_neg (by rintro rfl; exact hi hs), neg_zero])
        rw [map_neg, ← geom_mul] at q
        have e2 : w⁻¹ * a⁻¹ = b⁻¹ * w'⁻¹ := by rw [← mul_inv_rev, e, mul_inv_rev]
        intro i
        rw [← geom_mul, ← e2]
        have := q i
        rw [Pi.neg_apply] at this; omega
      have g3 : ∀ i, ¬ K i → geom cs h w'⁻¹ (root s) i = 0 := by
        intro i hi
        have q := par_coef h (par_inv hb) (geom cs h w'⁻¹ (root s)) hi
        have q1 := g1 i
        have q2 := g2 i
        omega
      obtain ⟨t, ht⟩ : ∃ t, geom cs h w'⁻¹ (root s) t ≠ 0 := by
        by_contra hh
        push Not at hh
        exact hγ.ne_zero (funext hh)
      have hK : K t := by by_contra hh; exact ht (g3 t hh)
      have hpos : 0 < geom cs h w'⁻¹ (root s) t := lt_of_le_of_ne (g1 t) (Ne.symm ht)
      -- `w' α_t` is a multiple of `α_s`
      have hex := geom_expand (cs := cs) h w' (geom cs h w'⁻¹ (root s))
      rw [geom_inv'] at hex
      have hz : ∀ i, i ≠ s → geom cs h w' (root t) i = 0 := by
        intro i hi
        have q := congrFun hex i
        rw [root_apply, if_neg hi, Finset.sum_apply] at q
        have hnn : ∀ u ∈ Finset.univ, 0 ≤ (geom cs h w'⁻¹ (root s) u • geom cs h w' (root u)) i := by
          intro u _
          rw [Pi.smul_apply, smul_eq_mul]
          by_cases hu : K u
          · exact mul_nonneg (g1 u) (p4 u hu i)
          · rw [g3 u hu, zero_mul]
        have := (Finset.sum_eq_zero_iff_of_nonneg hnn).1 q.symm t (Finset.mem_univ t)
        rw [Pi.smul_apply, smul_eq_mul] at this
        rcases mul_eq_zero.1 this with h | h
        · omega
        · exact h
      have hm : geom cs h w' (root t) = geom cs h w' (root t) s • root s := by
        funext i
        rw [Pi.smul_apply, root_apply, smul_eq_mul]
        by_cases hi : i = s
        · subst hi; simp
        · rw [if_neg hi, mul_zero]; exact hz i hi
      have hr : IsRoot cs h (geom cs h w' (root t)) _ (w' * cs.simple t * w'⁻¹) := (isRoot_simple t).act w'
      have hone : geom cs h w' (root t) = root s := by
        rcases hr.primitive hm with h2 | h2
        · rw [h2, one_smul] at hm; exact hm
        · have := p4 t hK s; omega
      rw [hone] at hr
      have ht2 := (hr.unique (isRoot_simple s)).2
      have hsw : cs.simple s * w' = w' * cs.simple t := by rw [← ht2]; group
      refine ih (cs.length (cs.simple s * a)) ?_ rfl (par_mul (par_simple hs) ha) (par_mul (par_simple hK) hb) ?_ p1 p2 p3 p4
      · rw [← hk, ← cs.length_inv (cs.simple s * a), mul_inv_rev, cs.inv_simple, ← cs.length_inv a]
        exact hl
      · rw [mul_assoc, e, ← mul_assoc, hsw, mul_assoc]

/-- the reflection in a positive root that becomes negative: a letter of the word can be left out -/
theorem word_root [Finite W] (l : List B) {β β' : B → ℤ} {t : W} (hr : IsRoot cs h β β' t) (hp : ∀ i, 0 ≤ β i)
    (hn : ∀ i, geom cs h (cs.wordProd l) β i ≤ 0) : ∃ l1 s l2, l = l1 ++ s :: l2 ∧ t = (cs.wordProd l2)⁻¹ * cs.simple s * cs.wordProd l2 := by
  induction l with
  | nil => exact absurd (not_both hp (by simpa using hn)) hr.ne_zero
  | cons s l ih =>
    have ha := hr.act (cs.wordProd l)
    rcases ha.sign with hs | hs
    · have hg : geom cs h (cs.wordProd l) β = root s := by
        by_contra hne
        have q := ha.simple_pos hs.1 hne
        rw [cs.wordProd_cons] at hn
        have hn2 : ∀ i, srefl C s (geom cs h (cs.wordProd l) β) i ≤ 0 := fun i => by
          have := hn i; rwa [geom_mul, geom_simple] at this
        have hr2 := ha.act (cs.simple s)
        rw [geom_simple] at hr2
        exact absurd (not_both q hn2) hr2.ne_zero
      rw [hg] at ha
      refine ⟨[], s, l, rfl, ?_⟩
      rw [← (ha.unique (isRoot_simple s)).2]; group
    · obtain ⟨l1, s', l2, rfl, e⟩ := ih hs.1
      exact ⟨s :: l1, s', l2, rfl, e⟩

end Verif.Canon
