import Verif.Coxeter.Twist
/-
Twisted involutions fixed by the twist: descents by orbits of generators.
-/
namespace Verif.Coxeter
open CoxeterSystem

variable {B : Type} {M : CoxeterMatrix B} {W : Type} [Group W] {cs : CoxeterSystem M W}

/-- if `s` is a left descent of `w t` but not of `w`, the two multiplications agree -/
theorem exchange_left {w : W} {s t : B} (h1 : cs.length (cs.simple s * (w * cs.simple t)) < cs.length (w * cs.simple t))
    (h2 : cs.length w < cs.length (cs.simple s * w)) : cs.simple s * w = w * cs.simple t := by
  have n1 := cs.length_mul_simple w t
  have n2 := cs.length_simple_mul w s
  have n3 := cs.length_simple_mul (w * cs.simple t) s
  have n4 := cs.length_mul_simple (cs.simple s * w) t
  rw [mul_assoc] at n4
  exact exchange (by rw [mul_assoc]; omega) (by omega)

/-- commuting descents -/
theorem two_descents {w : W} {s t : B} (hst : cs.simple s * cs.simple t = cs.simple t * cs.simple s) (hne : cs.simple s ≠ cs.simple t)
    (h1 : cs.length (cs.simple s * w) < cs.length w) (h2 : cs.length (cs.simple t * w) < cs.length w) :
    cs.length (cs.simple s * (cs.simple t * w)) + 2 = cs.length w := by
  have n1 := cs.length_simple_mul w s
  have n2 := cs.length_simple_mul w t
  have n3 := cs.length_simple_mul (cs.simple t * w) s
  by_contra hc
  have h3 : cs.length (cs.simple s * (cs.simple t * w)) = cs.length w := by omega
  -- inversions of the inverse
  have e1 := (par_eq_one_iff cs (cs.isReflection_simple s) w⁻¹).mpr (by
    rw [← cs.length_inv, ← cs.length_inv w⁻¹]; simpa using h1)
  have e2 : par cs (cs.simple t * w)⁻¹ (cs.simple s) ≠ 1 := fun e => by
    have := (par_eq_one_iff cs (cs.isReflection_simple s) _).mp e
    rw [← cs.length_inv, ← cs.length_inv (cs.simple t * w)⁻¹] at this
    simp only [mul_inv_rev, inv_inv, cs.inv_simple, mul_assoc] at this
    omega
  apply e2
  rw [mul_inv_rev, par_mul, cs.inv_simple, par_simple]
  have : cs.simple t * cs.simple s * (cs.simple t)⁻¹ = cs.simple s := by rw [← hst]; simp
  rw [this, e1]
  have hz : ind (cs.simple s = cs.simple t) = 0 := by simp [ind, hne]
  rw [hz, zero_add]

/-- descents that satisfy a braid relation of length three -/
theorem three_descents {w : W} {s t : B} (hst : cs.simple s * cs.simple t * cs.simple s = cs.simple t * cs.simple s * cs.simple t)
    (hne : cs.simple s ≠ cs.simple t) (h1 : cs.length (cs.simple s * w) < cs.length w) (h2 : cs.length (cs.simple t * w) < cs.length w) :
    cs.length (cs.simple t * (cs.simple s * w)) + 2 = cs.length w ∧
    cs.length (cs.simple s * (cs.simple t * (cs.simple s * w))) + 3 = cs.length w := by
  -- number of inversions of the inverse: `s`, `t`, `s t s`
  have n1 := cs.length_simple_mul w s
  have n2 := cs.length_simple_mul w t
  have n3 := cs.length_simple_mul (cs.simple s * w) t
  have n4 := cs.length_simple_mul (cs.simple t * (cs.simple s * w)) s
  have f1 : ∀ x : W, cs.length (cs.simple s * x) < cs.length x ↔ par cs x⁻¹ (cs.simple s) = 1 := by
    intro x
    rw [par_eq_one_iff cs (cs.isReflection_simple s), ← cs.length_inv (x⁻¹ * _), ← cs.length_inv x⁻¹]
    simp
  have f2 : ∀ x : W, cs.length (cs.simple t * x) < cs.length x ↔ par cs x⁻¹ (cs.simple t) = 1 := by
    intro x
    rw [par_eq_one_iff cs (cs.isReflection_simple t), ← cs.length_inv (x⁻¹ * _), ← cs.length_inv x⁻¹]
    simp
  have c1 : cs.simple t * cs.simple s * (cs.simple t * cs.simple s * cs.simple t) = cs.simple s := by rw [← hst]; simp [mul_assoc]
  have c2 : cs.simple s * (cs.simple t * cs.simple s * cs.simple t) * cs.simple s = cs.simple t := by rw [← hst]; simp [mul_assoc]
  have hsts : cs.simple s * cs.simple t * cs.simple s ≠ cs.simple s := by
    intro e
    have : cs.simple s * cs.simple t = 1 := by simpa using e
    apply hne
    rw [← cs.inv_simple t]
    exact eq_inv_of_mul_eq_one_left this
  -- the reflection `s t s` is an inversion: otherwise lengths contradict
  have a1 := (f1 w).mp h1
  have a2 := (f2 w).mp h2
  have r : cs.IsReflection (cs.simple s * cs.simple t * cs.simple s) := ⟨cs.simple s, t, by rw [cs.inv_simple]⟩
  have a3 : par cs w⁻¹ (cs.simple s * cs.simple t * cs.simple s) = 1 := by
    by_contra hne3
    have b1 : ¬ cs.length (cs.simple t * (cs.simple s * w)) < cs.length (cs.simple s * w) := by
      rw [f2, mul_inv_rev, par_mul, cs.inv_simple, par_simple]
      rw [show ind (cs.simple t = cs.simple s) = 0 from by simp [ind, Ne.symm hne], zero_add, cs.inv_simple]
      exact hne3
    have b2 : ¬ cs.length (cs.simple s * (cs.simple t * w)) < cs.length (cs.simple t * w) := by
      rw [f1, mul_inv_rev, par_mul, cs.inv_simple, par_simple]
      rw [show ind (cs.simple s = cs.simple t) = 0 from by simp [ind, hne], zero_add, cs.inv_simple, ← hst]
      exact hne3
    -- then `t s w` and `s t w` are as long as `w`
    have m := cs.length_simple_mul (cs.simple t * w) s
    have b3 : cs.length (cs.simple t * (cs.simple s * (cs.simple t * w))) < cs.length (cs.simple s * (cs.simple t * w)) := by
      rw [f2]
      simp only [mul_inv_rev, cs.inv_simple]
      rw [par_mul, par_mul, cs.inv_simple, cs.inv_simple, par_simple, par_simple]
      rw [show ind (cs.simple t = cs.simple s) = 0 from by simp [ind, Ne.symm hne],
        show ind (cs.simple s * cs.simple t * cs.simple s = cs.simple t) = 0 from by
          have : cs.simple s * cs.simple t * cs.simple s ≠ cs.simple t := by
            rw [hst]
            intro e
            have : cs.simple t * cs.simple s = 1 := by simpa using e
            exact hne (by rw [← cs.inv_simple s]; exact (eq_inv_of_mul_eq_one_left this).symm)
          simp [ind, this], zero_add, zero_add]
      rw [show cs.simple t * (cs.simple s * cs.simple t * cs.simple s) * cs.simple t = cs.simple s from by rw [hst]; simp [mul_assoc]]
      exact a1
    have b4 : cs.length (cs.simple t * w) + 1 = cs.length w := by omega
    have b5 : cs.length (cs.simple t * (cs.simple s * (cs.simple t * w))) = cs.length (cs.simple s * (cs.simple t * (cs.simple s * w))) := by
      congr 1
      have := congrArg (· * w) hst
      simpa [mul_assoc] using this.symm
    -- the product with `s t s` would have one inversion less among three, and two more
    have b6 : ¬ cs.length (w⁻¹ * (cs.simple s * cs.simple t * cs.simple s)) < cs.length w⁻¹ := by
      rw [← par_eq_one_iff cs r]; exact hne3
    have b7 : cs.length (w⁻¹ * (cs.simple s * cs.simple t * cs.simple s)) = cs.length (cs.simple s * (cs.simple t * (cs.simple s * w))) := by
      rw [← cs.length_inv]; simp [mul_assoc]
    rw [cs.length_inv] at b6
    omega
  have b1 : cs.length (cs.simple t * (cs.simple s * w)) < cs.length (cs.simple s * w) := by
    rw [f2, mul_inv_rev, par_mul, cs.inv_simple, par_simple]
    rw [show ind (cs.simple t = cs.simple s) = 0 from by simp [ind, Ne.symm hne], zero_add, cs.inv_simple]
    exact a3
  have b2 : cs.length (cs.simple s * (cs.simple t * (cs.simple s * w))) < cs.length (cs.simple t * (cs.simple s * w)) := by
    rw [f1]
    simp only [mul_inv_rev, cs.inv_simple]
    rw [par_mul, par_mul, cs.inv_simple, cs.inv_simple, par_simple, par_simple]
    rw [show ind (cs.simple s = cs.simple t) = 0 from by simp [ind, hne],
      show ind (cs.simple t * cs.simple s * cs.simple t = cs.simple s) = 0 from by rw [← hst]; simp [ind, hsts], zero_add, zero_add, c2]
    exact a2
  omega

variable {f : B → B} {θ : W →* W} (hθ : IsTwist cs f θ)

open Classical in
/-- the ascending action of a generator on twisted involutions: nothing happens for a descent -/
noncomputable def star (cs : CoxeterSystem M W) (θ : W →* W) (s : B) (v : W) : W :=
  if cs.length v < cs.length (cs.simple s * v) then
    if cs.simple s * v = v * θ (cs.simple s) then cs.simple s * v else cs.simple s * v * θ (cs.simple s)
  else v

/-- the action of a word -/
noncomputable def starWord (cs : CoxeterSystem M W) (θ : W →* W) (l : List B) (v : W) : W := l.foldr (star cs θ) v

theorem star_descent {s : B} {v : W} (h : cs.length (cs.simple s * v) < cs.length v) : star cs θ s v = v := by
  rw [star, if_neg (by omega)]

include hθ

theorem star_theta (s : B) (v : W) : θ (star cs θ s v) = star cs θ (f s) (θ v) := by
  have h1 : cs.length (cs.simple (f s) * θ v) = cs.length (cs.simple s * v) := by rw [← hθ.simple, ← map_mul, hθ.length]
  have inj : Function.Injective θ := Function.LeftInverse.injective hθ.theta_theta
  have h2 : cs.simple (f s) * θ v = θ v * θ (cs.simple (f s)) ↔ cs.simple s * v = v * θ (cs.simple s) := by
    rw [← hθ.simple, ← map_mul, ← map_mul, inj.eq_iff]
  unfold star
  rw [h1, hθ.length]
  by_cases a : cs.length v < cs.length (cs.simple s * v)
  · rw [if_pos a, if_pos a]
    by_cases b : cs.simple s * v = v * θ (cs.simple s)
    · rw [if_pos b, if_pos (h2.mpr b), map_mul, hθ.simple]
    · rw [if_neg b, if_neg (fun e => b (h2.mp e)), map_mul, map_mul, hθ.simple]
  · rw [if_neg a, if_neg a]

/-- reversing a descent -/
theorem star_mul {w : W} {s : B} (hs : cs.length (cs.simple s * w) < cs.length w) (hc : cs.simple s * w = w * θ (cs.simple s)) :
    star cs θ s (cs.simple s * w) = w := by
  rw [star, cs.simple_mul_simple_cancel_left, if_pos hs, if_pos]
  rw [hc, mul_assoc, hθ.simple, cs.simple_mul_simple_self, mul_one]

theorem star_conj {w : W} (hw : IsTI θ w) {s : B} (hs : cs.length (cs.simple s * w) < cs.length w) (hc : cs.simple s * w ≠ w * θ (cs.simple s)) :
    star cs θ s (cs.simple s * w * θ (cs.simple s)) = w := by
  have e1 : cs.simple s * (cs.simple s * w * θ (cs.simple s)) = w * θ (cs.simple s) := by rw [mul_assoc, cs.simple_mul_simple_cancel_left]
  have e2 : cs.simple s * w * θ (cs.simple s) * θ (cs.simple s) = cs.simple s * w := by rw [hθ.simple]; simp
  have hl := hw.step hθ hs hc
  have hd := hw.descent hθ s
  have n := cs.length_simple_mul w s
  rw [star, e1, e2, if_pos (by omega), if_neg (Ne.symm hc), hθ.simple]
  simp

section
variable {w : W} (hw : IsTI θ w) (hfix : θ w = w) {s : B} (hs : cs.length (cs.simple s * w) < cs.length w)
include hw hfix hs

omit hw in
theorem fix_descent : cs.length (cs.simple (f s) * w) < cs.length w := by
  have : cs.length (cs.simple (f s) * w) = cs.length (cs.simple s * w) := by
    rw [← hθ.length (cs.simple s * w), map_mul, hθ.simple, hfix]
  omega

/-- orbit of two commuting generators, real case -/
theorem two_real (hst : cs.simple s * cs.simple (f s) = cs.simple (f s) * cs.simple s) (hne : cs.simple s ≠ cs.simple (f s))
    (hc : cs.simple s * w = w * θ (cs.simple s)) :
    let v := cs.simple (f s) * (cs.simple s * w)
    IsTI θ v ∧ θ v = v ∧ cs.length v + 2 = cs.length w ∧ cs.length v < cs.length (cs.simple s * v) ∧ star cs θ s (star cs θ (f s) v) = w := by
  intro v
  have h2 := fix_descent hθ hfix hs
  have hl := two_descents hst.symm (Ne.symm hne) h2 hs
  have n1 := cs.length_simple_mul w s
  have hx := IsTI.commute hθ hw hc
  have hc' : cs.simple (f s) * w = w * cs.simple s := by
    have := congrArg θ hc
    rwa [map_mul, map_mul, hfix, hθ.theta_theta, hθ.simple] at this
  have hc2 : cs.simple (f s) * (cs.simple s * w) = cs.simple s * w * θ (cs.simple (f s)) := by
    rw [hθ.simple, hθ.invol, ← mul_assoc, ← hst, mul_assoc, hc', mul_assoc]
  have hd2 : cs.length (cs.simple (f s) * (cs.simple s * w)) < cs.length (cs.simple s * w) := by omega
  refine ⟨IsTI.commute hθ hx hc2, ?_, hl, ?_, ?_⟩
  · show θ (cs.simple (f s) * (cs.simple s * w)) = _
    rw [map_mul, map_mul, hfix, hθ.simple, hθ.simple, hθ.invol, ← mul_assoc, hst, mul_assoc]
  · show cs.length (cs.simple (f s) * (cs.simple s * w)) < cs.length (cs.simple s * (cs.simple (f s) * (cs.simple s * w)))
    rw [← mul_assoc (cs.simple s), hst, mul_assoc, cs.simple_mul_simple_cancel_left]
    have := cs.length_simple_mul w (f s)
    omega
  · rw [star_mul hθ hd2 hc2, star_mul hθ hs hc]

/-- orbit of two commuting generators, other cases -/
theorem two_complex (hst : cs.simple s * cs.simple (f s) = cs.simple (f s) * cs.simple s) (hne : cs.simple s ≠ cs.simple (f s))
    (hc : cs.simple s * w ≠ w * θ (cs.simple s)) :
    let x := cs.simple s * w * θ (cs.simple s)
    (cs.length x < cs.length (cs.simple (f s) * x) → IsTI θ x ∧ θ x = x ∧ cs.length x + 2 = cs.length w ∧
      cs.length x < cs.length (cs.simple s * x) ∧ star cs θ s (star cs θ (f s) x) = w) ∧
    (cs.length (cs.simple (f s) * x) < cs.length x → let v := cs.simple (f s) * x * θ (cs.simple (f s));
      IsTI θ v ∧ θ v = v ∧ cs.length v + 4 = cs.length w ∧ cs.length v < cs.length (cs.simple s * v) ∧ star cs θ s (star cs θ (f s) v) = w) := by
  intro x
  have h2 := fix_descent hθ hfix hs
  have hl := two_descents hst.symm (Ne.symm hne) h2 hs
  have n1 := cs.length_simple_mul w s
  have hx : IsTI θ x := IsTI.conjSimple hθ hw s
  have hlx : cs.length x + 2 = cs.length w := hw.step hθ hs hc
  have hsx : cs.length x < cs.length (cs.simple s * x) := by
    show _ < cs.length (cs.simple s * (cs.simple s * w * θ (cs.simple s)))
    rw [mul_assoc, cs.simple_mul_simple_cancel_left, hw.descent hθ]
    omega
  have hstar : star cs θ s x = w := star_conj hθ hw hs hc
  constructor
  · intro h1
    have ex : x = cs.simple (f s) * (cs.simple s * w) := by
      have e1 : cs.simple (f s) * (cs.simple (f s) * (cs.simple s * w)) = cs.simple (f s) * (cs.simple s * w) * cs.simple (f s) := by
        apply exchange
        · rw [cs.simple_mul_simple_cancel_left]
          show cs.length (cs.simple s * w * cs.simple (f s)) < _
          have : cs.length (cs.simple s * w * cs.simple (f s)) = cs.length x := by show _ = cs.length (_ * θ _); rw [hθ.simple]
          omega
        · have : cs.simple (f s) * (cs.simple s * w) * cs.simple (f s) = cs.simple (f s) * x := by
            show _ = cs.simple (f s) * (cs.simple s * w * θ (cs.simple s))
            rw [hθ.simple, mul_assoc]
          rw [this]
          have := cs.length_simple_mul x (f s)
          omega
      show cs.simple s * w * θ (cs.simple s) = _
      rw [cs.simple_mul_simple_cancel_left] at e1
      rw [hθ.simple]
      conv_lhs => rw [e1]
      simp
    have hfx : θ x = x := by
      rw [ex, map_mul, map_mul, hfix, hθ.simple, hθ.simple, hθ.invol, ← mul_assoc, ← mul_assoc, hst]
    refine ⟨hx, hfx, hlx, hsx, ?_⟩
    have : star cs θ (f s) x = w := by
      have := star_theta hθ s x
      rw [hstar, hfix, hfx] at this
      exact this.symm
    rw [this, star_descent hs]
  · intro h1 v
    have hv : v = cs.simple (f s) * cs.simple s * w * (cs.simple (f s) * cs.simple s) := by
      show cs.simple (f s) * (cs.simple s * w * θ (cs.simple s)) * θ (cs.simple (f s)) = _
      rw [hθ.simple, hθ.simple, hθ.invol]
      simp only [mul_assoc]
    have hfv : θ v = v := by
      rw [hv]
      simp only [map_mul, hθ.simple, hθ.invol, hfix, hst]
    have hnc : cs.simple (f s) * x ≠ x * θ (cs.simple (f s)) := by
      intro hcx
      have e1 : cs.simple (f s) * (cs.simple s * w) * cs.simple s = cs.simple (f s) * (cs.simple (f s) * (cs.simple s * w)) := by
        have : cs.simple (f s) * (cs.simple s * w * cs.simple (f s)) = cs.simple s * w * cs.simple (f s) * cs.simple s := by
          have := hcx
          rwa [show x = cs.simple s * w * cs.simple (f s) from by show _ * θ _ = _; rw [hθ.simple], hθ.simple, hθ.invol] at this
        have h3 := congrArg (· * cs.simple s * cs.simple (f s)) this
        simp only [mul_assoc, cs.simple_mul_simple_self, mul_one] at h3
        have h4 : cs.simple (f s) * (cs.simple s * cs.simple (f s)) = cs.simple s := by rw [hst]; simp
        rw [h4] at h3
        rw [cs.simple_mul_simple_cancel_left]
        simpa only [mul_assoc] using h3
      rw [cs.simple_mul_simple_cancel_left] at e1
      -- lengths of the element times the two generators
      have l1 : cs.length (cs.simple (f s) * (cs.simple s * w) * cs.simple s) = cs.length (cs.simple (f s) * (cs.simple s * w)) + 1 := by
        rw [e1]; omega
      have l2 : cs.length (cs.simple (f s) * (cs.simple s * w) * cs.simple (f s)) + 1 = cs.length (cs.simple (f s) * (cs.simple s * w)) := by
        have : cs.simple (f s) * (cs.simple s * w) * cs.simple (f s) = cs.simple (f s) * x := by
          show _ = cs.simple (f s) * (cs.simple s * w * θ (cs.simple s)); rw [hθ.simple, mul_assoc]
        rw [this]
        have := cs.length_simple_mul x (f s)
        omega
      have l3 := hθ.length (cs.simple (f s) * (cs.simple s * w) * cs.simple s)
      rw [map_mul, map_mul, map_mul, hfix, hθ.simple, hθ.simple, hθ.invol] at l3
      have e5 : cs.simple s * (cs.simple (f s) * w) = cs.simple (f s) * (cs.simple s * w) := by rw [← mul_assoc, hst, mul_assoc]
      rw [e5] at l3
      omega
    have hlv := hx.step hθ h1 hnc
    have hlv' : cs.length v + 2 = cs.length x := hlv
    have hstar2 : star cs θ (f s) v = x := star_conj hθ hx h1 hnc
    have hv1 : cs.length v < cs.length (cs.simple (f s) * v) := by
      show _ < cs.length (cs.simple (f s) * (cs.simple (f s) * x * θ (cs.simple (f s))))
      rw [mul_assoc, cs.simple_mul_simple_cancel_left, hx.descent hθ]
      have := cs.length_simple_mul x (f s)
      omega
    refine ⟨IsTI.conjSimple hθ hx _, hfv, by omega, ?_, by rw [hstar2, hstar]⟩
    have := hθ.length (cs.simple (f s) * v)
    rw [map_mul, hfv, hθ.simple, hθ.invol] at this
    omega

/-- orbit of two generators with a braid relation -/
theorem three_real (hst : cs.simple s * cs.simple (f s) * cs.simple s = cs.simple (f s) * cs.simple s * cs.simple (f s))
    (hne : cs.simple s ≠ cs.simple (f s)) (hc : cs.simple s * w = w * θ (cs.simple s)) :
    let x := cs.simple s * w
    let v := cs.simple (f s) * x * θ (cs.simple (f s))
    IsTI θ v ∧ θ v = v ∧ cs.length v + 3 = cs.length w ∧ cs.length v < cs.length (cs.simple s * v) ∧
      star cs θ s (star cs θ (f s) (star cs θ s v)) = w := by
  intro x v
  have h2 := fix_descent hθ hfix hs
  obtain ⟨l2, l3⟩ := three_descents hst hne hs h2
  have n1 := cs.length_simple_mul w s
  have hx : IsTI θ x := IsTI.commute hθ hw hc
  have hc' : cs.simple (f s) * w = w * cs.simple s := by
    have := congrArg θ hc
    rwa [map_mul, map_mul, hfix, hθ.theta_theta, hθ.simple] at this
  have hv : v = cs.simple s * (cs.simple (f s) * (cs.simple s * w)) := by
    show cs.simple (f s) * (cs.simple s * w) * θ (cs.simple (f s)) = _
    rw [hθ.simple, hθ.invol, mul_assoc, mul_assoc, ← hc']
    simpa only [mul_assoc] using (congrArg (· * w) hst).symm
  have hfv : θ v = v := by
    rw [hv]
    simp only [map_mul, hθ.simple, hθ.invol, hfix]
    simpa only [mul_assoc] using (congrArg (· * w) hst).symm
  have hlv : cs.length v + 3 = cs.length w := by rw [hv]; exact l3
  have hd : cs.length (cs.simple (f s) * x) < cs.length x := by show cs.length (cs.simple (f s) * (cs.simple s * w)) < cs.length (cs.simple s * w); omega
  have hnc : cs.simple (f s) * x ≠ x * θ (cs.simple (f s)) := by
    intro e
    have : v = x := by show _ * x * _ = x; rw [e, hθ.simple, hθ.invol]; simp
    have h3 : cs.length x + 1 = cs.length w := by show cs.length (cs.simple s * w) + 1 = _; omega
    rw [this] at hlv
    omega
  have hstar1 : star cs θ (f s) v = x := star_conj hθ hx hd hnc
  have hstar2 : star cs θ s x = w := star_mul hθ hs hc
  refine ⟨IsTI.conjSimple hθ hx _, hfv, hlv, ?_, ?_⟩
  · have e : cs.simple s * v = cs.simple (f s) * (cs.simple s * w) := by rw [hv, cs.simple_mul_simple_cancel_left]
    rw [e]; omega
  · have e1 : star cs θ s v = θ x := by
      have := star_theta hθ (f s) v
      rw [hstar1, hfv, hθ.invol] at this
      exact this.symm
    have e2 : star cs θ (f s) (θ x) = w := by rw [← star_theta hθ, hstar2, hfix]
    rw [e1, e2, star_descent hs]

theorem three_complex (hst : cs.simple s * cs.simple (f s) * cs.simple s = cs.simple (f s) * cs.simple s * cs.simple (f s))
    (hne : cs.simple s ≠ cs.simple (f s)) (hc : cs.simple s * w ≠ w * θ (cs.simple s)) :
    let x := cs.simple s * w * θ (cs.simple s)
    IsTI θ x ∧
    (cs.simple (f s) * x = x * θ (cs.simple (f s)) → let v := cs.simple (f s) * x;
      IsTI θ v ∧ θ v = v ∧ cs.length v + 3 = cs.length w ∧ cs.length v < cs.length (cs.simple s * v) ∧
        star cs θ s (star cs θ (f s) (star cs θ s v)) = w) ∧
    (cs.simple (f s) * x ≠ x * θ (cs.simple (f s)) → let y := cs.simple (f s) * x * θ (cs.simple (f s)); let v := cs.simple s * y * θ (cs.simple s);
      IsTI θ v ∧ θ v = v ∧ cs.length v + 6 = cs.length w ∧ cs.length v < cs.length (cs.simple s * v) ∧
        star cs θ s (star cs θ (f s) (star cs θ s v)) = w) := by
  intro x
  have h2 := fix_descent hθ hfix hs
  obtain ⟨l2, l3⟩ := three_descents hst hne hs h2
  have n1 := cs.length_simple_mul w s
  have hx : IsTI θ x := IsTI.conjSimple hθ hw s
  have hlx : cs.length x + 2 = cs.length w := hw.step hθ hs hc
  have hstar0 : star cs θ s x = w := star_conj hθ hw hs hc
  have ex : x = cs.simple s * w * cs.simple (f s) := by show _ * θ _ = _; rw [hθ.simple]
  -- the second generator is a descent
  have hdx : cs.length (cs.simple (f s) * x) < cs.length x := by
    by_contra hcon
    have e1 : cs.simple (f s) * (cs.simple (f s) * (cs.simple s * w)) = cs.simple (f s) * (cs.simple s * w) * cs.simple (f s) := by
      apply exchange
      · rw [cs.simple_mul_simple_cancel_left, ← ex]; omega
      · rw [mul_assoc, ← ex]
        have := cs.length_simple_mul x (f s)
        omega
    rw [cs.simple_mul_simple_cancel_left] at e1
    have e2 : w = cs.simple s * (cs.simple (f s) * (cs.simple s * w)) * cs.simple (f s) := by
      have := congrArg (cs.simple s * ·) e1
      simp only [cs.simple_mul_simple_cancel_left] at this
      simpa only [mul_assoc] using this
    have l4 := cs.length_mul_simple (cs.simple s * (cs.simple (f s) * (cs.simple s * w))) (f s)
    rw [← e2] at l4
    omega
  have n2 := cs.length_simple_mul x (f s)
  have hw'' : ∀ y, cs.simple s * (cs.simple (f s) * (cs.simple s * y)) = cs.simple (f s) * (cs.simple s * (cs.simple (f s) * y)) := by
    intro y
    simpa only [mul_assoc] using congrArg (· * y) hst
  refine ⟨hx, ?_, ?_⟩
  · intro hcx v
    have hv0 : v = cs.simple (f s) * (cs.simple s * w * cs.simple (f s)) := by show cs.simple (f s) * x = _; rw [ex]
    have hlv : cs.length v + 3 = cs.length w := by show cs.length (cs.simple (f s) * x) + 3 = _; omega
    -- the longest element of the orbit commutes with w
    have hcomm : cs.simple s * (cs.simple (f s) * (cs.simple s * w)) = w * (cs.simple s * cs.simple (f s) * cs.simple s) := by
      have h3 := hcx
      rw [ex, hθ.simple, hθ.invol] at h3
      have h4 := congrArg (fun z => cs.simple s * z * cs.simple (f s)) h3
      simp only [mul_assoc, cs.simple_mul_simple_self, mul_one, cs.simple_mul_simple_cancel_left] at h4
      rw [h4, hst]
      simp only [mul_assoc]
    have hww : w = cs.simple s * (cs.simple (f s) * (cs.simple s * w)) * (cs.simple s * cs.simple (f s) * cs.simple s) := by
      rw [hcomm]
      simp [mul_assoc]
    -- multiplication of w'' by the second generator increases the length
    have hv : v = cs.simple s * (cs.simple (f s) * (cs.simple s * w)) := by
      obtain ⟨u, hu⟩ : ∃ u, u = cs.simple s * (cs.simple (f s) * (cs.simple s * w)) := ⟨_, rfl⟩
      rw [← hu] at l3 hww ⊢
      have m1 : cs.length (u * cs.simple (f s)) = cs.length u + 1 := by
        have a1 := cs.length_mul_simple u (f s)
        have a2 := cs.length_mul_simple (u * cs.simple (f s)) s
        have a3 := cs.length_mul_simple (u * cs.simple (f s) * cs.simple s) (f s)
        have : u * cs.simple (f s) * cs.simple s * cs.simple (f s) = w := by
          conv_rhs => rw [hww, hst]
          simp only [mul_assoc]
        rw [this] at a3
        omega
      have hsv : cs.simple s * v = u * cs.simple (f s) := by rw [hv0, hu]; simp only [mul_assoc]
      have e3 : cs.simple s * u = u * cs.simple (f s) := by
        apply exchange_left
        · rw [← hsv, cs.simple_mul_simple_cancel_left, hsv]; omega
        · rw [hu, cs.simple_mul_simple_cancel_left, ← hu]; omega
      have : cs.simple s * (cs.simple s * v) = cs.simple s * (cs.simple s * u) := by rw [hsv, e3]
      simpa using this
    have hfv : θ v = v := by
      rw [hv]
      simp only [map_mul, hθ.simple, hθ.invol, hfix]
      exact (hw'' w).symm
    have hstar1 : star cs θ (f s) v = x := star_mul hθ hdx hcx
    refine ⟨IsTI.commute hθ hx hcx, hfv, hlv, ?_, ?_⟩
    · have e : cs.simple s * v = cs.simple (f s) * (cs.simple s * w) := by rw [hv, cs.simple_mul_simple_cancel_left]
      rw [e]; omega
    · have e1 : star cs θ s v = θ x := by
        have := star_theta hθ (f s) v
        rw [hstar1, hfv, hθ.invol] at this
        exact this.symm
      have e2 : star cs θ (f s) (θ x) = w := by rw [← star_theta hθ, hstar0, hfix]
      rw [e1, e2, star_descent hs]
  · intro hcx y v
    have hy : IsTI θ y := IsTI.conjSimple hθ hx _
    have hly : cs.length y + 2 = cs.length x := hx.step hθ hdx hcx
    have hstar1 : star cs θ (f s) y = x := star_conj hθ hx hdx hcx
    have ey : y = cs.simple (f s) * (cs.simple s * w * cs.simple (f s)) * cs.simple s := by
      show cs.simple (f s) * x * θ (cs.simple (f s)) = _; rw [ex, hθ.simple, hθ.invol]
    have ev : v = cs.simple s * (cs.simple (f s) * (cs.simple s * w)) * (cs.simple (f s) * cs.simple s * cs.simple (f s)) := by
      show cs.simple s * y * θ (cs.simple s) = _
      rw [ey, hθ.simple]; simp only [mul_assoc]
    have hfv : θ v = v := by
      rw [ev]
      simp only [map_mul, hθ.simple, hθ.invol, hfix]
      rw [← hw'', hst]
    -- the last step is a descent as well
    obtain ⟨u, hu⟩ : ∃ u, u = cs.simple s * (cs.simple (f s) * (cs.simple s * w)) := ⟨_, rfl⟩
    have hul : cs.length u + 3 = cs.length w := by rw [hu]; exact l3
    have hfu : θ u = u := by
      rw [hu]
      simp only [map_mul, hθ.simple, hθ.invol, hfix]
      exact (hw'' w).symm
    have hsu : cs.length u < cs.length (cs.simple s * u) := by
      rw [hu, cs.simple_mul_simple_cancel_left, ← hu]; omega
    have hsy : cs.simple s * y = u * (cs.simple (f s) * cs.simple s) := by rw [ey, hu]; simp only [mul_assoc]
    have r1 : cs.length (u * cs.simple (f s)) = cs.length (u * cs.simple s) := by
      rw [← hθ.length (u * cs.simple s), map_mul, hfu, hθ.simple]
    have hyd : cs.length (cs.simple s * y) < cs.length y := by
      by_contra hcon
      have n3 := cs.length_simple_mul y s
      have a1 := cs.length_mul_simple u (f s)
      have a2 := cs.length_mul_simple (u * cs.simple (f s)) s
      have e4 : u * cs.simple (f s) * cs.simple s = cs.simple s * y := by rw [hsy]; simp only [mul_assoc]
      rw [e4] at a2
      rcases a1 with a1 | a1
      · -- the first product is longer
        have e5 : cs.simple s * u = u * cs.simple (f s) := by
          apply exchange_left
          · have : cs.simple s * (u * cs.simple (f s)) = cs.simple (f s) * x := by rw [hu, ex]; simp only [mul_assoc, cs.simple_mul_simple_cancel_left]
            rw [this]; omega
          · exact hsu
        have e7 : cs.simple (f s) * u = u * cs.simple s := by
          have := congrArg θ e5
          rwa [map_mul, map_mul, hfu, hθ.simple, hθ.simple, hθ.invol] at this
        have e8 : w = cs.simple s * (cs.simple (f s) * (cs.simple s * u)) := by rw [hu]; simp
        have e9 : x = u * cs.simple s := by
          rw [ex, e8, cs.simple_mul_simple_cancel_left, e5, ← mul_assoc, e7]
          simp
        apply hcx
        rw [hθ.simple, hθ.invol, e9, ← mul_assoc, e7]
      · -- both products are shorter, hence also the longer one
        have a3 : cs.length (u * cs.simple s) < cs.length u := by omega
        have b := three_descents (cs := cs) (w := u⁻¹) (s := f s) (t := s) hst.symm (Ne.symm hne) (by
          rw [← cs.length_inv, ← cs.length_inv u⁻¹]; simp only [mul_inv_rev, inv_inv, cs.inv_simple]; omega) (by
          rw [← cs.length_inv, ← cs.length_inv u⁻¹]; simp only [mul_inv_rev, inv_inv, cs.inv_simple]; omega)
        have b1 := b.1
        rw [← cs.length_inv, cs.length_inv u] at b1
        simp only [mul_inv_rev, inv_inv, cs.inv_simple] at b1
        rw [e4] at b1
        omega
    have hnc : cs.simple s * y ≠ y * θ (cs.simple s) := by
      intro e
      have e1 : v = y := by show cs.simple s * y * θ (cs.simple s) = y; rw [e, hθ.simple]; simp
      -- then y is fixed, and both generators behave alike
      have hfy : θ y = y := by rw [← e1, hfv]
      have := hθ.length (cs.simple s * y)
      rw [map_mul, hfy, hθ.simple] at this
      have h5 : cs.length y < cs.length (cs.simple (f s) * y) := by
        show _ < cs.length (cs.simple (f s) * (cs.simple (f s) * x * θ (cs.simple (f s))))
        rw [mul_assoc, cs.simple_mul_simple_cancel_left, hx.descent hθ]
        omega
      omega
    have hlv : cs.length v + 2 = cs.length y := hy.step hθ hyd hnc
    have hstar2 : star cs θ s v = y := star_conj hθ hy hyd hnc
    refine ⟨IsTI.conjSimple hθ hy _, hfv, by omega, ?_, by rw [hstar2, hstar1, hstar0]⟩
    show _ < cs.length (cs.simple s * (cs.simple s * y * θ (cs.simple s)))
    rw [mul_assoc, cs.simple_mul_simple_cancel_left, hy.descent hθ]
    have := cs.length_simple_mul y s
    omega

end
end Verif.Coxeter
