import Verif.Canon.Par
/-
Uniqueness of canonical twisted involutions, in coordinates for the simple roots.
-/
namespace Verif.Canon
open Verif.Coxeter CoxeterSystem

variable {B : Type} [Fintype B] [DecidableEq B] {M : CoxeterMatrix B} {W : Type} [Group W] [Finite W] {C : B → B → ℤ}
variable {cs : CoxeterSystem M W} {f : B → B} {θ : W →* W} {Γ : B → Prop}

/-- `Φ` is the set of the positive roots -/
def IsPos (cs : CoxeterSystem M W) (h : IsCartan C M) (Φ : Finset (B → ℤ)) : Prop := ∀ x, x ∈ Φ ↔ (∃ x' t, IsRoot cs h x x' t) ∧ ∀ i, 0 ≤ x i

variable (h : IsCartan C M) (hθ : IsTwist cs f θ) (hf : ∀ s t, C (f s) (f t) = C s t) {Φ : Finset (B → ℤ)} (hΦ : IsPos cs h Φ)

open Classical in
/-- the positive roots multiplied by `c` -/
noncomputable def eig (cs : CoxeterSystem M W) (h : IsCartan C M) (f : B → B) (Φ : Finset (B → ℤ)) (c : ℤ) (w : W) : Finset (B → ℤ) :=
  Φ.filter fun x => trueInv cs h f w x = c • x

/-- and their sum -/
noncomputable def xs (cs : CoxeterSystem M W) (h : IsCartan C M) (f : B → B) (Φ : Finset (B → ℤ)) (c : ℤ) (w : W) : B → ℤ := ∑ x ∈ eig cs h f Φ c w, x

omit [Finite W] in
theorem mem_eig {c : ℤ} {w : W} {x : B → ℤ} : x ∈ eig cs h f Φ c w ↔ x ∈ Φ ∧ trueInv cs h f w x = c • x := by simp [eig]

include hθ hf in
omit [Finite W] in
/-- conjugation -/
theorem trueInv_conj (g w : W) (x : B → ℤ) : trueInv cs h f (g * w * (θ g)⁻¹) (geom cs h g x) = geom cs h g (trueInv cs h f w x) := by
  rw [trueInv_apply, permRoot_geom hθ h hf, ← geom_mul, inv_mul_cancel_right, geom_mul, trueInv_apply]

include hθ hf in
/-- the reflection in a root that is fixed or negated -/
theorem eig_commute {w : W} {c : ℤ} (hc : c = 1 ∨ c = -1) {β β' : B → ℤ} {t : W} (hr : IsRoot cs h β β' t) (he : trueInv cs h f w β = c • β) :
    t * w = w * θ t := by
  have h1 : IsRoot cs h (trueInv cs h f w β) (geom cs h.dual w (permRoot f β')) (w * θ t * w⁻¹) := by
    obtain ⟨u, s, rfl, rfl, rfl⟩ := hr
    rw [trueInv_apply, permRoot_geom hθ h hf, permRoot_geom hθ h.dual (fun s t => hf t s), permRoot_root hθ]
    refine ⟨w * θ u, f s, by rw [geom_mul], by rw [geom_mul], ?_⟩
    rw [map_mul, map_mul, map_inv, hθ.simple]; group
  rw [he] at h1
  have key : w * θ t * w⁻¹ = t := by
    rcases hc with rfl | rfl
    · rw [one_smul] at h1; exact (h1.unique hr).2
    · rw [neg_smul, one_smul] at h1; exact (h1.unique hr.neg).2
  calc t * w = w * θ t * w⁻¹ * w := by rw [key]
    _ = w * θ t := by group

include hθ hf hΦ in
/-- an element that keeps the roots positive transforms the set of roots -/
theorem eig_move {w g : W} {c : ℤ} (hp : ∀ x ∈ eig cs h f Φ c w, ∀ i, 0 ≤ geom cs h g x i) :
    geom cs h g (xs cs h f Φ c w) = xs cs h f Φ c (g * w * (θ g)⁻¹) := by
  unfold xs
  rw [map_sum]
  refine Finset.sum_nbij (geom cs h g) ?_ ?_ ?_ ?_
  · intro x hx
    obtain ⟨h1, h2⟩ := (mem_eig h).1 hx
    obtain ⟨⟨x', t, hr⟩, -⟩ := (hΦ x).1 h1
    refine (mem_eig h).2 ⟨(hΦ _).2 ⟨⟨_, _, hr.act g⟩, hp x hx⟩, ?_⟩
    rw [trueInv_conj h hθ hf, h2, map_smul]
  · intro x _ y _ e; exact geom_injective cs h g e
  · intro y hy
    obtain ⟨h1, h2⟩ := (mem_eig h).1 hy
    obtain ⟨⟨y', t, hr⟩, hpos⟩ := (hΦ y).1 h1
    have ha := hr.act g⁻¹
    have he : trueInv cs h f w (geom cs h g⁻¹ y) = c • geom cs h g⁻¹ y := by
      have := trueInv_conj h hθ hf g w (geom cs h g⁻¹ y)
      rw [geom_inv', h2] at this
      have := congrArg (geom cs h g⁻¹) this
      rw [geom_inv, map_smul] at this
      exact this.symm
    refine ⟨geom cs h g⁻¹ y, ?_, geom_inv' h g y⟩
    refine (mem_eig h).2 ⟨(hΦ _).2 ⟨⟨_, _, ha⟩, ?_⟩, he⟩
    rcases ha.sign with hs | hs
    · exact hs.1
    · have hm : -geom cs h g⁻¹ y ∈ eig cs h f Φ c w := (mem_eig h).2 ⟨(hΦ _).2 ⟨⟨_, _, ha.neg⟩, fun i => by have := hs.1 i; rw [Pi.neg_apply]; omega⟩, by
        rw [map_neg, he, smul_neg]⟩
      have q := hp _ hm
      rw [map_neg, geom_inv'] at q
      exact absurd (not_both hpos fun i => by have := q i; rw [Pi.neg_apply] at this; omega) hr.ne_zero
  · intro x _; rfl

include hθ hf hΦ in
/-- conjugating elements can be chosen to keep imaginary and real roots positive -/
theorem eig_good (w w' : W) (k : ℕ) : ∀ l : List B, l.length = k → (∀ s ∈ l, Γ s) → w' = cs.wordProd l * w * (θ (cs.wordProd l))⁻¹ →
    ∃ g, Par cs Γ g ∧ w' = g * w * (θ g)⁻¹ ∧ ∀ c, (c = 1 ∨ c = -1) → ∀ x ∈ eig cs h f Φ c w, ∀ i, 0 ≤ geom cs h g x i := by
  induction k using Nat.strong_induction_on with
  | _ k ih =>
    intro l hk hl e
    by_cases hall : ∀ c, (c = 1 ∨ c = -1) → ∀ x ∈ eig cs h f Φ c w, ∀ i, 0 ≤ geom cs h (cs.wordProd l) x i
    · exact ⟨_, ⟨l, hl, rfl⟩, e, hall⟩
    · push Not at hall
      obtain ⟨c, hc, x, hx, i, hi⟩ := hall
      obtain ⟨h1, h2⟩ := (mem_eig h).1 hx
      obtain ⟨⟨x', t, hr⟩, hp⟩ := (hΦ x).1 h1
      have hn : ∀ i, geom cs h (cs.wordProd l) x i ≤ 0 := by
        rcases (hr.act (cs.wordProd l)).sign with hs | hs
        · have := hs.1 i; omega
        · exact hs.1
      obtain ⟨l1, s, l2, rfl, et⟩ := word_root h l hr hp hn
      have hcm := eig_commute h hθ hf hc hr h2
      have e2 : cs.wordProd (l1 ++ s :: l2) * t = cs.wordProd (l1 ++ l2) := by
        rw [et, cs.wordProd_append, cs.wordProd_append, cs.wordProd_cons]
        simp only [mul_assoc, mul_inv_cancel_left, cs.simple_mul_simple_cancel_left]
      refine ih (l1 ++ l2).length (by rw [← hk]; simp) (l1 ++ l2) rfl (fun u hu => hl u ?_) ?_
      · rcases List.mem_append.1 hu with hu | hu <;> simp [hu]
      · rw [e, ← e2, map_mul, mul_inv_rev, mul_assoc (cs.wordProd _) t w, hcm]
        group

include hΦ in
/-- a simple root that is multiplied by `c` has product 2 with the sum -/
theorem xs_two {w : W} {c : ℤ} {s : B} (hs : trueInv cs h f w (root s) = c • root s) : pairing C s (xs cs h f Φ c w) = 2 := by
  have hm : root s ∈ eig cs h f Φ c w := (mem_eig h).2 ⟨(hΦ _).2 ⟨⟨_, _, isRoot_simple s⟩, fun i => by rw [root_apply]; split <;> omega⟩, hs⟩
  unfold xs
  rw [map_sum, ← Finset.insert_erase hm, Finset.sum_insert (by simp), pairing_root, h.diag]
  have hneg : ∀ x, pairing C s (srefl C s x) = -pairing C s x := fun x => by
    rw [srefl_apply, map_sub, map_smul, pairing_root, h.diag, smul_eq_mul]; ring
  have hin : ∀ x ∈ (eig cs h f Φ c w).erase (root s), srefl C s x ∈ (eig cs h f Φ c w).erase (root s) := by
    intro x hx
    rw [Finset.mem_erase] at hx ⊢
    obtain ⟨h1, h2⟩ := (mem_eig h).1 hx.2
    obtain ⟨⟨x', t, hr⟩, hp⟩ := (hΦ x).1 h1
    have ha := hr.act (cs.simple s)
    rw [geom_simple] at ha
    refine ⟨fun e => ?_, (mem_eig h).2 ⟨(hΦ _).2 ⟨⟨_, _, ha⟩, hr.simple_pos hp hx.1⟩, ?_⟩⟩
    · have := congrArg (srefl C s) e
      rw [srefl_srefl h, srefl_root h] at this
      have q := hp s
      rw [this, Pi.neg_apply, root_apply, if_pos rfl] at q
      omega
    · rw [srefl_apply, map_sub, map_smul, h2, hs, smul_sub, smul_comm]
  have key : ∑ x ∈ (eig cs h f Φ c w).erase (root s), pairing C s x = ∑ x ∈ (eig cs h f Φ c w).erase (root s), -pairing C s x := by
    refine Finset.sum_nbij' (srefl C s) (srefl C s) hin hin ?_ ?_ ?_
    · intro x _; exact srefl_srefl h s x
    · intro x _; exact srefl_srefl h s x
    · intro x _; rw [hneg, neg_neg]
  rw [Finset.sum_neg_distrib] at key
  omega

omit [Finite W] in
theorem trueInv_xs (w : W) (c : ℤ) : trueInv cs h f w (xs cs h f Φ c w) = c • xs cs h f Φ c w := by
  unfold xs
  rw [map_sum, Finset.smul_sum]
  exact Finset.sum_congr rfl fun x hx => ((mem_eig h).1 hx).2

include hθ hf in
/-- imaginary simple roots are orthogonal to the real roots -/
theorem xs_zero {w : W} {s : B} (hs : trueInv cs h f w (root s) = root s) : pairing C s (xs cs h f Φ (-1) w) = 0 := by
  have hcm := eig_commute h hθ hf (.inl rfl) (isRoot_simple (cs := cs) (h := h) s) (by rw [one_smul]; exact hs)
  have e := trueInv_conj h hθ hf (cs.simple s) w (xs cs h f Φ (-1) w)
  have e2 : cs.simple s * w * (θ (cs.simple s))⁻¹ = w := by rw [hcm]; group
  rw [e2, trueInv_xs, geom_simple, map_smul, srefl_apply, map_sub, map_smul, hs, trueInv_xs] at e
  have := congrFun e s
  simp only [Pi.sub_apply, Pi.smul_apply, root_apply, if_pos, smul_eq_mul] at this
  omega

/-- dominance of a pair of weights, the first being more important -/
def Lex (C : B → B → ℤ) (Γ : B → Prop) (x y : B → ℤ) : Prop := ∀ s, Γ s → 0 ≤ pairing C s x ∧ (pairing C s x = 0 → 0 ≤ pairing C s y)

theorem lex_par {x y x' y' : B → ℤ} (k : ℕ) : ∀ g : W, cs.length g = k → Par cs Γ g → geom cs h g x = x' → geom cs h g y = y' → Lex C Γ x y → Lex C Γ x' y' →
    Par cs (fun s => Γ s ∧ pairing C s x = 0 ∧ pairing C s y = 0) g := by
  induction k using Nat.strong_induction_on with
  | _ k ih =>
    intro g hk hg ex ey h1 h2
    by_cases hone : g = 1
    · rw [hone]; exact par_one
    · obtain ⟨s, hs, hn, hl⟩ := par_exists h hg hone
      have hr : IsRoot cs h (geom cs h g (root s)) (geom cs h.dual g (root s)) _ := (isRoot_simple s).act g
      have hn' : ∀ i, geom cs h.dual g (root s) i ≤ 0 := by
        rcases hr.sign with hp | hp
        · exact absurd (not_both hp.1 hn) hr.ne_zero
        · exact hp.2
      have hout : ∀ i, ¬ Γ i → geom cs h.dual g (root s) i = 0 := fun i hi => by
        rw [par_coef h.dual hg _ hi, root_apply, if_neg (by rintro rfl; exact hi hs)]
      have fx : ∑ i, geom cs h.dual g (root s) i * pairing C i x' = pairing C s x := by
        rw [← form_expand, ← ex, form_inv, form_root_right]
      have fy : ∑ i, geom cs h.dual g (root s) i * pairing C i y' = pairing C s y := by
        rw [← form_expand, ← ey, form_inv, form_root_right]
      have hx : ∀ i ∈ Finset.univ, geom cs h.dual g (root s) i * pairing C i x' ≤ 0 := fun i _ => by
        by_cases hi : Γ i
        · exact mul_nonpos_of_nonpos_of_nonneg (hn' i) (h2 i hi).1
        · rw [hout i hi, zero_mul]
      have hx0 : pairing C s x = 0 := by
        have q1 := (h1 s hs).1
        have q2 := Finset.sum_nonpos hx
        omega
      have hy0 : pairing C s y = 0 := by
        have q1 := (h1 s hs).2 hx0
        rw [hx0] at fx
        have q3 := (Finset.sum_eq_zero_iff_of_nonpos hx).1 fx
        have q2 : ∑ i, geom cs h.dual g (root s) i * pairing C i y' ≤ 0 := Finset.sum_nonpos fun i _ => by
          by_cases hi : Γ i
          · rcases mul_eq_zero.1 (q3 i (Finset.mem_univ i)) with h0 | h0
            · rw [h0, zero_mul]
            · exact mul_nonpos_of_nonpos_of_nonneg (hn' i) ((h2 i hi).2 h0)
          · rw [hout i hi, zero_mul]
        omega
      have := ih (cs.length (g * cs.simple s)) (by omega) (g * cs.simple s) rfl (par_mul hg (par_simple hs))
        (by rw [geom_mul, geom_simple, srefl_apply, hx0, zero_smul, sub_zero, ex]) (by rw [geom_mul, geom_simple, srefl_apply, hy0, zero_smul, sub_zero, ey]) h1 h2
      have h3 := par_mul this (par_simple (cs := cs) (Γ := fun s => Γ s ∧ pairing C s x = 0 ∧ pairing C s y = 0) ⟨hs, hx0, hy0⟩)
      rwa [mul_assoc, cs.simple_mul_simple_self, mul_one] at h3

omit [Finite W] in
theorem par_fix {x : B → ℤ} {g : W} (hg : Par cs Γ g) (hx : ∀ s, Γ s → pairing C s x = 0) : geom cs h g x = x := by
  obtain ⟨l, h1, rfl⟩ := hg
  induction l with
  | nil => simp
  | cons s l ih => rw [cs.wordProd_cons, geom_mul, ih fun s hs => h1 s (by simp [hs]), geom_simple, srefl_apply, hx s (h1 s (by simp)), zero_smul, sub_zero]

/-- the conditions on canonical involutions -/
structure Can (cs : CoxeterSystem M W) (h : IsCartan C M) (f : B → B) (Φ : Finset (B → ℤ)) (Γ : B → Prop) (w : W) : Prop where
  lex : Lex C Γ (xs cs h f Φ (-1) w) (xs cs h f Φ 1 w)
  pos : ∀ s, Γ s → pairing C s (xs cs h f Φ (-1) w) = 0 → pairing C s (xs cs h f Φ 1 w) = 0 → ∀ i, 0 ≤ trueInv cs h f w (root s) i

include hθ hf hΦ in
/-- There is at most one canonical involution in each class for conjugation by products of the generators in `Γ`. -/
theorem can_unique {w w' g : W} (hw : IsTI θ w) (hw' : IsTI θ w') (hg : Par cs Γ g) (e : w' = g * w * (θ g)⁻¹) (h1 : Can cs h f Φ Γ w) (h2 : Can cs h f Φ Γ w') : w' = w := by
  obtain ⟨l, hl, rfl⟩ := hg
  obtain ⟨g, hg, e', hp⟩ := eig_good h hθ hf hΦ w w' _ l rfl hl e
  have m1 := eig_move h hθ hf hΦ (hp (-1) (.inr rfl))
  have m2 := eig_move h hθ hf hΦ (hp 1 (.inl rfl))
  rw [← e'] at m1 m2
  have hJ := lex_par h _ g rfl hg m1 m2 h1.lex h2.lex
  have e1 : xs cs h f Φ (-1) w' = xs cs h f Φ (-1) w := by rw [← m1]; exact par_fix h hJ fun s hs => hs.2.1
  have e2 : xs cs h f Φ 1 w' = xs cs h f Φ 1 w := by rw [← m2]; exact par_fix h hJ fun s hs => hs.2.2
  have t1 : ∀ {v : W} (s : B), IsTI θ v → geom cs h v⁻¹ (root s) = permRoot f (trueInv cs h f v (root s)) := fun {v} s hv => by
    have hv : θ v = v⁻¹ := hv
    rw [← hv, trueInv_apply, permRoot_geom hθ h hf]
    congr 1
    funext i
    show root s i = root s (f (f i))
    rw [hθ.invol]
  have t2 : ∀ (v : W) (t : B), geom cs h v (root t) = trueInv cs h f v (root (f t)) := fun v t => by
    rw [trueInv_apply, permRoot_root hθ, hθ.invol]
  refine (double h (J := fun s => Γ s ∧ pairing C s (xs cs h f Φ (-1) w) = 0 ∧ pairing C s (xs cs h f Φ 1 w) = 0) _ rfl hJ (par_theta hθ hJ) (w := w) (w' := w')
    (by rw [e']; group) ?_ ?_ ?_ ?_).symm
  · intro s hs i
    rw [t1 s hw]; exact h1.pos s hs.1 hs.2.1 hs.2.2 (f i)
  · intro t hs i
    rw [t2]; exact h1.pos (f t) hs.1 hs.2.1 hs.2.2 i
  · intro s hs i
    rw [t1 s hw']; exact h2.pos s hs.1 (by rw [e1]; exact hs.2.1) (by rw [e2]; exact hs.2.2) (f i)
  · intro t hs i
    rw [t2]; exact h2.pos (f t) hs.1 (by rw [e1]; exact hs.2.1) (by rw [e2]; exact hs.2.2) i

include hθ hf hΦ in
/-- conjugation by a simple reflection that is neither imaginary nor real -/
theorem xs_step {w : W} {s : B} (h1 : trueInv cs h f w (root s) ≠ root s) (h2 : trueInv cs h f w (root s) ≠ -root s) {c : ℤ} (hc : c = 1 ∨ c = -1) :
    xs cs h f Φ c (cs.simple s * w * θ (cs.simple s)) = srefl C s (xs cs h f Φ c w) := by
  have := eig_move h hθ hf hΦ (w := w) (g := cs.simple s) (c := c) fun x hx => by
    obtain ⟨h3, h4⟩ := (mem_eig h).1 hx
    obtain ⟨⟨x', t, hr⟩, hp⟩ := (hΦ x).1 h3
    rw [geom_simple]
    refine hr.simple_pos hp ?_
    rintro rfl
    rcases hc with rfl | rfl
    · exact h1 (by rw [h4, one_smul])
    · exact h2 (by rw [h4, neg_smul, one_smul])
  rw [geom_simple, hθ.simple, cs.inv_simple, ← hθ.simple] at this
  exact this.symm

end Verif.Canon
