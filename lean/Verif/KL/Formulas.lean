import Verif.KL.Recursion

/-! The recursion formulas as identities between polynomials with natural coefficients. -/

set_option linter.unusedSectionVars false

namespace Verif.KL

open Polynomial

variable {B : Type} [Fintype B] [DecidableEq B] {b : Blk B} {D : Mod B → Mod B}
  {P : B → B → ℕ[X]}

/-- what the formulas use of a block with its polynomials -/
structure Data (b : Blk B) (D : Mod B → Mod B) (P : B → B → ℕ[X]) : Prop where
  wf : b.WF
  dual : IsDuality b D
  klv : IsKLV b D P

section Easy
variable (h : Data b D P) {s : ℕ} (hs : s < b.rank) {x y : B}
  (hy : (b.st s y).isDescent = true)
include h hs hy

theorem Data.easy_complex (hx : b.st s x = .complexAscent) : P x y = P (b.cross s x) y :=
  toL_inj ((h.klv.plus h.wf h.dual hs hy).complexAscent x hx)

theorem Data.easy_rn (hx : b.st s x = .realNonparity) : P x y = 0 :=
  toL_inj (((h.klv.plus h.wf h.dual hs hy).realNonparity x hx).trans (map_zero toL).symm)

theorem Data.easy_i1 (hx : b.st s x = .imaginaryTypeI) : P x y = P (b.cay s x).1 y :=
  toL_inj ((h.klv.plus h.wf h.dual hs hy).imaginaryTypeI x hx (h.wf s hs x))

theorem Data.easy_i2 (hx : b.st s x = .imaginaryTypeII) :
    P x y = P (b.cay s x).1 y + P (b.cay s x).2 y :=
  toL_inj (((h.klv.plus h.wf h.dual hs hy).imaginaryTypeII x hx).trans (map_add toL _ _).symm)

end Easy

/-- the sum `Σ mu(z,y) q^{(l(y)-l(z)+1)/2} P_{x,z}` over the `z` with `s` in the tau invariant -/
noncomputable def muSum (b : Blk B) (P : B → B → ℕ[X]) (s : ℕ) (y x : B) : ℕ[X] :=
  ∑ z, if (b.st s z).isDescent then
    Polynomial.C (mu b P z y) * X ^ ((b.len y + 1 - b.len z) / 2) * P x z else 0

/-- the sum of the `P_{x,z}` with `z` above `y` -/
noncomputable def upSum (b : Blk B) (P : B → B → ℕ[X]) (s : ℕ) (y x : B) : ℕ[X] :=
  ∑ z ∈ up b s y, P x z

theorem Data.total (h : Data b D P) {s : ℕ} (hs : s < b.rank) {y : B}
    (hy : (b.st s y).isDescent = false) (x : B) :
    (b.T s (cvec P y) + cvec P y) x = toL (upSum b P s y x + muSum b P s y x) := by
  rw [h.klv.recursion h.wf h.dual hs hy, comb_apply, upSum, muSum, map_add, map_sum, map_sum]
  have e : ∀ z, toL (recCoef b P s y z) * cvec P z x =
      (if z ∈ up b s y then toL (P x z) else 0) + toL (if (b.st s z).isDescent then
        Polynomial.C (mu b P z y) * X ^ ((b.len y + 1 - b.len z) / 2) * P x z else 0) := by
    intro z
    unfold recCoef
    by_cases hz : (b.st s z).isDescent = true
    · rw [if_pos hz, if_pos hz]
      by_cases hu : z ∈ up b s y
      · rw [if_pos hu, if_pos hu, mu_zero (by have := up_len h.wf hs hu; omega)]
        simp [cvec]
      · rw [if_neg hu, if_neg hu, zero_add, map_mul, map_mul, map_mul, cvec]
    · rw [if_neg hz, if_neg hz, if_neg (fun hu => hz (up_len h.wf hs hu).2.1)]
      simp
  rw [Finset.sum_congr rfl (fun z _ => e z), Finset.sum_add_distrib]
  congr 1
  rw [← Finset.sum_filter]
  congr 1
  ext z; simp

section Rec
variable (h : Data b D P) {s : ℕ} (hs : s < b.rank) {x y : B}
  (hy : (b.st s y).isDescent = false)
include h hs hy

theorem Data.rec_ic (hx : b.st s x = .imaginaryCompact) :
    X * P x y + P x y = upSum b P s y x + muSum b P s y x := by
  apply toL_inj
  rw [← h.total hs hy x]
  simp only [Pi.add_apply, Blk.T, hx, map_add, map_mul, toL_X, cvec]

theorem Data.rec_cd (hx : b.st s x = .complexDescent) :
    P (b.cross s x) y + X * P x y = upSum b P s y x + muSum b P s y x := by
  apply toL_inj
  rw [← h.total hs hy x]
  simp only [Pi.add_apply, Blk.T, hx, map_add, map_mul, toL_X, cvec]; ring

theorem Data.rec_r1 (hx : b.st s x = .realTypeI) :
    P (b.cay s x).1 y + P (b.cay s x).2 y + X * P x y =
      P x y + (upSum b P s y x + muSum b P s y x) := by
  apply toL_inj
  rw [map_add _ (P x y), ← h.total hs hy x]
  simp only [Pi.add_apply, Blk.T, hx, map_add, map_mul, toL_X, cvec]; ring

theorem Data.rec_r2 (hx : b.st s x = .realTypeII) :
    P (b.cay s x).1 y + X * P x y =
      P (b.cross s x) y + (upSum b P s y x + muSum b P s y x) := by
  apply toL_inj
  rw [map_add _ (P (b.cross s x) y), ← h.total hs hy x]
  simp only [Pi.add_apply, Blk.T, hx, map_add, map_mul, toL_X, cvec]; ring

theorem Data.rec_ca (hx : b.st s x = .complexAscent) :
    P x y + X * P (b.cross s x) y = upSum b P s y x + muSum b P s y x := by
  apply toL_inj
  rw [← h.total hs hy x]
  simp only [Pi.add_apply, Blk.T, hx, map_add, map_mul, toL_X, cvec]; ring

theorem Data.rec_i1 (hx : b.st s x = .imaginaryTypeI) :
    P x y + P (b.cross s x) y + X * P (b.cay s x).1 y =
      P (b.cay s x).1 y + (upSum b P s y x + muSum b P s y x) := by
  apply toL_inj
  rw [map_add _ (P (b.cay s x).1 y), ← h.total hs hy x]
  simp only [Pi.add_apply, Blk.T, hx, map_add, map_mul, toL_X, cvec]; ring

theorem Data.rec_i2 (hx : b.st s x = .imaginaryTypeII) :
    2 * P x y + X * (P (b.cay s x).1 y + P (b.cay s x).2 y) =
      P (b.cay s x).1 y + P (b.cay s x).2 y + (upSum b P s y x + muSum b P s y x) := by
  apply toL_inj
  rw [map_add _ (P (b.cay s x).1 y + P (b.cay s x).2 y), ← h.total hs hy x]
  simp only [Pi.add_apply, Blk.T, hx, map_add, map_mul, toL_X, cvec, map_ofNat]; ring

/-- the degree of the right hand side -/
theorem Data.total_deg (i : ℕ) (hi : (upSum b P s y x + muSum b P s y x).coeff i ≠ 0) :
    2 * i + b.len x < b.len y + 2 := by
  have h1 := h.klv.bd_u h.wf hs x y hy i
  rw [h.total hs hy x, co_toL_nat] at h1
  have := h1 (by exact_mod_cast hi)
  omega

/-- its middle coefficient, at a descent -/
theorem Data.total_mid (hx : (b.st s x).isDescent = true) (hup : x ∉ up b s y) (i : ℕ)
    (hi : 2 * i + b.len x = b.len y + 1) :
    (upSum b P s y x + muSum b P s y x).coeff i = mu b P x y := by
  have h1 := h.klv.mid_u h.wf hs x y hy hx (j := i) (by omega)
  rw [h.total hs hy x, co_toL_nat, if_neg hup] at h1
  exact_mod_cast h1

end Rec

/-- a descent of `y` other than an imaginary compact one -/
inductive Down (b : Blk B) (x y : B) : Prop
  | mk (s : ℕ) (hs : s < b.rank) (hup : y ∈ up b s x)

theorem Data.down_mu (h : Data b D P) {x y : B} (hd : Down b x y) :
    P x y = 1 ∧ mu b P x y = 1 ∧ b.len y = b.len x + 1 := by
  obtain ⟨s, hs, hup⟩ := hd
  obtain ⟨hl, hdy, hdx⟩ := up_len h.wf hs hup
  have hr := h.wf s hs x
  have hP : P x y = 1 := by
    unfold up at hup
    cases hx : b.st s x <;> simp only [hx, Blk.Rel] at hup hr
    · rw [Finset.mem_singleton] at hup
      rw [h.easy_complex hs hdy hx, ← hup, h.klv.one]
    · simp at hup
    · rw [Finset.mem_singleton] at hup
      rw [h.easy_i1 hs hdy hx, ← hup, h.klv.one]
    · rw [Finset.mem_insert, Finset.mem_singleton] at hup
      rw [h.easy_i2 hs hdy hx]
      rcases hup with hup | hup
      · rw [← hup, h.klv.one, h.klv.zero (x := (b.cay s x).2) (by rw [hup]; exact hr.1.symm)
          (by omega), add_zero]
      · rw [← hup, h.klv.one, h.klv.zero (x := (b.cay s x).1) (by rw [hup]; exact hr.1)
          (by omega), zero_add]
    all_goals simp at hup
  refine ⟨hP, ?_, hl⟩
  rw [mu, if_pos (by omega), hP, show (b.len y - b.len x - 1) / 2 = 0 by omega]
  simp

/-- a nonzero mu at an element that is not extremal comes from a descent -/
theorem Data.mu_up (h : Data b D P) {x y : B} {s : ℕ} (hs : s < b.rank)
    (hy : (b.st s y).isDescent = true) (hx : (b.st s x).isDescent = false)
    (hm : mu b P x y ≠ 0) : y ∈ up b s x := by
  by_contra hup
  unfold mu at hm
  by_cases hc : b.len x < b.len y ∧ (b.len y - b.len x) % 2 = 1
  · rw [if_pos hc] at hm
    have hr := h.wf s hs x
    have key : ∀ w : B, w ≠ y → b.len w = b.len x + 1 →
        (P w y).coeff ((b.len y - b.len x - 1) / 2) = 0 := by
      intro w hw hl
      by_contra hne
      have := h.klv.deg w y hw _ hne
      omega
    unfold up at hup
    cases hxx : b.st s x <;> simp only [hxx, Blk.Rel, Status.isDescent, Bool.true_eq_false] at hup hr hx
    · rw [Finset.mem_singleton] at hup
      rw [h.easy_complex hs hy hxx, key _ (Ne.symm hup) (by omega)] at hm
      exact hm rfl
    · rw [h.easy_rn hs hy hxx] at hm; exact hm (by simp)
    · rw [Finset.mem_singleton] at hup
      rw [h.easy_i1 hs hy hxx, key _ (Ne.symm hup) (by omega)] at hm
      exact hm rfl
    · rw [Finset.mem_insert, Finset.mem_singleton] at hup
      rw [h.easy_i2 hs hy hxx, coeff_add, key _ (fun e => hup (Or.inl e.symm)) (by omega),
        key _ (fun e => hup (Or.inr e.symm)) (by omega)] at hm
      exact hm rfl
  · rw [if_neg hc] at hm; exact hm rfl

theorem Data.mu_down (h : Data b D P) {x y : B} {s : ℕ} (hs : s < b.rank)
    (hy : (b.st s y).isDescent = true) (hx : (b.st s x).isDescent = false)
    (hm : mu b P x y ≠ 0) : Down b x y := ⟨s, hs, h.mu_up hs hy hx hm⟩

end Verif.KL
