import Verif.Root.Words
/-
Extension of maps of simple roots to all roots, and roots made negative by a word.
-/
namespace Verif.Root
open Verif.Coxeter CoxeterSystem

section
variable {rk : Nat} {M : CoxeterMatrix (Fin rk)} {W : Type} [Group W] {cs : CoxeterSystem M W} {C : Fin rk → Fin rk → ℤ} {h : IsCartan C M}
variable {nd pc : Bool} {N : Nat} {R R' : Nat → Fin rk → ℤ} {rs : RS}

/-- linear combination of the vectors `v i` with coefficients `x i` -/
def lin (v : Fin rk → Fin rk → ℤ) (x : Fin rk → ℤ) : Fin rk → ℤ := fun j => ∑ i, x i * v i j

theorem lin_sub_smul (v : Fin rk → Fin rk → ℤ) (x y : Fin rk → ℤ) (c : ℤ) : lin v (x - c • y) = lin v x - c • lin v y := by
  funext j
  simp [lin, sub_mul, Finset.sum_sub_distrib, Finset.mul_sum, mul_assoc]

theorem lin_sub (v : Fin rk → Fin rk → ℤ) (x y : Fin rk → ℤ) : lin v (x - y) = lin v x - lin v y := by
  have := lin_sub_smul v x y 1
  simpa using this

theorem lin_neg (v : Fin rk → Fin rk → ℤ) (x : Fin rk → ℤ) : lin v (-x) = -lin v x := by
  funext j
  simp [lin]

theorem lin_root (v : Fin rk → Fin rk → ℤ) (s : Fin rk) : lin v (root s) = v s := by
  funext j
  simp [lin, root_apply]

theorem lin_eq (v : Fin rk → Fin rk → ℤ) (x : Fin rk → ℤ) : lin v x = ∑ i, x i • v i := by
  funext j
  simp [lin]

theorem form_sum_left (f : Fin rk → Fin rk → ℤ) (y : Fin rk → ℤ) (s : Finset (Fin rk)) : form C (∑ i ∈ s, f i) y = ∑ i ∈ s, form C (f i) y := by
  induction s using Finset.induction_on with
  | empty => simp [form]
  | insert i s hi ih => rw [Finset.sum_insert hi, Finset.sum_insert hi, form_add_left, ih]

theorem form_lin_left (v : Fin rk → Fin rk → ℤ) (x y : Fin rk → ℤ) : form C (lin v x) y = ∑ i, x i * form C (v i) y := by
  rw [lin_eq, form_sum_left]
  exact Finset.sum_congr rfl fun i _ => form_smul_left _ _ _

theorem form_lin_right (v : Fin rk → Fin rk → ℤ) (x y : Fin rk → ℤ) : form C x (lin v y) = ∑ i, y i * form C x (v i) := by
  rw [← form_swap, form_lin_left]
  exact Finset.sum_congr rfl fun i _ => by rw [form_swap]

/-- a map preserving the Cartan matrix preserves the pairing -/
theorem form_lin_lin {v v' : Fin rk → Fin rk → ℤ} (hv : ∀ i j, form C (v i) (v' j) = C i j) (x y : Fin rk → ℤ) : form C (lin v x) (lin v' y) = form C x y := by
  rw [form_lin_left]
  unfold form
  refine Finset.sum_congr rfl fun i _ => ?_
  have : ∑ s, ∑ t, v i s * C s t * lin v' y t = form C (v i) (lin v' y) := rfl
  rw [this, form_lin_right, Finset.mul_sum]
  refine Finset.sum_congr rfl fun j _ => ?_
  rw [hv]
  ring

/-! ### extend_to_roots -/

/-- the entry `k` of `r` is right -/
def Good (N : Nat) (R R' : Nat → Fin rk → ℤ) (im : Fin rk → Nat) (r : List Nat) (k : Nat) : Prop :=
  ∃ m < 2 * N, Vec.get r k = .ok m ∧ R m = lin (fun i => R (im i)) (R k) ∧ R' m = lin (fun i => R' (im i)) (R' k)

theorem vget_set_self {r : List Nat} {k x : Nat} (hk : k < r.length) : Vec.get (r.set k x) k = .ok x := by
  rw [Vec.get_ok (by simpa using hk)]
  simp

theorem vget_set_ne {r : List Nat} {k l x : Nat} (hkl : k ≠ l) : Vec.get (r.set k x) l = Vec.get r l := by
  simp [Vec.get, List.getElem?_set_ne hkl]

theorem Good.set_ne {im : Fin rk → Nat} {r : List Nat} {k l x : Nat} (hg : Good N R R' im r k) (hkl : l ≠ k) : Good N R R' im (r.set l x) k := by
  obtain ⟨m, h1, h2, h3⟩ := hg
  exact ⟨m, h1, by rw [vget_set_ne hkl, h2], h3⟩

variable (hN : Spec.Numbering C pc N R R') (hA : Spec.Answers nd C pc N R R' rs) {im : Fin rk → Nat} (him : ∀ i, im i < 2 * N)
include hN hA him

theorem extSimple_ok : ∀ (d p : Nat), p + d = rk → ∀ (r : List Nat), r.length = 2 * N → (∀ k, N ≤ k → k < N + p → Good N R R' im r k) →
    ∃ r', rs.extSimple nd (List.ofFn im) (List.range' p d) r = .ok r' ∧ r'.length = 2 * N ∧ ∀ k, N ≤ k → k < N + rk → Good N R R' im r' k := by
  intro d
  induction d with
  | zero =>
    intro p hp r hr hg
    exact ⟨r, rfl, hr, fun k h1 h2 => hg k h1 (by omega)⟩
  | succ d ih =>
    intro p hp r hr hg
    have hpr : p < rk := by omega
    have hle := hN.simple.1
    have hs := hA.simpleNbr ⟨p, hpr⟩
    dsimp only at hs
    rw [List.range'_succ, RS.extSimple, hs, Res.ok_bind, Vec.get_ok (by simpa using hpr), Res.ok_bind, Vec.put_ok (by omega), Res.ok_bind]
    refine ih (p + 1) (by omega) _ (by simpa using hr) fun k h1 h2 => ?_
    by_cases hk : k = N + p
    · subst hk
      refine ⟨im ⟨p, hpr⟩, him _, by rw [vget_set_self (by omega)]; simp, ?_⟩
      have := hN.simple.2 ⟨p, hpr⟩
      rw [unit_eq] at this
      dsimp only at this
      rw [this.1, this.2, lin_root, lin_root]
      exact ⟨rfl, rfl⟩
    · exact (hg k h1 (by omega)).set_ne (Ne.symm hk)

variable (hv : ∀ i j, Spec.pair C (R (im i)) (R' (im j)) = C i j) (hrk : rk ≤ 32)
include hv hrk

theorem extPos_ok [Finite W] (cs : CoxeterSystem M W) (h : IsCartan C M) : ∀ (d p : Nat), p + d = 2 * N → N + rk ≤ p → ∀ (r : List Nat), r.length = 2 * N →
    (∀ k, N ≤ k → k < p → Good N R R' im r k) →
    ∃ r', rs.extPos nd (List.ofFn im) (List.range' p d) r = .ok r' ∧ r'.length = 2 * N ∧ ∀ k, N ≤ k → k < 2 * N → Good N R R' im r' k := by
  intro d
  induction d with
  | zero =>
    intro p hp _ r hr hg
    exact ⟨r, rfl, hr, fun k h1 h2 => hg k h1 (by omega)⟩
  | succ d ih =>
    intro p hp hpr r hr hg
    obtain ⟨i, bs, h1, h2, h3⟩ := first_descent hN hA cs h hrk (a := p) (by omega) (by omega)
    have hi := i.2
    obtain ⟨b, b1, b2, b3, b4, -⟩ := lower_step cs h hN hA hrk (a := p) (by omega) (by omega) h3 (by omega)
    obtain ⟨m, m1, m2, m3, m4⟩ := hg b b2 b3
    obtain ⟨x, x1, x2, x3, x4⟩ := hA.reflected (im i) (him i) m m1
    rw [List.range'_succ, RS.extPos, hA.numPos, h1, Res.ok_bind]
    dsimp only
    rw [h2, Res.assertIn_bind nd (decide_eq_true (by rw [hA.rank]; exact hi)), b1, Res.ok_bind,
      Res.assertIn_bind nd (by rw [Bool.and_eq_true, decide_eq_true_iff]; exact ⟨(acc_isPos hA b).mpr b2, b3⟩),
      Vec.get_ok (by simp), Res.ok_bind, m2, Res.ok_bind, show (List.ofFn im)[i.1]'(by simp) = im i by simp, x2, Res.ok_bind, Vec.put_ok (by omega), Res.ok_bind]
    refine ih (p + 1) (by omega) (by omega) _ (by simpa using hr) fun k h1 h2 => ?_
    by_cases hk : k = p
    · subst hk
      refine ⟨x, x1, vget_set_self (by omega), ?_⟩
      obtain ⟨bb, c1, c2, c3, c4⟩ := acc_simple hA i (l := b) (by omega)
      have e1 : R k = Spec.reflect C i (R b) := by rw [reflect_eq cs h]; exact b4
      have hkb : bb = k := hN.inj _ c1 _ (by omega) (by rw [c3, e1])
      subst hkb
      have hvi : ∀ i j, form C (R (im i)) (R' (im j)) = C i j := hv
      constructor
      · have e2 : R x = R m - form C (R m) (R' (im i)) • R (im i) := funext x3
        have e3 : Spec.reflect C i (R b) = R b - form C (R b) (root i) • root i := by
          unfold Spec.reflect
          rw [unit_eq]
          rfl
        have e4 : form C (R m) (R' (im i)) = form C (R b) (root i) := by
          rw [m3, ← lin_root (fun i => R' (im i)) i, form_lin_lin hvi]
        rw [e2, e4, c3, e3, lin_sub_smul, lin_root, m3]
      · have e2 : R' x = R' m - form C (R (im i)) (R' m) • R' (im i) := funext x4
        have e3 : Spec.reflect (fun i j => C j i) i (R' b) = R' b - form C (root i) (R' b) • root i := by
          unfold Spec.reflect
          rw [unit_eq, pair_eq, form_swap]
          rfl
        have e4 : form C (R (im i)) (R' m) = form C (root i) (R' b) := by
          rw [m4, ← lin_root (fun i => R (im i)) i, form_lin_lin hvi]
        rw [e2, e4, c4, e3, lin_sub_smul, lin_root, m4]
    · exact (hg k h1 (by omega)).set_ne (Ne.symm hk)

omit hv hrk him in
theorem extNeg_ok : ∀ (d p : Nat), p + d = N → ∀ (r : List Nat), r.length = 2 * N → (∀ k, k < p ∨ N ≤ k ∧ k < 2 * N → Good N R R' im r k) →
    ∃ r', rs.extNeg (List.range' p d) r = .ok r' ∧ r'.length = 2 * N ∧ ∀ k, k < 2 * N → Good N R R' im r' k := by
  intro d
  induction d with
  | zero =>
    intro p hp r hr hg
    exact ⟨r, rfl, hr, fun k h1 => hg k (by omega)⟩
  | succ d ih =>
    intro p hp r hr hg
    obtain ⟨m, m1, m2, m3, m4⟩ := hg (2 * N - 1 - p) (by omega)
    have hmin : ∀ a, rs.minus a = 2 * N - 1 - a := fun a => by rw [RS.minus, hA.numRoots]
    rw [List.range'_succ, RS.extNeg, hmin, m2, Res.ok_bind, hmin, Vec.put_ok (by omega), Res.ok_bind]
    refine ih (p + 1) (by omega) _ (by simpa using hr) fun k hk => ?_
    by_cases hkp : k = p
    · subst hkp
      have e1 := hN.minus (k := k) (by omega)
      have e2 := hN.minus m1
      exact ⟨2 * N - 1 - m, by omega, vget_set_self (by omega), by rw [e2.1, m3, e1.1, lin_neg, neg_neg], by rw [e2.2, m4, e1.2, lin_neg, neg_neg]⟩
    · exact (hg k (by omega)).set_ne (Ne.symm hkp)

/-- `extend_to_roots` -/
theorem extend_ok [Finite W] (cs : CoxeterSystem M W) (h : IsCartan C M) : ∃ p : List Nat, rs.extend nd (List.ofFn im) = .ok p ∧ p.length = 2 * N ∧ p.Nodup ∧
    ∀ k < 2 * N, ∃ m < 2 * N, p[k]? = some m ∧ (∀ j, R m j = ∑ i, R k i * R (im i) j) ∧ ∀ j, R' m j = ∑ i, R' k i * R' (im i) j := by
  have hle := hN.simple.1
  obtain ⟨r1, a1, a2, a3⟩ := extSimple_ok hN hA him rk 0 (by omega) (List.replicate (2 * N) 0) (by simp) fun k h1 h2 => by omega
  obtain ⟨r2, b1, b2, b3⟩ := extPos_ok hN hA him hv hrk cs h (2 * N - (N + rk)) (N + rk) (by omega) le_rfl r1 a2 a3
  obtain ⟨r3, c1, c2, c3⟩ := extNeg_ok hN hA N 0 (by omega) r2 b2 fun k hk => b3 k (by omega) (by omega)
  have hget : ∀ k < 2 * N, ∃ m < 2 * N, r3[k]? = some m ∧ R m = lin (fun i => R (im i)) (R k) ∧ R' m = lin (fun i => R' (im i)) (R' k) := by
    intro k hk
    obtain ⟨m, m1, m2, m3⟩ := c3 k hk
    refine ⟨m, m1, ?_, m3⟩
    rw [Vec.get_ok (by omega)] at m2
    rw [List.getElem?_eq_getElem (by omega)]
    injection m2 with m2
    rw [m2]
  refine ⟨r3, ?_, c2, ?_, fun k hk => ?_⟩
  · rw [RS.extend, Res.assertIn_bind nd (decide_eq_true (by rw [hA.rank, List.length_ofFn])), hA.rank, hA.numRoots, hA.numPos, List.range_eq_range', a1, Res.ok_bind, b1, Res.ok_bind,
      List.range_eq_range', c1]
  · rw [List.nodup_iff_injective_get]
    intro ⟨k, hk⟩ ⟨l, hl⟩ e
    rw [c2] at hk hl
    obtain ⟨m, m1, m2, m3, m4⟩ := hget k hk
    obtain ⟨m', m1', m2', m3', m4'⟩ := hget l hl
    have e' : r3[k]? = r3[l]? := by
      rw [List.getElem?_eq_getElem (by omega), List.getElem?_eq_getElem (by omega)]
      exact congrArg some e
    rw [m2, m2'] at e'
    injection e' with e'
    subst e'
    obtain ⟨t, ht⟩ := hN.isRoot cs h hk
    obtain ⟨u, hu⟩ := hN.isRoot cs h hl
    have f1 : form C (R k) (R' l) = 2 := by rw [← form_lin_lin (C := C) hv, ← m3, ← m4', m3', m4', form_lin_lin hv, hu.form_self]
    have f2 : form C (R l) (R' k) = 2 := by rw [← form_lin_lin (C := C) hv, ← m3', ← m4, m3, m4, form_lin_lin hv, ht.form_self]
    have hp := (hu.pair ht).2.2
    have : R k = R l := by
      by_contra hne
      have h2 : R k ≠ -R l := by
        intro e
        rw [e, form_neg_left, hu.form_self] at f1
        omega
      have := hp hne h2
      rw [f1, f2] at this
      omega
    exact Fin.ext (hN.inj k hk l hl this)
  · obtain ⟨m, m1, m2, m3, m4⟩ := hget k hk
    exact ⟨m, m1, m2, congrFun m3, congrFun m4⟩

end

section
variable {rk : Nat} {M : CoxeterMatrix (Fin rk)} {W : Type} [Group W] {C : Fin rk → Fin rk → ℤ}
variable {nd pc : Bool} {N : Nat} {R R' : Nat → Fin rk → ℤ} {rs : RS}

theorem twistLoop_ok (hA : Spec.Answers nd C pc N R R' rs) : ∀ (l : List (Fin rk)), rs.twistLoop nd (l.map Fin.val) = .ok (l.map fun i => N + i.1)
  | [] => rfl
  | i :: l => by rw [List.map_cons, RS.twistLoop, hA.simpleNbr i, Res.ok_bind, twistLoop_ok hA l, Res.ok_bind, List.map_cons]

/-- `root_permutation(twist)` -/
theorem twist_ok [Finite W] (cs : CoxeterSystem M W) (h : IsCartan C M) (hN : Spec.Numbering C pc N R R') (hA : Spec.Answers nd C pc N R R' rs) (hrk : rk ≤ 32)
    {f : Fin rk → Fin rk} (hf : Function.Injective f) (hv : ∀ i j, C (f i) (f j) = C i j) :
    ∃ p : List Nat, rs.twistPerm nd (List.ofFn fun i => (f i).1) = .ok p ∧ p.length = 2 * N ∧ p.Nodup ∧
      ∀ k < 2 * N, ∃ m < 2 * N, p[k]? = some m ∧ ∀ i, R m (f i) = R k i ∧ R' m (f i) = R' k i := by
  have hle := hN.simple.1
  have hu := hN.simple.2
  obtain ⟨p, p1, p2, p3, p4⟩ := extend_ok (im := fun i => N + (f i).1) hN hA (fun i => by have := (f i).2; omega)
    (fun i j => by rw [(hu (f i)).1, (hu (f j)).2, unit_eq, unit_eq, pair_eq, form_root_root, hv]) hrk cs h
  refine ⟨p, ?_, p2, p3, fun k hk => ?_⟩
  · rw [RS.twistPerm, Res.assertIn_bind nd (decide_eq_true (by rw [List.length_ofFn, hA.rank]))]
    have : (List.ofFn fun i => (f i).1) = (List.ofFn f).map Fin.val := by rw [List.map_ofFn]; rfl
    rw [this, twistLoop_ok hA, Res.ok_bind, List.map_ofFn]
    exact p1
  · obtain ⟨m, m1, m2, m3, m4⟩ := p4 k hk
    refine ⟨m, m1, m2, fun i => ⟨?_, ?_⟩⟩
    · rw [m3, Finset.sum_eq_single i]
      · rw [(hu (f i)).1]
        simp [Spec.unit]
      · intro j _ hj
        rw [(hu (f j)).1, Spec.unit, if_neg (fun e => hj (hf e).symm), mul_zero]
      · simp
    · rw [m4, Finset.sum_eq_single i]
      · rw [(hu (f i)).2]
        simp [Spec.unit]
      · intro j _ hj
        rw [(hu (f j)).2, Spec.unit, if_neg (fun e => hj (hf e).symm), mul_zero]
      · simp

end
end Verif.Root
