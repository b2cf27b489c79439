import Verif.RatVec.Lemmas
import Mathlib.Algebra.BigOperators.Field
/-
C39: rational vectors compute in `ℚ^n`.

In every theorem `Rep v q` says that the object `v` stands for the vector `q` (see Spec.lean).
Conditions like `|q i * v.den * c| < 2^63` say that a numerator of the result can be stored.
-/
namespace Verif.RatVec

open Verif.Arith (sgn toS toU fits sgn_ok RepR Rational)
open Matrix

variable {n m : Nat}

/-! ### construction and normal form -/

/-- C39: the zero vector. -/
theorem C39_zero (n : Nat) : Rep (zero n) (0 : Fin n → ℚ) ∧ Reduced (zero n) := by
  have e : zero n = ⟨List.ofFn (fun _ : Fin n => (0 : Int)), 1⟩ := by simp [zero, List.ofFn_const]
  refine ⟨?_, fun k hk _ => Nat.dvd_one.1 hk⟩
  rw [e]; exact rep_mk (by norm_num) (by norm_num) (by simp) (by simp)

/-- C39: the vector with numerators `a` and denominator `d`, of either sign. -/
theorem C39_make {a : Fin n → Int} {d : Int} (ha : ∀ i, |a i| < 2 ^ 63) (h0 : d ≠ 0) (hd : |d| < 2 ^ 63) :
    ∃ s, make (List.ofFn a) d = .ok s ∧ Rep s (fun i => (a i : ℚ) / d) := by
  unfold make
  have hd' : d.natAbs < 2 ^ 63 := by rw [← Int.natCast_natAbs] at hd; exact_mod_cast hd
  rw [sgn_abs (by rwa [Int.natCast_natAbs, abs_abs]), Res.ok_bind, Arith.toUAbs hd]
  have hdq : (d : ℚ) ≠ 0 := by exact_mod_cast h0
  by_cases h : d < 0
  · rw [if_pos h, negVec_ofFn ha, Res.ok_bind]
    refine ⟨_, rfl, rep_mk (by omega) hd' (fun i => by rw [abs_neg]; exact ha i) fun i => ?_⟩
    have : ((d.natAbs : Nat) : ℚ) = -d := by
      rw [← Int.cast_natCast, Int.natCast_natAbs, abs_of_neg h]; push_cast; rfl
    rw [this]; push_cast; field_simp
  · rw [if_neg h]
    refine ⟨_, rfl, rep_mk (by omega) hd' ha fun i => ?_⟩
    have : ((d.natAbs : Nat) : ℚ) = d := by
      rw [← Int.cast_natCast, Int.natCast_natAbs, abs_of_nonneg (by omega)]
    rw [this]; field_simp

/-- C39: the product of an integral vector and a rational number. -/
theorem C39_makeQ {a : Fin n → Int} {r : Rational} {x : ℚ} (hr : RepR r x) (ha : ∀ i, |a i * x.num| < 2 ^ 63) :
    ∃ s, makeQ (List.ofFn a) r = .ok s ∧ Rep s (fun i => a i * x) := by
  obtain ⟨h1, h2, h3, h4⟩ := hr
  unfold makeQ
  rw [h1, scaleVec_ofFn ha, Res.ok_bind, h2]
  refine ⟨_, rfl, rep_mk x.den_pos h4 ha fun i => ?_⟩
  push_cast
  rw [mul_assoc, Rat.mul_den_eq_num]

/-- C39: `normalize` does not change the vector, and makes it reduced. -/
theorem C39_normalize {v : RatVec} {q : Fin n → ℚ} (h : Rep v q) :
    ∃ s, normalize v = .ok s ∧ Rep s q ∧ Reduced s := normalize_spec h

/-- C39: a denominator 0 is reported by `normalize`. -/
theorem C39_normalize_throws {v : RatVec} (h : v.den = 0) : normalize v = .throw := by
  unfold normalize; rw [if_pos h]

/-- C39: the normal form is canonical: there is only one reduced object for each vector, so that
two objects stand for the same vector just if they have the same normal form. -/
theorem C39_canonical {v w : RatVec} {q p : Fin n → ℚ} (hv : Rep v q) (hw : Rep w p) :
    (normalize v = normalize w ↔ q = p) ∧ (Reduced v → Reduced w → q = p → v = w) := by
  obtain ⟨s, e1, r1, d1⟩ := normalize_spec hv
  obtain ⟨t, e2, r2, d2⟩ := normalize_spec hw
  refine ⟨⟨fun h => ?_, ?_⟩, ?_⟩
  · rw [e1, e2] at h
    obtain rfl := Res.ok.inj h
    obtain ⟨a, d, rfl, h0, h1, ha, hq⟩ := rep_cases r1
    obtain ⟨b, d', e, h0', h1', hb, hp⟩ := rep_cases r2
    injection e with e3 e4
    subst e4
    have := List.ofFn_injective e3
    subst this
    funext i
    have hd : (d : ℚ) ≠ 0 := by exact_mod_cast h0.ne'
    exact mul_right_cancel₀ hd ((hq i).symm.trans (hp i))
  · rintro rfl
    rw [e1, e2, reduced_unique r1 r2 d1 d2]
  · rintro rv rw' rfl
    exact reduced_unique hv hw rv rw'

/-- C39: `is_zero`. -/
theorem C39_isZero {v : RatVec} {q : Fin n → ℚ} (h : Rep v q) : isZero v = true ↔ q = 0 := by
  obtain ⟨a, d, rfl, h0, h1, ha, hq⟩ := rep_cases h
  have hd : (d : ℚ) ≠ 0 := by exact_mod_cast h0.ne'
  simp only [isZero, List.all_eq_true, beq_iff_eq]
  constructor
  · intro hz
    funext i
    have := hz (a i) ((List.mem_ofFn' a _).2 ⟨i, rfl⟩)
    have h2 := hq i
    rw [this, Int.cast_zero] at h2
    exact (mul_eq_zero.1 h2.symm).resolve_right hd
  · rintro rfl x hx
    obtain ⟨i, rfl⟩ := (List.mem_ofFn' a x).1 hx
    have h2 := hq i
    rw [Pi.zero_apply, zero_mul] at h2
    exact_mod_cast h2

/-! ### comparison -/

/-- C39: `==` is equality of vectors, whether or not they are reduced; vectors of different sizes
are different. -/
theorem C39_eq {v w : RatVec} {q : Fin n → ℚ} (hv : Rep v q) :
    (∀ {p : Fin n → ℚ}, Rep w p → (eq v w = true ↔ q = p)) ∧
    (∀ {m : Nat} {p : Fin m → ℚ}, Rep w p → n ≠ m → eq v w = false) := by
  obtain ⟨a, d, rfl, h0, h1, ha, hq⟩ := rep_cases hv
  constructor
  · intro p hw
    obtain ⟨b, e, rfl, h0', h1', hb, hp⟩ := rep_cases hw
    unfold eq
    rw [if_neg (by simp), eqLoop_spec h1' h1 ha hb, funext_iff]
    exact forall_congr' fun i => (cross_eq h0 h0' (hq i) (hp i)).1
  · intro m p hw hm
    obtain ⟨b, e, rfl, h0', h1', hb, hp⟩ := rep_cases hw
    unfold eq
    rw [if_pos (by simpa using hm)]

/-- C39: `<` compares sizes first, and then is the lexicographic order of vectors. -/
theorem C39_lt {v w : RatVec} {q : Fin n → ℚ} (hv : Rep v q) :
    (∀ {p : Fin n → ℚ}, Rep w p → (lt v w = true ↔ ∃ i, (∀ j < i, q j = p j) ∧ q i < p i)) ∧
    (∀ {m : Nat} {p : Fin m → ℚ}, Rep w p → n ≠ m → lt v w = decide (n < m)) := by
  obtain ⟨a, d, rfl, h0, h1, ha, hq⟩ := rep_cases hv
  constructor
  · intro p hw
    obtain ⟨b, e, rfl, h0', h1', hb, hp⟩ := rep_cases hw
    unfold lt
    rw [if_neg (by simp), ltLoop_spec h1' h1 ha hb]
    refine exists_congr fun i => and_congr (forall₂_congr fun j _ => ?_) ?_
    · exact (cross_eq h0 h0' (hq j) (hp j)).1
    · exact (cross_eq h0 h0' (hq i) (hp i)).2
  · intro m p hw hm
    obtain ⟨b, e, rfl, h0', h1', hb, hp⟩ := rep_cases hw
    unfold lt
    rw [if_pos (by simpa using hm)]
    simp

/-! ### sums, differences, negatives -/

/-- C39: `+`, reduced; only the numerators of the sum over the common denominator need to fit. -/
theorem C39_add (nd : Bool) {v w : RatVec} {q p : Fin n → ℚ} (hv : Rep v q) (hw : Rep w p)
    (hl : Nat.lcm v.den w.den < 2 ^ 63) (hb : ∀ i, |(q i + p i) * Nat.lcm v.den w.den| < 2 ^ 63) :
    ∃ s, add nd v w = .ok s ∧ Rep s (q + p) ∧ Reduced s := by
  refine combine_spec nd (h := (· + ·)) (g := (· + ·)) ?_ (by intros; push_cast; rfl) (by intros; ring) hv hw hl hb
  intro x y hx hy x' y' h1 h2
  push_cast
  exact (Int.mod_modEq _ _).trans (h1.add h2)

/-- C39: `-`, reduced. -/
theorem C39_sub (nd : Bool) {v w : RatVec} {q p : Fin n → ℚ} (hv : Rep v q) (hw : Rep w p)
    (hl : Nat.lcm v.den w.den < 2 ^ 63) (hb : ∀ i, |(q i - p i) * Nat.lcm v.den w.den| < 2 ^ 63) :
    ∃ s, sub nd v w = .ok s ∧ Rep s (q - p) ∧ Reduced s := by
  refine combine_spec nd (h := (· - ·)) (g := (· - ·)) ?_ (by intros; push_cast; rfl) (by intros; ring) hv hw hl hb
  intro x y hx hy x' y' h1 h2
  rw [Int.natCast_mod, Nat.cast_add, Nat.cast_sub hy.le]
  refine (Int.mod_modEq _ _).trans ?_
  have := (h1.sub h2).add (show ((18446744073709551616 : Nat) : Int) ≡ 0 [ZMOD 18446744073709551616] by decide)
  rw [add_zero] at this
  convert this using 1; ring

/-- C39: `negate_add`, used for `a - std::move(b)`. -/
theorem C39_negateAdd (nd : Bool) {v w : RatVec} {q p : Fin n → ℚ} (hv : Rep v q) (hw : Rep w p)
    (hl : Nat.lcm v.den w.den < 2 ^ 63) (hb : ∀ i, |(p i - q i) * Nat.lcm v.den w.den| < 2 ^ 63) :
    ∃ s, negateAdd nd v w = .ok s ∧ Rep s (p - q) ∧ Reduced s := by
  refine combine_spec nd (h := fun x y => y - x) (g := fun x y => y - x) ?_ (by intros; push_cast; rfl)
    (by intros; ring) hv hw hl hb
  intro x y hx hy x' y' h1 h2
  rw [Int.natCast_mod, Nat.cast_add, Nat.cast_sub hx.le]
  refine (Int.mod_modEq _ _).trans ?_
  have := (h2.sub h1).add (show ((18446744073709551616 : Nat) : Int) ≡ 0 [ZMOD 18446744073709551616] by decide)
  rw [add_zero] at this
  convert this using 1; ring

/-- C39: unary `-`. -/
theorem C39_neg {v : RatVec} {q : Fin n → ℚ} (hv : Rep v q) : ∃ s, neg v = .ok s ∧ Rep s (-q) ∧ s.den = v.den := by
  obtain ⟨a, d, rfl, h0, h1, ha, hq⟩ := rep_cases hv
  unfold neg
  rw [negVec_ofFn ha, Res.ok_bind]
  refine ⟨_, rfl, rep_mk h0 h1 (fun i => by rw [abs_neg]; exact ha i) fun i => ?_, rfl⟩
  push_cast; rw [hq i, Pi.neg_apply]; ring

/-! ### integral factors -/

theorem abs_cast_lt {z : Int} {x : ℚ} (e : (z : ℚ) = x) (h : |x| < 2 ^ 63) : |z| < 2 ^ 63 := by
  rw [← e] at h; exact_mod_cast h

/-- C39: the product by an integer, whenever either the factor can be cancelled against the
denominator or the new numerators fit. -/
theorem C39_mulInt {v : RatVec} {q : Fin n → ℚ} {c : Int} (hv : Rep v q) (hc : |c| < 2 ^ 63)
    (h : (c ≠ 0 ∧ c ∣ v.den) ∨ ∀ i, |q i * v.den * c| < 2 ^ 63) :
    ∃ s, mulInt v c = .ok s ∧ Rep s (fun i => q i * c) := by
  obtain ⟨a, d, rfl, h0, h1, ha, hq⟩ := rep_cases hv
  simp only at h
  have hsc : (∀ i, |q i * d * c| < 2 ^ 63) →
      ∃ s, (do pure ⟨← scaleVec (List.ofFn a) c, d⟩ : Res RatVec) = .ok s ∧ Rep s (fun i => q i * c) := by
    intro hb
    rw [scaleVec_ofFn (fun i => abs_cast_lt (by push_cast; rw [hq i]) (hb i)), Res.ok_bind]
    refine ⟨_, rfl, rep_mk h0 h1 (fun i => abs_cast_lt (by push_cast; rw [hq i]) (hb i)) fun i => ?_⟩
    push_cast; rw [hq i]; ring
  unfold mulInt
  simp only
  rw [toS_nat h1]
  by_cases c0 : c = 0
  · rw [if_neg (by simpa using c0)]
    exact hsc (h.resolve_left fun h => h.1 c0)
  · rw [if_pos c0, if_neg (by rintro ⟨h, -⟩; omega)]
    by_cases hdv : c ∣ d
    · rw [if_pos (Int.tmod_eq_zero_of_dvd hdv)]
      by_cases hp : 0 < c
      · rw [if_pos hp, toU_pos hp.le (abs_lt.1 hc).2]
        obtain ⟨k, rfl⟩ := Int.eq_ofNat_of_zero_le hp.le
        obtain ⟨e, rfl⟩ := Int.natCast_dvd_natCast.1 hdv
        have hk : 0 < k := Nat.pos_of_mul_pos_right h0
        have he : 0 < e := Nat.pos_of_mul_pos_left h0
        rw [Int.toNat_natCast, Nat.mul_div_cancel_left _ hk]
        refine ⟨_, rfl, rep_mk he (lt_of_le_of_lt (Nat.le_mul_of_pos_left e hk) h1) ha fun i => ?_⟩
        rw [hq i]; push_cast; ring
      · rw [if_neg hp, negVec_ofFn ha, Res.ok_bind, sgn_abs (by rwa [abs_neg]), Res.ok_bind,
          toU_pos (by omega) (by have := abs_lt.1 hc; omega)]
        obtain ⟨k, hk'⟩ := Int.eq_ofNat_of_zero_le (show 0 ≤ -c by omega)
        obtain rfl : c = -k := by omega
        obtain ⟨e, rfl⟩ := Int.natCast_dvd_natCast.1 ((neg_dvd).1 hdv)
        have hk : 0 < k := Nat.pos_of_mul_pos_right h0
        have he : 0 < e := Nat.pos_of_mul_pos_left h0
        rw [neg_neg, Int.toNat_natCast, Nat.mul_div_cancel_left _ hk]
        refine ⟨_, rfl, rep_mk he (lt_of_le_of_lt (Nat.le_mul_of_pos_left e hk) h1)
          (fun i => by rw [abs_neg]; exact ha i) fun i => ?_⟩
        push_cast; rw [hq i]; push_cast; ring
    · rw [if_neg (fun h => hdv (Int.dvd_of_tmod_eq_zero h))]
      exact hsc (h.resolve_left fun h => hdv h.2)

/-- C39: the quotient by a nonzero integer, whenever the new denominator fits. -/
theorem C39_divInt (nd : Bool) {v : RatVec} {q : Fin n → ℚ} {c : Int} (hv : Rep v q) (h0' : c ≠ 0)
    (h : (v.den : Int) * |c| < 2 ^ 63) :
    ∃ s, divInt nd v c = .ok s ∧ Rep s (fun i => q i / c) ∧ s.den = v.den * c.natAbs := by
  obtain ⟨a, d, rfl, h0, h1, ha, hq⟩ := rep_cases hv
  simp only at h ⊢
  have hn : d * c.natAbs < 2 ^ 63 := by rw [← Int.natCast_natAbs] at h; exact_mod_cast h
  have hcn : 0 < c.natAbs := Int.natAbs_pos.2 h0'
  have hcs : c.natAbs < 2 ^ 63 := lt_of_le_of_lt (Nat.le_mul_of_pos_left _ h0) hn
  have hcq : (c : ℚ) ≠ 0 := by exact_mod_cast h0'
  unfold divInt
  rw [Res.assertIn_bind nd (decide_eq_true h0')]
  simp only
  by_cases hp : 0 < c
  · obtain ⟨k, rfl⟩ := Int.eq_ofNat_of_zero_le hp.le
    rw [Int.natAbs_natCast] at hn hcn hcs ⊢
    rw [if_pos hp, toU_pos hp.le (by exact_mod_cast hcs), Int.toNat_natCast, Nat.mod_eq_of_lt (by omega)]
    refine ⟨_, rfl, rep_mk (Nat.mul_pos h0 hcn) hn ha fun i => ?_, rfl⟩
    rw [hq i]; push_cast at hcq ⊢; field_simp
  · obtain ⟨k, hk'⟩ := Int.eq_ofNat_of_zero_le (show 0 ≤ -c by omega)
    obtain rfl : c = -k := by omega
    rw [Int.natAbs_neg, Int.natAbs_natCast] at hn hcn hcs ⊢
    have hu : (𝐌 - toU 64 (-(k : Int))) % 𝐌 = k := by
      have := Arith.toU_mod (-(k : Int))
      omega
    rw [if_neg hp, negVec_ofFn ha, Res.ok_bind, hu, Nat.mod_eq_of_lt (by omega)]
    refine ⟨_, rfl, rep_mk (Nat.mul_pos h0 hcn) hn (fun i => by rw [abs_neg]; exact ha i) fun i => ?_, rfl⟩
    push_cast at hcq ⊢; rw [hq i]
    have hk : (k : ℚ) ≠ 0 := by exact_mod_cast hcn.ne'
    field_simp

/-- C39: the remainder by a nonzero integer: each component is changed by a multiple of that
integer into the interval from 0 (included) to its absolute value (not included). -/
theorem C39_modInt (nd : Bool) {v : RatVec} {q : Fin n → ℚ} {c : Int} (hv : Rep v q) (h0' : c ≠ 0)
    (h : (v.den : Int) * |c| < 2 ^ 63) :
    ∃ (s : RatVec) (p : Fin n → ℚ), modInt nd v c = .ok s ∧ Rep s p ∧ s.den = v.den ∧
      ∀ i, 0 ≤ p i ∧ p i < |c| ∧ ∃ z : Int, q i - p i = z * c := by
  obtain ⟨a, d, rfl, h0, h1, ha, hq⟩ := rep_cases hv
  simp only at h ⊢
  have hd : (0 : ℚ) < d := by exact_mod_cast h0
  have hcn : 0 < |c| := abs_pos.2 h0'
  have hdi : (0 : Int) < d := by exact_mod_cast h0
  have hmod : (0 : Int) < d * |c| := mul_pos hdi hcn
  have hcs : |c| < 2 ^ 63 := lt_of_le_of_lt (le_mul_of_one_le_left hcn.le (by omega)) h
  unfold modInt
  rw [Res.assertIn_bind nd (decide_eq_true h0'), sgn_abs (by rwa [Int.natCast_natAbs, abs_abs]), Res.ok_bind]
  simp only
  have hm : toS 64 ((d * toU 64 (c.natAbs : Int) % 𝐌 : Nat) : Int) = d * |c| := by
    rw [Arith.toUAbs hcs]
    apply toS_modEq
    · push_cast; exact Int.mod_modEq _ _
    · rw [abs_of_pos hmod]; exact h
  rw [hm, each_ofFn (b := fun i => a i % (d * |c|))]
  swap
  · intro i
    exact Arith.C13_remainder nd (by norm_num) (fits_of_abs (ha i)) (fits_of_abs (by rw [abs_of_pos hmod]; exact h)) hmod
  rw [Res.ok_bind]
  have r0 := fun i => Int.emod_nonneg (a i) hmod.ne'
  have r1 := fun i => Int.emod_lt_of_pos (a i) hmod
  refine ⟨_, fun i => ((a i % (d * |c|) : Int) : ℚ) / d, rfl, rep_mk h0 h1 (fun i => ?_) (fun i => ?_), rfl, fun i => ⟨?_, ?_, ?_⟩⟩
  · rw [abs_of_nonneg (r0 i)]; exact (r1 i).trans h
  · field_simp
  · exact div_nonneg (by exact_mod_cast r0 i) hd.le
  · rw [div_lt_iff₀ hd]
    have : ((a i % (d * |c|) : Int) : ℚ) < ((d * |c| : Int) : ℚ) := by exact_mod_cast r1 i
    refine this.trans_eq ?_
    push_cast; ring
  · have e := Int.emod_add_mul_ediv (a i) (d * |c|)
    have e' : (a i : ℚ) = ((a i % (d * |c|) : Int) : ℚ) + d * |(c : ℚ)| * ((a i / (d * |c|) : Int) : ℚ) := by
      have : (a i : ℚ) = ((a i % (d * |c|) + d * |c| * (a i / (d * |c|)) : Int) : ℚ) := by rw [e]
      rw [this]; push_cast; ring
    simp only
    generalize hA : a i % (d * |c|) = A at e' ⊢
    generalize hB : a i / (d * |c|) = B at e'
    have e2 : q i - A / d = |(c : ℚ)| * B := by
      have : q i * d = A + d * |(c : ℚ)| * B := by rw [← hq i]; exact e'
      field_simp
      linarith
    rcases abs_choice c with hc | hc
    · refine ⟨B, e2.trans ?_⟩
      rw [← Int.cast_abs, hc]; ring
    · refine ⟨-B, e2.trans ?_⟩
      rw [← Int.cast_abs, hc]; push_cast; ring

/-! ### rational factors -/

theorem repR_denominator {r : Rational} {x : ℚ} (h : RepR r x) : r.denominator = x.den := by
  obtain ⟨h1, h2, h3, h4⟩ := h
  unfold Rational.denominator
  rw [h2]
  exact toS_nat h4

theorem repR_bounds {r : Rational} {x : ℚ} (h : RepR r x) : |x.num| < 2 ^ 63 ∧ x.den < 2 ^ 63 := by
  obtain ⟨h1, h2, h3, h4⟩ := h
  exact ⟨h3, h4⟩

/-- C39: the product by a rational number, in place. -/
theorem C39_mulAssignQ (nd : Bool) {v : RatVec} {q : Fin n → ℚ} {r : Rational} {x : ℚ} (hv : Rep v q) (hr : RepR r x)
    (hd : v.den * x.den < 2 ^ 63)
    (h : (x.num ≠ 0 ∧ x.num ∣ (v.den * x.den : Nat)) ∨ ∀ i, |q i * v.den * x.num| < 2 ^ 63) :
    ∃ s, mulAssignQ nd v r = .ok s ∧ Rep s (fun i => q i * x) := by
  have hx := x.den_pos
  have hxq : (x.den : ℚ) ≠ 0 := by exact_mod_cast hx.ne'
  unfold mulAssignQ
  obtain ⟨s, e, hs, es⟩ := C39_divInt nd (c := (x.den : Int)) hv (by omega) (by
    rw [abs_of_nonneg (by omega)]; exact_mod_cast hd)
  rw [Int.natAbs_natCast] at es
  rw [repR_denominator hr, e, Res.ok_bind, hr.1]
  obtain ⟨t, e', ht⟩ := C39_mulInt (c := x.num) hs (repR_bounds hr).1 (by
    rw [es]
    refine h.imp id fun h i => ?_
    refine lt_of_eq_of_lt ?_ (h i)
    congr 1; push_cast; field_simp)
  refine ⟨t, e', ?_⟩
  have : (fun i => q i * x) = (fun i => q i / ((x.den : Int) : ℚ) * x.num) := by
    funext i
    conv_lhs => rw [← Rat.num_div_den x]
    push_cast; field_simp
  rw [this]; exact ht

/-- C39: the product by a rational number. -/
theorem C39_mulQ {v : RatVec} {q : Fin n → ℚ} {r : Rational} {x : ℚ} (hv : Rep v q) (hr : RepR r x)
    (hd : v.den * x.den < 2 ^ 63) (h : ∀ i, |q i * v.den * x.num| < 2 ^ 63) :
    ∃ s, mulQ v r = .ok s ∧ Rep s (fun i => q i * x) := by
  obtain ⟨a, d, rfl, h0, h1, ha, hq⟩ := rep_cases hv
  have hx := x.den_pos
  have hxq : (x.den : ℚ) ≠ 0 := by exact_mod_cast hx.ne'
  have hdq : (d : ℚ) ≠ 0 := by exact_mod_cast h0.ne'
  simp only at hd h
  have hb : ∀ i, |a i * x.num| < 2 ^ 63 := fun i => abs_cast_lt (by push_cast; rw [hq i]) (h i)
  unfold mulQ
  rw [hr.1, scaleVec_ofFn hb, Res.ok_bind, repR_denominator hr,
    toU_pos (by omega) (by exact_mod_cast (repR_bounds hr).2), Int.toNat_natCast]
  simp only
  rw [Nat.mod_eq_of_lt (by omega), toS_nat hd]
  obtain ⟨s, e, hs⟩ := C39_make (d := ((d * x.den : Nat) : Int)) hb (by exact_mod_cast (Nat.mul_pos h0 hx).ne') (by
    rw [abs_of_nonneg (by omega)]; exact_mod_cast hd)
  refine ⟨s, e, ?_⟩
  have : (fun i => q i * x) = (fun i => ((a i * x.num : Int) : ℚ) / ((d * x.den : Nat) : Int)) := by
    funext i
    conv_lhs => rw [← Rat.num_div_den x]
    push_cast; rw [hq i]; field_simp
  rw [this]; exact hs

/-- C39: the quotient by a nonzero rational number, in place. -/
theorem C39_divAssignQ (nd : Bool) {v : RatVec} {q : Fin n → ℚ} {r : Rational} {x : ℚ} (hv : Rep v q) (hr : RepR r x)
    (h0 : x ≠ 0) (hd : v.den * |x.num| < 2 ^ 63)
    (h : (x.den : Int) ∣ v.den * x.num.natAbs ∨ ∀ i, |q i * v.den * x.den| < 2 ^ 63) :
    ∃ s, divAssignQ nd v r = .ok s ∧ Rep s (fun i => q i / x) := by
  have hx := x.den_pos
  have hxq : (x.den : ℚ) ≠ 0 := by exact_mod_cast hx.ne'
  have hn : x.num ≠ 0 := Rat.num_ne_zero.2 h0
  have hnq : (x.num : ℚ) ≠ 0 := by exact_mod_cast hn
  unfold divAssignQ
  rw [hr.1, Res.assertIn_bind nd (decide_eq_true hn)]
  obtain ⟨s, e, hs, es⟩ := C39_divInt nd (c := x.num) hv hn hd
  rw [e, Res.ok_bind, repR_denominator hr]
  obtain ⟨t, e', ht⟩ := C39_mulInt (c := (x.den : Int)) hs (by
      rw [abs_of_nonneg (by omega)]; exact_mod_cast (repR_bounds hr).2) (by
    rw [es]
    refine h.imp (fun h => ⟨by omega, by exact_mod_cast h⟩) fun h i => ?_
    refine lt_of_eq_of_lt ?_ (h i)
    have : ((x.num.natAbs : Nat) : ℚ) = |(x.num : ℚ)| := by
      rw [← Int.cast_natCast, Int.natCast_natAbs, Int.cast_abs]
    push_cast; rw [this]
    rcases abs_choice (x.num : ℚ) with hc | hc
    · rw [hc]; congr 1; field_simp
    · rw [hc, ← abs_neg]; congr 1; field_simp)
  refine ⟨t, e', ?_⟩
  have : (fun i => q i / x) = (fun i => q i / ((x.num : Int) : ℚ) * ((x.den : Int) : ℚ)) := by
    funext i
    conv_lhs => rw [← Rat.num_div_den x]
    push_cast; field_simp
  rw [this]; exact ht

/-- C39: the quotient by a nonzero rational number. -/
theorem C39_divQ {v : RatVec} {q : Fin n → ℚ} {r : Rational} {x : ℚ} (hv : Rep v q) (hr : RepR r x) (h0x : x ≠ 0)
    (hd : v.den * |x.num| < 2 ^ 63) (h : ∀ i, |q i * v.den * x.den| < 2 ^ 63) :
    ∃ s, divQ v r = .ok s ∧ Rep s (fun i => q i / x) := by
  obtain ⟨a, d, rfl, h0, h1, ha, hq⟩ := rep_cases hv
  have hx := x.den_pos
  have hxq : (x.den : ℚ) ≠ 0 := by exact_mod_cast hx.ne'
  have hdq : (d : ℚ) ≠ 0 := by exact_mod_cast h0.ne'
  have hn : x.num ≠ 0 := Rat.num_ne_zero.2 h0x
  have hnq : (x.num : ℚ) ≠ 0 := by exact_mod_cast hn
  simp only at hd h
  have hb : ∀ i, |a i * (x.den : Int)| < 2 ^ 63 := fun i => abs_cast_lt (by push_cast; rw [hq i]) (h i)
  have hdb : |(d : Int) * x.num| < 2 ^ 63 := by rw [abs_mul, abs_of_nonneg (by omega : (0 : Int) ≤ d)]; exact hd
  unfold divQ
  rw [hr.1, repR_denominator hr, scaleVec_ofFn hb, Res.ok_bind]
  simp only
  have hm : toS 64 ((d * toU 64 x.num % 𝐌 : Nat) : Int) = d * x.num := by
    apply toS_modEq _ hdb
    push_cast; rw [Arith.toU_mod]
    exact (Int.mod_modEq _ _).trans ((Int.mod_modEq _ _).mul_left _)
  rw [hm]
  obtain ⟨s, e, hs⟩ := C39_make (d := (d : Int) * x.num) hb (mul_ne_zero (by omega) hn) hdb
  refine ⟨s, e, ?_⟩
  have : (fun i => q i / x) = (fun i => ((a i * (x.den : Int) : Int) : ℚ) / (((d : Int) * x.num : Int) : ℚ)) := by
    funext i
    conv_lhs => rw [← Rat.num_div_den x]
    push_cast; rw [hq i]; field_simp
  rw [this]; exact hs

/-! ### integral vectors -/

theorem addMul_ofFn {a w : Fin n → Int} {c : Int} (h1 : ∀ i, |w i * c| < 2 ^ 63) (h2 : ∀ i, |a i + w i * c| < 2 ^ 63) :
    addMul (List.ofFn a) (List.ofFn w) c = .ok (List.ofFn fun i => a i + w i * c) := by
  unfold addMul
  by_cases hc : c = 0
  · rw [if_neg (by simpa using hc), hc]; simp
  · rw [if_pos hc]
    exact each2_ofFn fun i => by rw [sgn_abs (h1 i), Res.ok_bind, sgn_abs (h2 i)]

/-- C39: adding an integral vector. -/
theorem C39_addVec {v : RatVec} {q : Fin n → ℚ} {w : Fin n → Int} (hv : Rep v q)
    (h1 : ∀ i, |w i * v.den| < 2 ^ 63) (h2 : ∀ i, |(q i + w i) * v.den| < 2 ^ 63) :
    ∃ s, addVec v (List.ofFn w) = .ok s ∧ Rep s (fun i => q i + w i) := by
  obtain ⟨a, d, rfl, h0, h1', ha, hq⟩ := rep_cases hv
  simp only at h1 h2
  have hb : ∀ i, |a i + w i * d| < 2 ^ 63 := fun i => abs_cast_lt (by push_cast; rw [hq i]; ring) (h2 i)
  unfold addVec denominator
  simp only
  rw [toS_nat h1', addMul_ofFn h1 hb, Res.ok_bind]
  refine ⟨_, rfl, rep_mk h0 h1' hb fun i => ?_⟩
  push_cast; rw [hq i]; ring

/-- C39: subtracting an integral vector. -/
theorem C39_subVec {v : RatVec} {q : Fin n → ℚ} {w : Fin n → Int} (hv : Rep v q)
    (h1 : ∀ i, |w i * v.den| < 2 ^ 63) (h2 : ∀ i, |(q i - w i) * v.den| < 2 ^ 63) :
    ∃ s, subVec v (List.ofFn w) = .ok s ∧ Rep s (fun i => q i - w i) := by
  obtain ⟨a, d, rfl, h0, h1', ha, hq⟩ := rep_cases hv
  simp only at h1 h2
  have hb : ∀ i, |a i + w i * -(d : Int)| < 2 ^ 63 := fun i => abs_cast_lt (by push_cast; rw [hq i]; ring) (h2 i)
  unfold subVec denominator
  simp only
  rw [toS_nat h1', sgn_abs (by rw [abs_neg, abs_of_nonneg (by omega)]; exact_mod_cast h1'), Res.ok_bind,
    addMul_ofFn (fun i => by rw [mul_neg, abs_neg]; exact h1 i) hb, Res.ok_bind]
  refine ⟨_, rfl, rep_mk h0 h1' hb fun i => ?_⟩
  push_cast; rw [hq i]; ring

/-- C39: `subtract_from`: an integral vector minus a rational vector. -/
theorem C39_subtractFrom {v : RatVec} {q : Fin n → ℚ} {w : Fin n → Int} (hv : Rep v q)
    (h1 : ∀ i, |w i * v.den| < 2 ^ 63) (h2 : ∀ i, |(w i - q i) * v.den| < 2 ^ 63) :
    ∃ s, subtractFrom v (List.ofFn w) = .ok s ∧ Rep s (fun i => w i - q i) := by
  obtain ⟨s, e, hs, ed⟩ := C39_neg hv
  unfold subtractFrom
  rw [e, Res.ok_bind]
  obtain ⟨t, e', ht⟩ := C39_addVec (w := w) hs (by rwa [ed]) (by
    intro i; rw [ed]
    refine lt_of_eq_of_lt ?_ (h2 i)
    rw [Pi.neg_apply]; congr 1; ring)
  refine ⟨t, e', ?_⟩
  have : (fun i => (w i : ℚ) - q i) = (fun i => (-q) i + w i) := by funext i; rw [Pi.neg_apply]; ring
  rw [this]; exact ht

/-! ### scalar products -/

theorem dotVec_spec (nd : Bool) {w a : Fin n → Int} (h : ∑ i, |w i * a i| < 2 ^ 63) :
    dotVec nd (List.ofFn w) (List.ofFn a) = .ok (∑ i, w i * a i) := by
  unfold dotVec
  rw [Res.assertIn_bind nd (decide_eq_true (by simp)), dotLoop_spec w a 0 (by simpa using h), zero_add]

theorem dot_bound {q : Fin n → ℚ} {w a : Fin n → Int} {d : Nat} (hq : ∀ i, (a i : ℚ) = q i * d)
    (h : ∑ i, |(w i : ℚ) * q i * d| < 2 ^ 63) : ∑ i, |w i * a i| < 2 ^ 63 := by
  have : ((∑ i, |w i * a i| : Int) : ℚ) < 2 ^ 63 := by
    push_cast
    refine lt_of_eq_of_lt (Finset.sum_congr rfl fun i _ => ?_) h
    rw [hq i]; congr 1; ring
  exact_mod_cast this

/-- C39: `dot` gives the scalar product with an integral vector if that is an integer; if it is
not, a build with assertions stops. -/
theorem C39_dot (nd : Bool) {v : RatVec} {q : Fin n → ℚ} {w : Fin n → Int} (hv : Rep v q)
    (h : ∑ i, |(w i : ℚ) * q i * v.den| < 2 ^ 63) :
    (∀ z : Int, ∑ i, (w i : ℚ) * q i = z → dot nd v (List.ofFn w) = .ok z) ∧
    ((¬ ∃ z : Int, ∑ i, (w i : ℚ) * q i = z) → dot false v (List.ofFn w) = .assertFail) := by
  obtain ⟨a, d, rfl, h0, h1, ha, hq⟩ := rep_cases hv
  simp only at h
  have hb := dot_bound hq h
  have hdq : (d : ℚ) ≠ 0 := by exact_mod_cast h0.ne'
  have hdi : (d : Int) ≠ 0 := by exact_mod_cast h0.ne'
  have es : ((∑ i, w i * a i : Int) : ℚ) = (∑ i, (w i : ℚ) * q i) * d := by
    push_cast; rw [Finset.sum_mul]
    exact Finset.sum_congr rfl fun i _ => by rw [hq i]; ring
  unfold dot denominator
  simp only
  constructor
  · intro z hz
    rw [dotVec_spec nd hb, Res.ok_bind, toS_nat h1, if_neg hdi]
    have e : ∑ i, w i * a i = d * z := by
      have : ((∑ i, w i * a i : Int) : ℚ) = ((d * z : Int) : ℚ) := by rw [es, hz]; push_cast; ring
      exact_mod_cast this
    rw [Res.assertIn_bind nd (decide_eq_true (by rw [e]; exact Int.mul_tmod_right ..)), e, Int.mul_tdiv_cancel_left _ hdi]
    apply sgn_abs
    have h2 : |∑ i, w i * a i| < 2 ^ 63 := lt_of_le_of_lt (Finset.abs_sum_le_sum_abs _ _) hb
    rw [e, abs_mul] at h2
    refine lt_of_le_of_lt (le_mul_of_one_le_left (abs_nonneg _) ?_) h2
    rw [abs_of_nonneg (by omega)]; omega
  · intro hz
    rw [dotVec_spec false hb, Res.ok_bind, toS_nat h1, if_neg hdi]
    have : decide ((∑ i, w i * a i).tmod d = 0) = false := by
      rw [decide_eq_false_iff_not]
      intro ht
      obtain ⟨z, e⟩ := Int.dvd_of_tmod_eq_zero ht
      apply hz
      refine ⟨z, mul_right_cancel₀ hdq ?_⟩
      rw [← es, e]; push_cast; ring
    rw [this]; rfl

/-- C39: `dot_Q` gives the scalar product as a rational number. -/
theorem C39_dotQ (nd : Bool) {v : RatVec} {q : Fin n → ℚ} {w : Fin n → Int} (hv : Rep v q)
    (h : ∑ i, |(w i : ℚ) * q i * v.den| < 2 ^ 63) :
    ∃ r, dotQ nd v (List.ofFn w) = .ok r ∧ RepR r (∑ i, (w i : ℚ) * q i) := by
  obtain ⟨a, d, rfl, h0, h1, ha, hq⟩ := rep_cases hv
  simp only at h
  have hb := dot_bound hq h
  have hdq : (d : ℚ) ≠ 0 := by exact_mod_cast h0.ne'
  unfold dotQ
  rw [dotVec_spec nd hb, Res.ok_bind]
  obtain ⟨r, e, hr⟩ := Arith.C16_make (n := ∑ i, w i * a i) h0 (lt_of_le_of_lt (Finset.abs_sum_le_sum_abs _ _) hb) h1
  refine ⟨r, e, ?_⟩
  have : ∑ i, (w i : ℚ) * q i = ((∑ i, w i * a i : Int) : ℚ) / ((d : Int) : ℚ) := by
    push_cast
    rw [Finset.sum_div]
    exact Finset.sum_congr rfl fun i _ => by rw [hq i]; field_simp
  rw [this]; exact hr

/-- C39: `integer_diff` gives the difference of two vectors that differ by an integral vector, if
its components are in the range of the type of the result and of 64-bit numbers when multiplied
by the denominator. -/
theorem C39_integerDiff (nd : Bool) (wd : Nat) (hwd : 0 < wd) {v w : RatVec} {q p : Fin n → ℚ} {z : Fin n → Int}
    (hv : Rep v q) (hw : Rep w p) (hz : ∀ i, q i - p i = z i) (hf : ∀ i, fits wd (z i))
    (hb : ∀ i, |z i| * v.den < 2 ^ 63) :
    integerDiff nd wd v w = .ok (List.ofFn z) := by
  have l1 : v.num.length = n := by obtain ⟨-, -, a, h, -⟩ := hv; rw [h]; simp
  have l2 : w.num.length = n := by obtain ⟨-, -, a, h, -⟩ := hw; rw [h]; simp
  obtain ⟨s, e1, r1, d1⟩ := normalize_spec hv
  obtain ⟨t, e2, r2, d2⟩ := normalize_spec hw
  have hden := reduced_den_eq r1 r2 d1 d2 fun i => ⟨z i, hz i⟩
  have hle : s.den ≤ v.den := by
    refine Nat.le_of_dvd hv.1 ((reduced_dvd r1 d1 v.den).2 fun i => ?_)
    obtain ⟨a, d, rfl, h0, h1, ha, hq⟩ := rep_cases hv
    exact ⟨a i, (hq i).symm⟩
  unfold integerDiff
  rw [Res.assertIn_bind nd (decide_eq_true (l1.trans l2.symm)), e1, Res.ok_bind, e2, Res.ok_bind,
    Res.assertIn_bind nd (decide_eq_true hden)]
  obtain ⟨a, d, rfl, h0, h1, ha, hq⟩ := rep_cases r1
  obtain ⟨b, d', rfl, h0', h1', hb', hp⟩ := rep_cases r2
  simp only at hden hle; subst hden
  unfold denominator
  simp only
  have hdi : (d : Int) ≠ 0 := by exact_mod_cast h0.ne'
  rw [toS_nat h1, if_neg hdi]
  apply each2_ofFn
  intro i
  have e : a i - b i = d * z i := by
    have : ((a i - b i : Int) : ℚ) = ((d * z i : Int) : ℚ) := by
      push_cast; rw [hq i, hp i, ← hz i]; ring
    exact_mod_cast this
  have k0 := abs_nonneg (z i)
  have k1 : |z i| * d < 2 ^ 63 := lt_of_le_of_lt (mul_le_mul_of_nonneg_left (by exact_mod_cast hle) k0) (hb i)
  have k2 : |z i| < 2 ^ 63 := lt_of_le_of_lt (le_mul_of_one_le_right k0 (by omega)) k1
  rw [e, sgn_abs (by rw [abs_mul, mul_comm, abs_of_nonneg (by omega : (0 : Int) ≤ d)]; exact k1), Res.ok_bind,
    Res.assertIn_bind nd (decide_eq_true (Int.mul_tmod_right ..)), Int.mul_tdiv_cancel_left _ hdi, sgn_abs k2, Res.ok_bind]
  have : toS wd (z i) = z i := by
    obtain ⟨f1, f2⟩ := hf i
    have hp2 := Arith.pow_double hwd
    unfold toS
    by_cases hneg : z i < 0
    · have : z i % 2 ^ wd = z i + 2 ^ wd := by
        rw [← Int.add_emod_right, Int.emod_eq_of_lt (by omega) (by omega)]
      rw [this, if_neg (by omega)]; ring
    · rw [Int.emod_eq_of_lt (by omega) (by omega), if_pos f2]
  rw [this]; rfl

/-! ### matrices -/

open Verif.Mat in
theorem apply_ofFn (nd : Bool) (A : Matrix (Fin m) (Fin n) Int) (a : Fin n → Int)
    (h : ∀ i, ∑ j, |A i j * a j| < 2 ^ 63) : apply nd (enc A) (List.ofFn a) = .ok (List.ofFn (A *ᵥ a)) := by
  rw [enc_tb, ofFn_vk]
  unfold apply
  rw [Res.assertIn_bind nd (decide_eq_true (by simp [tb]))]
  rw [tab_ok fun i => ∑ j ∈ Finset.range n, ex A i j * exv a j]
  swap
  · intro i hi
    have hi : i < m := hi
    apply forUp_sum n
    · intro j c hj
      rw [get_tb _ hi hj, Res.ok_bind, get_vk _ hj, Res.ok_bind]
    · rw [Finset.sum_range]
      have := h ⟨i, hi⟩
      simpa [ex, exv, hi] using this
  rw [rows_tb, vk_ofFn]; congr 2; funext i
  rw [Finset.sum_range]
  simp [Matrix.mulVec, dotProduct]

open Verif.Mat in
theorem rightProd_ofFn (nd : Bool) (A : Matrix (Fin m) (Fin n) Int) (a : Fin m → Int)
    (h : ∀ j, ∑ i, |a i * A i j| < 2 ^ 63) : rightProd nd (enc A) (List.ofFn a) = .ok (List.ofFn (a ᵥ* A)) := by
  rw [enc_tb, ofFn_vk]
  unfold rightProd
  rw [Res.assertIn_bind nd (decide_eq_true (by simp [tb]))]
  rw [tab_ok fun j => ∑ i ∈ Finset.range m, exv a i * ex A i j]
  swap
  · intro j hj
    have hj : j < n := hj
    apply forUp_sum m
    · intro i c hi
      rw [get_vk _ hi, Res.ok_bind, get_tb _ hi hj, Res.ok_bind]
    · rw [Finset.sum_range]
      have := h ⟨j, hj⟩
      simpa [ex, exv, hj] using this
  rw [cols_tb, vk_ofFn]; congr 2; funext i
  rw [Finset.sum_range]
  simp [Matrix.vecMul, dotProduct]

theorem bound_of {k : Nat} {f : Fin k → Int} {g : Fin k → ℚ} (e : ∀ i, (f i : ℚ) = g i) (h : ∑ i, |g i| < 2 ^ 63) :
    ∑ i, |f i| < 2 ^ 63 := by
  have : ((∑ i, |f i| : Int) : ℚ) < 2 ^ 63 := by
    push_cast
    exact lt_of_eq_of_lt (Finset.sum_congr rfl fun i _ => by rw [e i]) h
  exact_mod_cast this

/-- C39: a matrix times a rational vector. -/
theorem C39_mulMat (nd : Bool) (A : Matrix (Fin m) (Fin n) Int) {v : RatVec} {q : Fin n → ℚ} (hv : Rep v q)
    (h : ∀ i, ∑ j, |(A i j : ℚ) * q j * v.den| < 2 ^ 63) :
    ∃ s, mulMat nd (Mat.enc A) v = .ok s ∧ Rep s (A.map (Int.cast : Int → ℚ) *ᵥ q) := by
  obtain ⟨a, d, rfl, h0, h1, ha, hq⟩ := rep_cases hv
  simp only at h
  have hdq : (d : ℚ) ≠ 0 := by exact_mod_cast h0.ne'
  have hb : ∀ i, ∑ j, |A i j * a j| < 2 ^ 63 := fun i => bound_of (fun j => by push_cast; rw [hq j]; ring) (h i)
  have hb' : ∀ i, |(A *ᵥ a) i| < 2 ^ 63 := fun i =>
    lt_of_le_of_lt (Finset.abs_sum_le_sum_abs (fun j => A i j * a j) Finset.univ) (hb i)
  unfold mulMat denominator
  simp only
  rw [apply_ofFn nd A a hb, Res.ok_bind, toS_nat h1]
  obtain ⟨s, e, hs⟩ := C39_make (d := (d : Int)) hb' (by exact_mod_cast h0.ne') (by
    rw [abs_of_nonneg (by omega)]; exact_mod_cast h1)
  refine ⟨s, e, ?_⟩
  convert hs using 1
  funext i
  simp only [Matrix.mulVec, dotProduct, Matrix.map_apply]
  push_cast
  rw [Finset.sum_div]
  exact Finset.sum_congr rfl fun j _ => by rw [hq j]; field_simp

/-- C39: a rational vector times a matrix. -/
theorem C39_vecMulMat (nd : Bool) (A : Matrix (Fin m) (Fin n) Int) {v : RatVec} {q : Fin m → ℚ} (hv : Rep v q)
    (h : ∀ j, ∑ i, |q i * (A i j : ℚ) * v.den| < 2 ^ 63) :
    ∃ s, vecMulMat nd v (Mat.enc A) = .ok s ∧ Rep s (q ᵥ* A.map (Int.cast : Int → ℚ)) := by
  obtain ⟨a, d, rfl, h0, h1, ha, hq⟩ := rep_cases hv
  simp only at h
  have hdq : (d : ℚ) ≠ 0 := by exact_mod_cast h0.ne'
  have hb : ∀ j, ∑ i, |a i * A i j| < 2 ^ 63 := fun j => bound_of (fun i => by push_cast; rw [hq i]; ring) (h j)
  have hb' : ∀ j, |(a ᵥ* A) j| < 2 ^ 63 := fun j =>
    lt_of_le_of_lt (Finset.abs_sum_le_sum_abs (fun i => a i * A i j) Finset.univ) (hb j)
  unfold vecMulMat denominator
  simp only
  rw [rightProd_ofFn nd A a hb, Res.ok_bind, toS_nat h1]
  obtain ⟨s, e, hs⟩ := C39_make (d := (d : Int)) hb' (by exact_mod_cast h0.ne') (by
    rw [abs_of_nonneg (by omega)]; exact_mod_cast h1)
  refine ⟨s, e, ?_⟩
  convert hs using 1
  funext j
  simp only [Matrix.vecMul, dotProduct, Matrix.map_apply]
  push_cast
  rw [Finset.sum_div]
  exact Finset.sum_congr rfl fun i _ => by rw [hq i]; field_simp

theorem half_sum (nd : Bool) {a b : Fin n → Int} {d : Nat} {q p : Fin n → ℚ} (h0 : 0 < d) (h1 : 2 * d < 2 ^ 63)
    (hb : ∀ i, |a i + b i| < 2 ^ 63) (hq : ∀ i, (a i : ℚ) = q i * d) (hp : ∀ i, (b i : ℚ) = p i * d) :
    ∃ s, (do
      let n ← addNum nd (List.ofFn a) (List.ofFn b)
      normalize (← divInt nd ⟨n, d⟩ 2) : Res RatVec) = .ok s ∧ Rep s (fun i => (q i + p i) / 2) ∧ Reduced s := by
  have e : addNum nd (List.ofFn a) (List.ofFn b) = .ok (List.ofFn fun i => a i + b i) := by
    unfold addNum
    rw [Res.assertIn_bind nd (decide_eq_true (by simp))]
    exact each2_ofFn fun i => sgn_abs (hb i)
  have r : Rep ⟨List.ofFn fun i => a i + b i, d⟩ (fun i => q i + p i) :=
    rep_mk h0 (by omega) hb fun i => by push_cast; rw [hq i, hp i]; ring
  obtain ⟨s, e2, r2, -⟩ := C39_divInt nd (c := 2) r (by norm_num) (by
    simp only; rw [abs_of_pos (by norm_num)]; omega)
  rw [e, Res.ok_bind, e2, Res.ok_bind]
  obtain ⟨t, e3, r3, d3⟩ := normalize_spec r2
  refine ⟨t, e3, ?_, d3⟩
  push_cast at r3; exact r3

/-- C39: `symmetrise(M,v)` is `(v + M v)/2`, reduced; for an involution `M` this is the projection
to its fixed vectors along its anti-invariant ones. -/
theorem C39_symmetrise (nd : Bool) (A : Matrix (Fin n) (Fin n) Int) {v : RatVec} {q : Fin n → ℚ} (hv : Rep v q)
    (hd : 2 * v.den < 2 ^ 63) (h : ∀ i, ∑ j, |(A i j : ℚ) * q j * v.den| < 2 ^ 63)
    (h2 : ∀ i, |(q i + (A.map (Int.cast : Int → ℚ) *ᵥ q) i) * v.den| < 2 ^ 63) :
    ∃ s, symmetrise nd (Mat.enc A) v = .ok s ∧ Reduced s ∧
      Rep s (fun i => (q i + (A.map (Int.cast : Int → ℚ) *ᵥ q) i) / 2) := by
  obtain ⟨a, d, rfl, h0, h1, ha, hq⟩ := rep_cases hv
  simp only at h h2 hd
  have hb : ∀ i, ∑ j, |A i j * a j| < 2 ^ 63 := fun i => bound_of (fun j => by push_cast; rw [hq j]; ring) (h i)
  have hp : ∀ i, (((A *ᵥ a) i : Int) : ℚ) = (A.map (Int.cast : Int → ℚ) *ᵥ q) i * d := by
    intro i
    simp only [Matrix.mulVec, dotProduct, Matrix.map_apply]
    push_cast
    rw [Finset.sum_mul]
    exact Finset.sum_congr rfl fun j _ => by rw [hq j]; ring
  unfold symmetrise
  simp only
  rw [apply_ofFn nd A a hb, Res.ok_bind]
  obtain ⟨s, e, r, d'⟩ := half_sum nd h0 hd (fun i => abs_cast_lt (by push_cast; rw [hq i, hp i]; ring) (h2 i)) hq hp
  exact ⟨s, e, d', r⟩

/-- C39: `symmetrise(v,M)` is `(v + v M)/2`, reduced. -/
theorem C39_symmetriseDual (nd : Bool) (A : Matrix (Fin n) (Fin n) Int) {v : RatVec} {q : Fin n → ℚ} (hv : Rep v q)
    (hd : 2 * v.den < 2 ^ 63) (h : ∀ j, ∑ i, |q i * (A i j : ℚ) * v.den| < 2 ^ 63)
    (h2 : ∀ i, |(q i + (q ᵥ* A.map (Int.cast : Int → ℚ)) i) * v.den| < 2 ^ 63) :
    ∃ s, symmetriseDual nd v (Mat.enc A) = .ok s ∧ Reduced s ∧
      Rep s (fun i => (q i + (q ᵥ* A.map (Int.cast : Int → ℚ)) i) / 2) := by
  obtain ⟨a, d, rfl, h0, h1, ha, hq⟩ := rep_cases hv
  simp only at h h2 hd
  have hb : ∀ j, ∑ i, |a i * A i j| < 2 ^ 63 := fun j => bound_of (fun i => by push_cast; rw [hq i]; ring) (h j)
  have hp : ∀ i, (((a ᵥ* A) i : Int) : ℚ) = (q ᵥ* A.map (Int.cast : Int → ℚ)) i * d := by
    intro i
    simp only [Matrix.vecMul, dotProduct, Matrix.map_apply]
    push_cast
    rw [Finset.sum_mul]
    exact Finset.sum_congr rfl fun j _ => by rw [hq j]; ring
  unfold symmetriseDual
  simp only
  rw [rightProd_ofFn nd A a hb, Res.ok_bind]
  obtain ⟨s, e, r, d'⟩ := half_sum nd h0 hd (fun i => abs_cast_lt (by push_cast; rw [hq i, hp i]; ring) (h2 i)) hq hp
  exact ⟨s, e, d', r⟩

/-! ### concrete cases -/

/-- C39, limits: the quotient by the rational number zero is not refused by `/`, but gives an
object without meaning (denominator 0) that is only detected when it is normalised; in a build
without assertions the same is true of `/=`. -/
theorem C39_div_zero_unchecked : divQ ⟨[1, 2], 3⟩ ⟨0, 1⟩ = .ok ⟨[1, 2], 0⟩ ∧
    divInt true ⟨[1, 2], 3⟩ 0 = .ok ⟨[-1, -2], 0⟩ ∧ divInt false ⟨[1, 2], 3⟩ 0 = .assertFail ∧
    normalize ⟨[1, 2], 0⟩ = .throw := by decide +kernel

example : Rep ⟨[1, -2, 4], 6⟩ ![1 / 6, -1 / 3, 2 / 3] ∧ Reduced ⟨[1, -2, 4], 6⟩ ∧
    Rep ⟨[3, 0, 9], 12⟩ ![1 / 4, 0, 3 / 4] ∧
    add false ⟨[1, -2, 4], 6⟩ ⟨[3, 0, 9], 12⟩ = .ok ⟨[5, -4, 17], 12⟩ ∧
    sub false ⟨[1, -2, 4], 6⟩ ⟨[3, 0, 9], 12⟩ = .ok ⟨[-1, -4, -1], 12⟩ ∧
    normalize ⟨[3, 0, 9], 12⟩ = .ok ⟨[1, 0, 3], 4⟩ ∧
    lt ⟨[1, -2, 4], 6⟩ ⟨[3, 0, 9], 12⟩ = true ∧ eq ⟨[1, 0, 3], 4⟩ ⟨[3, 0, 9], 12⟩ = true ∧
    mulInt ⟨[1, -2, 4], 6⟩ (-3) = .ok ⟨[-1, 2, -4], 2⟩ ∧
    modInt false ⟨[1, -2, 4], 6⟩ 1 = .ok ⟨[1, 4, 4], 6⟩ ∧
    dot false ⟨[1, -2, 4], 6⟩ [2, -1, 2] = .ok 2 ∧ dot false ⟨[1, -2, 4], 6⟩ [2, 1, 2] = .assertFail ∧
    integerDiff false 32 ⟨[7, -2, 4], 6⟩ ⟨[2, -4, 20], 12⟩ = .ok [1, 0, -1] ∧
    symmetrise false (Mat.enc !![0, 1, 0; 1, 0, 0; 0, 0, 1]) ⟨[1, -2, 4], 6⟩ = .ok ⟨[-1, -1, 8], 12⟩ := by
  refine ⟨?_, ?_, ?_, ?_⟩
  · refine ⟨by norm_num, by norm_num, ![1, -2, 4], by decide, ?_⟩
    intro i; fin_cases i <;> constructor <;> norm_num
  · intro k _ h
    have := h 1 (by simp)
    exact Nat.dvd_one.1 (by exact_mod_cast this)
  · refine ⟨by norm_num, by norm_num, ![3, 0, 9], by decide, ?_⟩
    intro i; fin_cases i <;> constructor <;> norm_num
  · decide +kernel

end Verif.RatVec
