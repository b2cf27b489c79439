import Verif.RatVec.Spec
import Verif.BigInt.SubSign
import Verif.BigInt.PropsMulDiv
import Verif.Arith.PropsRational2
import Verif.Mat.Props
/-
Helper lemmas for rational vectors.
-/
namespace Verif.RatVec

open Verif.Arith (sgn toS toU fits sgn_ok)

variable {n : Nat}

theorem fits_of_abs {x : Int} (h : |x| < 2 ^ 63) : fits 64 x := by
  have := abs_lt.1 h
  exact ⟨by norm_num at *; omega, by norm_num at *; omega⟩

theorem sgn_abs {x : Int} (h : |x| < 2 ^ 63) : sgn 64 x = .ok x := sgn_ok (fits_of_abs h)

theorem toU_pos {x : Int} (h0 : 0 ≤ x) (h : x < 2 ^ 63) : toU 64 x = x.toNat :=
  Arith.toU_nonneg h0 (lt_trans h (by norm_num))

theorem toS_nat {x : Nat} (h : x < 2 ^ 63) : toS 64 (x : Int) = x :=
  Arith.toS64 (by omega) (by exact_mod_cast h)

/-- conversion of an unsigned result that is right modulo `2^64` -/
theorem toS_modEq {x z : Int} (h : x ≡ z [ZMOD 18446744073709551616]) (hz : |z| < 2 ^ 63) : toS 64 x = z := by
  have := abs_lt.1 hz
  unfold Int.ModEq at h
  unfold toS
  norm_num at *
  rw [h]
  split <;> omega

theorem each_ofFn {f : Int → Res Int} : ∀ {n : Nat} {a b : Fin n → Int}, (∀ i, f (a i) = .ok (b i)) →
    each f (List.ofFn a) = .ok (List.ofFn b)
  | 0, _, _, _ => by simp [each]
  | n + 1, a, b, h => by
    rw [List.ofFn_succ, List.ofFn_succ, each, h 0, Res.ok_bind,
      each_ofFn (a := fun i => a i.succ) (b := fun i => b i.succ) (fun i => h i.succ)]; rfl

theorem each2_ofFn {f : Int → Int → Res Int} : ∀ {n : Nat} {a b c : Fin n → Int},
    (∀ i, f (a i) (b i) = .ok (c i)) → each2 f (List.ofFn a) (List.ofFn b) = .ok (List.ofFn c)
  | 0, _, _, _, _ => by simp [each2]
  | n + 1, a, b, c, h => by
    rw [List.ofFn_succ, List.ofFn_succ, List.ofFn_succ, each2, h 0, Res.ok_bind,
      each2_ofFn (a := fun i => a i.succ) (b := fun i => b i.succ) (c := fun i => c i.succ) (fun i => h i.succ)]; rfl

theorem negVec_ofFn {a : Fin n → Int} (h : ∀ i, |a i| < 2 ^ 63) : negVec (List.ofFn a) = .ok (List.ofFn fun i => -a i) :=
  each_ofFn fun i => sgn_abs (by rw [abs_neg]; exact h i)

theorem scaleVec_ofFn {a : Fin n → Int} {c : Int} (h : ∀ i, |a i * c| < 2 ^ 63) :
    scaleVec (List.ofFn a) c = .ok (List.ofFn fun i => a i * c) := each_ofFn fun i => sgn_abs (h i)

/-- numerators from value and denominator -/
theorem num_eq {d : Nat} (hd : 0 < d) {a : Int} {q : ℚ} (h : q = a / d) : (a : ℚ) = q * d := by
  have : (d : ℚ) ≠ 0 := by exact_mod_cast hd.ne'
  rw [h]; field_simp

theorem rep_mk {a : Fin n → Int} {d : Nat} {q : Fin n → ℚ} (h0 : 0 < d) (h1 : d < 2 ^ 63) (ha : ∀ i, |a i| < 2 ^ 63)
    (hq : ∀ i, q i * d = a i) : Rep ⟨List.ofFn a, d⟩ q := by
  refine ⟨h0, h1, a, rfl, fun i => ⟨ha i, ?_⟩⟩
  have : (d : ℚ) ≠ 0 := by exact_mod_cast h0.ne'
  rw [← hq]; field_simp

theorem rep_cases {v : RatVec} {q : Fin n → ℚ} (h : Rep v q) : ∃ (a : Fin n → Int) (d : Nat), v = ⟨List.ofFn a, d⟩ ∧
    0 < d ∧ d < 2 ^ 63 ∧ (∀ i, |a i| < 2 ^ 63) ∧ ∀ i, (a i : ℚ) = q i * d := by
  obtain ⟨num, den⟩ := v
  obtain ⟨h1, h2, a, h3, h4⟩ := h
  exact ⟨a, den, by rw [← h3], h1, h2, fun i => (h4 i).1, fun i => num_eq h1 (h4 i).2⟩

/-! ### normalisation -/

theorem gcdLoop_spec : ∀ (l : List Int) (d : Nat), 0 < d → (∀ x ∈ l, |x| < 2 ^ 63) →
    ∃ o, gcdLoop l d = .ok o ∧
      (o = none → ∀ k : Nat, k ∣ d → (∀ x ∈ l, (k : Int) ∣ x) → k = 1) ∧
      (∀ g, o = some g → 0 < g ∧ g ∣ d ∧ (∀ x ∈ l, (g : Int) ∣ x) ∧
        ∀ k : Nat, k ∣ d → (∀ x ∈ l, (k : Int) ∣ x) → k ∣ g)
  | [], d, hd, _ => ⟨some d, rfl, by simp, by
      intro g hg; obtain rfl := Option.some.inj hg
      exact ⟨hd, dvd_rfl, by simp, fun k hk _ => hk⟩⟩
  | x :: l, d, hd, hx => by
    have hx0 := abs_lt.1 (hx x (by simp))
    have hg : Arith.gcd x d = .ok (Int.gcd x d) := Arith.C14_gcd hd hx0
    have hpos : 0 < Int.gcd x d := Int.gcd_pos_of_ne_zero_right _ (by omega)
    have dv : ∀ k : Nat, k ∣ d → (k : Int) ∣ x → k ∣ Int.gcd x d := fun k h1 h2 =>
      Int.natCast_dvd_natCast.1 (Int.dvd_coe_gcd h2 (Int.natCast_dvd_natCast.2 h1))
    rw [gcdLoop, hg, Res.ok_bind]
    by_cases h1 : Int.gcd x d = 1
    · rw [if_pos h1]
      refine ⟨none, rfl, fun _ k hk hl => ?_, by simp⟩
      have := dv k hk (hl x (by simp))
      rw [h1] at this; exact Nat.dvd_one.1 this
    · rw [if_neg h1]
      obtain ⟨o, e, n1, n2⟩ := gcdLoop_spec l (Int.gcd x d) hpos (fun y hy => hx y (by simp [hy]))
      refine ⟨o, e, fun ho k hk hl => ?_, fun g hg => ?_⟩
      · exact n1 ho k (dv k hk (hl x (by simp))) (fun y hy => hl y (by simp [hy]))
      · obtain ⟨g0, g1, g2, g3⟩ := n2 g hg
        refine ⟨g0, g1.trans ?_, ?_, ?_⟩
        · exact Int.natCast_dvd_natCast.1 (Int.gcd_dvd_right ..)
        · intro y hy
          rcases List.mem_cons.1 hy with rfl | hy
          · exact (Int.natCast_dvd_natCast.2 g1).trans (Int.gcd_dvd_left ..)
          · exact g2 y hy
        · intro k hk hl
          exact g3 k (dv k hk (hl x (by simp))) (fun y hy => hl y (by simp [hy]))

theorem normalize_spec {v : RatVec} {q : Fin n → ℚ} (h : Rep v q) :
    ∃ s, normalize v = .ok s ∧ Rep s q ∧ Reduced s := by
  obtain ⟨a, d, rfl, h0, h1, ha, hq⟩ := rep_cases h
  obtain ⟨o, e, n1, n2⟩ := gcdLoop_spec (List.ofFn a) d h0 (by
    intro x hx; obtain ⟨i, rfl⟩ := (List.mem_ofFn' a x).1 hx; exact ha i)
  unfold normalize
  simp only
  rw [if_neg h0.ne', e, Res.ok_bind]
  cases o with
  | none => exact ⟨_, rfl, h, n1 rfl⟩
  | some g =>
    obtain ⟨g0, g1, g2, g3⟩ := n2 g rfl
    have hgd := Nat.le_of_dvd h0 g1
    have hgi : (0 : Int) < g := by exact_mod_cast g0
    simp only
    rw [toS_nat (by omega), divExact, if_neg hgi.ne']
    have ga : ∀ i, ∃ c, a i = g * c := fun i => g2 (a i) ((List.mem_ofFn' a _).2 ⟨i, rfl⟩)
    choose c hc using ga
    have hcb : ∀ i, |c i| < 2 ^ 63 := by
      intro i
      have := ha i
      rw [hc i, abs_mul, abs_of_pos hgi] at this
      refine lt_of_le_of_lt ?_ this
      exact le_mul_of_one_le_left (abs_nonneg _) (by omega)
    rw [each_ofFn (b := c)]
    swap
    · intro i
      rw [if_pos (by rw [hc i]; exact Int.mul_tmod_right ..), hc i, Int.mul_tdiv_cancel_left _ hgi.ne']
      exact sgn_abs (hcb i)
    rw [Res.ok_bind]
    obtain ⟨f, rfl⟩ := g1
    have hf : 0 < f := Nat.pos_of_mul_pos_left h0
    rw [Nat.mul_div_cancel_left _ g0]
    refine ⟨_, rfl, rep_mk hf (lt_of_le_of_lt (Nat.le_mul_of_pos_left f g0) h1) hcb ?_, ?_⟩
    · intro i
      have := hq i
      rw [hc i] at this; push_cast at this
      have hg' : (g : ℚ) ≠ 0 := by exact_mod_cast g0.ne'
      have : (g : ℚ) * (q i * f) = g * c i := by rw [this]; ring
      exact mul_left_cancel₀ hg' this
    · intro k hk hl
      simp only at hk hl
      have := g3 (g * k) (Nat.mul_dvd_mul_left g hk) (by
        intro x hx; obtain ⟨i, rfl⟩ := (List.mem_ofFn' a x).1 hx
        rw [hc i]; push_cast
        exact mul_dvd_mul_left _ (hl _ ((List.mem_ofFn' c _).2 ⟨i, rfl⟩)))
      have h2 := Nat.le_of_dvd g0 this
      have hk0 : 0 < k := Nat.pos_of_dvd_of_pos hk hf
      nlinarith

/-- the denominator of a reduced vector divides a number just if that number times the vector
is integral -/
theorem reduced_dvd {v : RatVec} {q : Fin n → ℚ} (h : Rep v q) (hr : Reduced v) (k : Nat) :
    v.den ∣ k ↔ ∀ i, ∃ z : Int, q i * k = z := by
  obtain ⟨a, d, rfl, h0, h1, ha, hq⟩ := rep_cases h
  have hd : (d : ℚ) ≠ 0 := by exact_mod_cast h0.ne'
  constructor
  · rintro ⟨c, hc⟩ i
    simp only at hc
    refine ⟨a i * c, ?_⟩
    rw [hc]; push_cast; rw [hq i]; ring
  · intro hz
    simp only
    have hg : 0 < Nat.gcd d k := Nat.gcd_pos_of_pos_left _ h0
    obtain ⟨f, hf⟩ := Nat.gcd_dvd_left d k
    obtain ⟨j, hj⟩ := Nat.gcd_dvd_right d k
    have hcop : Nat.Coprime f j := by
      have := Nat.coprime_div_gcd_div_gcd (m := d) (n := k) hg
      rw [Nat.div_eq_of_eq_mul_right hg hf, Nat.div_eq_of_eq_mul_right hg hj] at this
      exact this
    have key := hr f ⟨_, by simp only; rw [mul_comm]; exact hf⟩ (by
      intro x hx; obtain ⟨i, rfl⟩ := (List.mem_ofFn' a x).1 hx
      obtain ⟨z, hz⟩ := hz i
      have e : a i * k = z * d := by
        have : (a i : ℚ) * k = z * d := by rw [hq i, ← hz]; ring
        exact_mod_cast this
      have e2 : a i * j = z * f := by
        have hgi : ((Nat.gcd d k : Nat) : Int) ≠ 0 := by exact_mod_cast hg.ne'
        have hk' : (k : Int) = Nat.gcd d k * j := by exact_mod_cast hj
        have hd' : (d : Int) = Nat.gcd d k * f := by exact_mod_cast hf
        apply mul_left_cancel₀ hgi
        calc _ = a i * (Nat.gcd d k * j) := by ring
          _ = z * (Nat.gcd d k * f) := by rw [← hk', ← hd', e]
          _ = _ := by ring
      have : (f : Int) ∣ a i * j := ⟨z, by rw [e2]; ring⟩
      exact (Int.isCoprime_iff_gcd_eq_one.2 (by simpa using hcop)).dvd_of_dvd_mul_right this)
    rw [key, mul_one] at hf
    rw [hf]; exact Nat.gcd_dvd_right d k

theorem reduced_den_eq {v w : RatVec} {q p : Fin n → ℚ} (hv : Rep v q) (hw : Rep w p) (rv : Reduced v) (rw' : Reduced w)
    (h : ∀ i, ∃ z : Int, q i - p i = z) : v.den = w.den := by
  apply Nat.dvd_antisymm
  · rw [reduced_dvd hv rv]
    intro i
    obtain ⟨z, hz⟩ := h i
    obtain ⟨y, hy⟩ := (reduced_dvd hw rw' w.den).1 dvd_rfl i
    refine ⟨z * w.den + y, ?_⟩
    have : q i = p i + z := by linarith
    push_cast; rw [this, ← hy]; ring
  · rw [reduced_dvd hw rw']
    intro i
    obtain ⟨z, hz⟩ := h i
    obtain ⟨y, hy⟩ := (reduced_dvd hv rv v.den).1 dvd_rfl i
    refine ⟨y - z * v.den, ?_⟩
    have : p i = q i - z := by linarith
    push_cast; rw [this, ← hy]; ring

theorem reduced_unique {v w : RatVec} {q : Fin n → ℚ} (hv : Rep v q) (hw : Rep w q) (rv : Reduced v) (rw' : Reduced w) :
    v = w := by
  have e := reduced_den_eq hv hw rv rw' (fun i => ⟨0, by simp⟩)
  obtain ⟨a, d, rfl, h0, h1, ha, hq⟩ := rep_cases hv
  obtain ⟨b, d', rfl, h0', h1', hb, hp⟩ := rep_cases hw
  simp only at e; subst e
  congr 2
  funext i
  have : (a i : ℚ) = b i := by rw [hq, hp]
  exact_mod_cast this

/-! ### comparison -/

theorem fits_le {a : Int} (h : |a| < 2 ^ 63) : -2 ^ 63 ≤ a ∧ a < 2 ^ 63 := by have := abs_lt.1 h; omega

open Verif.BigInt in
theorem rep_prod {a : Int} {d : Nat} (ha : |a| < 2 ^ 63) (hd : d < 2 ^ 63) :
    BigInt.Rep (mul (fromSigned a) (fromUnsigned d)) (a * d) :=
  C06_mul (C01_fromSigned (fits_le ha)) (C01_fromUnsigned (by omega))

theorem eqLoop_spec {d e : Nat} (hd : d < 2 ^ 63) (he : e < 2 ^ 63) : ∀ {n : Nat} {a b : Fin n → Int},
    (∀ i, |a i| < 2 ^ 63) → (∀ i, |b i| < 2 ^ 63) →
    (eqLoop (BigInt.fromUnsigned d) (BigInt.fromUnsigned e) (List.ofFn a) (List.ofFn b) = true ↔
      ∀ i, a i * d = b i * e)
  | 0, _, _, _, _ => by simp [eqLoop]
  | n + 1, a, b, ha, hb => by
    rw [List.ofFn_succ, List.ofFn_succ, eqLoop]
    have ih := eqLoop_spec hd he (a := fun i => a i.succ) (b := fun i => b i.succ) (fun i => ha i.succ) (fun i => hb i.succ)
    have k := BigInt.C02_eq (rep_prod (ha 0) hd) (rep_prod (hb 0) he)
    by_cases h : a 0 * d = b 0 * e
    · rw [if_pos (k.2 h), ih, Fin.forall_fin_succ]; simp [h]
    · rw [if_neg (fun h' => h (k.1 h'))]
      simp only [Bool.false_eq_true, false_iff, not_forall]
      exact ⟨0, h⟩

theorem ltLoop_spec {d e : Nat} (hd : d < 2 ^ 63) (he : e < 2 ^ 63) : ∀ {n : Nat} {a b : Fin n → Int},
    (∀ i, |a i| < 2 ^ 63) → (∀ i, |b i| < 2 ^ 63) →
    (ltLoop (BigInt.fromUnsigned d) (BigInt.fromUnsigned e) (List.ofFn a) (List.ofFn b) = true ↔
      ∃ i, (∀ j < i, a j * d = b j * e) ∧ a i * d < b i * e)
  | 0, _, _, _, _ => by simp [ltLoop]
  | n + 1, a, b, ha, hb => by
    rw [List.ofFn_succ, List.ofFn_succ, ltLoop]
    have ih := ltLoop_spec hd he (a := fun i => a i.succ) (b := fun i => b i.succ) (fun i => ha i.succ) (fun i => hb i.succ)
    obtain ⟨k1, k2⟩ := BigInt.C05_minus_sign (rep_prod (ha 0) hd) (rep_prod (hb 0) he)
    by_cases h : a 0 * d = b 0 * e
    · rw [if_pos (k2.2 h), ih]
      constructor
      · rintro ⟨i, h1, h2⟩
        refine ⟨i.succ, fun j hj => ?_, h2⟩
        obtain rfl | ⟨j, rfl⟩ := Fin.eq_zero_or_eq_succ j
        · exact h
        · exact h1 j (Fin.succ_lt_succ_iff.1 hj)
      · rintro ⟨i, h1, h2⟩
        obtain rfl | ⟨i, rfl⟩ := Fin.eq_zero_or_eq_succ i
        · omega
        · exact ⟨i, fun j hj => h1 j.succ (Fin.succ_lt_succ_iff.2 hj), h2⟩
    · rw [if_neg (fun h' => h (k2.1 h')), k1]
      constructor
      · intro hl
        exact ⟨0, fun j hj => absurd hj (by simp), hl⟩
      · rintro ⟨i, h1, h2⟩
        obtain rfl | ⟨i, rfl⟩ := Fin.eq_zero_or_eq_succ i
        · exact h2
        · exact absurd (h1 0 (Fin.succ_pos i)) h

theorem cross_eq {a b : Int} {d e : Nat} {q p : ℚ} (hd : 0 < d) (he : 0 < e) (h1 : (a : ℚ) = q * d) (h2 : (b : ℚ) = p * e) :
    (a * e = b * d ↔ q = p) ∧ (a * e < b * d ↔ q < p) := by
  have hd' : (0 : ℚ) < d := by exact_mod_cast hd
  have he' : (0 : ℚ) < e := by exact_mod_cast he
  have hde := mul_pos hd' he'
  constructor
  · rw [← Int.cast_inj (α := ℚ)]; push_cast; rw [h1, h2]
    constructor
    · intro h
      have : q * (d * e) = p * (d * e) := by linarith
      exact mul_right_cancel₀ hde.ne' this
    · rintro rfl; ring
  · rw [← Int.cast_lt (R := ℚ)]; push_cast; rw [h1, h2]
    rw [show q * d * e = q * (d * e) by ring, show p * e * d = p * (d * e) by ring, mul_lt_mul_iff_left₀ hde]

/-! ### sums -/

theorem toU_modEq (x : Int) (f : Nat) : ((toU 64 x * f % 𝐌 : Nat) : Int) ≡ x * f [ZMOD 18446744073709551616] := by
  push_cast
  rw [Arith.toU_mod]
  exact (Int.mod_modEq _ _).trans ((Int.mod_modEq x _).mul_right _)

theorem combine_spec (nd : Bool) {f : Nat → Nat → Nat} {h : Int → Int → Int} {v w : RatVec} {q p : Fin n → ℚ}
    (hf : ∀ x y : Nat, x < 𝐌 → y < 𝐌 → ∀ x' y' : Int, (x : Int) ≡ x' [ZMOD 18446744073709551616] →
      (y : Int) ≡ y' [ZMOD 18446744073709551616] → (f x y : Int) ≡ h x' y' [ZMOD 18446744073709551616])
    (g : ℚ → ℚ → ℚ) (hh : ∀ x y : Int, ((h x y : Int) : ℚ) = g x y) (hg : ∀ x y c, g x y * c = g (x * c) (y * c))
    (hv : Rep v q) (hw : Rep w p) (hl : Nat.lcm v.den w.den < 2 ^ 63)
    (hb : ∀ i, |g (q i) (p i) * Nat.lcm v.den w.den| < 2 ^ 63) :
    ∃ s, combine nd f v w = .ok s ∧ Rep s (fun i => g (q i) (p i)) ∧ Reduced s := by
  obtain ⟨a, d, rfl, h0, h1, ha, hq⟩ := rep_cases hv
  obtain ⟨b, e, rfl, h0', h1', hb', hp⟩ := rep_cases hw
  simp only at hl hb
  unfold combine
  rw [Res.assertIn_bind nd (decide_eq_true (by simp))]
  obtain ⟨r, hr, -⟩ := Arith.C14_lcm (a := d) (b := e) h0 (by omega) (by omega)
  have hgp : 0 < Nat.gcd d e := Nat.gcd_pos_of_pos_left _ h0
  simp only
  rw [hr, Res.ok_bind]
  simp only
  rw [if_neg hgp.ne', if_neg (by rintro ⟨-, h⟩; omega)]
  have l1 : Nat.lcm d e = d * (e / Nat.gcd d e) := by
    rw [Nat.lcm, Nat.mul_div_assoc _ (Nat.gcd_dvd_right d e)]
  have l2 : Nat.lcm d e = e * (d / Nat.gcd d e) := by
    rw [Nat.lcm, mul_comm d e, Nat.mul_div_assoc _ (Nat.gcd_dvd_left d e)]
  rw [Res.assertIn_bind nd (decide_eq_true ⟨by rw [l1, Nat.mul_div_cancel_left _ h0], by
    conv_rhs => rw [l2]
    rw [Nat.mul_div_cancel_left _ h0']⟩)]
  generalize e / Nat.gcd d e = f0 at l1 ⊢
  generalize d / Nat.gcd d e = f1 at l2 ⊢
  have el : ∀ i, ((h (a i * f0) (b i * f1) : Int) : ℚ) = g (q i) (p i) * Nat.lcm d e := by
    intro i
    rw [hh, hg]
    congr 1
    · rw [l1]; push_cast [hq i]; ring
    · rw [l2]; push_cast [hp i]; ring
  have bd : ∀ i, |h (a i * f0) (b i * f1)| < 2 ^ 63 := by
    intro i
    have := hb i
    rw [← el i] at this
    exact_mod_cast this
  rw [each2_ofFn (c := fun i => h (a i * f0) (b i * f1))]
  swap
  · intro i
    rw [toS_modEq (hf _ _ (Nat.mod_lt _ (by norm_num)) (Nat.mod_lt _ (by norm_num)) _ _ (toU_modEq _ _) (toU_modEq _ _)) (bd i)]
    rfl
  rw [Res.ok_bind]
  exact normalize_spec (rep_mk (Nat.lcm_pos h0 h0') hl bd fun i => (el i).symm)

/-! ### scalar products -/

theorem dotLoop_spec : ∀ {n : Nat} (w a : Fin n → Int) (c : Int), |c| + ∑ i, |w i * a i| < 2 ^ 63 →
    dotLoop (List.ofFn w) (List.ofFn a) c = .ok (c + ∑ i, w i * a i)
  | 0, _, _, c, _ => by simp [dotLoop]
  | n + 1, w, a, c, h => by
    rw [Fin.sum_univ_succ] at h
    rw [List.ofFn_succ, List.ofFn_succ, dotLoop, Fin.sum_univ_succ]
    have h2 : 0 ≤ ∑ i : Fin n, |w i.succ * a i.succ| := Finset.sum_nonneg fun i _ => abs_nonneg _
    have h3 := abs_nonneg c
    have h4 := abs_add_le c (w 0 * a 0)
    rw [sgn_abs (by linarith [abs_nonneg c]), Res.ok_bind, sgn_abs (by linarith), Res.ok_bind,
      dotLoop_spec (fun i => w i.succ) (fun i => a i.succ) _ (by linarith)]
    congr 1; ring

/-- an inner product loop of matrix code, in 64-bit arithmetic -/
theorem forUp_sum {f : Nat → Int} {body : Nat → Int → Res Int} (n : Nat)
    (hb : ∀ i c, i < n → body i c = (do let p ← sgn 64 (f i); sgn 64 (c + p)))
    (h : ∑ i ∈ Finset.range n, |f i| < 2 ^ 63) : Mat.forUp body n 0 0 = .ok (∑ i ∈ Finset.range n, f i) := by
  refine Mat.forUp_ok (fun i => ∑ k ∈ Finset.range i, f k) (by simp) (by simp) ?_
  intro i _ hi
  rw [Nat.zero_add] at hi
  have k1 : ∑ k ∈ Finset.range (i + 1), |f k| ≤ ∑ k ∈ Finset.range n, |f k| :=
    Finset.sum_le_sum_of_subset_of_nonneg (Finset.range_mono hi) fun _ _ _ => abs_nonneg _
  have k2 : |∑ k ∈ Finset.range (i + 1), f k| ≤ ∑ k ∈ Finset.range (i + 1), |f k| := Finset.abs_sum_le_sum_abs _ _
  have k3 : |f i| ≤ ∑ k ∈ Finset.range (i + 1), |f k| :=
    Finset.single_le_sum (f := fun k => |f k|) (fun _ _ => abs_nonneg _) (Finset.mem_range.2 (Nat.lt_succ_self i))
  rw [hb i _ hi, sgn_abs (by linarith), Res.ok_bind, ← Finset.sum_range_succ, sgn_abs (by linarith)]

end Verif.RatVec
