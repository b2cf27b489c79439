import Verif.BigInt.DivLemmas2
/-
Helper lemmas: the case analysis of `reduce_mod`.
-/
namespace Verif.BigInt

/-- `q` and `r` are floor quotient and remainder of `a` by `b` -/
def FloorDiv (a b q r : Int) : Prop :=
  a = b * q + r ∧ (0 ≤ r ∧ r < b ∨ b < r ∧ r ≤ 0)

theorem floorDiv_iff {a b q r : Int} (hb : b ≠ 0) :
    FloorDiv a b q r ↔ q = a.fdiv b ∧ r = a.fmod b := by
  have h1 := Int.mul_fdiv_add_fmod a b
  constructor
  · rintro ⟨e, h⟩
    have hq : q = a.fdiv b := by
      rcases h with h | h
      · rw [Int.fdiv_eq_ediv_of_nonneg _ (by omega)]
        exact ((Int.ediv_emod_unique (by omega)).2 ⟨by rw [e]; ring, h.1, h.2⟩).1.symm
      · rw [← Int.neg_fdiv_neg, Int.fdiv_eq_ediv_of_nonneg _ (by omega)]
        exact ((Int.ediv_emod_unique (r := -r) (by omega)).2
          ⟨by rw [e]; ring, by omega, by omega⟩).1.symm
    refine ⟨hq, ?_⟩
    rw [← hq] at h1; omega
  · rintro ⟨rfl, rfl⟩
    refine ⟨h1.symm, ?_⟩
    rcases lt_or_gt_of_ne hb with h | h
    · right
      have h2 := Int.emod_lt_of_pos (-a) (b := -b) (by omega)
      have h3 := Int.emod_nonneg (-a) (b := -b) (by omega)
      rw [← Int.fmod_eq_emod_of_nonneg _ (by omega), Int.neg_fmod_neg] at h2 h3
      omega
    · left
      rw [Int.fmod_eq_emod_of_nonneg _ h.le]
      exact ⟨Int.emod_nonneg _ hb, Int.emod_lt_of_pos _ h⟩

/-- bounds on the value from the top digit -/
theorem sval_top {d : Digits} {n : Nat} (h : WF d) (hl : d.length = n + 1) :
    sval [back d] * 𝐁 ^ n ≤ sval d ∧ sval d < (sval [back d] + 1) * 𝐁 ^ n := by
  obtain ⟨u1, u2⟩ := uval_ge_back (l := d) (n := n) hl
  have u2 := u2 h.2
  have u1' : ((back d : Nat) : Int) * 𝐁 ^ n ≤ uval d := by exact_mod_cast u1
  have u2' : (uval d : Int) < (back d + 1 : Int) * 𝐁 ^ n := by exact_mod_cast u2
  rw [sval_uval d, sval_single, hl, pow_succ]
  by_cases hb : 𝐇 ≤ back d
  · rw [if_pos hb, if_neg (by omega)]
    push_cast at *
    constructor <;> linarith
  · rw [if_neg hb, if_pos (by omega)]
    constructor <;> linarith

/-- the situation in which the shortcut of `reduce_mod` goes wrong -/
def BadShortcut (d divisor : Digits) : Prop :=
  d.length = divisor.length ∧ back d + back divisor = 𝐁 - 1 ∧
  sval divisor < 0 ∧ -sval divisor < sval d

theorem back_sign {d : Digits} (h : WF d) : 𝐇 ≤ back d ↔ sval d < 0 := by
  rw [← isNegative_iff h]; simp [isNegative]

/-- size comparison implies magnitude comparison -/
theorem easy_len {d divisor : Digits} (hd : Norm d) (hx : Norm divisor)
    (hl : d.length < divisor.length) :
    ∃ K : Int, 0 < K ∧ -K ≤ sval d ∧ sval d < K ∧ (sval divisor < -K ∨ K ≤ sval divisor) := by
  have h0 : d.length ≠ 0 := by simpa using hd.wf.1
  obtain ⟨n, hn⟩ : ∃ n, divisor.length = n + 2 := ⟨divisor.length - 2, by omega⟩
  have h1 := (norm_iff_value n hx.wf hn).1 hx
  have h2 := (rep_length (d := d) (n := sval d) (rep_iff.2 ⟨hd, rfl⟩) n).1 (by omega)
  exact ⟨𝐇 * 𝐁 ^ n, by positivity, h2.1, h2.2, h1⟩

theorem easy_spec {d divisor : Digits} (hd : Norm d) (hx : Norm divisor)
    (hl : d.length ≤ divisor.length)
    (hc : d.length < divisor.length ∨
       (if isNegative d then dneg (back d) else back d) <
       (if isNegative divisor then dneg (back divisor) else back divisor))
    (hbad : ¬ BadShortcut d divisor) :
    (isNegative d = isNegative divisor ∨ isZero d = true →
      FloorDiv (sval d) (sval divisor) 0 (sval d)) ∧
    (¬ (isNegative d = isNegative divisor ∨ isZero d = true) →
      FloorDiv (sval d) (sval divisor) (-1) (sval d + sval divisor)) := by
  have nd := isNegative_iff hd.wf
  have nx := isNegative_iff hx.wf
  have hz : isZero d = true ↔ sval d = 0 :=
    (C02_sign (rep_iff.2 ⟨hd, rfl⟩)).2.1
  -- |a| ≤ |b| with the necessary strictness
  have key : sval divisor ≠ 0 ∧
      (sval d < 0 → sval divisor < 0 → sval divisor < sval d) ∧
      (sval d < 0 → 0 ≤ sval divisor → -sval d ≤ sval divisor) ∧
      (0 ≤ sval d → 0 ≤ sval divisor → sval d < sval divisor) ∧
      (0 ≤ sval d → sval divisor < 0 → sval d ≤ - sval divisor) := by
    by_cases hlt : d.length < divisor.length
    · obtain ⟨K, h0, h1, h2, h3⟩ := easy_len hd hx hlt
      omega
    · replace hc := hc.resolve_left hlt
      have hle : d.length = divisor.length := by omega
      obtain ⟨n, hn⟩ : ∃ n, d.length = n + 1 :=
        ⟨d.length - 1, by have : d.length ≠ 0 := by simpa using hd.wf.1
                          omega⟩
      have t1 := sval_top hd.wf hn
      have t2 := sval_top hx.wf (hle ▸ hn)
      have b1 := back_lt hd.wf
      have b2 := back_lt hx.wf
      have s1 := back_sign hd.wf
      have s2 := back_sign hx.wf
      have hP : (0 : Int) < 𝐁 ^ n := by positivity
      unfold BadShortcut at hbad
      generalize sval d = a at *
      generalize sval divisor = b at *
      generalize (𝐁 : Int) ^ n = P at *
      rw [sval_single] at t1 t2
      generalize back d = ta at *
      generalize back divisor = tb at *
      simp only [nd, nx, dneg] at hc
      have mono : ∀ {u v : Int}, u ≤ v → u * P ≤ v * P :=
        fun h => mul_le_mul_of_nonneg_right h hP.le
      have hmm : ∀ t : Nat, 𝐇 ≤ t → t < 𝐁 → (𝐁 - t) % 𝐁 = 𝐁 - t := fun t h h' =>
        Nat.mod_eq_of_lt (by omega)
      have e1 : a < 0 → (if ta < 𝐇 then (ta : Int) else (ta : Int) - 𝐁) = (ta : Int) - 𝐁 := by
        intro h; rw [if_neg (by omega)]
      have e2 : 0 ≤ a → (if ta < 𝐇 then (ta : Int) else (ta : Int) - 𝐁) = (ta : Int) := by
        intro h; rw [if_pos (by omega)]
      have e3 : b < 0 → (if tb < 𝐇 then (tb : Int) else (tb : Int) - 𝐁) = (tb : Int) - 𝐁 := by
        intro h; rw [if_neg (by omega)]
      have e4 : 0 ≤ b → (if tb < 𝐇 then (tb : Int) else (tb : Int) - 𝐁) = (tb : Int) := by
        intro h; rw [if_pos (by omega)]
      refine ⟨?_, ?_, ?_, ?_, ?_⟩
      · intro hb0
        rw [e4 (by omega)] at t2
        rw [if_neg (show ¬ b < 0 by omega)] at hc
        have : (1 : Int) * P ≤ tb * P := mono (by omega)
        omega
      · intro ha hb
        rw [e1 ha] at t1; rw [e3 hb] at t2
        rw [if_pos ha, if_pos hb, hmm ta (by omega) b1, hmm tb (by omega) b2] at hc
        have := mono (u := (tb : Int) - 𝐁 + 1) (v := (ta : Int) - 𝐁) (by omega)
        linarith
      · intro ha hb
        rw [e1 ha] at t1; rw [e4 hb] at t2
        rw [if_pos ha, if_neg (by omega), hmm ta (by omega) b1] at hc
        have := mono (u := -((ta : Int) - 𝐁)) (v := (tb : Int)) (by omega)
        linarith
      · intro ha hb
        rw [e2 ha] at t1; rw [e4 hb] at t2
        rw [if_neg (by omega), if_neg (by omega)] at hc
        have := mono (u := (ta : Int) + 1) (v := (tb : Int)) (by omega)
        linarith
      · intro ha hb
        rw [e2 ha] at t1; rw [e3 hb] at t2
        rw [if_neg (by omega), if_pos hb, hmm tb (by omega) b2] at hc
        by_cases he : ta + tb = 𝐁 - 1
        · by_contra hcon
          exact hbad ⟨hle, he, hb, by omega⟩
        · have := mono (u := (ta : Int) + 1) (v := -((tb : Int) - 𝐁 + 1)) (by omega)
          linarith
  constructor
  · rintro (h | h)
    · refine ⟨by ring, ?_⟩
      have : sval d < 0 ↔ sval divisor < 0 := by rw [← nd, ← nx, h]
      omega
    · rw [hz] at h
      refine ⟨by ring, ?_⟩
      rw [h]
      omega
  · intro h
    rw [not_or, hz] at h
    have h2 : ¬ (sval d < 0 ↔ sval divisor < 0) := by
      rw [← nd, ← nx]
      intro h3
      exact h.1 (Bool.eq_iff_iff.2 h3)
    refine ⟨by ring, ?_⟩
    omega

theorem floorDiv_pos {a D : Int} (h : 0 < D) : FloorDiv a D (a / D) (a % D) :=
  ⟨(Int.mul_ediv_add_emod a D).symm, Or.inl ⟨Int.emod_nonneg _ (by omega), Int.emod_lt_of_pos _ h⟩⟩

theorem floorDiv_neg {a D : Int} (h : 0 < D) : FloorDiv a (-D) (-a / D) (-(-a % D)) := by
  have h1 := Int.mul_ediv_add_emod (-a) D
  have h2 := Int.emod_nonneg (-a) (b := D) (by omega)
  have h3 := Int.emod_lt_of_pos (-a) h
  exact ⟨by linarith, Or.inr ⟨by omega, by omega⟩⟩

theorem uval_dropLast {l : Digits} (h : l ≠ []) (hb : back l = 0) : uval l.dropLast = uval l := by
  rcases List.eq_nil_or_concat l with rfl | ⟨m, t, rfl⟩
  · exact absurd rfl h
  · rw [List.concat_eq_append] at *
    rw [back_append_single] at hb
    subst hb
    rw [List.dropLast_concat, wval_split]; simp

theorem back_ne_zero {m : Digits} {t : Nat} (h : Norm (m ++ [t, 0])) : back (m ++ [t]) ≠ 0 := by
  intro hb
  rw [back_append_single] at hb
  subst hb
  apply h.2.1
  have : ∀ m : Digits, top2 (m ++ [0, 0]) = some (0, 0) := by
    intro m
    induction m with
    | nil => rfl
    | cons x m ih =>
      match m, ih with
      | [], ih => rfl
      | [y], ih => rfl
      | y :: z :: m, ih => exact ih
  exact ⟨0, this m, by norm_num⟩

/-- the shape of the positive divisor used in the long cases -/
theorem divisor_shape {div : Digits} (hn : Norm div) (h2 : 2 ≤ div.length) (hpos : 0 < sval div) :
    let v := if back div = 0 then div.dropLast else div
    Dig v ∧ 1 ≤ v.length ∧ back v ≠ 0 ∧ (uval v : Int) = sval div ∧
    (back div ≠ 0 → v = div) ∧ (back div = 0 → v.length + 1 = div.length) := by
  intro v
  have hu := sval_nonneg_uval hn.wf hpos.le
  by_cases hb : back div = 0
  · have e : v = div.dropLast := if_pos hb
    obtain ⟨m, t, s, rfl⟩ : ∃ m t s, div = m ++ [t, s] := by
      rcases List.eq_nil_or_concat div with rfl | ⟨m, s, rfl⟩
      · simp at h2
      · rcases List.eq_nil_or_concat m with rfl | ⟨m, t, rfl⟩
        · simp at h2
        · exact ⟨m, t, s, by simp⟩
    have hs : s = 0 := by
      have : m ++ [t, s] = (m ++ [t]) ++ [s] := by simp
      rw [this, back_append_single] at hb
      exact hb
    subst hs
    have e' : v = m ++ [t] := by
      rw [e]
      have : m ++ [t, 0] = (m ++ [t]) ++ [0] := by simp
      rw [this, List.dropLast_concat]
    have hdig := hn.wf.2
    refine ⟨?_, by simp [e'], by rw [e']; exact back_ne_zero hn, ?_, fun h => absurd hb h, fun _ => by simp [e']⟩
    · rw [e']; intro x hx; exact hdig x (by simp at hx ⊢; tauto)
    · rw [hu, e, uval_dropLast (by simp) hb]
  · have e : v = div := if_neg hb
    rw [e]
    exact ⟨hn.wf.2, by omega, hb, hu.symm, fun _ => rfl, fun h => absurd h hb⟩

theorem single_digit {v : Digits} (h : v.length = 1) : v = [v.headD 0] := by
  match v, h with
  | [x], _ => rfl

/-- the part of `reduce_mod` for divisors of at least two digits -/
theorem reduce_long {d divisor : Digits} (hd : Norm d) (hx : Norm divisor)
    (h2 : 2 ≤ divisor.length) (hl : divisor.length ≤ d.length)
    (hc : d.length = divisor.length → isNegative divisor = true →
       ¬ (if isNegative d then dneg (back d) else back d) < dneg (back divisor)) :
    let negDiv := isNegative divisor
    let div := if negDiv then negate divisor else divisor
    let d' := if negDiv then negate d else d
    ∃ q r, (if back div = 0 then
        (if div.dropLast.length = 1 then
          Outcome.ok ((shiftModulo d' (div.dropLast.headD 0)).1,
            if negDiv then negate (fromUnsigned (shiftModulo d' (div.dropLast.headD 0)).2)
            else fromUnsigned (shiftModulo d' (div.dropLast.headD 0)).2)
        else longDiv d' div.dropLast negDiv)
      else longDiv d' div negDiv) = .ok (q, r) ∧
      Norm q ∧ Norm r ∧ FloorDiv (sval d) (sval divisor) (sval q) (sval r) := by
  intro negDiv div d'
  obtain ⟨n, hn⟩ : ∃ n, divisor.length = n + 2 := ⟨divisor.length - 2, by omega⟩
  have hv := (norm_iff_value n hx.wf hn).1 hx
  have hrep : Rep divisor (sval divisor) := rep_iff.2 ⟨hx, rfl⟩
  have hrd : Rep d (sval d) := rep_iff.2 ⟨hd, rfl⟩
  have hin := (rep_length hrep (n + 1)).1 (by omega)
  have hPn : (0 : Int) < 𝐁 ^ n := by positivity
  have hPn1 : (1 : Int) ≤ 𝐁 ^ n := by omega
  have nx : negDiv = true ↔ sval divisor < 0 := isNegative_iff hx.wf
  -- properties of `div` and `d'`
  have hdivN : Norm div := by
    by_cases h : negDiv = true
    · have e : div = negate divisor := if_pos h
      rw [e]; exact (negate_spec hx.wf).1
    · have e : div = divisor := if_neg h
      rw [e]; exact hx
  have hdiv : sval div = if negDiv then -sval divisor else sval divisor := by
    by_cases h : negDiv = true
    · have e : div = negate divisor := if_pos h
      rw [e, if_pos h]; exact (negate_spec hx.wf).2
    · have e : div = divisor := if_neg h
      rw [e, if_neg h]
  have hdN : Norm d' := by
    by_cases h : negDiv = true
    · have e : d' = negate d := if_pos h
      rw [e]; exact (negate_spec hd.wf).1
    · have e : d' = d := if_neg h
      rw [e]; exact hd
  have hd' : sval d' = if negDiv then -sval d else sval d := by
    by_cases h : negDiv = true
    · have e : d' = negate d := if_pos h
      rw [e, if_pos h]; exact (negate_spec hd.wf).2
    · have e : d' = d := if_neg h
      rw [e, if_neg h]
  have hdrep : Rep div (sval div) := rep_iff.2 ⟨hdivN, rfl⟩
  have hpos : 0 < sval div := by
    rw [hdiv]
    by_cases h : negDiv = true
    · rw [if_pos h]; have := nx.1 h; omega
    · rw [if_neg h]
      have : ¬ sval divisor < 0 := fun h' => h (nx.2 h')
      rcases Int.lt_or_eq_of_le (not_lt.1 this) with h' | h'
      · exact h'
      · exfalso; rw [← h'] at hv
        push_cast at *
        rcases hv with hv | hv <;> linarith
  have hlen2 : 2 ≤ div.length := by
    by_contra hcon
    have := (rep_length hdrep 0).1 (by omega)
    rw [hdiv] at this
    have hle : (𝐇 : Int) ≤ 𝐇 * 𝐁 ^ n := by push_cast at *; linarith
    rw [pow_zero, mul_one] at this
    split at this
    · next h => have := nx.1 h; push_cast at *; rcases hv with hv | hv <;> linarith
    · next h =>
      have : ¬ sval divisor < 0 := fun h' => h (nx.2 h')
      push_cast at *; rcases hv with hv | hv <;> linarith
  obtain ⟨v1, v2, v3, v4, v5, v6⟩ := divisor_shape hdivN hlen2 hpos
  obtain ⟨v, hvdef⟩ : ∃ v, v = if back div = 0 then div.dropLast else div := ⟨_, rfl⟩
  rw [← hvdef] at v1 v2 v3 v4 v5 v6
  have hlv := uval_lt v1
  obtain ⟨j, hj⟩ : ∃ j, v.length = j + 1 := ⟨v.length - 1, by omega⟩
  have hvback := (uval_ge_back hj).1
  -- the positive divisor has at most as many digits as the original
  have hvlen : v.length ≤ n + 2 := by
    by_contra hcon
    have hge : (𝐁 : Int) ^ (n + 2) ≤ uval v := by
      have h1 : 1 * 𝐁 ^ j ≤ back v * 𝐁 ^ j := Nat.mul_le_mul_right _ (by omega)
      have h2 : 𝐁 ^ (n + 2) ≤ 𝐁 ^ j := Nat.pow_le_pow_right (by norm_num) (by omega)
      have : 𝐁 ^ (n + 2) ≤ uval v := by omega
      exact_mod_cast this
    rw [v4, hdiv] at hge
    have e1 : (𝐁 : Int) ^ (n + 2) = 𝐁 * 𝐁 ^ (n + 1) := by rw [pow_succ _ (n+1)]; ring
    have hp : (0 : Int) < 𝐁 ^ (n + 1) := by positivity
    rw [e1] at hge
    split at hge <;> (push_cast at *; linarith [hin.1, hin.2])
  -- the dividend is long enough
  have hdl : 2 ≤ v.length → v.length ≤ d'.length := by
    intro hv2
    by_cases h : negDiv = true
    · by_contra hcon
      rw [if_pos h] at hd'
      obtain ⟨k, hk⟩ : ∃ k, v.length = k + 2 := ⟨v.length - 2, by omega⟩
      have r1 := (rep_length (rep_iff.2 ⟨hdN, rfl⟩) k).1 (by omega)
      rw [hd'] at r1
      have r2 : ¬ d.length ≤ k + 1 := by omega
      rw [rep_length hrd k] at r2
      have ha : sval d = 𝐇 * 𝐁 ^ k := by
        by_contra hne; apply r2; constructor <;> omega
      have hdlen : d.length ≤ k + 1 + 1 := by
        rw [rep_length hrd (k + 1), ha, pow_succ]
        have : (0 : Int) < 𝐁 ^ k := by positivity
        push_cast at *; constructor <;> linarith
      have hdeq : d.length = divisor.length := by omega
      have hdl2 : d.length = (k + 1) + 1 := by omega
      have t := sval_top hd.wf hdl2
      have hb0 : back d = 0 := by
        have s1 := back_sign hd.wf
        have hkp : (0 : Int) < 𝐁 ^ k := by positivity
        have hnn : (0 : Int) ≤ sval d := by rw [ha]; positivity
        have t1 := t.1
        rw [sval_single, if_pos (by omega), ha, pow_succ] at t1
        by_contra hb
        have : (1 : Int) * (𝐁 ^ k * 𝐁) ≤ back d * (𝐁 ^ k * 𝐁) :=
          mul_le_mul_of_nonneg_right (by omega) (by positivity)
        push_cast at *
        linarith
      have hcc := hc hdeq h
      have hnd : ¬ isNegative d = true := by simp [isNegative, hb0]
      rw [if_neg hnd, hb0] at hcc
      have b2 := back_lt hx.wf
      have b3 : 𝐇 ≤ back divisor := by simpa [negDiv, isNegative] using h
      unfold dneg at hcc
      omega
    · have e : d' = d := if_neg h
      rw [e]; omega
  have hDpos : (0 : Int) < uval v := by rw [v4]; exact hpos
  have fin : ∀ q r : Digits, Norm q → sval q = sval d' / uval v →
      sval r = (if negDiv then -(sval d' % uval v) else sval d' % uval v) →
      FloorDiv (sval d) (sval divisor) (sval q) (sval r) := by
    intro q r _ hq hr
    rw [hq, hr, hd']
    rw [hdiv] at v4
    by_cases h : negDiv = true
    · rw [if_pos h] at v4
      have := floorDiv_neg (a := sval d) hDpos
      simp only [h, if_true]
      rw [show sval divisor = -(uval v : Int) by omega]
      exact this
    · rw [if_neg h] at v4
      have := floorDiv_pos (a := sval d) hDpos
      simp only [h]
      rw [show sval divisor = (uval v : Int) by omega]
      exact this
  -- the long division result
  have hlong : 2 ≤ v.length → ∃ q r, longDiv d' v negDiv = .ok (q, r) ∧ Norm q ∧ Norm r ∧
      FloorDiv (sval d) (sval divisor) (sval q) (sval r) := by
    intro hv2
    obtain ⟨q, r, e, e1, e2, e3, e4⟩ := longDiv_spec (negDiv := negDiv) hdN.wf v1 hv2 v3 (hdl hv2)
    exact ⟨q, r, e, e1, e3, fin q r e1 e2 e4⟩
  by_cases hb : back div = 0
  · rw [if_pos hb] at hvdef ⊢
    rw [← hvdef]
    by_cases h1 : v.length = 1
    · rw [if_pos h1]
      have hve := single_digit h1
      obtain ⟨x, hx0⟩ : ∃ x, x = v.headD 0 := ⟨_, rfl⟩
      rw [← hx0] at hve ⊢
      have hux : uval v = x := by rw [hve]; simp [uval]
      have hxB : x < 𝐁 := by rw [hve] at v1; exact (dig_cons.1 v1).1
      rw [hux] at hDpos fin
      have hx0 : 0 < x := by exact_mod_cast hDpos
      obtain ⟨s1, s2, s3⟩ := shiftModulo_spec hdN.wf hx0 hxB
      have hlt : (shiftModulo d' x).2 < 2 ^ 64 := by
        have := Int.emod_lt_of_pos (sval d') hDpos
        omega
      have hfu := rep_iff.1 (C01_fromUnsigned hlt)
      refine ⟨_, _, rfl, s1, ?_, fin _ _ s1 s2 ?_⟩
      · split
        · exact (negate_spec hfu.1.wf).1
        · exact hfu.1
      · split
        · rw [(negate_spec hfu.1.wf).2, hfu.2, s3]
        · rw [hfu.2, s3]
    · rw [if_neg h1]
      exact hlong (by omega)
  · rw [if_neg hb] at hvdef ⊢
    rw [hvdef] at hlong
    exact hlong hlen2

/-- `reduce_mod` computes floor quotient and remainder, except in the bad shortcut case -/
theorem reduceMod_spec {d divisor : Digits} (hd : Norm d) (hx : Norm divisor)
    (h0 : sval divisor ≠ 0) (hbad : ¬ BadShortcut d divisor) :
    ∃ q r, reduceMod d divisor = .ok (q, r) ∧ Norm q ∧ Norm r ∧
      FloorDiv (sval d) (sval divisor) (sval q) (sval r) := by
  have ld : d.length ≠ 0 := by simpa using hd.wf.1
  have lx : divisor.length ≠ 0 := by simpa using hx.wf.1
  have hz0 := rep_iff.1 (C01_ofInt (n := 0) (by norm_num))
  have hm1 := rep_iff.1 (C01_ofInt (n := -1) (by norm_num))
  unfold reduceMod
  dsimp only
  by_cases h : d.length ≤ divisor.length ∧ (d.length < divisor.length ∨
       (if isNegative d = true then dneg (back d) else back d) <
       (if isNegative divisor = true then dneg (back divisor) else back divisor))
  · rw [if_pos h]
    have := easy_spec hd hx h.1 h.2 hbad
    split
    · next h2 =>
      refine ⟨_, _, rfl, hz0.1, hd, ?_⟩
      rw [hz0.2]; exact this.1 h2
    · next h2 =>
      have ha := addAssign_spec hd hx
      refine ⟨_, _, rfl, hm1.1, ha.1, ?_⟩
      rw [hm1.2, ha.2]; exact this.2 h2
  · rw [if_neg h]
    by_cases h1 : divisor.length = 1
    · rw [if_pos h1]
      have hve := single_digit h1
      have hneg : isNegative divisor = true ↔ 𝐇 ≤ back divisor := by simp [isNegative]
      have hbk : back divisor = divisor.headD 0 := by rw [hve]; rfl
      have hxB := back_lt hx.wf
      have hsv : sval divisor = toS32 (divisor.headD 0) := by rw [hve]; rfl
      rw [hbk] at hxB hneg
      generalize divisor.headD 0 = x at *
      unfold toS32 at hsv
      split
      · next h3 =>
        unfold dadd at h3
        split
        · next h4 => subst h4; simp at hsv; exact absurd hsv h0
        · next h4 =>
          split
          · next h5 =>
            have := negate_spec hd.wf
            refine ⟨_, _, rfl, this.1, norm_single.2 (by norm_num), ?_⟩
            have e : sval divisor = -1 := by
              have := hneg.1 h5
              rw [hsv, if_neg (by omega)]; omega
            rw [this.2, e, sval_single]
            exact ⟨by norm_num, Or.inr (by norm_num)⟩
          · next h5 =>
            refine ⟨_, _, rfl, hd, norm_single.2 (by norm_num), ?_⟩
            have e : sval divisor = 1 := by
              have : ¬ 𝐇 ≤ x := fun h => h5 (hneg.2 h)
              rw [hsv, if_pos (by omega)]; omega
            rw [e, sval_single]
            exact ⟨by norm_num, Or.inl (by norm_num)⟩
      · next h3 =>
        unfold dadd at h3
        by_cases h5 : isNegative divisor = true
        · have h6 := hneg.1 h5
          simp only [h5, if_true]
          have e : sval divisor = -((𝐁 - x : Nat) : Int) := by
            rw [hsv, if_neg (by omega)]; omega
          have em : dneg x = 𝐁 - x := by unfold dneg; exact Nat.mod_eq_of_lt (by omega)
          have hn := negate_spec hd.wf
          rw [em]
          obtain ⟨s1, s2, s3⟩ := shiftModulo_spec (base := 𝐁 - x) hn.1.wf (by omega) (by omega)
          generalize 𝐁 - x = y at *
          have hy : 0 < y ∧ y ≤ 𝐇 := by omega
          have hlt := Int.emod_lt_of_pos (sval (negate d)) (b := y) (by omega)
          rw [if_pos (by omega)]
          refine ⟨_, _, rfl, s1, norm_single.2 (by unfold dneg; omega), ?_⟩
          have hr : sval [dneg (shiftModulo (negate d) y).2] = -(sval (negate d) % y) := by
            rw [sval_single, ← s3]
            unfold dneg
            split <;> omega
          rw [hr, s2, e, hn.2]
          exact floorDiv_neg (by omega)
        · have h6 : ¬ 𝐇 ≤ x := fun h => h5 (hneg.2 h)
          simp only [h5, Bool.false_eq_true, if_false]
          have e : sval divisor = (x : Int) := by
            rw [hsv, if_pos (by omega)]
          obtain ⟨s1, s2, s3⟩ := shiftModulo_spec (base := x) hd.wf (by omega) (by omega)
          have hlt := Int.emod_lt_of_pos (sval d) (b := x) (by omega)
          rw [if_pos (by omega)]
          refine ⟨_, _, rfl, s1, norm_single.2 (by omega), ?_⟩
          have hr : sval [(shiftModulo d x).2] = sval d % x := by
            rw [sval_single, ← s3, if_pos (by omega)]
          rw [hr, s2, e]
          exact floorDiv_pos (by omega)
    · rw [if_neg h1]
      have hle : divisor.length ≤ d.length := by
        by_contra hcon; exact h ⟨by omega, Or.inl (by omega)⟩
      exact reduce_long hd hx (by omega) hle (by
        intro e1 e2 e3
        apply h
        refine ⟨by omega, Or.inr ?_⟩
        rw [if_pos e2]; exact e3)

theorem reduceMod_zero {d : Digits} (hd : Norm d) : reduceMod d [0] = .throw := by
  have ld : d.length ≠ 0 := by simpa using hd.wf.1
  unfold reduceMod
  have hb : back [0] = 0 := rfl
  have hn : isNegative [0] = false := rfl
  simp only [hb, hn, List.length_singleton]
  rw [if_neg]
  · simp [dadd]
  · rintro ⟨-, h | h⟩
    · omega
    · simp at h

/-- in the bad shortcut case the quotient is −1 and the remainder `a + b` -/
theorem reduceMod_bad {d divisor : Digits} (hd : Norm d) (hx : Norm divisor)
    (hbad : BadShortcut d divisor) :
    reduceMod d divisor = .ok (ofInt32 (-1), addAssign d divisor) := by
  obtain ⟨h1, h2, h3, h4⟩ := hbad
  have nx := (isNegative_iff hx.wf).2 h3
  have nd : ¬ isNegative d = true := fun h => by
    have := (isNegative_iff hd.wf).1 h; omega
  have hz : ¬ isZero d = true := by
    rw [(C02_sign (rep_iff.2 ⟨hd, rfl⟩)).2.1]; omega
  have b2 := back_lt hx.wf
  unfold reduceMod
  dsimp only
  have hcond : d.length ≤ divisor.length ∧ (d.length < divisor.length ∨
       (if isNegative d = true then dneg (back d) else back d) <
       (if isNegative divisor = true then dneg (back divisor) else back divisor)) := by
    refine ⟨by omega, Or.inr ?_⟩
    rw [if_neg nd, if_pos nx]
    have b3 : 𝐇 ≤ back divisor := by simpa [isNegative] using nx
    unfold dneg
    rw [Nat.mod_eq_of_lt (by omega)]
    omega
  rw [if_pos hcond, if_neg]
  rintro (h | h)
  · exact nd (h.trans nx)
  · exact hz h

end Verif.BigInt
