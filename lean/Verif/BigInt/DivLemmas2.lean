import Verif.BigInt.DivLemmas
/-
Helper lemmas: the division loop and `reduce_mod` as a whole.
-/
namespace Verif.BigInt

theorem eq_of_range {x y P k : Int} (hP : 0 < P) (h : x = y + 𝐁 * P * k)
    (hx1 : -(𝐇 * P) ≤ x) (hx2 : x < 𝐇 * P) (hy1 : -(𝐇 * P) ≤ y) (hy2 : y < 𝐇 * P) : x = y := by
  have hk0 : k = 0 := by
    rcases lt_trichotomy k 0 with h' | h' | h'
    · exfalso
      have : P * k ≤ P * (-1) := mul_le_mul_of_nonneg_left (by omega) (by omega)
      push_cast at *
      nlinarith
    · exact h'
    · exfalso
      have : P * 1 ≤ P * k := mul_le_mul_of_nonneg_left (by omega) (by omega)
      push_cast at *
      nlinarith
  rw [h, hk0]; simp

theorem divLoop_spec {div : Digits} {n s lead sub : Nat}
    (hd : Dig div) (hn : div.length = n + 2)
    (h1 : lead * 𝐁 + sub = uval div * 2 ^ s / 𝐁 ^ n) (h2 : 𝐇 ≤ lead) (h3 : lead < 𝐁)
    (h4 : sub < 𝐁) (h5 : s ≤ 31) :
    ∀ {rest w q : Digits} {below : Bool}, Dig rest → Dig w → w.length = n + 3 → Dig q →
    -(uval div * 𝐁 : Int) ≤ wval below w → wval below w < uval div * 𝐁 →
    ∃ w' q' below', divLoop div s lead sub rest w q below = .ok (w', q', below') ∧
      Dig w' ∧ w'.length = n + 2 ∧ Dig q' ∧ q'.length = q.length + rest.length + 1 ∧
      -(uval div : Int) ≤ wval below' w' ∧ wval below' w' < uval div ∧
      (below' = true ↔ wval below' w' < 0) ∧
      ∃ t k : Int, wval below w * 𝐁 ^ rest.length + uval rest.reverse
          = t * uval div + wval below' w' ∧
        (uval q' : Int) = 𝐁 ^ (rest.length + 1) * uval q + t + 𝐁 ^ q'.length * k
  | [], w, q, below, _, hw, hwl, hq, hV1, hV2 => by
    obtain ⟨w', q', b', e, f1, f2, f3, f4, f5, f6, f7, t, k, f8, f9⟩ :=
      divStep_spec hd hn hw hwl hq h1 h2 h3 h4 h5 hV1 hV2
    refine ⟨w', q', b', ?_, f1, f2, f3, by simp [f4], f5, f6, f7, t, k, ?_, ?_⟩
    · unfold divLoop; rw [e]
    · simpa [uval] using f8
    · simpa using f9
  | r :: rest, w, q, below, hr, hw, hwl, hq, hV1, hV2 => by
    obtain ⟨w1, q1, b1, e, f1, f2, f3, f4, f5, f6, f7, t, k, f8, f9⟩ :=
      divStep_spec hd hn hw hwl hq h1 h2 h3 h4 h5 hV1 hV2
    obtain ⟨hr0, hr⟩ := dig_cons.1 hr
    have hV : wval b1 (r :: w1) = r + 𝐁 * wval b1 w1 := by
      unfold wval
      simp only [uval, List.length_cons, pow_succ]
      push_cast
      split <;> ring
    obtain ⟨w', q', b', g, g1, g2, g3, g4, g5, g6, g7, t', k', g8, g9⟩ :=
      divLoop_spec hd hn h1 h2 h3 h4 h5 (rest := rest) (w := r :: w1) (q := q1) (below := b1) hr
        (Dig.cons hr0 f1) (by simp [f2]) f3 (by rw [hV]; omega) (by rw [hV]; omega)
    refine ⟨w', q', b', ?_, g1, g2, g3, ?_, g5, g6, g7, t * 𝐁 ^ (rest.length + 1) + t',
      k + k', ?_, ?_⟩
    · unfold divLoop; rw [e]; exact g
    · rw [g4, f4, List.length_cons]; omega
    · rw [f8]
      rw [hV] at g8
      rw [List.reverse_cons, wval_split, List.length_reverse, List.length_cons, pow_succ]
      push_cast at g8 ⊢
      linarith
    · have hl : q'.length = (q.length + 1) + (rest.length + 1) := by rw [g4, f4]; omega
      rw [g9, f9, hl, f4, pow_add _ (q.length + 1), List.length_cons]
      ring

theorem addBack_spec : ∀ {w div : Digits} {c : Nat}, Dig w → Dig div → c ≤ 1 →
    w.length = div.length →
    Dig (addBack w div c).1 ∧ (addBack w div c).1.length = w.length ∧ (addBack w div c).2 ≤ 1 ∧
    uval (addBack w div c).1 + 𝐁 ^ w.length * (addBack w div c).2 = uval w + uval div + c
  | [], [], c, _, _, hc, _ => by simp [addBack, uval, hc]
  | [], _ :: _, _, _, _, _, h => by simp at h
  | _ :: _, [], _, _, _, _, h => by simp at h
  | a :: w, v :: div, c, hw, hd, hc, hl => by
    obtain ⟨ha, hw⟩ := dig_cons.1 hw
    obtain ⟨hv, hd⟩ := dig_cons.1 hd
    have key : ∀ (y c' : Nat), y < 𝐁 → c' ≤ 1 → y + 𝐁 * c' = a + v + c →
        Dig (y :: (addBack w div c').1) ∧
        (y :: (addBack w div c').1).length = (a :: w).length ∧ (addBack w div c').2 ≤ 1 ∧
        uval (y :: (addBack w div c').1) + 𝐁 ^ (a :: w).length * (addBack w div c').2
          = uval (a :: w) + uval (v :: div) + c := by
      intro y c' hy hc' he
      obtain ⟨i1, i2, i3, i4⟩ := addBack_spec (c := c') hw hd hc' (by simpa using hl)
      refine ⟨Dig.cons hy i1, by simp [i2], i3, ?_⟩
      simp only [uval, List.length_cons, pow_succ]
      linarith
    have hrip := ripple ha hv hc
    simp only [addBack]
    by_cases h0 : dadd v c = 0
    · simp only [h0, ne_eq, not_true_eq_false, if_false]
      exact key _ _ ha hc (hrip.2 h0)
    · simp only [h0, ne_eq, not_false_eq_true, if_true]
      exact key _ _ (dadd_lt _ _) (by split <;> omega) (hrip.1 h0)

theorem uval_ge_back {l : Digits} {n : Nat} (h : l.length = n + 1) :
    back l * 𝐁 ^ n ≤ uval l ∧ (Dig l → uval l < (back l + 1) * 𝐁 ^ n) := by
  rcases List.eq_nil_or_concat l with rfl | ⟨m, t, rfl⟩
  · simp at h
  · rw [List.concat_eq_append] at *
    have hm : m.length = n := by simpa using h
    rw [back_append_single, wval_split, hm]
    refine ⟨by rw [mul_comm]; omega, fun hd => ?_⟩
    have := uval_lt (dig_append.1 hd).1
    rw [hm] at this
    linarith

/-- the digits after the optional sign extension leave room for the quotient -/
theorem longDiv_ext {d div : Digits} {n : Nat} (hd : WF d) (hdiv : Dig div)
    (hn : div.length = n + 2) (ht : back div ≠ 0) (hl : div.length ≤ d.length) :
    let d1 := if d.length = div.length ∨
      (if isNegative d = true then back d ≤ dnot (back div / 2) else back div / 2 ≤ back d)
      then signExtend d (d.length + 1) else d
    ∃ k, WF d1 ∧ sval d1 = sval d ∧ isNegative d1 = isNegative d ∧ d1.length = k + (n + 3) ∧
      -(𝐇 * (uval div * 𝐁 ^ k) : Int) ≤ sval d ∧ sval d < 𝐇 * (uval div * 𝐁 ^ k) := by
  have hDge := (uval_ge_back (l := div) (n := n + 1) hn).1
  have hDge' : ((back div : Nat) : Int) * 𝐁 ^ (n + 1) ≤ uval div := by exact_mod_cast hDge
  intro d1
  by_cases hc : d.length = div.length ∨
      (if isNegative d = true then back d ≤ dnot (back div / 2) else back div / 2 ≤ back d)
  · have e : d1 = signExtend d (d.length + 1) := if_pos hc
    obtain ⟨s1, s2, s3, s4⟩ := signExtend_spec hd (d.length + 1)
    have s3 := s3 (by omega)
    obtain ⟨k, hk⟩ : ∃ k, d.length = k + (n + 2) := ⟨d.length - (n + 2), by omega⟩
    refine ⟨k, by rw [e]; exact s1, by rw [e]; exact s2, by rw [e]; exact s4,
      by rw [e, s3, hk]; ring, ?_⟩
    have hr := sval_range (k + (n + 1)) hd (by omega)
    have h1 : (𝐁 : Int) ^ (n + 1) ≤ uval div := by
      have h0 : (0 : Int) < 𝐁 ^ (n + 1) := by positivity
      have : (1 : Int) * 𝐁 ^ (n + 1) ≤ back div * 𝐁 ^ (n + 1) :=
        mul_le_mul_of_nonneg_right (by omega) h0.le
      linarith
    have h2 : (𝐁 : Int) ^ (k + (n + 1)) ≤ uval div * 𝐁 ^ k := by
      rw [pow_add, mul_comm]
      exact mul_le_mul_of_nonneg_right h1 (by positivity)
    constructor
    · push_cast at *; linarith [hr.1]
    · push_cast at *; linarith [hr.2]
  · have e : d1 = d := if_neg hc
    rw [not_or] at hc
    obtain ⟨k, hk⟩ : ∃ k, d.length = k + (n + 3) := ⟨d.length - (n + 3), by omega⟩
    refine ⟨k, by rw [e]; exact hd, by rw [e], by rw [e], by rw [e, hk], ?_⟩
    obtain ⟨u1, u2⟩ := uval_ge_back (l := d) (n := k + (n + 2)) (by omega)
    have u2 := u2 hd.2
    have u1' : ((back d : Nat) : Int) * 𝐁 ^ (k + (n + 2)) ≤ uval d := by exact_mod_cast u1
    have u2' : (uval d : Int) < (back d + 1 : Int) * 𝐁 ^ (k + (n + 2)) := by exact_mod_cast u2
    have hP : (0 : Int) < (𝐁 : Int) ^ (k + (n + 2)) := by positivity
    -- (top div / 2)·𝐁^(k+n+2) ≤ 𝐇·D·𝐁^k
    have hhalf : ((back div / 2 : Nat) : Int) * 𝐁 ^ (k + (n + 2)) ≤ 𝐇 * (uval div * 𝐁 ^ k) := by
      have a1 : (2 : Int) * ((back div / 2 : Nat) : Int) ≤ back div := by omega
      have a2 : (2 : Int) * ((back div / 2 : Nat) : Int) * 𝐁 ^ (n + 1) ≤ uval div :=
        le_trans (mul_le_mul_of_nonneg_right a1 (by positivity)) hDge'
      have a3 : (2 : Int) * ((back div / 2 : Nat) : Int) * 𝐁 ^ (n + 1) * 𝐁 ^ k
          ≤ uval div * 𝐁 ^ k := mul_le_mul_of_nonneg_right a2 (by positivity)
      have e1 : (𝐁 : Int) ^ (k + (n + 2)) = 𝐁 * (𝐁 ^ (n + 1) * 𝐁 ^ k) := by
        rw [pow_add, pow_succ _ (n + 1)]; ring
      rw [e1]
      push_cast at a3 ⊢
      linarith
    have hsv := sval_uval d
    by_cases hneg : isNegative d = true
    · have hb : 𝐇 ≤ back d := by simpa [isNegative] using hneg
      have hc2 : ¬ back d ≤ dnot (back div / 2) := by simpa [hneg] using hc.2
      rw [if_pos hb, hk] at hsv
      have e1 : (𝐁 : Int) ^ (k + (n + 3)) = 𝐁 * 𝐁 ^ (k + (n + 2)) := by
        have : k + (n + 3) = (k + (n + 2)) + 1 := by ring
        rw [this, pow_succ]; ring
      have hdb := back_lt hd
      have hlow : -((back div / 2 : Nat) : Int) * 𝐁 ^ (k + (n + 2)) ≤ sval d := by
        have a1 : (𝐁 : Int) - back d ≤ ((back div / 2 : Nat) : Int) := by
          unfold dnot at hc2; omega
        have a2 := mul_le_mul_of_nonneg_right a1 hP.le
        rw [hsv, e1]
        push_cast at *
        linarith
      have hlt0 : sval d < 0 := (isNegative_iff hd).1 hneg
      constructor
      · push_cast at *; linarith
      · have : (0 : Int) ≤ 𝐇 * (uval div * 𝐁 ^ k) := by positivity
        omega
    · have hb : ¬ 𝐇 ≤ back d := by simpa [isNegative] using hneg
      have hc2 : ¬ back div / 2 ≤ back d := by simpa [hneg] using hc.2
      rw [if_neg hb, sub_zero] at hsv
      constructor
      · have : (0 : Int) ≤ 𝐇 * (uval div * 𝐁 ^ k) := by positivity
        rw [hsv]
        have : (0 : Int) ≤ uval d := by positivity
        omega
      · rw [hsv]
        have a1 : ((back d + 1 : Nat) : Int) ≤ ((back div / 2 : Nat) : Int) := by omega
        have a2 := mul_le_mul_of_nonneg_right a1 hP.le
        push_cast at *
        linarith

theorem shrinkPos_norm {l : Digits} (h : WF l) (hb : back l < 𝐇) :
    Norm (shrinkPos l) ∧ sval (shrinkPos l) = sval l := by
  have hsp := shrinkPos_spec h
  refine ⟨⟨hsp.1, hsp.2.2.1, fun hh => ?_⟩, hsp.2.1⟩
  have := negRed_back (hsp.2.2.2 hh); omega

theorem longDiv_spec {d div : Digits} {negDiv : Bool} (hd : WF d) (hdiv : Dig div)
    (hn : 2 ≤ div.length) (ht : back div ≠ 0) (hl : div.length ≤ d.length) :
    ∃ q r, longDiv d div negDiv = .ok (q, r) ∧ Norm q ∧ sval q = sval d / uval div ∧
      Norm r ∧ sval r = if negDiv then -(sval d % uval div) else sval d % uval div := by
  obtain ⟨n, hn⟩ : ∃ n, div.length = n + 2 := ⟨div.length - 2, by omega⟩
  obtain ⟨k, x1, x2, x3, x4, x5, x6⟩ := longDiv_ext hd hdiv hn ht hl
  obtain ⟨y1, y2, y3, y4, y5⟩ := work_spec hdiv hn ht rfl
  unfold longDiv
  dsimp only
  generalize hd1 : (if d.length = div.length ∨
      (if isNegative d = true then back d ≤ dnot (back div / 2) else back div / 2 ≤ back d)
      then signExtend d (d.length + 1) else d) = d1 at *
  generalize 32 - lastBit (back div) = s at *
  generalize (if 0 < s then lsl (List.drop (div.length - if s = 0 ∨ div.length = 2 then 2 else 3) div) s
    else List.drop (div.length - if s = 0 ∨ div.length = 2 then 2 else 3) div) = work at *
  generalize work.getD (work.length - 1) 0 = lead at *
  generalize work.getD (work.length - 2) 0 = sub at *
  have hD0 : 0 < uval div := by
    rcases Nat.eq_zero_or_pos (uval div) with h | h
    · rw [h] at y1; simp at y1; omega
    · exact h
  have hD0' : (0 : Int) < uval div := by exact_mod_cast hD0
  have hk : d1.length - (div.length + 1) = k := by omega
  rw [hk]
  have hsplit := dig_append.1 (show Dig (d1.take k ++ d1.drop k) by
    rw [List.take_append_drop]; exact x1.2)
  have htl : (d1.take k).length = k := by simp; omega
  have hdl : (d1.drop k).length = n + 3 := by simp; omega
  have hPk : (0 : Int) < 𝐁 ^ k := by positivity
  -- value of the dividend in terms of the window
  have hA : sval d = uval (d1.take k) + 𝐁 ^ k * wval (isNegative d) (d1.drop k) := by
    rw [← x2, sval_uval d1]
    have e1 : (uval d1 : Int) = uval (d1.take k) + 𝐁 ^ k * uval (d1.drop k) := by
      conv_lhs => rw [← List.take_append_drop k d1]
      rw [uval_append, htl]; push_cast; ring
    have e2 : 𝐇 ≤ back d1 ↔ isNegative d = true := by rw [← x3]; simp [isNegative]
    unfold wval
    simp only [e1, e2, hdl, x4]
    rw [pow_add]
    split <;> ring
  have hlo : (uval (d1.take k) : Int) < 𝐁 ^ k := by
    have := uval_lt hsplit.1; rw [htl] at this; exact_mod_cast this
  have hlo0 : (0 : Int) ≤ uval (d1.take k) := by positivity
  have hV2 : wval (isNegative d) (d1.drop k) < uval div * 𝐇 := by
    have : (𝐁 : Int) ^ k * wval (isNegative d) (d1.drop k) < 𝐁 ^ k * (uval div * 𝐇) := by
      push_cast at *; linarith
    exact lt_of_mul_lt_mul_left this hPk.le
  have hV1 : -(uval div * 𝐇 : Int) ≤ wval (isNegative d) (d1.drop k) := by
    have : (𝐁 : Int) ^ k * (-(uval div * 𝐇 : Int)) < 𝐁 ^ k * (wval (isNegative d) (d1.drop k) + 1) := by
      push_cast at *; linarith
    have := lt_of_mul_lt_mul_left this hPk.le
    omega
  obtain ⟨w, q, b, e, f1, f2, f3, f4, f5, f6, f7, t, kk, f8, f9⟩ :=
    divLoop_spec hdiv hn y1 y2 y3 y4 y5 (rest := (d1.take k).reverse) (w := d1.drop k) (q := [])
      (below := isNegative d) (dig_reverse.2 hsplit.1) hsplit.2 hdl dig_nil (by omega) (by omega)
  rw [e]
  rw [List.reverse_reverse, List.length_reverse, htl] at f8
  rw [List.length_reverse, htl, List.length_nil, zero_add] at f4
  simp only [uval, Nat.cast_zero, mul_zero, zero_add] at f9
  have hA' : sval d = t * uval div + wval b w := by rw [hA, ← f8]; ring
  have hwlt := uval_lt f1
  rw [f2] at hwlt
  -- after the final correction
  obtain ⟨w2, q2, hfin, g1, g2, g3, g4, T, k2, g5, g6⟩ : ∃ w2 q2,
      (if b = true then
        (if (addBack w div 0).2 = 1 then Outcome.ok ((addBack w div 0).1, qBorrow q)
          else Outcome.assertFail)
        else Outcome.ok (w, q)) = Outcome.ok (w2, q2) ∧
      Dig w2 ∧ w2.length = n + 2 ∧ Dig q2 ∧ q2.length = k + 1 ∧
      ∃ T k2 : Int, (sval d = T * uval div + uval w2 ∧ uval w2 < uval div) ∧
        (uval q2 : Int) = T + 𝐁 ^ (k + 1) * k2 := by
    by_cases hb : b = true
    · rw [if_pos hb]
      have hneg := f7.1 hb
      obtain ⟨a1, a2, a3, a4⟩ := addBack_spec (c := 0) f1 hdiv (by omega) (by omega)
      obtain ⟨b1, b2, k3, b3⟩ := qBorrow_spec f3
      have hwv : wval b w = (uval w : Int) - 𝐁 ^ (n + 2) := by
        unfold wval; rw [if_pos hb, f2]
      have hltu := uval_lt a1
      rw [a2, f2] at hltu
      have hcar : (addBack w div 0).2 = 1 := by
        by_contra hne
        have h0 : (addBack w div 0).2 = 0 := by omega
        rw [h0] at a4
        have : (uval (addBack w div 0).1 : Int) = uval w + uval div := by
          have : uval (addBack w div 0).1 = uval w + uval div := by omega
          exact_mod_cast this
        have : (uval (addBack w div 0).1 : Int) < 𝐁 ^ (n + 2) := by exact_mod_cast hltu
        omega
      rw [if_pos hcar]
      rw [hcar, f2] at a4
      have a4' : (uval (addBack w div 0).1 : Int) + 𝐁 ^ (n + 2) * 1 = uval w + uval div + 0 := by
        exact_mod_cast a4
      refine ⟨_, _, rfl, a1, by rw [a2, f2], b1, by rw [b2, f4], t - 1, kk + k3, ⟨?_, ?_⟩, ?_⟩
      · rw [hA', hwv]; push_cast at *; linarith
      · have : (uval (addBack w div 0).1 : Int) < uval div := by
          push_cast at *; linarith
        exact_mod_cast this
      · rw [b3, f9, f4]; ring
    · rw [if_neg hb]
      have hwv : wval b w = (uval w : Int) := by
        unfold wval; rw [if_neg hb]; simp
      refine ⟨_, _, rfl, f1, f2, f3, f4, t, kk, ⟨by rw [hA', hwv], ?_⟩, by rw [f9, f4]⟩
      rw [hwv] at f6; exact_mod_cast f6
  dsimp only
  rw [hfin]
  dsimp only
  have hr0 : (0 : Int) ≤ uval w2 := by positivity
  have hr1 : (uval w2 : Int) < uval div := by exact_mod_cast g5.2
  have hTq : sval d / uval div = T ∧ sval d % uval div = uval w2 :=
    (Int.ediv_emod_unique hD0').2 ⟨by rw [g5.1]; ring, hr0, hr1⟩
  have wq : WF q2 := ⟨by intro h; rw [h] at g4; simp at g4, g3⟩
  have hqT : sval q2 = T := by
    have hr := sval_range k wq g4
    have hsv := sval_uval q2
    obtain ⟨k4, hk4⟩ : ∃ k4 : Int, sval q2 = T + 𝐁 * 𝐁 ^ k * k4 := by
      rw [hsv, g6, g4, pow_succ]
      split
      · exact ⟨k2 - 1, by ring⟩
      · exact ⟨k2, by ring⟩
    refine eq_of_range hPk hk4 hr.1 hr.2 ?_ ?_
    · rw [← hTq.1]
      rw [Int.le_ediv_iff_mul_le hD0']
      push_cast at *; linarith
    · rw [← hTq.1]
      rw [Int.ediv_lt_iff_lt_mul hD0']
      push_cast at *; linarith
  have hsq := shrink_spec wq
  refine ⟨_, _, rfl, hsq.1, by rw [hsq.2, hqT, hTq.1], ?_⟩
  -- the remainder
  have w2ne : w2 ≠ [] := by intro h; rw [h] at g2; simp at g2
  obtain ⟨w3, hw3, v1, v2, v3⟩ : ∃ w3, (if isNegative w2 = true then w2 ++ [0] else w2) = w3 ∧
      WF w3 ∧ back w3 < 𝐇 ∧ sval w3 = uval w2 := by
    by_cases hneg : isNegative w2 = true
    · rw [if_pos hneg]
      have hb : back (w2 ++ [0]) < 𝐇 := by rw [back_append_single]; norm_num
      refine ⟨_, rfl, ⟨by simp, dig_append.2 ⟨g1, dig_cons.2 ⟨by norm_num, dig_nil⟩⟩⟩, hb, ?_⟩
      rw [sval_of_back hb, wval_split]; simp
    · rw [if_neg hneg]
      have hb : back w2 < 𝐇 := by simpa [isNegative] using hneg
      exact ⟨_, rfl, ⟨w2ne, g1⟩, hb, sval_of_back hb⟩
  rw [hw3, hTq.2]
  have hsp := shrinkPos_norm v1 v2
  cases negDiv
  · simp only [Bool.false_eq_true, if_false]
    exact ⟨hsp.1, by rw [hsp.2, v3]⟩
  · simp only [if_true]
    have := negate_spec hsp.1.wf
    exact ⟨this.1, by rw [this.2, hsp.2, v3]⟩

end Verif.BigInt
