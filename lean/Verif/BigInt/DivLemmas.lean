import Verif.BigInt.MulLemmas
/-
Helper lemmas: long division (`reduce_mod`).
-/
namespace Verif.BigInt

/-! ### quotient digit estimate: pure arithmetic -/

theorem shiftFloor {lo P e hi s : Nat} (hlo : lo < P) (hs : s ≤ 32) :
    (lo + P * (e + 𝐁 * hi)) * 2 ^ s / (P * 𝐁) = hi * 2 ^ s + e / 2 ^ (32 - s) := by
  have hP : 0 < P := by omega
  have hB : 𝐁 = 2 ^ s * 2 ^ (32 - s) := by
    rw [← pow_add]; have : s + (32 - s) = 32 := by omega
    rw [this]; norm_num
  have h2 : 0 < 2 ^ s := by positivity
  have e1 : (lo + P * (e + 𝐁 * hi)) * 2 ^ s = (lo + P * e) * 2 ^ s + P * 𝐁 * (hi * 2 ^ s) := by ring
  rw [e1, Nat.add_mul_div_left _ _ (by positivity)]
  have e2 : P * 𝐁 = (P * 2 ^ (32 - s)) * 2 ^ s := by rw [hB]; ring
  rw [e2, Nat.mul_div_mul_right _ _ h2, ← Nat.div_div_eq_div_mul, Nat.add_mul_div_left _ _ hP,
    Nat.div_eq_of_lt hlo, zero_add]
  ring

/-- the estimate is at most one too large, and never too small -/
theorem qhat_core {D2 U2 P lead sub : Nat} (hP : 0 < P) (hU : U2 < D2 * 𝐁)
    (hD : lead * 𝐁 + sub = D2 / P) (hl : 𝐇 ≤ lead) (hl2 : lead < 𝐁) (hs : sub < 𝐁) :
    let acc := U2 / (P * 𝐁)
    let qh := if 𝐁 ≤ acc / lead then 𝐁 - 1
      else if acc % lead < acc / lead * sub / 𝐁 then acc / lead - 1 else acc / lead
    U2 / D2 ≤ qh ∧ qh ≤ U2 / D2 + 1 ∧ qh < 𝐁 := by
  intro acc qh
  have hlead : 0 < lead := by omega
  have hD1 : (lead * 𝐁 + sub) * P ≤ D2 := by rw [hD]; exact Nat.div_mul_le_self _ _
  have hD2 : D2 < (lead * 𝐁 + sub + 1) * P := by
    rw [hD]; exact Nat.lt_mul_of_div_lt (Nat.lt_succ_self _) hP
  have hD0 : 0 < D2 := lt_of_lt_of_le (by positivity) hD1
  have hPB : 0 < P * 𝐁 := by positivity
  have hacc1 : acc * (P * 𝐁) ≤ U2 := Nat.div_mul_le_self _ _
  have hacc2 : U2 < (acc + 1) * (P * 𝐁) := Nat.lt_mul_of_div_lt (Nat.lt_succ_self _) hPB
  have hdm := Nat.div_add_mod acc lead
  have hrl := Nat.mod_lt acc hlead
  generalize hq0 : acc / lead = q0 at *
  generalize hr0 : acc % lead = r0 at *
  obtain ⟨q, hq⟩ : ∃ q, q = U2 / D2 := ⟨_, rfl⟩
  rw [← hq]
  have hqlt : q < 𝐁 := by rw [hq, Nat.div_lt_iff_lt_mul hD0, mul_comm]; exact hU
  have hq1 : q * D2 ≤ U2 := by rw [hq]; exact Nat.div_mul_le_self _ _
  -- the estimate is not too small
  have A : q ≤ q0 := by
    rw [← hq0, Nat.le_div_iff_mul_le hlead]
    have h1 : q * (lead * 𝐁 * P) ≤ U2 := by
      refine le_trans (Nat.mul_le_mul_left _ ?_) hq1
      refine le_trans (Nat.mul_le_mul_right P ?_) hD1
      omega
    have h2 : q * lead * (P * 𝐁) < (acc + 1) * (P * 𝐁) := by
      calc q * lead * (P * 𝐁) = q * (lead * 𝐁 * P) := by ring
        _ ≤ U2 := h1
        _ < _ := hacc2
    have := Nat.lt_of_mul_lt_mul_right h2
    omega
  by_cases hbig : 𝐁 ≤ q0
  · have hqh : qh = 𝐁 - 1 := by simp only [qh, hq0, hbig, if_true]
    rw [hqh]
    clear hqh
    clear qh
    refine ⟨by omega, ?_, by norm_num⟩
    obtain ⟨K, hK⟩ : ∃ K, 𝐁 = K + 2 := ⟨4294967294, rfl⟩
    have : K ≤ q := by
      rw [hq, Nat.le_div_iff_mul_le hD0]
      have h1 : lead * 𝐁 ≤ acc := by
        have : lead * 𝐁 ≤ lead * q0 := Nat.mul_le_mul_left _ hbig
        omega
      have h2 : K * (lead * 𝐁 + sub + 1) ≤ lead * 𝐁 * 𝐁 := by
        have a1 : K * (lead * 𝐁 + sub + 1) ≤ K * (lead * 𝐁 + 𝐁) :=
          Nat.mul_le_mul_left _ (by linarith)
        have a2 : K * (lead * 𝐁 + 𝐁) = lead * 𝐁 * K + 𝐁 * K := by ring
        have a3 : lead * 𝐁 * 𝐁 = lead * 𝐁 * K + lead * 𝐁 * 2 := by
          rw [← mul_add, ← hK]
        have a4 : K ≤ 𝐁 := by linarith
        linarith
      calc K * D2 ≤ K * ((lead * 𝐁 + sub + 1) * P) := Nat.mul_le_mul_left _ hD2.le
        _ = (K * (lead * 𝐁 + sub + 1)) * P := by ring
        _ ≤ (lead * 𝐁 * 𝐁) * P := Nat.mul_le_mul_right _ h2
        _ = lead * 𝐁 * (P * 𝐁) := by ring
        _ ≤ acc * (P * 𝐁) := Nat.mul_le_mul_right _ h1
        _ ≤ U2 := hacc1
    omega
  · have hq0B : q0 < 𝐁 := by omega
    by_cases ht : r0 < q0 * sub / 𝐁
    · have hqh : qh = q0 - 1 := by simp only [qh, hq0, hr0, hbig, ht, if_true, if_false]
      rw [hqh]
      have h1 : q < q0 := by
        by_contra hge
        have hge : q0 ≤ q := by omega
        have h2 : q0 * D2 ≤ U2 := le_trans (Nat.mul_le_mul_right _ hge) hq1
        have h3 : (r0 + 1) * 𝐁 ≤ q0 * sub := by
          rw [← Nat.le_div_iff_mul_le (by norm_num)]; omega
        have h4 : (acc + 1) * (P * 𝐁) ≤ q0 * D2 := by
          calc (acc + 1) * (P * 𝐁) = (lead * q0 * 𝐁 + (r0 + 1) * 𝐁) * P := by rw [← hdm]; ring
            _ ≤ (lead * q0 * 𝐁 + q0 * sub) * P := Nat.mul_le_mul_right _ (by omega)
            _ = q0 * ((lead * 𝐁 + sub) * P) := by ring
            _ ≤ q0 * D2 := Nat.mul_le_mul_left _ hD1
        omega
      have h2 : q0 - 2 ≤ q := by
        rw [hq, Nat.le_div_iff_mul_le hD0]
        have h3 : (q0 - 2) * (lead * 𝐁 + sub + 1) ≤ acc * 𝐁 := by
          have h5 : (q0 - 2) * (lead * 𝐁 + sub + 1) ≤ (q0 - 2) * ((lead + 1) * 𝐁) :=
            Nat.mul_le_mul_left _ (by omega)
          have h6 : (q0 - 2) * (lead + 1) ≤ acc := by
            rcases Nat.lt_or_ge q0 2 with h | h
            · have : q0 - 2 = 0 := by omega
              rw [this]; omega
            · obtain ⟨k, rfl⟩ : ∃ k, q0 = k + 2 := ⟨q0 - 2, by omega⟩
              have e1 : lead * (k + 2) = lead * k + 2 * lead := by ring
              have e2 : (k + 2 - 2) * (lead + 1) = lead * k + k := by
                have : k + 2 - 2 = k := by omega
                rw [this]; ring
              omega
          calc _ ≤ (q0 - 2) * ((lead + 1) * 𝐁) := h5
            _ = (q0 - 2) * (lead + 1) * 𝐁 := by ring
            _ ≤ acc * 𝐁 := Nat.mul_le_mul_right _ h6
        calc (q0 - 2) * D2 ≤ (q0 - 2) * ((lead * 𝐁 + sub + 1) * P) := Nat.mul_le_mul_left _ hD2.le
          _ = ((q0 - 2) * (lead * 𝐁 + sub + 1)) * P := by ring
          _ ≤ (acc * 𝐁) * P := Nat.mul_le_mul_right _ h3
          _ = acc * (P * 𝐁) := by ring
          _ ≤ U2 := hacc1
      omega
    · have hqh : qh = q0 := by simp only [qh, hq0, hr0, hbig, ht, if_false]
      rw [hqh]
      refine ⟨A, ?_, hq0B⟩
      rcases Nat.eq_zero_or_pos q0 with h | h
      · omega
      · have h2 : q0 - 1 ≤ q := by
          rw [hq, Nat.le_div_iff_mul_le hD0]
          have h3 : q0 * sub < (r0 + 1) * 𝐁 :=
            Nat.lt_mul_of_div_lt (by omega) (by norm_num)
          have h4 : (q0 - 1) * (lead * 𝐁 + sub + 1) ≤ acc * 𝐁 := by
            obtain ⟨k, rfl⟩ : ∃ k, q0 = k + 1 := ⟨q0 - 1, by omega⟩
            have ek : k + 1 - 1 = k := by omega
            have e1 : acc * 𝐁 = lead * 𝐁 * k + lead * 𝐁 + r0 * 𝐁 := by rw [← hdm]; ring
            have e2 : (k + 1 - 1) * (lead * 𝐁 + sub + 1) = lead * 𝐁 * k + k * sub + k := by
              rw [ek]; ring
            have e3 : (k + 1) * sub = k * sub + sub := by ring
            have e4 : (r0 + 1) * 𝐁 = r0 * 𝐁 + 𝐁 := by ring
            omega
          calc (q0 - 1) * D2 ≤ (q0 - 1) * ((lead * 𝐁 + sub + 1) * P) :=
                Nat.mul_le_mul_left _ hD2.le
            _ = ((q0 - 1) * (lead * 𝐁 + sub + 1)) * P := by ring
            _ ≤ (acc * 𝐁) * P := Nat.mul_le_mul_right _ h4
            _ = acc * (P * 𝐁) := by ring
            _ ≤ U2 := hacc1
        omega

/-! ### leading digits of the divisor and of the window -/

theorem or_shift {x y s : Nat} (hy : y < 2 ^ s) : x * 2 ^ s ||| y = x * 2 ^ s + y := by
  rw [mul_comm x, ← Nat.two_pow_add_eq_or_of_lt hy]

theorem split2 {l : Digits} {n : Nat} (h : l.length = n + 2) :
    ∃ m e1 e0, l = m ++ [e1, e0] ∧ m.length = n := by
  rcases List.eq_nil_or_concat l with rfl | ⟨l', e0, rfl⟩
  · simp at h
  · rcases List.eq_nil_or_concat l' with rfl | ⟨m, e1, rfl⟩
    · simp at h
    · exact ⟨m, e1, e0, by simp, by simpa using h⟩

theorem split3 {l : Digits} {n : Nat} (h : l.length = n + 3) :
    ∃ m e2 e1 e0, l = m ++ [e2, e1, e0] ∧ m.length = n := by
  obtain ⟨m, e1, e0, rfl, hm⟩ := split2 (n := n + 1) h
  rcases List.eq_nil_or_concat m with rfl | ⟨m', e2, rfl⟩
  · simp at hm
  · exact ⟨m', e2, e1, e0, by simp, by simpa using hm⟩

/-- the leading digits used in the estimate are the top two digits of `D·2^shift` -/
theorem work_spec {div : Digits} {n s : Nat} (hd : Dig div) (hn : div.length = n + 2)
    (ht : back div ≠ 0) (hs : s = 32 - lastBit (back div)) :
    let work := div.drop (div.length - (if s = 0 ∨ div.length = 2 then 2 else 3))
    let work := if 0 < s then lsl work s else work
    let lead := work.getD (work.length - 1) 0
    let sub := work.getD (work.length - 2) 0
    lead * 𝐁 + sub = uval div * 2 ^ s / 𝐁 ^ n ∧ 𝐇 ≤ lead ∧ lead < 𝐁 ∧ sub < 𝐁 ∧ s ≤ 31 := by
  obtain ⟨m, e1, e0, rfl, hm⟩ := split2 hn
  obtain ⟨hdm, hd2⟩ := dig_append.1 hd
  have he1 : e1 < 𝐁 := hd2 e1 (by simp)
  have he0 : e0 < 𝐁 := hd2 e0 (by simp)
  have hb : back (m ++ [e1, e0]) = e0 := by rw [back_append (by simp)]; rfl
  rw [hb] at ht hs
  have hlog : Nat.log2 e0 < 32 := by
    rw [Nat.log2_lt ht]; exact he0
  have hle : 2 ^ Nat.log2 e0 ≤ e0 := Nat.log2_self_le ht
  have hlt : e0 < 2 ^ (Nat.log2 e0 + 1) := Nat.lt_log2_self
  have hs' : s = 31 - Nat.log2 e0 := by rw [hs]; unfold lastBit; rw [if_neg ht]; omega
  have hp : 2 ^ Nat.log2 e0 * 2 ^ s = 𝐇 := by
    rw [← pow_add]; have : Nat.log2 e0 + s = 31 := by omega
    rw [this]; norm_num
  have hlead1 : 𝐇 ≤ e0 * 2 ^ s := by rw [← hp]; exact Nat.mul_le_mul_right _ hle
  have hlead2 : e0 * 2 ^ s + 2 ^ s ≤ 𝐁 := by
    have : (e0 + 1) * 2 ^ s ≤ 2 ^ (Nat.log2 e0 + 1) * 2 ^ s := Nat.mul_le_mul_right _ hlt
    rw [pow_succ] at this
    have e : 2 ^ Nat.log2 e0 * 2 * 2 ^ s = 2 * (2 ^ Nat.log2 e0 * 2 ^ s) := by ring
    rw [e, hp] at this
    linarith
  have hB : 𝐁 = 2 ^ s * 2 ^ (32 - s) := by
    rw [← pow_add]; have : s + (32 - s) = 32 := by omega
    rw [this]; norm_num
  have hsh : ∀ e < 𝐁, e / 2 ^ (32 - s) < 2 ^ s := by
    intro e he
    rw [Nat.div_lt_iff_lt_mul (by positivity), ← hB]; exact he
  have hmodm : ∀ e, e * 2 ^ s % 𝐁 = e % 2 ^ (32 - s) * 2 ^ s := by
    intro e; rw [hB, mul_comm e, Nat.mul_mod_mul_left, mul_comm]
  have hdecomp : ∀ e, e * 2 ^ s = 𝐁 * (e / 2 ^ (32 - s)) + e * 2 ^ s % 𝐁 := by
    intro e
    rw [hmodm]
    conv_lhs => rw [← Nat.div_add_mod e (2 ^ (32 - s))]
    conv_rhs => rw [hB]
    ring
  have hsubl : ∀ e f, f < 𝐁 → e * 2 ^ s % 𝐁 + f / 2 ^ (32 - s) < 𝐁 := by
    intro e f hf
    have h1 := hsh f hf
    rw [hmodm]
    have h2 : e % 2 ^ (32 - s) + 1 ≤ 2 ^ (32 - s) := Nat.mod_lt _ (by positivity)
    have h3 : (e % 2 ^ (32 - s) + 1) * 2 ^ s ≤ 2 ^ (32 - s) * 2 ^ s := Nat.mul_le_mul_right _ h2
    have h4 : 2 ^ (32 - s) * 2 ^ s = 𝐁 := by rw [mul_comm, ← hB]
    rw [h4] at h3
    linarith
  have hlor : e0 * 2 ^ s % 𝐁 ||| e1 / 2 ^ (32 - s) = e0 * 2 ^ s + e1 / 2 ^ (32 - s) := by
    rw [Nat.mod_eq_of_lt (by have : 0 < 2 ^ s := by positivity
                             omega), or_shift (hsh e1 he1)]
  have hD : uval (m ++ [e1, e0]) = uval m + 𝐁 ^ n * (e1 + 𝐁 * e0) := by
    rw [uval_append, hm]; simp [uval]
  have hPn : 0 < 𝐁 ^ n := by positivity
  by_cases h0 : s = 0
  · subst h0
    have hdrop : (m ++ [e1, e0]).drop ((m ++ [e1, e0]).length - 2) = [e1, e0] := by
      have : (m ++ [e1, e0]).length - 2 = m.length := by simp
      rw [this, List.drop_left]
    simp only [true_or, if_true, hdrop, lt_irrefl, if_false]
    simp only [List.length_cons, List.length_nil, List.getD_cons_succ, List.getD_cons_zero,
      Nat.reduceAdd, Nat.add_one_sub_one, Nat.reduceSub]
    rw [pow_zero, mul_one] at hlead1
    refine ⟨?_, hlead1, he0, he1, by norm_num⟩
    rw [hD, pow_zero, mul_one, Nat.add_mul_div_left _ _ hPn,
      Nat.div_eq_of_lt (by rw [← hm]; exact uval_lt hdm)]
    ring
  · have hspos : 0 < s := by omega
    by_cases h2 : (m ++ [e1, e0]).length = 2
    · have hm0 : m = [] := by
        have : m.length = 0 := by simpa using h2
        simpa using this
      subst hm0
      have hn0 : n = 0 := by simpa using hm.symm
      subst hn0
      simp only [List.nil_append, List.length_cons, List.length_nil, zero_add, Nat.reduceAdd,
        or_true, if_true, Nat.sub_self, List.drop_zero, hspos, lsl, lslLoop,
        Nat.reduceSub, List.getD_cons_succ, List.getD_cons_zero, hlor]
      refine ⟨?_, le_trans hlead1 (Nat.le_add_right _ _), ?_, Nat.mod_lt _ (by norm_num), by omega⟩
      · rw [pow_zero, Nat.div_one]
        simp only [uval, mul_zero, add_zero]
        have := hdecomp e1
        linarith
      · have := hsh e1 he1
        omega
    · obtain ⟨m', e2, hm', rfl⟩ : ∃ m' e2, m'.length + 1 = n ∧ m = m' ++ [e2] := by
        rcases List.eq_nil_or_concat m with rfl | ⟨m', e2, rfl⟩
        · simp at h2
        · exact ⟨m', e2, by simpa using hm, by simp⟩
      obtain ⟨hdm', he2⟩ := dig_append.1 hdm
      have he2 : e2 < 𝐁 := he2 e2 (by simp)
      have hne2 : (m' ++ [e2] ++ [e1, e0]).length ≠ 2 := by simp
      have hdrop : (m' ++ [e2] ++ [e1, e0]).drop ((m' ++ [e2] ++ [e1, e0]).length - 3)
          = [e2, e1, e0] := by
        have h1 : (m' ++ [e2] ++ [e1, e0]).length - 3 = m'.length := by simp
        have h3 : m' ++ [e2] ++ [e1, e0] = m' ++ [e2, e1, e0] := by simp
        rw [h1, h3, List.drop_left]
      have hsubor : e1 * 2 ^ s % 𝐁 ||| e2 / 2 ^ (32 - s) = e1 * 2 ^ s % 𝐁 + e2 / 2 ^ (32 - s) := by
        rw [hmodm, or_shift (hsh e2 he2)]
      simp only [h0, hne2, or_self, if_false, hdrop, hspos, if_true, lsl, lslLoop,
        List.length_cons, List.length_nil, Nat.reduceAdd, Nat.reduceSub, zero_add,
        List.getD_cons_succ, List.getD_cons_zero, hlor, hsubor]
      refine ⟨?_, le_trans hlead1 (Nat.le_add_right _ _), ?_, hsubl e1 e2 he2, by omega⟩
      · have hP' : 𝐁 ^ n = 𝐁 ^ m'.length * 𝐁 := by rw [← hm', pow_succ]
        have hD' : uval (m' ++ [e2] ++ [e1, e0])
            = uval m' + 𝐁 ^ m'.length * (e2 + 𝐁 * (e1 + 𝐁 * e0)) := by
          rw [hD, uval_append, hP']; simp [uval]; ring
        rw [hD', hP', shiftFloor (uval_lt hdm') (by omega)]
        have := hdecomp e1
        linarith
      · have := hsh e1 he1
        omega

/-- digits of the window as used by the estimate -/
def wcompl (b : Bool) (w : Digits) : Digits := if b then cmap w else w

theorem dig_cmap {l : Digits} : Dig (cmap l) := by
  intro x hx; simp only [cmap, List.mem_map] at hx
  obtain ⟨y, -, rfl⟩ := hx; exact dnot_lt y

theorem uval_cmap : ∀ {l : Digits}, Dig l → uval (cmap l) + uval l + 1 = 𝐁 ^ l.length
  | [], _ => by simp [uval]
  | x :: l, h => by
    obtain ⟨hx, hl⟩ := dig_cons.1 h
    have := uval_cmap hl
    simp only [cmap_cons, uval, List.length_cons, pow_succ]
    unfold dnot
    rw [← this]; omega

theorem qHat_spec {div w : Digits} {n s lead sub : Nat} {below : Bool}
    (hd : Dig div) (hn : div.length = n + 2) (hw : Dig w) (hwl : w.length = n + 3)
    (h1 : lead * 𝐁 + sub = uval div * 2 ^ s / 𝐁 ^ n) (h2 : 𝐇 ≤ lead) (h3 : lead < 𝐁)
    (h4 : sub < 𝐁) (h5 : s ≤ 31) (hU : uval (wcompl below w) < uval div * 𝐁) :
    uval (wcompl below w) / uval div ≤ qHat below s lead sub w ∧
    qHat below s lead sub w ≤ uval (wcompl below w) / uval div + 1 ∧
    qHat below s lead sub w < 𝐁 := by
  have hcw : Dig (wcompl below w) := by
    unfold wcompl; split
    · exact dig_cmap
    · exact hw
  have hcl : (wcompl below w).length = n + 3 := by
    unfold wcompl; split <;> simp [hwl]
  have hget : ∀ i, i < w.length → (if below = true then dnot (w.getD i 0) else w.getD i 0)
      = (wcompl below w).getD i 0 := by
    intro i hi
    cases below
    · simp [wcompl]
    · simp only [wcompl, if_true, cmap, List.getD_eq_getElem?_getD, List.getElem?_map]
      rw [List.getElem?_eq_getElem hi]; simp
  unfold qHat
  simp only [hget (w.length - 1) (by omega), hget (w.length - 2) (by omega),
    hget (w.length - 3) (by omega)]
  rw [hwl]
  generalize wcompl below w = v at *
  obtain ⟨m, t2, t1, t0, rfl, hm⟩ := split3 hcl
  obtain ⟨hdm, hd3⟩ := dig_append.1 hcw
  have ht2 : t2 < 𝐁 := hd3 t2 (by simp)
  have ht1 : t1 < 𝐁 := hd3 t1 (by simp)
  have ht0 : t0 < 𝐁 := hd3 t0 (by simp)
  have g0 : (m ++ [t2, t1, t0]).getD (n + 3 - 1) 0 = t0 := by
    simp [List.getD_eq_getElem?_getD, hm]
  have g1 : (m ++ [t2, t1, t0]).getD (n + 3 - 2) 0 = t1 := by
    simp [List.getD_eq_getElem?_getD, hm]
  have g2 : (m ++ [t2, t1, t0]).getD (n + 3 - 3) 0 = t2 := by
    simp [List.getD_eq_getElem?_getD, hm]
  rw [g0, g1, g2, or_eq_add ht0 ht1]
  have hUv : uval (m ++ [t2, t1, t0]) = uval m + 𝐁 ^ n * (t2 + 𝐁 * (t1 + 𝐁 * t0)) := by
    rw [uval_append, hm]; simp [uval]
  have hP : 0 < 𝐁 ^ n := by positivity
  have h2s : 0 < 2 ^ s := by positivity
  have hU2 : uval (m ++ [t2, t1, t0]) * 2 ^ s < uval div * 2 ^ s * 𝐁 := by
    calc _ < uval div * 𝐁 * 2 ^ s := Nat.mul_lt_mul_of_pos_right hU h2s
      _ = _ := by ring
  have core := qhat_core hP hU2 h1 h2 h3 h4
  have hacc : uval (m ++ [t2, t1, t0]) * 2 ^ s / (𝐁 ^ n * 𝐁)
      = (t1 + 𝐁 * t0) * 2 ^ s + t2 / 2 ^ (32 - s) := by
    rw [hUv, shiftFloor (by rw [← hm]; exact uval_lt hdm) (by omega)]
  rw [Nat.mul_div_mul_right _ _ h2s] at core
  have haccW : (t1 + 𝐁 * t0) * 2 ^ s + t2 / 2 ^ (32 - s) < 𝐖 := by
    rw [← hacc, Nat.div_lt_iff_lt_mul (by positivity)]
    have hDlt : uval div * 2 ^ s < 𝐁 ^ n * (𝐁 * 𝐁) := by
      have : uval div * 2 ^ s < (lead * 𝐁 + sub + 1) * 𝐁 ^ n := by
        rw [h1]; exact Nat.lt_mul_of_div_lt (Nat.lt_succ_self _) hP
      refine lt_of_lt_of_le this ?_
      rw [mul_comm]
      apply Nat.mul_le_mul_left
      have : (lead + 1) * 𝐁 ≤ 𝐁 * 𝐁 := Nat.mul_le_mul_right _ h3
      omega
    calc _ < uval div * 2 ^ s * 𝐁 := hU2
      _ ≤ 𝐁 ^ n * (𝐁 * 𝐁) * 𝐁 := Nat.mul_le_mul_right _ hDlt.le
      _ = _ := by ring
  have hsh : t2 / 2 ^ (32 - s) < 2 ^ s := by
    rw [Nat.div_lt_iff_lt_mul (by positivity), ← pow_add]
    have : s + (32 - s) = 32 := by omega
    rw [this]; exact ht2
  have hacc2 : (if s ≠ 0 then (t0 * 𝐁 + t1) * 2 ^ s % 𝐖 ||| t2 / 2 ^ (32 - s) else t0 * 𝐁 + t1)
      = (t1 + 𝐁 * t0) * 2 ^ s + t2 / 2 ^ (32 - s) := by
    have ec : t0 * 𝐁 + t1 = t1 + 𝐁 * t0 := by ring
    rw [ec]
    by_cases h0 : s = 0
    · subst h0
      have : t2 / 2 ^ 32 = 0 := Nat.div_eq_of_lt ht2
      simp only [ne_eq, not_true_eq_false, if_false, pow_zero, mul_one, Nat.sub_zero, this, add_zero]
    · rw [if_pos h0, Nat.mod_eq_of_lt (lt_of_le_of_lt (Nat.le_add_right _ _) haccW), or_shift hsh]
  rw [hacc2]
  rw [hacc] at core
  generalize (t1 + 𝐁 * t0) * 2 ^ s + t2 / 2 ^ (32 - s) = acc at *
  by_cases hbig : 𝐁 ≤ acc / lead
  · simp only [hbig, if_true] at core ⊢; exact core
  · have hm2 : acc / lead * sub % 𝐖 = acc / lead * sub := by
      apply Nat.mod_eq_of_lt
      have : acc / lead * sub ≤ (𝐁 - 1) * (𝐁 - 1) := Nat.mul_le_mul (by omega) (by omega)
      omega
    simp only [hbig, if_false, hm2] at core ⊢; exact core

/-! ### one division step -/

theorem mulAddC_spec : ∀ {w div : Digits} {qh acc : Nat}, Dig w → Dig div → qh < 𝐁 → acc < 𝐁 →
    div.length ≤ w.length →
    Dig (mulAddC qh w div acc).1 ∧ (mulAddC qh w div acc).1.length = div.length ∧
    (mulAddC qh w div acc).2 < 𝐁 ∧
    uval (mulAddC qh w div acc).1 + 𝐁 ^ div.length * (mulAddC qh w div acc).2
      = uval (w.take div.length) + qh * uval div + acc
  | w, [], qh, acc, _, _, _, h, _ => by
    cases w <;> simp [mulAddC, uval, h]
  | [], _ :: _, _, _, _, _, _, _, h => by simp at h
  | r :: w, v :: div, qh, acc, hw, hd, hq, hacc, hl => by
    obtain ⟨hr, hw⟩ := dig_cons.1 hw
    obtain ⟨hv, hd⟩ := dig_cons.1 hd
    have hm : qh * v ≤ (𝐁 - 1) * (𝐁 - 1) := Nat.mul_le_mul (by omega) (by omega)
    have hW : (acc + (r + qh * v)) % 𝐖 = acc + (r + qh * v) := Nat.mod_eq_of_lt (by omega)
    obtain ⟨i1, i2, i3, i4⟩ := mulAddC_spec (acc := (acc + (r + qh * v)) / 𝐁) hw hd hq (by omega)
      (by simpa using hl)
    simp only [mulAddC, hW]
    refine ⟨Dig.cons (by omega) i1, by simp [i2], i3, ?_⟩
    simp only [uval, List.length_cons, List.take_succ_cons, pow_succ]
    have := Nat.div_add_mod (acc + (r + qh * v)) 𝐁
    linarith

theorem mulSubC_eq : ∀ {w div : Digits} {qh acc : Nat},
    mulSubC qh w div acc = (cmap (mulAddC qh (cmap w) div acc).1, (mulAddC qh (cmap w) div acc).2)
  | [], _, _, _ => by simp [mulSubC, mulAddC]
  | _ :: _, [], _, _ => by simp [mulSubC, mulAddC]
  | r :: w, v :: div, qh, acc => by
    simp only [mulSubC, cmap_cons, mulAddC, mulSubC_eq (w := w)]

theorem qBorrow_spec : ∀ {q : Digits}, Dig q →
    Dig (qBorrow q) ∧ (qBorrow q).length = q.length ∧
    ∃ k : Int, (uval (qBorrow q) : Int) = uval q - 1 + 𝐁 ^ q.length * k
  | [], _ => ⟨by simp [qBorrow], rfl, 1, by simp [qBorrow, uval]⟩
  | x :: q, h => by
    obtain ⟨hx, hq⟩ := dig_cons.1 h
    obtain ⟨i1, i2, k, i3⟩ := qBorrow_spec hq
    simp only [qBorrow]
    have hlt : ddec x < 𝐁 := by unfold ddec; omega
    split
    · next h0 =>
      refine ⟨Dig.cons hlt hq, by simp, 0, ?_⟩
      simp only [uval, mul_zero, add_zero]; unfold ddec dnot at *; omega
    · next h0 =>
      refine ⟨Dig.cons hlt i1, by simp [i2], k, ?_⟩
      simp only [uval, List.length_cons, pow_succ]
      push_cast
      rw [i3]
      have : x = 0 := by unfold ddec dnot at h0; omega
      subst this
      simp [ddec]; ring

/-- signed value of the window -/
def wval (below : Bool) (w : Digits) : Int :=
  uval w - (if below then (𝐁 : Int) ^ w.length else 0)

theorem wval_split {w : Digits} {t : Nat} : uval (w ++ [t]) = uval w + 𝐁 ^ w.length * t := by
  rw [uval_append]; simp [uval]

theorem divStep_spec {div w q : Digits} {n s lead sub : Nat} {below : Bool}
    (hd : Dig div) (hn : div.length = n + 2) (hw : Dig w) (hwl : w.length = n + 3) (hq : Dig q)
    (h1 : lead * 𝐁 + sub = uval div * 2 ^ s / 𝐁 ^ n) (h2 : 𝐇 ≤ lead) (h3 : lead < 𝐁)
    (h4 : sub < 𝐁) (h5 : s ≤ 31)
    (hV1 : -(uval div * 𝐁 : Int) ≤ wval below w) (hV2 : wval below w < uval div * 𝐁) :
    ∃ w' q' below', divStep div s lead sub w q below = .ok (w', q', below') ∧
      Dig w' ∧ w'.length = n + 2 ∧ Dig q' ∧ q'.length = q.length + 1 ∧
      -(uval div : Int) ≤ wval below' w' ∧ wval below' w' < uval div ∧
      (below' = true ↔ wval below' w' < 0) ∧
      ∃ t k : Int, wval below w = t * uval div + wval below' w' ∧
        (uval q' : Int) = 𝐁 * uval q + t + 𝐁 ^ q'.length * k := by
  obtain ⟨wl, tw, rfl, hwl'⟩ : ∃ wl tw, w = wl ++ [tw] ∧ wl.length = n + 2 := by
    rcases List.eq_nil_or_concat w with rfl | ⟨wl, tw, rfl⟩
    · simp at hwl
    · exact ⟨wl, tw, by simp, by simpa using hwl⟩
  obtain ⟨hdw, htw⟩ := dig_append.1 hw
  have htw : tw < 𝐁 := htw tw (by simp)
  have hDlt := uval_lt hd
  rw [hn] at hDlt
  have hwlt := uval_lt hdw
  rw [hwl'] at hwlt
  have hwf := wval_split (w := wl) (t := tw)
  rw [hwl'] at hwf
  have hD0 : 0 < uval div := by
    rcases Nat.eq_zero_or_pos (uval div) with h | h
    · rw [h] at h1; simp at h1; omega
    · exact h
  -- the absolute value U handled by the estimate
  have hUv : (uval (wcompl below (wl ++ [tw])) : Int)
      = if below then -1 - wval below (wl ++ [tw]) else wval below (wl ++ [tw]) := by
    cases below
    · simp [wcompl, wval]
    · have := uval_cmap hw
      simp only [wcompl, wval, if_true]
      have h : (uval (cmap (wl ++ [tw])) : Int) + uval (wl ++ [tw]) + 1
        = (𝐁 : Int) ^ (wl ++ [tw]).length := by exact_mod_cast this
      omega
  have hU : uval (wcompl below (wl ++ [tw])) < uval div * 𝐁 := by
    have : (uval (wcompl below (wl ++ [tw])) : Int) < uval div * 𝐁 := by
      rw [hUv]; split <;> omega
    exact_mod_cast this
  obtain ⟨e1, e2, e3⟩ := qHat_spec hd hn hw hwl h1 h2 h3 h4 h5 hU
  generalize hqh : qHat below s lead sub (wl ++ [tw]) = qh at *
  have hq1 := Nat.div_add_mod (uval (wcompl below (wl ++ [tw]))) (uval div)
  have hq2 := Nat.mod_lt (uval (wcompl below (wl ++ [tw]))) hD0
  generalize hqq : uval (wcompl below (wl ++ [tw])) / uval div = qq at *
  generalize uval (wcompl below (wl ++ [tw])) % uval div = rr at *
  -- the new signed value
  obtain ⟨V, hV⟩ : ∃ V, wval below (wl ++ [tw]) = V := ⟨_, rfl⟩
  rw [hV] at hV1 hV2 hUv ⊢
  obtain ⟨t, ht⟩ : ∃ t : Int, t = if below then -(qh : Int) else qh := ⟨_, rfl⟩
  obtain ⟨V', hV'⟩ : ∃ V' : Int, V' = V - t * uval div := ⟨_, rfl⟩
  have hq1' : (uval div : Int) * qq + rr = uval (wcompl below (wl ++ [tw])) := by exact_mod_cast hq1
  have hbound : -(uval div : Int) ≤ V' ∧ V' < uval div := by
    have hcase : qh = qq ∨ qh = qq + 1 := by omega
    have hr0 : (rr : Int) < uval div := by exact_mod_cast hq2
    rw [hV', ht]
    cases below
    · simp only [Bool.false_eq_true, if_false] at hUv ⊢
      rcases hcase with h | h
      · have : (qh : Int) * uval div = uval div * qq := by rw [h]; ring
        omega
      · have : (qh : Int) * uval div = uval div * qq + uval div := by rw [h]; push_cast; ring
        omega
    · simp only [if_true] at hUv ⊢
      rcases hcase with h | h
      · have : -(qh : Int) * uval div = -(uval div * qq) := by rw [h]; ring
        omega
      · have : -(qh : Int) * uval div = -(uval div * qq) - uval div := by rw [h]; push_cast; ring
        omega
  have hDi : (uval div : Int) < (𝐁 : Int) ^ (n + 2) := by exact_mod_cast hDlt
  have hwli : (uval wl : Int) < (𝐁 : Int) ^ (n + 2) := by exact_mod_cast hwlt
  have hPpos : (0 : Int) < (𝐁 : Int) ^ (n + 2) := by positivity
  -- finishing: digits w' of length n+2 whose value is V' modulo 𝐁^(n+2)
  have fin : ∀ (w' : Digits) (b' : Bool), Dig w' → w'.length = n + 2 →
      (b' = true ↔ V' < 0) → (uval w' : Int) = V' + (if b' then (𝐁 : Int) ^ (n + 2) else 0) →
      ∀ q', Dig q' → q'.length = q.length + 1 →
        (∃ k : Int, (uval q' : Int) = 𝐁 * uval q + t + 𝐁 ^ q'.length * k) →
      (Dig w' ∧ w'.length = n + 2 ∧ Dig q' ∧ q'.length = q.length + 1 ∧
      -(uval div : Int) ≤ wval b' w' ∧ wval b' w' < uval div ∧
      (b' = true ↔ wval b' w' < 0) ∧
      ∃ t k : Int, V = t * uval div + wval b' w' ∧
        (uval q' : Int) = 𝐁 * uval q + t + 𝐁 ^ q'.length * k) := by
    intro w' b' f1 f2 f3 f4 q' f5 f6 ⟨k, f7⟩
    have e : wval b' w' = V' := by
      unfold wval; rw [f2, f4]; split <;> ring
    rw [e]
    exact ⟨f1, f2, f5, f6, hbound.1, hbound.2, f3, t, k, by rw [hV']; ring, f7⟩
  have hwvi : (uval (wl ++ [tw]) : Int) = uval wl + (𝐁 : Int) ^ (n + 2) * tw := by
    rw [hwf]; push_cast; ring
  have hVw : V = uval wl + (𝐁 : Int) ^ (n + 2) * tw - (if below then (𝐁 : Int) ^ (n + 3) else 0) := by
    rw [← hV]; unfold wval; rw [hwl, hwvi]
  have hP3 : (𝐁 : Int) ^ (n + 3) = 𝐁 * 𝐁 ^ (n + 2) := by rw [pow_succ]; ring
  rw [hP3] at hVw
  have hqcons : ∀ x, x < 𝐁 → Dig (x :: q) ∧ (x :: q).length = q.length + 1 := fun x hx =>
    ⟨Dig.cons hx hq, by simp⟩
  unfold divStep
  rw [hqh]
  by_cases hz : qh = 0
  · rw [if_pos hz]
    have hVV : V' = V := by rw [hV', ht, hz]; cases below <;> simp
    have hbk : wval below (wl ++ [tw]) = V := hV
    have hneg : below = true ↔ V < 0 := by
      cases below
      · simp only [Bool.false_eq_true, if_false, false_iff] at hVw ⊢
        have : (0 : Int) ≤ (𝐁 : Int) ^ (n + 2) * tw := mul_nonneg hPpos.le (Int.natCast_nonneg _)
        omega
      · simp only [if_true, true_iff] at hVw ⊢
        have : ((𝐁 : Int) ^ (n + 2)) * tw ≤ (𝐁 : Int) ^ (n + 2) * (𝐁 - 1) :=
          mul_le_mul_of_nonneg_left (by omega) hPpos.le
        have e : ((𝐁 : Int) ^ (n + 2)) * (𝐁 - 1) = 𝐁 * 𝐁 ^ (n + 2) - 𝐁 ^ (n + 2) := by ring
        omega
    refine ⟨(wl ++ [tw]).dropLast, 0 :: q, below, rfl, ?_⟩
    rw [List.dropLast_concat]
    refine fin wl below hdw hwl' (by rw [hVV]; exact hneg) ?_ _ (hqcons 0 (by norm_num)).1
      (hqcons 0 (by norm_num)).2 ⟨0, ?_⟩
    · -- the top digit is 0 or -1
      rw [hVV, hVw]
      rw [hVV] at hbound
      cases below
      · simp only [Bool.false_eq_true, if_false] at hVw ⊢
        have : tw = 0 := by
          by_contra hne
          have : (𝐁 : Int) ^ (n + 2) * 1 ≤ (𝐁 : Int) ^ (n + 2) * tw :=
            mul_le_mul_of_nonneg_left (by omega) hPpos.le
          omega
        rw [this]; simp
      · simp only [if_true] at hVw ⊢
        have : tw = 𝐁 - 1 := by
          by_contra hne
          have : (𝐁 : Int) ^ (n + 2) * tw ≤ (𝐁 : Int) ^ (n + 2) * (𝐁 - 2) :=
            mul_le_mul_of_nonneg_left (by omega) hPpos.le
          have e : ((𝐁 : Int) ^ (n + 2)) * (𝐁 - 2) = 𝐁 * 𝐁 ^ (n + 2) - 2 * 𝐁 ^ (n + 2) := by ring
          omega
        rw [this]; push_cast; ring
    · rw [ht, hz]; cases below <;> simp [uval]
  · rw [if_neg hz]
    cases below
    · simp only [Bool.false_eq_true, if_false, if_true] at *
      rw [mulSubC_eq]
      obtain ⟨i1, i2, i3, i4⟩ := mulAddC_spec (w := cmap (wl ++ [tw])) (div := div) (qh := qh)
        (acc := 0) dig_cmap hd e3 (by norm_num) (by simp; omega)
      generalize mulAddC qh (cmap (wl ++ [tw])) div 0 = R at *
      obtain ⟨x, acc⟩ := R
      dsimp only at *
      have htake : (cmap (wl ++ [tw])).take div.length = cmap wl := by
        have : cmap (wl ++ [tw]) = cmap wl ++ [dnot tw] := by simp [cmap]
        rw [this, List.take_left' (by simp; omega)]
      rw [htake, hn] at i4
      have hcw := uval_cmap hdw
      rw [hwl'] at hcw
      have hxlt := uval_lt i1
      rw [i2, hn] at hxlt
      have hbk : back (wl ++ [tw]) = tw := back_append_single
      rw [hbk]
      have haccW : (acc + dnot tw) % 𝐖 = acc + dnot tw :=
        Nat.mod_eq_of_lt (by have := dnot_lt tw; omega)
      rw [haccW]
      -- C' = 𝐁^(n+3) - 1 - V'
      have hC : (uval x : Int) + 𝐁 ^ (n + 2) * (acc + dnot tw : Nat) = 𝐁 * 𝐁 ^ (n + 2) - 1 - V' := by
        have i4' : (uval x : Int) + 𝐁 ^ (n + 2) * acc = uval (cmap wl) + qh * uval div + 0 := by
          exact_mod_cast i4
        have hcw' : (uval (cmap wl) : Int) + uval wl + 1 = 𝐁 ^ (n + 2) := by exact_mod_cast hcw
        have hdn : ((dnot tw : Nat) : Int) = 𝐁 - 1 - tw := by unfold dnot; omega
        rw [hV', ht, hVw]
        push_cast at hdn ⊢
        rw [hdn]
        push_cast at i4' hcw'
        linarith
      have hxc : (uval (cmap x) : Int) = 𝐁 ^ (n + 2) - 1 - uval x := by
        have := uval_cmap i1
        rw [i2, hn] at this
        have h : (uval (cmap x) : Int) + uval x + 1 = 𝐁 ^ (n + 2) := by exact_mod_cast this
        omega
      have hxlti : (uval x : Int) < 𝐁 ^ (n + 2) := by exact_mod_cast hxlt
      have hqm : qh % 𝐁 = qh := Nat.mod_eq_of_lt e3
      rw [hqm]
      generalize acc + dnot tw = A at *
      generalize hPP : ((𝐁 : Nat) : Int) ^ (n + 2) = P at *
      by_cases hneg : V' < 0
      · have hA : A = 𝐁 := by
          have h1 : P * (𝐁 : Int) < P * (A + 1 : Int) := by
            have : P * (A + 1 : Int) = P * A + P := by ring
            have : P * (𝐁 : Int) = 𝐁 * P := by ring
            omega
          have h2 : P * (A : Int) < P * (𝐁 + 1 : Int) := by
            have : P * (𝐁 + 1 : Int) = 𝐁 * P + P := by ring
            omega
          have h1 := lt_of_mul_lt_mul_left h1 hPpos.le
          have h2 := lt_of_mul_lt_mul_left h2 hPpos.le
          omega
        rw [hA] at hC ⊢
        have hif : dadd (𝐁 % 𝐁) 1 < 2 := by unfold dadd; norm_num
        rw [if_pos hif]
        have hbt : ((𝐁 % 𝐁 : Nat) == 0) = true := by norm_num
        refine ⟨_, _, _, rfl, ?_⟩
        refine fin _ _ dig_cmap (by simp [i2, hn]) (by rw [hbt]; simpa using hneg) ?_ _
          (hqcons qh e3).1 (hqcons qh e3).2 ⟨0, ?_⟩
        · rw [hbt, hxc]; simp only [if_true]
          have : P * ((𝐁 : Nat) : Int) = 𝐁 * P := by ring
          omega
        · rw [ht]; simp [uval]; ring
      · have hA : A = 𝐁 - 1 := by
          have h1 : P * (𝐁 - 1 : Int) < P * (A + 1 : Int) := by
            have : P * (A + 1 : Int) = P * A + P := by ring
            have : P * (𝐁 - 1 : Int) = 𝐁 * P - P := by ring
            omega
          have h2 : P * (A : Int) < P * (𝐁 : Int) := by
            have : P * (𝐁 : Int) = 𝐁 * P := by ring
            omega
          have h1 := lt_of_mul_lt_mul_left h1 hPpos.le
          have h2 := lt_of_mul_lt_mul_left h2 hPpos.le
          omega
        rw [hA] at hC ⊢
        have hif : dadd ((𝐁 - 1) % 𝐁) 1 < 2 := by unfold dadd; norm_num
        rw [if_pos hif]
        have hbt : (((𝐁 - 1) % 𝐁 : Nat) == 0) = false := by norm_num
        refine ⟨_, _, _, rfl, ?_⟩
        refine fin _ _ dig_cmap (by simp [i2, hn]) (by rw [hbt]; simpa using hneg) ?_ _
          (hqcons qh e3).1 (hqcons qh e3).2 ⟨0, ?_⟩
        · rw [hbt, hxc]; simp only [Bool.false_eq_true, if_false]
          have : P * ((𝐁 - 1 : Nat) : Int) = 𝐁 * P - P := by push_cast; ring
          omega
        · rw [ht]; simp [uval]; ring
    · simp only [Bool.true_eq_false, if_false, if_true] at *
      obtain ⟨i1, i2, i3, i4⟩ := mulAddC_spec (w := wl ++ [tw]) (div := div) (qh := qh)
        (acc := 0) hw hd e3 (by norm_num) (by simp; omega)
      generalize mulAddC qh (wl ++ [tw]) div 0 = R at *
      obtain ⟨x, acc⟩ := R
      dsimp only at *
      have htake : (wl ++ [tw]).take div.length = wl := by
        rw [List.take_left' (by omega)]
      rw [htake, hn] at i4
      have hxlt := uval_lt i1
      rw [i2, hn] at hxlt
      have hbk : back (wl ++ [tw]) = tw := back_append_single
      rw [hbk]
      have haccW : (acc + tw) % 𝐖 = acc + tw := Nat.mod_eq_of_lt (by omega)
      rw [haccW]
      have hC : (uval x : Int) + 𝐁 ^ (n + 2) * (acc + tw : Nat) = 𝐁 * 𝐁 ^ (n + 2) + V' := by
        have i4' : (uval x : Int) + 𝐁 ^ (n + 2) * acc = uval wl + qh * uval div + 0 := by
          exact_mod_cast i4
        rw [hV', ht, hVw]
        push_cast at i4' ⊢
        linarith
      have hxlti : (uval x : Int) < 𝐁 ^ (n + 2) := by exact_mod_cast hxlt
      have hqm : qh % 𝐁 = qh := Nat.mod_eq_of_lt e3
      rw [hqm]
      obtain ⟨j1, j2, k, j3⟩ := qBorrow_spec hq
      have hdn : dneg qh = 𝐁 - qh := by unfold dneg; omega
      have hqd : Dig (dneg qh :: qBorrow q) := Dig.cons (by rw [hdn]; omega) j1
      have hql : (dneg qh :: qBorrow q).length = q.length + 1 := by simp [j2]
      have hqv : ∃ k : Int, (uval (dneg qh :: qBorrow q) : Int)
          = 𝐁 * uval q + t + 𝐁 ^ (dneg qh :: qBorrow q).length * k := by
        refine ⟨k, ?_⟩
        rw [hql, pow_succ, hdn]
        simp only [uval]
        push_cast [Nat.cast_sub e3.le]
        rw [j3, ht]
        push_cast
        ring
      generalize acc + tw = A at *
      generalize hPP : ((𝐁 : Nat) : Int) ^ (n + 2) = P at *
      by_cases hneg : V' < 0
      · have hA : A = 𝐁 - 1 := by
          have h1 : P * (𝐁 - 1 : Int) < P * (A + 1 : Int) := by
            have : P * (A + 1 : Int) = P * A + P := by ring
            have : P * (𝐁 - 1 : Int) = 𝐁 * P - P := by ring
            omega
          have h2 : P * (A : Int) < P * (𝐁 : Int) := by
            have : P * (𝐁 : Int) = 𝐁 * P := by ring
            omega
          have h1 := lt_of_mul_lt_mul_left h1 hPpos.le
          have h2 := lt_of_mul_lt_mul_left h2 hPpos.le
          omega
        rw [hA] at hC ⊢
        have hif : dadd ((𝐁 - 1) % 𝐁) 1 < 2 := by unfold dadd; norm_num
        rw [if_pos hif]
        have hbt : (((𝐁 - 1) % 𝐁 : Nat) != 0) = true := by norm_num
        refine ⟨_, _, _, rfl, ?_⟩
        refine fin _ _ i1 (by rw [i2, hn]) (by rw [hbt]; simpa using hneg) ?_ _ hqd hql hqv
        rw [hbt]; simp only [if_true]
        have : P * ((𝐁 - 1 : Nat) : Int) = 𝐁 * P - P := by push_cast; ring
        omega
      · have hA : A = 𝐁 := by
          have h1 : P * (𝐁 : Int) < P * (A + 1 : Int) := by
            have : P * (A + 1 : Int) = P * A + P := by ring
            have : P * (𝐁 : Int) = 𝐁 * P := by ring
            omega
          have h2 : P * (A : Int) < P * (𝐁 + 1 : Int) := by
            have : P * (𝐁 + 1 : Int) = 𝐁 * P + P := by ring
            omega
          have h1 := lt_of_mul_lt_mul_left h1 hPpos.le
          have h2 := lt_of_mul_lt_mul_left h2 hPpos.le
          omega
        rw [hA] at hC ⊢
        have hif : dadd (𝐁 % 𝐁) 1 < 2 := by unfold dadd; norm_num
        rw [if_pos hif]
        have hbt : ((𝐁 % 𝐁 : Nat) != 0) = false := by norm_num
        refine ⟨_, _, _, rfl, ?_⟩
        refine fin _ _ i1 (by rw [i2, hn]) (by rw [hbt]; simpa using hneg) ?_ _ hqd hql hqv
        rw [hbt]; simp only [Bool.false_eq_true, if_false]
        have : P * ((𝐁 : Nat) : Int) = 𝐁 * P := by ring
        omega

end Verif.BigInt
