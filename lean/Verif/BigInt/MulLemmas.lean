import Verif.BigInt.PropsBasic
import Mathlib.Algebra.Order.Ring.Abs
/-
Helper lemmas: unsigned value of digit lists, multiplication, division by a
single digit.
-/
namespace Verif.BigInt

/-- all entries are digits -/
def Dig (l : Digits) : Prop := ∀ x ∈ l, x < 𝐁

theorem Dig.cons {x l} (hx : x < 𝐁) (hl : Dig l) : Dig (x :: l) := by
  intro y hy; rcases List.mem_cons.1 hy with rfl | h
  · exact hx
  · exact hl y h
theorem dig_cons {x l} : Dig (x :: l) ↔ x < 𝐁 ∧ Dig l := by simp [Dig]
@[simp] theorem dig_nil : Dig [] := by simp [Dig]
theorem dig_append {l m} : Dig (l ++ m) ↔ Dig l ∧ Dig m := by simp [Dig, or_imp, forall_and]
theorem dig_reverse {l : Digits} : Dig l.reverse ↔ Dig l := by simp [Dig]
theorem dig_replicate {n : Nat} : Dig (List.replicate n 0) := by
  intro x hx; rw [List.eq_of_mem_replicate hx]; norm_num

theorem wf_iff_dig {l} : WF l ↔ l ≠ [] ∧ Dig l := Iff.rfl

theorem uval_append : ∀ {l m : Digits}, uval (l ++ m) = uval l + 𝐁 ^ l.length * uval m
  | [], m => by simp [uval]
  | x :: l, m => by
    simp only [List.cons_append, uval, uval_append (l := l), List.length_cons, pow_succ]; ring

theorem uval_lt : ∀ {l : Digits}, Dig l → uval l < 𝐁 ^ l.length
  | [], _ => by simp [uval]
  | x :: l, h => by
    have := uval_lt (dig_cons.1 h).2
    have := (dig_cons.1 h).1
    simp only [uval, List.length_cons, pow_succ]; omega

theorem uval_replicate : ∀ {n : Nat}, uval (List.replicate n 0) = 0
  | 0 => rfl
  | n + 1 => by simp [List.replicate_succ, uval, uval_replicate]

theorem uval_inj : ∀ {l m : Digits}, Dig l → Dig m → l.length = m.length → uval l = uval m → l = m
  | [], [], _, _, _, _ => rfl
  | [], _ :: _, _, _, h, _ => by simp at h
  | _ :: _, [], _, _, h, _ => by simp at h
  | x :: l, y :: m, h1, h2, hl, hv => by
    rw [dig_cons] at h1 h2
    simp only [uval] at hv
    have h1' := h1.1; have h2' := h2.1
    rw [uval_inj h1.2 h2.2 (by simpa using hl) (by omega)]
    congr 1; omega

theorem sval_uval (d : Digits) :
    sval d = (uval d : Int) - (if 𝐇 ≤ back d then (𝐁 : Int) ^ d.length else 0) := by
  rw [← value_eq_sval]; rfl

theorem sval_nonneg_uval {d : Digits} (h : WF d) (h0 : 0 ≤ sval d) : sval d = uval d := by
  rw [sval_uval, if_neg]
  · simp
  · rw [← sval_sign h] at h0; omega

/-- a well-formed list with top digit below `𝐇` -/
theorem sval_of_back {d : Digits} (h : back d < 𝐇) : sval d = uval d := by
  rw [sval_uval, if_neg (by omega)]; simp

theorem dig_of_norm {d} (h : Norm d) : Dig d := h.wf.2

theorem back_append {l m : Digits} (h : m ≠ []) : back (l ++ m) = back m := by
  rcases List.eq_nil_or_concat m with rfl | ⟨s, y, rfl⟩
  · exact absurd rfl h
  · rw [List.concat_eq_append, ← List.append_assoc, back_append_single, back_append_single]

/-! ### mult_add -/

theorem multAddLoop_spec : ∀ {l : Digits} {x acc : Nat}, Dig l → x < 𝐁 → acc < 𝐁 →
    Dig (multAddLoop l x acc).1 ∧ (multAddLoop l x acc).1.length = l.length ∧
    (multAddLoop l x acc).2 < 𝐁 ∧
    uval (multAddLoop l x acc).1 + 𝐁 ^ l.length * (multAddLoop l x acc).2 = uval l * x + acc
  | [], x, acc, _, _, h => by simp [multAddLoop, uval, h]
  | a :: l, x, acc, hl, hx, hacc => by
    obtain ⟨ha, hl⟩ := dig_cons.1 hl
    have hm : a * x ≤ (𝐁 - 1) * (𝐁 - 1) := Nat.mul_le_mul (by omega) (by omega)
    have hw : (acc + a * x) % 𝐖 = acc + a * x := Nat.mod_eq_of_lt (by omega)
    have hq : (acc + a * x) / 𝐁 < 𝐁 := by omega
    obtain ⟨i1, i2, i3, i4⟩ := multAddLoop_spec hl hx hq
    simp only [multAddLoop, hw]
    refine ⟨Dig.cons (by omega) i1, by simp [i2], i3, ?_⟩
    simp only [uval, List.length_cons, pow_succ]
    have := Nat.div_add_mod (acc + a * x) 𝐁
    have e : 𝐁 * (uval (multAddLoop l x ((acc + a * x) / 𝐁)).1
        + 𝐁 ^ l.length * (multAddLoop l x ((acc + a * x) / 𝐁)).2)
        = 𝐁 * (uval l * x + (acc + a * x) / 𝐁) := by rw [i4]
    linarith

theorem multAdd_spec {d : Digits} {x a : Nat} (hd : Norm d) (h0 : 0 ≤ sval d) (hx : x < 𝐁)
    (ha : a < 𝐁) :
    WF (multAdd d x a) ∧ sval (multAdd d x a) = sval d * x + a ∧
    (x ≠ 0 ∨ d.length = 1 → Norm (multAdd d x a)) := by
  obtain ⟨i1, i2, i3, i4⟩ := multAddLoop_spec hd.wf.2 hx ha
  have hl0 : d.length ≠ 0 := by simpa using hd.wf.1
  obtain ⟨n, hn⟩ : ∃ n, d.length = n + 1 := ⟨d.length - 1, by omega⟩
  have hr := (sval_range n hd.wf hn).2
  rw [sval_nonneg_uval hd.wf h0] at hr ⊢
  have hr' : uval d < 𝐇 * 𝐁 ^ n := by exact_mod_cast hr
  unfold multAdd
  dsimp only
  generalize hR : multAddLoop d x a = R at *
  obtain ⟨r, c⟩ := R
  dsimp only at *
  have hne : r ≠ [] := by intro h; rw [h] at i2; simp at i2; omega
  have hw : WF r := ⟨hne, i1⟩
  -- the carry leaves room for the sign
  have hc : c < 𝐇 := by
    have h1 : uval d * x + a < 𝐇 * 𝐁 ^ (n + 1) := by
      have hA : uval d + 1 ≤ 𝐇 * 𝐁 ^ n := hr'
      have hB : (uval d + 1) * (𝐁 - 1) ≤ (𝐇 * 𝐁 ^ n) * (𝐁 - 1) := Nat.mul_le_mul_right _ hA
      have hC : uval d * x ≤ uval d * (𝐁 - 1) := Nat.mul_le_mul_left _ (by omega)
      have hD : 0 < 𝐁 ^ n := by positivity
      rw [pow_succ]
      have : (uval d + 1) * (𝐁 - 1) = uval d * (𝐁 - 1) + (𝐁 - 1) := by ring
      have : (𝐇 * 𝐁 ^ n) * (𝐁 - 1) + 𝐇 * 𝐁 ^ n = 𝐇 * (𝐁 ^ n * 𝐁) := by ring
      omega
    by_contra hge
    have : 𝐁 ^ (n + 1) * 𝐇 ≤ 𝐁 ^ (n + 1) * c := Nat.mul_le_mul_left _ (by omega)
    rw [hn] at i4
    have : 𝐁 ^ (n + 1) * 𝐇 = 𝐇 * 𝐁 ^ (n + 1) := by ring
    omega
  have happ : ∀ t : Nat, t < 𝐇 → sval (r ++ [t]) = uval r + 𝐁 ^ d.length * t := by
    intro t ht
    rw [sval_of_back (by rw [back_append (by simp), back_single]; exact ht), uval_append, i2]
    push_cast [uval]; ring
  have wapp : ∀ t : Nat, t < 𝐁 → WF (r ++ [t]) := by
    intro t ht; exact ⟨by simp, dig_append.2 ⟨i1, dig_cons.2 ⟨ht, dig_nil⟩⟩⟩
  have i4' : (uval r : Int) + 𝐁 ^ d.length * c = uval d * x + a := by exact_mod_cast i4
  have normApp : ∀ t : Nat, t < 𝐇 → (t = 0 → 𝐇 ≤ back r) → Norm (r ++ [t]) := by
    intro t ht h1
    refine ⟨wapp t (by omega), ?_, ?_⟩
    · rcases List.eq_nil_or_concat r with rfl | ⟨s, y, rfl⟩
      · exact absurd rfl hne
      · rintro ⟨z, hz, hlt⟩
        have ht2 : ∀ (s : Digits) (y t : Nat), top2 (s ++ [y] ++ [t]) = some (y, t) := by
          intro s y t
          induction s with
          | nil => rfl
          | cons a s ih =>
            cases s with
            | nil => rfl
            | cons b s =>
              rw [← ih]
              cases s <;> rfl
        rw [List.concat_eq_append, ht2] at hz
        simp only [Option.some.injEq, Prod.mk.injEq] at hz
        have := h1 hz.2
        rw [List.concat_eq_append, back_append_single] at this
        omega
    · intro h; have := negRed_back h
      rw [back_append_single] at this; omega
  by_cases hc0 : c = 0
  · simp only [hc0, ne_eq, not_true_eq_false, if_false]
    rw [hc0] at i4'
    by_cases hneg : isNegative r = true
    · rw [if_pos hneg]
      refine ⟨wapp 0 (by norm_num), ?_, fun _ => normApp 0 (by norm_num) ?_⟩
      · rw [happ 0 (by norm_num)]; rw [← i4']
      · intro _; simpa [isNegative] using hneg
    · rw [if_neg hneg]
      have hb : back r < 𝐇 := by simpa [isNegative] using hneg
      have e : sval r = uval d * x + a := by rw [sval_of_back hb, ← i4']; simp
      refine ⟨hw, e, fun hx0 => ?_⟩
      rcases Nat.lt_or_ge 1 d.length with h2 | h2
      · obtain ⟨m, hm⟩ : ∃ m, d.length = m + 2 := ⟨d.length - 2, by omega⟩
        have hnd := (norm_iff_value m hd.wf hm).1 hd
        rw [sval_nonneg_uval hd.wf h0] at hnd
        rw [norm_iff_value m hw (by omega), e]
        right
        have hx1 : 1 ≤ x := by omega
        have : (uval d : Int) ≤ uval d * x := by
          have := Nat.mul_le_mul_left (uval d) hx1
          rw [mul_one] at this; exact_mod_cast this
        have hp : (0 : Int) < 𝐁 ^ m := by positivity
        omega
      · match r, i2 with
        | [y], _ => exact norm_single.2 (i1 y (by simp))
        | [], _ => exact absurd rfl hne
        | _ :: _ :: _, i2 => simp at i2; omega
  · simp only [hc0, ne_eq, not_false_eq_true, if_true]
    have hcm : c % 𝐁 = c := Nat.mod_eq_of_lt i3
    rw [hcm]
    exact ⟨wapp c i3, by rw [happ c hc, i4'], fun _ => normApp c hc (fun h => absurd h hc0)⟩

/-! ### full multiplication -/

theorem mulRow_spec : ∀ {x r1 : Digits} {f z acc : Nat} {rest : Digits}, Dig x → Dig r1 →
    f < 𝐁 → acc < 𝐁 → r1.length = x.length →
    ∃ s, mulRow f x (r1 ++ z :: rest) acc = s ++ rest ∧ s.length = x.length + 1 ∧ Dig s ∧
      uval s = uval r1 + f * uval x + acc
  | [], [], f, z, acc, rest, _, _, _, hacc, _ => by
    refine ⟨[acc], ?_, by simp, by simpa [Dig] using hacc, by simp [uval]⟩
    simp [mulRow, Nat.mod_eq_of_lt hacc]
  | [], _ :: _, _, _, _, _, _, _, _, _, h => by simp at h
  | _ :: _, [], _, _, _, _, _, _, _, _, h => by simp at h
  | a :: x, b :: r1, f, z, acc, rest, hx, hr, hf, hacc, hl => by
    obtain ⟨ha, hx⟩ := dig_cons.1 hx
    obtain ⟨hb, hr⟩ := dig_cons.1 hr
    have hm : f * a ≤ (𝐁 - 1) * (𝐁 - 1) := Nat.mul_le_mul (by omega) (by omega)
    have hw : (acc + (f * a + b)) % 𝐖 = acc + (f * a + b) := Nat.mod_eq_of_lt (by omega)
    obtain ⟨s, h1, h2, h3, h4⟩ := mulRow_spec (z := z) (acc := (acc + (f * a + b)) / 𝐁)
      (rest := rest) hx hr hf (by omega) (by simpa using hl)
    refine ⟨(acc + (f * a + b)) % 𝐁 :: s, ?_, by simp [h2], Dig.cons (by omega) h3, ?_⟩
    · simp only [List.cons_append, mulRow, hw, h1]
    · simp only [uval]
      have := Nat.div_add_mod (acc + (f * a + b)) 𝐁
      rw [h4]
      linarith

theorem mulLoop_spec : ∀ {d x r1 : Digits}, Dig d → Dig x → Dig r1 → r1.length = x.length →
    (mulLoop d x (r1 ++ List.replicate d.length 0)).length = d.length + x.length ∧
    Dig (mulLoop d x (r1 ++ List.replicate d.length 0)) ∧
    uval (mulLoop d x (r1 ++ List.replicate d.length 0)) = uval r1 + uval d * uval x
  | [], x, r1, _, hx, hr, hl => by simp [mulLoop, uval, hl, hr]
  | f :: d, x, r1, hd, hx, hr, hl => by
    obtain ⟨hf, hd⟩ := dig_cons.1 hd
    obtain ⟨s, h1, h2, h3, h4⟩ := mulRow_spec (z := 0) (acc := 0)
      (rest := List.replicate d.length 0) hx hr hf (by norm_num) hl
    match s, h2 with
    | [], h2 => simp at h2
    | r0 :: r', h2 =>
      obtain ⟨h3a, h3b⟩ := dig_cons.1 h3
      obtain ⟨i1, i2, i3⟩ := mulLoop_spec hd hx h3b (by simpa using h2)
      simp only [List.length_cons, List.replicate_succ, mulLoop, h1, List.cons_append]
      refine ⟨by omega, Dig.cons h3a i2, ?_⟩
      simp only [uval, i3] at h4 ⊢
      linarith

theorem mulCorr_spec : ∀ {r x : Digits} {c : Nat}, Dig r → Dig x → c ≤ 1 → r.length = x.length →
    Dig (mulCorr r x c) ∧ (mulCorr r x c).length = r.length ∧
    ∃ k : Int, (uval (mulCorr r x c) : Int) = uval r - uval x - 1 + c + 𝐁 ^ r.length * k
  | [], [], c, _, _, hc, _ => by
    refine ⟨by simp [mulCorr], by simp [mulCorr], 1 - c, by simp [mulCorr, uval]⟩
  | [], _ :: _, _, _, _, _, h => by simp at h
  | _ :: _, [], _, _, _, _, h => by simp at h
  | a :: r, b :: x, c, hr, hx, hc, hl => by
    obtain ⟨ha, hr⟩ := dig_cons.1 hr
    obtain ⟨hb, hx⟩ := dig_cons.1 hx
    have key : ∀ (y c' : Nat), y < 𝐁 → c' ≤ 1 → y + 𝐁 * c' = a + dnot b + c →
        Dig (y :: mulCorr r x c') ∧ (y :: mulCorr r x c').length = (a :: r).length ∧
        ∃ k : Int, (uval (y :: mulCorr r x c') : Int)
          = uval (a :: r) - uval (b :: x) - 1 + c + 𝐁 ^ (a :: r).length * k := by
      intro y c' hy hc' he
      obtain ⟨i1, i2, k, i3⟩ := mulCorr_spec (c := c') hr hx hc' (by simpa using hl)
      refine ⟨Dig.cons hy i1, by simp [i2], k, ?_⟩
      simp only [uval, List.length_cons, pow_succ]
      push_cast
      rw [i3]
      have : (y : Int) + 𝐁 * c' = a + (𝐁 - 1 - b) + c := by unfold dnot at he; omega
      push_cast at this
      push_cast
      linarith
    have hrip := ripple ha (dnot_lt b) hc
    simp only [mulCorr]
    by_cases h0 : dadd (dnot b) c = 0
    · simp only [h0, ne_eq, not_true_eq_false, if_false]
      exact key _ _ ha hc (hrip.2 h0)
    · simp only [h0, ne_eq, not_false_eq_true, if_true]
      exact key _ _ (dadd_lt _ _) (by split <;> omega) (hrip.1 h0)

/-- correcting the top part of a vector subtracts a multiple of a power of `𝐁` -/
theorem corrTop_spec {r x : Digits} {n : Nat} (hr : Dig r) (hx : Dig x)
    (hl : r.length = n + x.length) :
    let r' := r.take (r.length - x.length) ++ mulCorr (r.drop (r.length - x.length)) x 1
    Dig r' ∧ r'.length = r.length ∧
    ∃ k : Int, (uval r' : Int) = uval r - 𝐁 ^ n * uval x + 𝐁 ^ r.length * k := by
  have e : r.length - x.length = n := by omega
  dsimp only
  rw [e]
  have hsplit := dig_append.1 (show Dig (r.take n ++ r.drop n) by rwa [List.take_append_drop])
  have hlt : (r.take n).length = n := by simp; omega
  have hld : (r.drop n).length = x.length := by simp; omega
  obtain ⟨i1, i2, k, i3⟩ := mulCorr_spec (c := 1) hsplit.2 hx (le_refl _) hld
  refine ⟨dig_append.2 ⟨hsplit.1, i1⟩, by rw [List.length_append, hlt, i2, hld]; omega, k, ?_⟩
  have hu : uval r = uval (r.take n) + 𝐁 ^ n * uval (r.drop n) := by
    conv_lhs => rw [← List.take_append_drop n r]
    rw [uval_append, hlt]
  rw [uval_append, hlt, hu, hl, pow_add]
  push_cast
  rw [i3, hld]
  push_cast
  ring

theorem mul_spec {d x : Digits} (hd : WF d) (hx : WF x) :
    Norm (mul d x) ∧ sval (mul d x) = sval d * sval x := by
  have ld : d.length ≠ 0 := by simpa using hd.1
  have lx : x.length ≠ 0 := by simpa using hx.1
  obtain ⟨n, hn⟩ : ∃ n, d.length = n + 1 := ⟨d.length - 1, by omega⟩
  obtain ⟨m, hm⟩ : ∃ m, x.length = m + 1 := ⟨x.length - 1, by omega⟩
  have rd := sval_range n hd hn
  have rx := sval_range m hx hm
  obtain ⟨a1, a2, a3⟩ := mulLoop_spec (r1 := List.replicate x.length 0) hd.2 hx.2 dig_replicate
    (by simp)
  unfold mul
  rw [Nat.add_comm d.length x.length, ← List.replicate_append_replicate]
  dsimp only
  generalize hr0 : mulLoop d x (List.replicate x.length 0 ++ List.replicate d.length 0) = r0 at *
  rw [uval_replicate, zero_add] at a3
  have a3' : (uval r0 : Int) = uval d * uval x := by exact_mod_cast a3
  -- first correction
  obtain ⟨r1, hr1, b1, b2, k1, b3⟩ : ∃ r1, (if isNegative d = true then
      r0.take (r0.length - x.length) ++ mulCorr (r0.drop (r0.length - x.length)) x 1
      else r0) = r1 ∧ Dig r1 ∧ r1.length = r0.length ∧
      ∃ k : Int, (uval r1 : Int) = uval r0 - (if isNegative d = true then 𝐁 ^ d.length * uval x else 0)
        + 𝐁 ^ r0.length * k := by
    by_cases h : isNegative d = true
    · simp only [h, if_true]
      exact ⟨_, rfl, corrTop_spec a2 hx.2 a1⟩
    · simp only [h]
      exact ⟨_, rfl, a2, rfl, 0, by simp⟩
  rw [hr1]
  obtain ⟨r2, hr2, c1, c2, k2, c3⟩ : ∃ r2, (if isNegative x = true then
      r1.take (r1.length - d.length) ++ mulCorr (r1.drop (r1.length - d.length)) d 1
      else r1) = r2 ∧ Dig r2 ∧ r2.length = r1.length ∧
      ∃ k : Int, (uval r2 : Int) = uval r1 - (if isNegative x = true then 𝐁 ^ x.length * uval d else 0)
        + 𝐁 ^ r1.length * k := by
    by_cases h : isNegative x = true
    · simp only [h, if_true]
      exact ⟨_, rfl, corrTop_spec b1 hd.2 (by omega)⟩
    · simp only [h]
      exact ⟨_, rfl, b1, rfl, 0, by simp⟩
  rw [hr2]
  have hl2 : r2.length = (n + m + 1) + 1 := by omega
  have w2 : WF r2 := ⟨by intro h; rw [h] at hl2; simp at hl2, c1⟩
  have hs := shrink_spec w2
  refine ⟨hs.1, hs.2.trans ?_⟩
  have r2r := sval_range _ w2 hl2
  have hM : (𝐁 : Int) ^ r0.length = 𝐁 ^ d.length * 𝐁 ^ x.length := by rw [a1, pow_add]
  -- both sides agree modulo 𝐁^(length)
  have hcong : ∃ k : Int, sval r2 = sval d * sval x + (𝐁 : Int) ^ r0.length * k := by
    rw [sval_uval r2, sval_uval d, sval_uval x, c3, b3, a3', b2, c2, b2]
    have e1 : (isNegative d = true) ↔ 𝐇 ≤ back d := by simp [isNegative]
    have e2 : (isNegative x = true) ↔ 𝐇 ≤ back x := by simp [isNegative]
    simp only [e1, e2]
    rw [hM]
    by_cases h1 : 𝐇 ≤ back d <;> by_cases h2 : 𝐇 ≤ back x <;> by_cases h3 : 𝐇 ≤ back r2 <;>
      simp only [h1, h2, h3, if_true, if_false]
    · exact ⟨k1 + k2 - 2, by push_cast; ring⟩
    · exact ⟨k1 + k2 - 1, by push_cast; ring⟩
    · exact ⟨k1 + k2 - 1, by push_cast; ring⟩
    · exact ⟨k1 + k2, by push_cast; ring⟩
    · exact ⟨k1 + k2 - 1, by push_cast; ring⟩
    · exact ⟨k1 + k2, by push_cast; ring⟩
    · exact ⟨k1 + k2 - 1, by push_cast; ring⟩
    · exact ⟨k1 + k2, by push_cast; ring⟩
  obtain ⟨k, hk⟩ := hcong
  -- and both are small
  have hb : |sval d * sval x| ≤ (𝐇 * 𝐁 ^ n : Int) * (𝐇 * 𝐁 ^ m) := by
    rw [abs_mul]
    apply mul_le_mul
    · rw [abs_le]; omega
    · rw [abs_le]; omega
    · exact abs_nonneg _
    · positivity
  have hP : (0 : Int) < 𝐁 ^ n * 𝐁 ^ m := by positivity
  have e1 : ((𝐇 : Nat) : Int) * 𝐁 ^ (n + m + 1) = 𝐇 * 𝐁 * (𝐁 ^ n * 𝐁 ^ m) := by rw [pow_succ, pow_add]; ring
  have e2 : (𝐇 * 𝐁 ^ n : Int) * (𝐇 * 𝐁 ^ m) = 𝐇 * 𝐇 * (𝐁 ^ n * 𝐁 ^ m) := by ring
  have e3 : (𝐁 : Int) ^ r0.length = 𝐁 * 𝐁 * (𝐁 ^ n * 𝐁 ^ m) := by
    rw [hM, hn, hm, pow_succ, pow_succ]; ring
  rw [e2, abs_le] at hb
  rw [e1] at r2r
  rw [e3] at hk
  generalize ((𝐁 : Nat) : Int) ^ n * (𝐁 : Nat) ^ m = Q at *
  have hk0 : k = 0 := by
    rcases lt_trichotomy k 0 with h | h | h
    · exfalso
      have : Q * k ≤ Q * (-1) := mul_le_mul_of_nonneg_left (by omega) (by omega)
      push_cast at *
      nlinarith
    · exact h
    · exfalso
      have : Q * 1 ≤ Q * k := mul_le_mul_of_nonneg_left (by omega) (by omega)
      push_cast at *
      nlinarith
  rw [hk, hk0]; simp

theorem powerLoop_spec {d : Digits} (hd : Norm d) : ∀ (n : Nat) {r : Digits}, Norm r →
    Norm (powerLoop d n r) ∧ sval (powerLoop d n r) = sval r * sval d ^ n
  | 0, r, hr => by simp [powerLoop, hr]
  | n + 1, r, hr => by
    have hm := mul_spec hr.wf hd.wf
    have := powerLoop_spec hd n hm.1
    refine ⟨this.1, this.2.trans ?_⟩
    rw [hm.2]; ring

/-! ### division by a single digit -/

theorem or_eq_add {a x : Nat} (ha : a < 𝐁) (hx : x < 𝐁) : a * 𝐁 % 𝐖 ||| x = a * 𝐁 + x := by
  have h1 : a * 𝐁 % 𝐖 = 2 ^ 32 * a := by rw [Nat.mod_eq_of_lt (by omega)]; omega
  rw [h1, ← Nat.two_pow_add_eq_or_of_lt (by omega)]; omega

theorem shiftModPos_spec : ∀ {l : Digits} {base acc : Nat}, Dig l → 0 < base → base < 𝐁 →
    acc < base →
    Dig (shiftModPos l base acc).1 ∧ (shiftModPos l base acc).1.length = l.length ∧
    (shiftModPos l base acc).2 < base ∧
    acc * 𝐁 ^ l.length + uval l.reverse =
      base * uval (shiftModPos l base acc).1.reverse + (shiftModPos l base acc).2
  | [], base, acc, _, _, _, h => by simp [shiftModPos, uval, h]
  | a :: l, base, acc, hl, h0, hb, hacc => by
    obtain ⟨ha, hl⟩ := dig_cons.1 hl
    have hor := or_eq_add (a := acc) (by omega) ha
    obtain ⟨i1, i2, i3, i4⟩ := shiftModPos_spec (acc := (acc * 𝐁 + a) % base) hl h0 hb
      (Nat.mod_lt _ h0)
    have hq : (acc * 𝐁 + a) / base < 𝐁 := by
      rw [Nat.div_lt_iff_lt_mul h0]
      have : (acc + 1) * 𝐁 ≤ base * 𝐁 := Nat.mul_le_mul_right _ hacc
      rw [Nat.mul_comm 𝐁 base]
      omega
    simp only [shiftModPos, hor, Nat.mod_eq_of_lt hq]
    refine ⟨Dig.cons hq i1, by simp [i2], i3, ?_⟩
    simp only [List.reverse_cons, uval_append, List.length_reverse, i2, uval, List.length_cons]
    have hdm := Nat.div_add_mod (acc * 𝐁 + a) base
    rw [pow_succ]
    have e : 𝐁 ^ l.length * (base * ((acc * 𝐁 + a) / base) + (acc * 𝐁 + a) % base)
      = 𝐁 ^ l.length * (acc * 𝐁 + a) := by rw [hdm]
    linarith

theorem shiftModNeg_eq : ∀ {l : Digits} {base acc : Nat},
    shiftModNeg l base acc =
      (cmap (shiftModPos (cmap l) base acc).1, (shiftModPos (cmap l) base acc).2)
  | [], _, _ => rfl
  | a :: l, base, acc => by
    simp only [shiftModNeg, cmap_cons, shiftModPos, shiftModNeg_eq (l := l)]

theorem cmap_reverse {l : Digits} : cmap l.reverse = (cmap l).reverse := by simp [cmap]

theorem shiftMod_core {d : Digits} {base : Nat} (hd : WF d) (h0 : 0 < base) (hb : base < 𝐁)
    (hs : 0 ≤ sval d) :
    ∃ q r, shiftModPos d.reverse base 0 = (q, r) ∧ WF q.reverse ∧ back q.reverse < 𝐇 ∧
      r < base ∧ sval d = base * sval q.reverse + r := by
  obtain ⟨i1, i2, i3, i4⟩ := shiftModPos_spec (acc := 0) (dig_reverse.2 hd.2) h0 hb h0
  have hl0 : d.length ≠ 0 := by simpa using hd.1
  obtain ⟨n, hn⟩ : ∃ n, d.length = n + 1 := ⟨d.length - 1, by omega⟩
  generalize shiftModPos d.reverse base 0 = R at *
  obtain ⟨q, r⟩ := R
  dsimp only at *
  rw [List.reverse_reverse] at i4
  simp only [zero_mul, zero_add] at i4
  have hw : WF q.reverse := ⟨by
    intro h; have := congrArg List.length h; simp at this; rw [this] at i2; simp at i2; exact hl0 i2.symm,
    dig_reverse.2 i1⟩
  have hr := (sval_range n hd hn).2
  rw [sval_nonneg_uval hd hs] at hr ⊢
  have hr' : uval d < 𝐇 * 𝐁 ^ n := by exact_mod_cast hr
  have hq : uval q.reverse < 𝐇 * 𝐁 ^ n := by
    have : 1 * uval q.reverse ≤ base * uval q.reverse := Nat.mul_le_mul_right _ h0
    omega
  have hbk : back q.reverse < 𝐇 := by
    by_contra hge
    have h1 := sval_uval q.reverse
    rw [if_pos (by omega)] at h1
    have hlen : q.reverse.length = n + 1 := by simp [i2, hn]
    have h2 := (sval_range n hw hlen).1
    rw [h1, hlen, pow_succ] at h2
    have hq' : (uval q.reverse : Int) < 𝐇 * 𝐁 ^ n := by exact_mod_cast hq
    push_cast at h2 hq'
    nlinarith
  refine ⟨q, r, rfl, hw, hbk, i3, ?_⟩
  rw [sval_of_back hbk, i4]; push_cast; ring

theorem shiftModulo_spec {d : Digits} {base : Nat} (hd : WF d) (h0 : 0 < base) (hb : base < 𝐁) :
    Norm (shiftModulo d base).1 ∧ sval (shiftModulo d base).1 = sval d / base ∧
    ((shiftModulo d base).2 : Int) = sval d % base := by
  have hbi : (0 : Int) < base := by exact_mod_cast h0
  have hdm : ∀ q r : Int, 0 ≤ r → r < base → sval d = base * q + r →
      q = sval d / base ∧ r = sval d % base := by
    intro q r h1 h2 h3
    have := (Int.ediv_emod_unique hbi (a := sval d) (r := r) (q := q)).2 ⟨by rw [h3]; ring, h1, h2⟩
    exact ⟨this.1.symm, this.2.symm⟩
  unfold shiftModulo
  by_cases hn : isNegative d = true
  · rw [if_pos hn]
    have hs : sval d < 0 := (isNegative_iff hd).1 hn
    have hcd := cmap_wf hd
    have hcs := cmap_sval hd
    obtain ⟨q, r, h1, h2, h3, h4, h5⟩ := shiftMod_core hcd h0 hb (by omega)
    have e : shiftModNeg d.reverse base 0 = (cmap q, r) := by
      rw [shiftModNeg_eq, cmap_reverse, h1]
    rw [e]
    dsimp only
    rw [← cmap_reverse]
    have wc := cmap_wf h2
    have hsn := shrinkNeg_spec wc
    have hpr : ¬ PosRed (cmap q.reverse) := by
      rw [cmap_posRed h2]; intro h; have := negRed_back h; omega
    have hnm : Norm (shrinkNeg (cmap q.reverse)) := by
      exact ⟨hsn.1, fun h => hpr (hsn.2.2.2 h), hsn.2.2.1⟩
    have hv : sval (shrinkNeg (cmap q.reverse)) = -1 - sval q.reverse := by
      rw [← cmap_sval h2]; exact hsn.2.1
    have hrr : (base + (𝐖 - 1 - r)) % 𝐁 = base - 1 - r := by omega
    rw [hrr, hv]
    have := hdm (-1 - sval q.reverse) ((base - 1 - r : Nat) : Int) (by positivity) (by omega)
      (by
        have : sval d = -1 - sval (cmap d) := by omega
        rw [this, h5]
        have : ((base - 1 - r : Nat) : Int) = base - 1 - r := by omega
        rw [this]; ring)
    exact ⟨hnm, this⟩
  · rw [if_neg hn]
    have hs : 0 ≤ sval d := by
      have := isNegative_iff hd
      by_contra h
      exact hn (this.2 (by omega))
    obtain ⟨q, r, h1, h2, h3, h4, h5⟩ := shiftMod_core hd h0 hb hs
    rw [h1]
    dsimp only
    have hsp := shrinkPos_spec h2
    have hnr : ¬ NegRed q.reverse := by intro h; have := negRed_back h; omega
    have hnm : Norm (shrinkPos q.reverse) := by
      exact ⟨hsp.1, hsp.2.2.1, fun h => hnr (hsp.2.2.2 h)⟩
    have hv : sval (shrinkPos q.reverse) = sval q.reverse := hsp.2.1
    rw [hv, Nat.mod_eq_of_lt (by omega)]
    exact ⟨hnm, hdm _ _ (by positivity) (by omega) h5⟩

end Verif.BigInt
