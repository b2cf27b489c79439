import Verif.BigInt.Spec
import Mathlib.Tactic.Ring
import Mathlib.Tactic.Linarith
import Mathlib.Algebra.Order.Ring.Int
/-
Helper lemmas for `big_int`: recursive characterisation of values and of
canonical form; shrinking.
-/
namespace Verif.BigInt

/-- recursive form of `value` -/
def sval : Digits → Int
  | [] => 0
  | [t] => if t < 𝐇 then (t : Int) else (t : Int) - 𝐁
  | x :: y :: l => x + 𝐁 * sval (y :: l)

theorem sval_cons {x : Nat} {l : Digits} (h : l ≠ []) :
    sval (x :: l) = x + 𝐁 * sval l := by
  cases l with
  | nil => exact absurd rfl h
  | cons y l => rfl

theorem sval_cons2 {x y : Nat} {l : Digits} :
    sval (x :: y :: l) = x + 𝐁 * sval (y :: l) := rfl

theorem value_eq_sval (d : Digits) : value d = sval d := by
  induction d with
  | nil => simp [value, sval, uval]
  | cons x l ih =>
    cases l with
    | nil =>
      simp only [value, sval, uval, List.getLastD_cons, List.getLastD_nil, List.length]
      split <;> split <;> simp <;> omega
    | cons y l =>
      rw [sval_cons (by simp), ← ih]
      simp only [value, uval, List.getLastD_cons, List.length_cons, Nat.cast_add, Nat.cast_mul]
      split
      · rw [pow_succ]; push_cast; ring
      · push_cast; ring

theorem wf_cons {x : Nat} {l : Digits} (hl : l ≠ []) : WF (x :: l) ↔ x < 𝐁 ∧ WF l := by
  simp [WF, hl]

theorem wf_single {x : Nat} : WF [x] ↔ x < 𝐁 := by simp [WF]

/-- top two digits (second, top) -/
def top2 : Digits → Option (Nat × Nat)
  | [] => none
  | [_] => none
  | [x, t] => some (x, t)
  | _ :: y :: z :: l => top2 (y :: z :: l)

/-- redundant zero on top -/
def PosRed (l : Digits) : Prop := ∃ x, top2 l = some (x, 0) ∧ x < 𝐇
/-- redundant all-ones digit on top -/
def NegRed (l : Digits) : Prop := ∃ x, top2 l = some (x, 𝐁 - 1) ∧ 𝐇 ≤ x

@[simp] theorem posRed_single {x} : ¬ PosRed [x] := by simp [PosRed, top2]
@[simp] theorem negRed_single {x} : ¬ NegRed [x] := by simp [NegRed, top2]
@[simp] theorem posRed_nil : ¬ PosRed [] := by simp [PosRed, top2]
@[simp] theorem negRed_nil : ¬ NegRed [] := by simp [NegRed, top2]
theorem posRed_pair {x t} : PosRed [x, t] ↔ t = 0 ∧ x < 𝐇 := by
  simp only [PosRed, top2, Option.some.injEq, Prod.mk.injEq]
  constructor
  · rintro ⟨a, ⟨rfl, rfl⟩, h⟩; exact ⟨rfl, h⟩
  · rintro ⟨rfl, h⟩; exact ⟨x, ⟨rfl, rfl⟩, h⟩
theorem negRed_pair {x t} : NegRed [x, t] ↔ t = 𝐁 - 1 ∧ 𝐇 ≤ x := by
  simp only [NegRed, top2, Option.some.injEq, Prod.mk.injEq]
  constructor
  · rintro ⟨a, ⟨rfl, rfl⟩, h⟩; exact ⟨rfl, h⟩
  · rintro ⟨rfl, h⟩; exact ⟨x, ⟨rfl, rfl⟩, h⟩
theorem posRed_cons {x y z l} : PosRed (x :: y :: z :: l) ↔ PosRed (y :: z :: l) := Iff.rfl
theorem negRed_cons {x y z l} : NegRed (x :: y :: z :: l) ↔ NegRed (y :: z :: l) := Iff.rfl

/-- operational canonical form -/
def Norm (l : Digits) : Prop := WF l ∧ ¬ PosRed l ∧ ¬ NegRed l

theorem norm_single {x} : Norm [x] ↔ x < 𝐁 := by simp [Norm, wf_single]
theorem norm_pair {x t} : Norm [x, t] ↔ x < 𝐁 ∧ t < 𝐁 ∧ ¬ (t = 0 ∧ x < 𝐇) ∧ ¬ (t = 𝐁 - 1 ∧ 𝐇 ≤ x) := by
  simp only [Norm, posRed_pair, negRed_pair, wf_cons (List.cons_ne_nil _ _), wf_single, and_assoc]
theorem norm_cons {x y z l} : Norm (x :: y :: z :: l) ↔ x < 𝐁 ∧ Norm (y :: z :: l) := by
  simp only [Norm, posRed_cons, negRed_cons, wf_cons (List.cons_ne_nil _ _), and_assoc]

theorem Norm.wf {l} (h : Norm l) : WF l := h.1
theorem Norm.tail {x l} (hl : l ≠ []) (h : Norm (x :: l)) : Norm l := by
  match l, hl, h with
  | [t], _, h => exact norm_single.2 (norm_pair.1 h).2.1
  | y :: z :: l, _, h => exact (norm_cons.1 h).2

/-- two digit lists of equal length with equal value agree -/
theorem sval_inj : ∀ {l m : Digits}, WF l → WF m → l.length = m.length → sval l = sval m → l = m
  | [], _, h, _, _, _ => absurd rfl h.1
  | [a], [b], h1, h2, _, h => by
    have := wf_single.1 h1; have := wf_single.1 h2
    simp only [sval] at h
    congr 1; split at h <;> split at h <;> omega
  | a :: a' :: l, b :: b' :: m, h1, h2, hl, h => by
    have w1 := (wf_cons (List.cons_ne_nil _ _)).1 h1
    have w2 := (wf_cons (List.cons_ne_nil _ _)).1 h2
    rw [sval_cons2, sval_cons2] at h
    have hab : a = b ∧ sval (a' :: l) = sval (b' :: m) := by omega
    have := sval_inj w1.2 w2.2 (by simpa using hl) hab.2
    rw [hab.1, this]
  | [a], [], _, _, h, _ => by simp at h
  | [a], _ :: _ :: _, _, _, h, _ => by simp at h
  | _ :: _ :: _, [b], _, _, h, _ => by simp at h
  | _ :: _ :: _, [], _, _, h, _ => by simp at h

/-- range of values of a given length -/
theorem sval_range : ∀ {l : Digits} (n : Nat), WF l → l.length = n + 1 →
    - (𝐇 * 𝐁 ^ n : Int) ≤ sval l ∧ sval l < 𝐇 * 𝐁 ^ n
  | [], _, h, _ => absurd rfl h.1
  | [a], n, h, hl => by
    have := wf_single.1 h
    have : n = 0 := by simpa using hl.symm
    subst this; simp only [sval]; split <;> constructor <;> simp <;> omega
  | a :: b :: l, n, h, hl => by
    have w := (wf_cons (List.cons_ne_nil _ _)).1 h
    obtain ⟨n, rfl⟩ : ∃ m, n = m + 1 := ⟨n - 1, by simp at hl; omega⟩
    have ih := sval_range n w.2 (by simpa using hl)
    rw [sval_cons2]
    have e : (𝐇 : Int) * 𝐁 ^ (n + 1) = 𝐁 * (𝐇 * 𝐁 ^ n) := by ring
    have w1 := w.1
    rw [e]
    generalize (𝐇 : Int) * 𝐁 ^ n = P at *
    generalize sval (b :: l) = v at *
    omega

/-- normal form in terms of values: out of range for one digit less -/
theorem norm_iff_value : ∀ {l : Digits} (n : Nat), WF l → l.length = n + 2 →
    (Norm l ↔ sval l < - (𝐇 * 𝐁 ^ n : Int) ∨ (𝐇 * 𝐁 ^ n : Int) ≤ sval l)
  | [], _, h, _ => absurd rfl h.1
  | [a], n, _, hl => by simp at hl
  | [a, t], n, h, hl => by
    have w := (wf_cons (List.cons_ne_nil _ _)).1 h
    have w2 := wf_single.1 w.2
    have w1 := w.1
    have : n = 0 := by simpa using hl.symm
    subst this
    rw [norm_pair]
    simp only [sval]; push_cast
    split <;> omega
  | a :: b :: c :: l, n, h, hl => by
    have w := (wf_cons (List.cons_ne_nil _ _)).1 h
    obtain ⟨n, rfl⟩ : ∃ m, n = m + 1 := ⟨n - 1, by simp at hl; omega⟩
    have ih := norm_iff_value n w.2 (by simpa using hl)
    rw [norm_cons, ih, sval_cons2 (x := a)]
    have e : (𝐇 : Int) * 𝐁 ^ (n + 1) = 𝐁 * (𝐇 * 𝐁 ^ n) := by ring
    have w1 := w.1
    rw [e]
    generalize (𝐇 : Int) * 𝐁 ^ n = P at *
    generalize sval (b :: c :: l) = v at *
    omega

theorem norm_inj {l m : Digits} (h1 : Norm l) (h2 : Norm m) (h : sval l = sval m) : l = m := by
  have key : ∀ {l m : Digits}, Norm l → Norm m → sval l = sval m → l.length ≤ m.length := by
    intro l m h1 h2 h
    by_contra hlt
    have hm : m.length ≠ 0 := by simpa using h2.wf.1
    obtain ⟨n, hn⟩ : ∃ n, l.length = n + 2 := ⟨l.length - 2, by omega⟩
    obtain ⟨k, hk⟩ : ∃ k, m.length = k + 1 := ⟨m.length - 1, by omega⟩
    have r := (norm_iff_value n h1.wf hn).1 h1
    have s := sval_range k h2.wf hk
    have hp : (𝐇 : Int) * 𝐁 ^ k ≤ 𝐇 * 𝐁 ^ n := by
      apply mul_le_mul_of_nonneg_left _ (by norm_num)
      exact pow_le_pow_right₀ (by norm_num) (by omega)
    omega
  exact sval_inj h1.wf h2.wf (le_antisymm (key h1 h2 h) (key h2 h1 h.symm)) h

/-! ### shrinking -/

theorem shrinkPosRev_append (x : Nat) : ∀ r : Digits, r ≠ [] →
    shrinkPosRev (r ++ [x]) =
      if shrinkPosRev r = [0] ∧ x < 𝐇 then [x] else shrinkPosRev r ++ [x]
  | [], h => absurd rfl h
  | [a], _ => by
    by_cases h : a = 0 ∧ x < 𝐇 <;> simp [shrinkPosRev, h]
  | a :: b :: l, _ => by
    have ih := shrinkPosRev_append x (b :: l) (by simp)
    by_cases h : a = 0 ∧ b < 𝐇
    · simp only [List.cons_append, shrinkPosRev, h, and_self, if_true] at *; exact ih
    · simp only [List.cons_append, shrinkPosRev, h, if_false]; simp

theorem shrinkPos_cons {x : Nat} {l : Digits} (hl : l ≠ []) :
    shrinkPos (x :: l) = if shrinkPos l = [0] ∧ x < 𝐇 then [x] else x :: shrinkPos l := by
  unfold shrinkPos
  rw [List.reverse_cons, shrinkPosRev_append x _ (by simpa using hl)]
  have : (shrinkPosRev l.reverse).reverse = [0] ↔ shrinkPosRev l.reverse = [0] := by
    rw [List.reverse_eq_iff]; simp
  simp only [this]; split <;> simp

@[simp] theorem shrinkPos_single {x} : shrinkPos [x] = [x] := by simp [shrinkPos, shrinkPosRev]

theorem shrinkNegRev_append (x : Nat) : ∀ r : Digits, r ≠ [] → (∀ y ∈ r, y < 𝐁) →
    shrinkNegRev (r ++ [x]) =
      if shrinkNegRev r = [𝐁 - 1] ∧ 𝐇 ≤ x then [x] else shrinkNegRev r ++ [x]
  | [], h, _ => absurd rfl h
  | [a], _, hw => by
    have : a < 𝐁 := hw a (by simp)
    by_cases h : dnot a = 0 ∧ 𝐇 ≤ x
    · have : a = 𝐁 - 1 := by have := h.1; unfold dnot at this; omega
      subst this; simp [shrinkNegRev, h]
    · have : ¬ (a = 𝐁 - 1 ∧ 𝐇 ≤ x) := by
        rintro ⟨rfl, h'⟩; exact h ⟨rfl, h'⟩
      simp [shrinkNegRev, h]; omega
  | a :: b :: l, _, hw => by
    have ih := shrinkNegRev_append x (b :: l) (by simp) (fun y hy => hw y (by simp [hy]))
    by_cases h : dnot a = 0 ∧ 𝐇 ≤ b
    · simp only [List.cons_append, shrinkNegRev, h, and_self, if_true] at *; exact ih
    · simp only [List.cons_append, shrinkNegRev, h, if_false]; simp

theorem shrinkNeg_cons {x : Nat} {l : Digits} (hl : WF l) :
    shrinkNeg (x :: l) = if shrinkNeg l = [𝐁 - 1] ∧ 𝐇 ≤ x then [x] else x :: shrinkNeg l := by
  unfold shrinkNeg
  rw [List.reverse_cons, shrinkNegRev_append x _ (by simpa using hl.1) (by simpa using hl.2)]
  have : (shrinkNegRev l.reverse).reverse = [𝐁 - 1] ↔ shrinkNegRev l.reverse = [𝐁 - 1] := by
    rw [List.reverse_eq_iff]; simp
  simp only [this]; split <;> simp

@[simp] theorem shrinkNeg_single {x} : shrinkNeg [x] = [x] := by simp [shrinkNeg, shrinkNegRev]

theorem shrinkPos_spec : ∀ {l : Digits}, WF l →
    WF (shrinkPos l) ∧ sval (shrinkPos l) = sval l ∧ ¬ PosRed (shrinkPos l) ∧
      (NegRed (shrinkPos l) → NegRed l)
  | [], h => absurd rfl h.1
  | [x], h => by simpa using h
  | x :: y :: l, h => by
    have w := (wf_cons (List.cons_ne_nil _ _)).1 h
    obtain ⟨i1, i2, i3, i4⟩ := shrinkPos_spec w.2
    rw [shrinkPos_cons (by simp)]
    by_cases c : shrinkPos (y :: l) = [0] ∧ x < 𝐇
    · rw [if_pos c]
      rw [c.1] at i2
      refine ⟨wf_single.2 w.1, ?_, by simp, by simp⟩
      rw [sval_cons2, ← i2]; simp [sval, c.2]
    · rw [if_neg c]
      have hne : shrinkPos (y :: l) ≠ [] := i1.1
      refine ⟨(wf_cons hne).2 ⟨w.1, i1⟩, by rw [sval_cons hne, sval_cons2, i2], ?_, ?_⟩
      · match hs : shrinkPos (y :: l), hne with
        | [t], _ => rw [posRed_pair]; rintro ⟨rfl, h⟩; exact c ⟨hs, h⟩
        | a :: b :: m, _ => rw [posRed_cons]; rwa [hs] at i3
      · match hs : shrinkPos (y :: l), hne with
        | [t], _ =>
          rw [negRed_pair]; rintro ⟨rfl, hx⟩
          -- then `y :: l` was a single digit, or shrinking stopped at a negative digit
          cases l with
          | nil => simp at hs; subst hs; rw [negRed_pair]; exact ⟨rfl, hx⟩
          | cons z l =>
            exfalso
            -- shrinking to a single digit from length ≥ 2 needs digit < H
            rw [shrinkPos_cons (by simp)] at hs
            split at hs
            · next hc => simp only [List.cons.injEq, and_true] at hs; omega
            · simp only [List.cons.injEq] at hs
              exact (shrinkPos_spec ((wf_cons (List.cons_ne_nil _ _)).1 w.2).2).1.1 hs.2
        | a :: b :: m, _ =>
          rw [negRed_cons]; rw [hs] at i4; intro hh
          have := i4 hh
          match l, this with
          | [], this => simp at this
          | z :: l, this => exact negRed_cons.2 this

theorem shrinkNeg_spec : ∀ {l : Digits}, WF l →
    WF (shrinkNeg l) ∧ sval (shrinkNeg l) = sval l ∧ ¬ NegRed (shrinkNeg l) ∧
      (PosRed (shrinkNeg l) → PosRed l)
  | [], h => absurd rfl h.1
  | [x], h => by simpa using h
  | x :: y :: l, h => by
    have w := (wf_cons (List.cons_ne_nil _ _)).1 h
    obtain ⟨i1, i2, i3, i4⟩ := shrinkNeg_spec w.2
    rw [shrinkNeg_cons w.2]
    by_cases c : shrinkNeg (y :: l) = [𝐁 - 1] ∧ 𝐇 ≤ x
    · rw [if_pos c]
      rw [c.1] at i2
      refine ⟨wf_single.2 w.1, ?_, by simp, by simp⟩
      rw [sval_cons2, ← i2]
      have := c.2
      simp only [sval]; rw [if_neg (by omega), if_neg (by omega)]; omega
    · rw [if_neg c]
      have hne : shrinkNeg (y :: l) ≠ [] := i1.1
      refine ⟨(wf_cons hne).2 ⟨w.1, i1⟩, by rw [sval_cons hne, sval_cons2, i2], ?_, ?_⟩
      · match hs : shrinkNeg (y :: l), hne with
        | [t], _ => rw [negRed_pair]; rintro ⟨rfl, h⟩; exact c ⟨hs, h⟩
        | a :: b :: m, _ => rw [negRed_cons]; rwa [hs] at i3
      · match hs : shrinkNeg (y :: l), hne with
        | [t], _ =>
          rw [posRed_pair]; rintro ⟨rfl, hx⟩
          cases l with
          | nil => simp at hs; subst hs; rw [posRed_pair]; exact ⟨rfl, hx⟩
          | cons z l =>
            exfalso
            have w' := ((wf_cons (List.cons_ne_nil _ _)).1 w.2).2
            rw [shrinkNeg_cons w'] at hs
            split at hs
            · next hc => simp only [List.cons.injEq, and_true] at hs; omega
            · simp only [List.cons.injEq] at hs
              exact (shrinkNeg_spec w').1.1 hs.2
        | a :: b :: m, _ =>
          rw [posRed_cons]; rw [hs] at i4; intro hh
          have := i4 hh
          match l, this with
          | [], this => simp at this
          | z :: l, this => exact posRed_cons.2 this

theorem back_cons {x y : Nat} {l : Digits} : back (x :: y :: l) = back (y :: l) := by
  simp [back]
@[simp] theorem back_single {x : Nat} : back [x] = x := by simp [back]

theorem posRed_back : ∀ {l : Digits}, PosRed l → back l = 0
  | [], h => by simp at h
  | [x], h => by simp at h
  | [x, t], h => by rw [posRed_pair] at h; simp [back_cons, h.1]
  | x :: y :: z :: l, h => by rw [back_cons]; exact posRed_back (posRed_cons.1 h)
theorem negRed_back : ∀ {l : Digits}, NegRed l → back l = 𝐁 - 1
  | [], h => by simp at h
  | [x], h => by simp at h
  | [x, t], h => by rw [negRed_pair] at h; simp [back_cons, h.1]
  | x :: y :: z :: l, h => by rw [back_cons]; exact negRed_back (negRed_cons.1 h)

theorem shrink_spec {l : Digits} (h : WF l) : Norm (shrink l) ∧ sval (shrink l) = sval l := by
  unfold shrink isNegative
  by_cases c : 𝐇 ≤ back l
  · simp only [c, decide_true, if_true]
    obtain ⟨h1, h2, h3, h4⟩ := shrinkNeg_spec h
    refine ⟨⟨h1, fun hp => ?_, h3⟩, h2⟩
    have := posRed_back (h4 hp); omega
  · simp only [c, decide_false]
    obtain ⟨h1, h2, h3, h4⟩ := shrinkPos_spec h
    refine ⟨⟨h1, h3, fun hp => ?_⟩, h2⟩
    have := negRed_back (h4 hp); omega

theorem isNegative_iff : ∀ {l : Digits}, WF l → (isNegative l = true ↔ sval l < 0)
  | [], h => absurd rfl h.1
  | [x], h => by
    have := wf_single.1 h
    simp only [isNegative, back_single, decide_eq_true_eq, sval]; split <;> omega
  | x :: y :: l, h => by
    have w := (wf_cons (List.cons_ne_nil _ _)).1 h
    have ih := isNegative_iff w.2
    simp only [isNegative, back_cons, decide_eq_true_eq] at ih ⊢
    rw [ih, sval_cons2]; have := w.1; omega

theorem back_lt {l : Digits} (h : WF l) : back l < 𝐁 := by
  have : back l ∈ l := by
    unfold back; rw [List.getLastD_eq_getLast?, List.getLast?_eq_some_getLast h.1]; simp
  exact h.2 _ this

/-- `Rep` in operational terms -/
theorem canon_iff_norm {l : Digits} : Canon l ↔ Norm l := by
  constructor
  · rintro ⟨hw, hmin⟩
    have s := shrink_spec hw
    have h2 := hmin (shrink l) s.1.wf (by rw [value_eq_sval, value_eq_sval, s.2])
    -- a strictly shorter shrink is impossible; equal length implies equality
    have hlen : (shrink l).length = l.length := by
      have : (shrink l).length ≤ l.length := by
        have aux1 : ∀ r : Digits, (shrinkPosRev r).length ≤ r.length := by
          intro r; fun_induction shrinkPosRev r with
          | case1 x y l _ ih => simp at *; omega
          | case2 => simp
          | case3 => simp
        have aux2 : ∀ r : Digits, (shrinkNegRev r).length ≤ r.length := by
          intro r; fun_induction shrinkNegRev r with
          | case1 x y l _ ih => simp at *; omega
          | case2 => simp
          | case3 => simp
        unfold shrink shrinkPos shrinkNeg
        split
        · simpa using aux2 l.reverse
        · simpa using aux1 l.reverse
      omega
    rw [← sval_inj s.1.wf hw hlen s.2]; exact s.1
  · intro h
    refine ⟨h.wf, fun d' hd' hv => ?_⟩
    rw [value_eq_sval, value_eq_sval] at hv
    have s := shrink_spec hd'
    have := norm_inj h s.1 (by rw [s.2, hv])
    rw [this]
    have aux1 : ∀ r : Digits, (shrinkPosRev r).length ≤ r.length := by
      intro r; fun_induction shrinkPosRev r with
      | case1 x y l _ ih => simp at *; omega
      | case2 => simp
      | case3 => simp
    have aux2 : ∀ r : Digits, (shrinkNegRev r).length ≤ r.length := by
      intro r; fun_induction shrinkNegRev r with
      | case1 x y l _ ih => simp at *; omega
      | case2 => simp
      | case3 => simp
    unfold shrink shrinkPos shrinkNeg
    split
    · simpa using aux2 d'.reverse
    · simpa using aux1 d'.reverse

theorem rep_iff {l : Digits} {n : Int} : Rep l n ↔ Norm l ∧ sval l = n := by
  rw [Rep, canon_iff_norm, value_eq_sval]

end Verif.BigInt
