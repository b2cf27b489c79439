import Verif.Bits.Model
import Mathlib.Tactic.Ring
import Mathlib.Tactic.NormNum
import Mathlib.Algebra.Order.Ring.Nat
import Mathlib.Tactic.IntervalCases
import Mathlib.Data.Nat.Bitwise
/-
Property C18: the word level bit primitives.  Specification side: bit `k` of a
word is `Nat.testBit`, population count is the number of `k < 64` with that bit set.
-/
namespace Verif.Bits

/-- number of positions `k < n` at which `x` has a bit set -/
def popCount (n x : Nat) : Nat := ((List.range n).filter (x.testBit ·)).length

/-! ### byte decomposition -/

theorem and_bytes {a b c d : Nat} (ha : a < 256) (hc : c < 256) :
    (a + 256 * b) &&& (c + 256 * d) = (a &&& c) + 256 * (b &&& d) := by
  have h1 : ((a + 256 * b) &&& (c + 256 * d)) % 2 ^ 8 = a &&& c := by
    rw [Nat.and_mod_two_pow]
    congr 1 <;> omega
  have h2 : ((a + 256 * b) &&& (c + 256 * d)) / 2 ^ 8 = b &&& d := by
    rw [Nat.and_div_two_pow]
    congr 1 <;> omega
  have := Nat.mod_add_div ((a + 256 * b) &&& (c + 256 * d)) (2 ^ 8)
  rw [h1, h2] at this
  rw [← this]; norm_num

theorem testBit_bytes {a b k : Nat} (ha : a < 256) :
    (a + 256 * b).testBit k = if k < 8 then a.testBit k else b.testBit (k - 8) := by
  have := Nat.testBit_two_pow_mul_add b (i := 8) (b := a) (by omega) k
  rw [show 2 ^ 8 * b + a = a + 256 * b by ring] at this
  rw [this]

theorem popCount_bytes {a b n : Nat} (ha : a < 256) :
    popCount (8 + n) (a + 256 * b) = popCount 8 a + popCount n b := by
  unfold popCount
  rw [List.range_add, List.filter_append, List.length_append]
  congr 1
  · congr 1
    apply List.filter_congr
    intro k hk
    rw [testBit_bytes ha, if_pos (by simpa using hk)]
  · rw [List.filter_map, List.length_map]
    congr 1
    apply List.filter_congr
    intro k _
    simp only [Function.comp]
    rw [testBit_bytes ha, if_neg (by omega)]
    congr 1; omega

/-- little-endian value of a list of bytes -/
def word : List Nat → Nat
  | [] => 0
  | a :: l => a + 256 * word l

/-- the low `n` bytes of a word -/
def bytes : Nat → Nat → List Nat
  | 0, _ => []
  | n + 1, x => x % 256 :: bytes n (x / 256)

theorem word_bytes : ∀ n x, x < 256 ^ n → word (bytes n x) = x
  | 0, x, h => by simp at h; simp [bytes, word, h]
  | n + 1, x, h => by
    rw [pow_succ] at h
    rw [bytes, word, word_bytes n _ (Nat.div_lt_of_lt_mul (by rwa [mul_comm]))]
    omega

theorem bytes_lt : ∀ n x, ∀ a ∈ bytes n x, a < 256
  | 0, x => by simp [bytes]
  | n + 1, x => by
    intro a ha
    rw [bytes, List.mem_cons] at ha
    rcases ha with rfl | ha
    · omega
    · exact bytes_lt n _ a ha

theorem bytes_length : ∀ n x, (bytes n x).length = n
  | 0, x => rfl
  | n + 1, x => by rw [bytes, List.length_cons, bytes_length]

theorem word_and {c : Nat} (hc : c < 256) : ∀ {l : List Nat}, (∀ a ∈ l, a < 256) →
    word l &&& word (List.replicate l.length c) = word (l.map (· &&& c))
  | [], _ => by simp [word]
  | a :: l, h => by
    rw [List.length_cons, List.replicate_succ, List.map_cons, word, word, word,
      and_bytes (h a (by simp)) hc, word_and hc (fun b hb => h b (by simp [hb]))]

theorem word_add (f g : Nat → Nat) : ∀ l : List Nat,
    word (l.map (fun a => f a + g a)) = word (l.map f) + word (l.map g)
  | [] => rfl
  | a :: l => by simp only [List.map_cons, word, word_add f g l]; ring

theorem word_mul (c : Nat) (f : Nat → Nat) : ∀ l : List Nat,
    word (l.map (fun a => c * f a)) = c * word (l.map f)
  | [] => rfl
  | a :: l => by simp only [List.map_cons, word, word_mul c f l]; ring

theorem word_congr {f g : Nat → Nat} {l : List Nat} (hl : ∀ a ∈ l, a < 256)
    (h : ∀ a < 256, f a = g a) : word (l.map f) = word (l.map g) := by
  rw [List.map_congr_left (fun a ha => h a (hl a ha))]

theorem word_lt : ∀ {l : List Nat}, (∀ a ∈ l, a < 256) → word l < 256 ^ l.length
  | [], _ => by simp [word]
  | a :: l, h => by
    have := word_lt (l := l) (fun b hb => h b (by simp [hb]))
    have := h a (by simp)
    rw [word, List.length_cons, pow_succ]; omega

theorem popCount_word : ∀ {l : List Nat}, (∀ a ∈ l, a < 256) →
    popCount (8 * l.length) (word l) = (l.map (popCount 8)).sum
  | [], _ => by simp [word, popCount]
  | a :: l, h => by
    rw [word, List.length_cons, show 8 * (l.length + 1) = 8 + 8 * l.length by ring,
      popCount_bytes (h a (by simp)), popCount_word (fun b hb => h b (by simp [hb]))]
    simp

/-- effect of the successive steps of `bitCount` on one byte -/
def fN (a : Nat) : Nat := (a &&& 0xAA) / 2
def fY (a : Nat) : Nat := a - fN a
def fV (a : Nat) : Nat := (fY a &&& 0xCC) / 4
def fZ (a : Nat) : Nat := (fY a &&& 0x33) + fV a

theorem byte_facts : ∀ a < 256,
    (a = fY a + fN a ∧ (a &&& 0xAA) = 2 * fN a ∧ fY a < 256 ∧ (fY a &&& 0xCC) = 4 * fV a) ∧
    fZ a < 256 ∧ fZ a % 16 ≤ 4 ∧ fZ a / 16 ≤ 4 ∧ fZ a % 16 + fZ a / 16 = popCount 8 a := by
  decide +kernel

theorem nibble_facts : ∀ h < 16, ∀ k < 16, (h + 16 * k) &&& 0x0F = h := by decide +kernel

/-- the nibble addition step, masked -/
theorem nibble_step : ∀ {l : List Nat}, (∀ a ∈ l, a < 256) →
    let W := word (l.map fZ)
    W % 16 ≤ 4 ∧ (W + W / 16) &&& word (List.replicate l.length 0x0F) = word (l.map (popCount 8))
  | [], _ => by simp [word]
  | a :: l, h => by
    obtain ⟨i1, i2⟩ := nibble_step (l := l) (fun b hb => h b (by simp [hb]))
    obtain ⟨-, f1, f2, f3, f4⟩ := byte_facts a (h a (by simp))
    simp only [List.map_cons, word, List.length_cons, List.replicate_succ] at *
    generalize word (l.map fZ) = W at *
    generalize fZ a = z at *
    have e : z + 256 * W + (z + 256 * W) / 16
        = ((z % 16 + z / 16) + 16 * (z / 16 + W % 16)) + 256 * (W + W / 16) := by omega
    refine ⟨by omega, ?_⟩
    rw [e, and_bytes (by omega) (by norm_num), nibble_facts _ (by omega) _ (by omega), f4, i2]

theorem nibble_bound : ∀ {l : List Nat}, (∀ a ∈ l, a < 256) →
    word (l.map fZ) + word (l.map fZ) / 16 < 256 ^ l.length
  | [], _ => by simp [word]
  | a :: l, h => by
    have i := nibble_bound (l := l) (fun b hb => h b (by simp [hb]))
    have i1 := (nibble_step (l := l) (fun b hb => h b (by simp [hb]))).1
    obtain ⟨-, f1, f2, f3, f4⟩ := byte_facts a (h a (by simp))
    simp only [List.map_cons, word, List.length_cons, pow_succ] at *
    generalize word (l.map fZ) = W at *
    generalize fZ a = z at *
    omega

/-- the multiplication by `0x0101..01`: the top byte of the product (modulo the word size) is
the sum of the bytes -/
theorem sum_bytes : ∀ l : List Nat, l ≠ [] →
    ∃ H L, word l * word (List.replicate l.length 1)
      = 256 ^ l.length * H + 256 ^ (l.length - 1) * l.sum + L ∧
      L ≤ l.sum * word (List.replicate (l.length - 1) 1)
  | [], h => absurd rfl h
  | [a], _ => ⟨0, 0, by simp [word]⟩
  | a :: b :: l, _ => by
    obtain ⟨H, L, e, hL⟩ := sum_bytes (b :: l) (by simp)
    generalize hl' : b :: l = l' at *
    obtain ⟨n, hn⟩ : ∃ n, l'.length = n + 1 := ⟨l.length, by rw [← hl']; rfl⟩
    have hones : ∀ n, word (List.replicate (n + 1) 1) = word (List.replicate n 1) + 256 ^ n := by
      intro n
      induction n with
      | zero => simp [word]
      | succ n ih =>
        rw [List.replicate_succ, word, ih, pow_succ]
        have : word (List.replicate (n + 1) 1) = 1 + 256 * word (List.replicate n 1) := by
          rw [List.replicate_succ, word]
        omega
    have h1 := hones (n + 1)
    have h2 : word (List.replicate (n + 1) 1) = 1 + 256 * word (List.replicate n 1) := by
      rw [List.replicate_succ, word]
    rw [List.length_cons, List.sum_cons, hn, word]
    rw [hn] at e hL
    simp only [Nat.add_sub_cancel] at e hL ⊢
    generalize word (List.replicate (n + 1) 1) = O at *
    generalize word (List.replicate n 1) = O' at *
    refine ⟨H + word l', a * O + 256 * L, ?_, ?_⟩
    · rw [h1]
      have : (a + 256 * word l') * (O + 256 ^ (n + 1))
          = a * O + a * 256 ^ (n + 1) + 256 * (word l' * O) + 256 * word l' * 256 ^ (n + 1) := by ring
      rw [this, e, pow_succ 256 (n + 1), pow_succ 256 n]; ring
    · have : 256 * L ≤ 256 * (l'.sum * O') := Nat.mul_le_mul_left _ hL
      have : l'.sum * O = l'.sum + 256 * (l'.sum * O') := by rw [h2]; ring
      rw [Nat.add_mul]; omega

theorem popCount_le (n x : Nat) : popCount n x ≤ n := by
  unfold popCount
  exact (List.length_filter_le _ _).trans (by simp)

theorem sum_le : ∀ l : List Nat, (l.map (popCount 8)).sum ≤ 8 * l.length
  | [] => by simp
  | a :: l => by
    have := sum_le l
    have := popCount_le 8 a
    simp only [List.map_cons, List.sum_cons, List.length_cons]; omega

/-- C18: `bitCount` is the number of set bits of the word. -/
theorem C18_bitCount {x : Nat} (h : x < 2 ^ 64) : bitCount x = popCount 64 x := by
  obtain ⟨l, hx, hl, hb⟩ : ∃ l, word l = x ∧ l.length = 8 ∧ ∀ a ∈ l, a < 256 :=
    ⟨bytes 8 x, word_bytes 8 x (by norm_num; exact h), bytes_length 8 x, bytes_lt 8 x⟩
  have hmask : ∀ c : Nat, c * 72340172838076673 = word (List.replicate l.length c) := by
    intro c; rw [hl]; simp only [List.replicate, word]; ring
  have hp := popCount_word hb
  rw [hl, hx] at hp
  unfold bitCount lnot
  dsimp only
  norm_num only
  have e0 : (12297829382473034410 : Nat) = word (List.replicate l.length 0xAA) := by
    rw [← hmask]
  have e1 : (14757395258967641292 : Nat) = word (List.replicate l.length 0xCC) := by
    rw [← hmask]
  have e1' : (3689348814741910323 : Nat) = word (List.replicate l.length 0x33) := by
    rw [← hmask]
  have e2' : (1085102592571150095 : Nat) = word (List.replicate l.length 0x0F) := by
    rw [← hmask]
  have e3 : (72340172838076673 : Nat) = word (List.replicate l.length 1) := by
    rw [← hmask]
  -- first step
  have s0 : x &&& 12297829382473034410 = 2 * word (l.map fN) := by
    rw [e0, ← hx, word_and (by norm_num) hb, ← word_mul]
    exact word_congr hb (fun a ha => (byte_facts a ha).1.2.1)
  have s0' : x = word (l.map fY) + word (l.map fN) := by
    rw [← word_add, ← hx]
    conv_lhs => rw [← List.map_id l]
    exact word_congr hb (fun a ha => (byte_facts a ha).1.1)
  have s1 : (x + (18446744073709551616 - (x &&& 12297829382473034410) / 2)) % 18446744073709551616
      = word (l.map fY) := by
    rw [s0, Nat.mul_div_cancel_left _ (by norm_num)]; omega
  rw [s1]
  have hbY : ∀ a ∈ l.map fY, a < 256 := by
    intro a ha
    obtain ⟨b, hb', rfl⟩ := List.mem_map.1 ha
    exact (byte_facts b (hb b hb')).1.2.2.1
  have hlY : (l.map fY).length = l.length := by simp
  have s2 : word (l.map fY) &&& 14757395258967641292 = 4 * word (l.map fV) := by
    rw [e1, ← hlY, word_and (by norm_num) hbY, ← word_mul, List.map_map]
    exact word_congr hb (fun a ha => (byte_facts a ha).1.2.2.2)
  have s3 : word (l.map fY) &&& 3689348814741910323 = word (l.map (fun a => fY a &&& 0x33)) := by
    rw [e1', ← hlY, word_and (by norm_num) hbY, List.map_map]; rfl
  rw [s2, s3, Nat.mul_div_cancel_left _ (by norm_num), ← word_add]
  have hbZ : ∀ a ∈ l.map fZ, a < 256 := by
    intro a ha
    obtain ⟨b, hb', rfl⟩ := List.mem_map.1 ha
    exact (byte_facts b (hb b hb')).2.1
  have b1 := word_lt hbZ
  rw [List.length_map, hl] at b1
  have e4 : word (l.map (fun a => (fY a &&& 0x33) + fV a)) % 18446744073709551616 = word (l.map fZ) :=
    Nat.mod_eq_of_lt b1
  have b2 := nibble_bound hb
  rw [hl] at b2
  norm_num only at b2
  rw [e4, Nat.mod_eq_of_lt b2, e2', (nibble_step hb).2]
  -- last step
  obtain ⟨H, L, e, hL⟩ := sum_bytes (l.map (popCount 8)) (by
    intro h0; have := congrArg List.length h0; simp [hl] at this)
  have hs := sum_le l
  rw [List.length_map, hl] at e hL
  rw [hl] at hs
  have hO : word (List.replicate (8 - 1) 1) = 282578800148737 := by
    simp only [List.replicate, word]
  rw [e3, hl, e, hp]
  rw [hO] at hL
  generalize (l.map (popCount 8)).sum = S at *
  have : S * 282578800148737 ≤ 64 * 282578800148737 := Nat.mul_le_mul_right _ (by omega)
  norm_num only at *
  omega

example : popCount 64 0xF00F000000000001 = 9 := by decide +kernel

/-! ### first and last set bit -/

theorem firstbit_table : ∀ b < 256, b ≠ 0 → firstbit b < 8 ∧ b.testBit (firstbit b) = true ∧
    ∀ j < 8, j < firstbit b → b.testBit j = false := by decide +kernel

theorem lastbit_table : ∀ b < 256, lastbit b ≤ 8 ∧ b < 2 ^ lastbit b ∧
    (b ≠ 0 → 0 < lastbit b ∧ 2 ^ (lastbit b - 1) ≤ b) := by decide +kernel

theorem and_ff (f : Nat) : f &&& 0xFF = f % 256 := Nat.and_two_pow_sub_one_eq_mod f 8

theorem firstBitLoop_spec : ∀ n f fb, f ≠ 0 → f < 256 ^ n →
    ∃ k, firstBitLoop n f fb = fb + k ∧ f.testBit k = true ∧ (∀ j < k, f.testBit j = false) ∧ k < 8 * n
  | 0, f, fb, h0, h => by simp at h; exact absurd h h0
  | n + 1, f, fb, h0, h => by
    unfold firstBitLoop
    rw [and_ff]
    have hf : f = f % 256 + 256 * (f / 256) := by omega
    rw [pow_succ] at h
    split
    · next hz =>
      obtain ⟨k, e, h1, h2, h3⟩ := firstBitLoop_spec n (f / 256) (fb + charBits) (by omega)
        (Nat.div_lt_of_lt_mul (by rwa [mul_comm]))
      refine ⟨k + 8, by rw [e, charBits]; omega, ?_, ?_, by omega⟩
      · rw [hf, testBit_bytes (by omega), if_neg (by omega)]; simpa using h1
      · intro j hj
        rw [hf, testBit_bytes (by omega)]
        split
        · rw [hz]; simp
        · exact h2 _ (by omega)
    · next hz =>
      obtain ⟨t1, t2, t3⟩ := firstbit_table (f % 256) (by omega) hz
      refine ⟨_, rfl, ?_, ?_, by omega⟩
      · rw [hf, testBit_bytes (by omega)]
        simp only [Nat.add_mul_mod_self_left, Nat.mod_mod]
        rw [if_pos t1]; exact t2
      · intro j hj
        rw [hf, testBit_bytes (by omega), if_pos (by omega)]
        exact t3 j (by omega) hj

/-- C18: for a nonzero word, `firstBit` is the position of its lowest set bit; for 0 it is 64. -/
theorem C18_firstBit {f : Nat} (h : f < 2 ^ 64) :
    (f ≠ 0 → firstBit f < 64 ∧ f.testBit (firstBit f) = true ∧
      ∀ j < firstBit f, f.testBit j = false) ∧ firstBit 0 = 64 := by
  refine ⟨fun h0 => ?_, rfl⟩
  obtain ⟨k, e, h1, h2, h3⟩ := firstBitLoop_spec 8 f 0 h0 (by norm_num; exact h)
  unfold firstBit
  rw [if_neg h0, e, zero_add]
  exact ⟨by omega, h1, h2⟩

theorem and_notff {f : Nat} (h : f < 2 ^ 64) : f &&& lnot 0xFF = 256 * (f / 256) := by
  have hf : f = f % 256 + 256 * (f / 256) := by omega
  have hm : lnot 0xFF = 0 + 256 * (2 ^ 56 - 1) := by decide
  rw [hm]
  conv_lhs => rw [hf]
  rw [and_bytes (by omega) (by norm_num), Nat.and_zero, Nat.and_two_pow_sub_one_eq_mod, zero_add,
    Nat.mod_eq_of_lt (by omega)]

theorem lastBitLoop_spec : ∀ n f lb, f < 256 ^ (n + 1) → f < 2 ^ 64 →
    ∃ k, lastBitLoop n f lb = lb + k ∧ f < 2 ^ k ∧ (f ≠ 0 → 0 < k ∧ 2 ^ (k - 1) ≤ f)
  | 0, f, lb, h, _ => by
    obtain ⟨-, t2, t3⟩ := lastbit_table f (by simpa using h)
    exact ⟨lastbit f, rfl, t2, t3⟩
  | n + 1, f, lb, h, h64 => by
    unfold lastBitLoop
    rw [and_notff h64]
    rw [pow_succ] at h
    split
    · next hz =>
      obtain ⟨k, e, h1, h2⟩ := lastBitLoop_spec n (f / 256) (lb + charBits)
        (Nat.div_lt_of_lt_mul (by rwa [mul_comm])) (by omega)
      obtain ⟨h3, h4⟩ := h2 (by omega)
      refine ⟨k + 8, by rw [e, charBits]; omega, ?_, fun _ => ⟨by omega, ?_⟩⟩
      · rw [pow_add]; exact (Nat.div_lt_iff_lt_mul (by norm_num)).1 h1
      · rw [show k + 8 - 1 = (k - 1) + 8 by omega, pow_add]
        exact (Nat.le_div_iff_mul_le (by norm_num)).1 h4
    · next hz =>
      obtain ⟨-, t2, t3⟩ := lastbit_table f (by omega)
      exact ⟨lastbit f, rfl, t2, t3⟩

/-- C18: `lastBit f` is the number of bits of `f` (one more than the position of the highest set
bit): it is the least `k` with `f < 2^k`. -/
theorem C18_lastBit {f : Nat} (h : f < 2 ^ 64) (k : Nat) : lastBit f ≤ k ↔ f < 2 ^ k := by
  unfold lastBit
  split
  · next h0 => subst h0; simp
  · next h0 =>
    obtain ⟨m, e, h1, h2⟩ := lastBitLoop_spec 8 f 0 (lt_of_lt_of_le h (by norm_num)) h
    rw [e, zero_add]
    obtain ⟨h3, h4⟩ := h2 h0
    constructor
    · intro hk
      exact lt_of_lt_of_le h1 (Nat.pow_le_pow_right (by norm_num) hk)
    · intro hk
      by_contra hc
      have : 2 ^ k ≤ 2 ^ (m - 1) := Nat.pow_le_pow_right (by norm_num) (by omega)
      omega

/-- the mask tables hold what the comments say -/
theorem ltMask_eq (j : Nat) : ltMask j = 2 ^ j - 1 := by
  induction j with
  | zero => rfl
  | succ j ih =>
    rw [ltMask, ih, eqMask, Nat.one_shiftLeft, Nat.or_comm]
    have := Nat.two_pow_add_eq_or_of_lt (i := j) (b := 2 ^ j - 1)
      (by have : 0 < 2 ^ j := by positivity
          omega) 1
    rw [mul_one] at this
    rw [← this, pow_succ]
    have : 0 < 2 ^ j := by positivity
    omega

/-- C18: the mask tables: `eq_mask[j]` has exactly bit `j`, `lt_mask[j]` exactly the bits below `j`,
`leq_mask[j]` exactly those up to `j`. -/
theorem C18_masks (j k : Nat) :
    (eqMask j).testBit k = decide (k = j) ∧ (ltMask j).testBit k = decide (k < j) ∧
    (leqMask j).testBit k = decide (k ≤ j) := by
  refine ⟨?_, ?_, ?_⟩
  · rw [eqMask, Nat.one_shiftLeft, Nat.testBit_two_pow]
    simp [eq_comm]
  · rw [ltMask_eq, Nat.testBit_two_pow_sub_one]
  · rw [leqMask, ltMask_eq, Nat.testBit_two_pow_sub_one]
    simp [Nat.lt_succ_iff]

example : firstBit 0xF00F000000000000 = 48 ∧ lastBit 0x100F000000000000 = 61 ∧
    bitCount 0xF00F000000000001 = 9 := by decide +kernel

end Verif.Bits
