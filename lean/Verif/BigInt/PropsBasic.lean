import Verif.BigInt.SubLemmas
/-
Property theorems C01-C05 for `big_int`: construction, conversion, comparison,
addition, negation and subtraction.

Statements use `Rep d n` from `Verif.BigInt.Spec`: the digit vector `d` is the
shortest two's complement representation of the integer `n`.
-/
namespace Verif.BigInt

/-! ### deciding `Rep` on concrete digit vectors (for the examples) -/

/-- executable test for canonical representation of `n` -/
def checkRep (d : Digits) (n : Int) : Bool :=
  d != [] && d.all (· < 𝐁) && (match top2 d with
    | none => true
    | some (x, t) => !(t == 0 && decide (x < 𝐇)) && !(t == 𝐁 - 1 && decide (𝐇 ≤ x)))
  && decide (value d = n)

theorem rep_of_check {d : Digits} {n : Int} (h : checkRep d n = true) : Rep d n := by
  simp only [checkRep, Bool.and_eq_true, bne_iff_ne, ne_eq, List.all_eq_true, decide_eq_true_eq] at h
  obtain ⟨⟨⟨h1, h2⟩, h3⟩, h4⟩ := h
  rw [rep_iff, ← value_eq_sval]
  refine ⟨⟨⟨h1, h2⟩, ?_, ?_⟩, h4⟩
  · rintro ⟨x, hx, hlt⟩; rw [hx] at h3; simp [hlt] at h3
  · rintro ⟨x, hx, hlt⟩; rw [hx] at h3; simp at h3; omega

theorem check_of_rep {d : Digits} {n : Int} (h : Rep d n) : checkRep d n = true := by
  rw [rep_iff, ← value_eq_sval] at h
  obtain ⟨⟨⟨h1, h2⟩, h3, h4⟩, h5⟩ := h
  simp only [checkRep, Bool.and_eq_true, bne_iff_ne, ne_eq, List.all_eq_true, decide_eq_true_eq]
  refine ⟨⟨⟨h1, h2⟩, ?_⟩, h5⟩
  cases ht : top2 d with
  | none => rfl
  | some p =>
    obtain ⟨x, t⟩ := p
    simp only [PosRed, NegRed, ht] at h3 h4
    by_cases ht0 : t = 0
    · subst ht0
      have : ¬ x < 𝐇 := fun hx => h3 ⟨x, rfl, hx⟩
      simp [this]
    · by_cases ht1 : t = 𝐁 - 1
      · subst ht1
        have : ¬ 𝐇 ≤ x := fun hx => h4 ⟨x, rfl, hx⟩
        simp [this]
      · simp [ht0, ht1]

/-! ### every integer has exactly one canonical representation -/

/-- Every integer is represented by some digit vector. -/
theorem exists_rep (n : Int) : ∃ d, Rep d n := by
  have h0 : Rep [0] 0 := rep_of_check (by decide)
  induction n using Int.induction_on with
  | zero => exact ⟨_, h0⟩
  | succ i ih =>
    obtain ⟨d, hd⟩ := ih
    rw [rep_iff] at hd
    exact ⟨carry d, rep_iff.2 ⟨carry_norm hd.1, by rw [(carry_spec hd.1.wf).2, hd.2]⟩⟩
  | pred i ih =>
    obtain ⟨d, hd⟩ := ih
    rw [rep_iff] at hd
    exact ⟨borrow d, rep_iff.2 ⟨borrow_norm hd.1, by rw [(borrow_spec hd.1.wf).2, hd.2]⟩⟩

/-- ... and by only one. -/
theorem rep_unique {d d' : Digits} {n : Int} (h : Rep d n) (h' : Rep d' n) : d = d' := by
  rw [rep_iff] at h h'
  exact norm_inj h.1 h'.1 (h.2.trans h'.2.symm)

theorem rep_fun {d : Digits} {n n' : Int} (h : Rep d n) (h' : Rep d n') : n = n' :=
  h.2.symm.trans h'.2

/-! ### C01: construction and conversion -/

/-- C01: `big_int(int)` represents its argument. -/
theorem C01_ofInt {n : Int} (h : -2 ^ 31 ≤ n ∧ n < 2 ^ 31) : Rep (ofInt32 n) n := by
  rw [rep_iff]
  unfold ofInt32
  refine ⟨norm_single.2 (by omega), ?_⟩
  rw [sval_single]; split <;> omega

/-- C01: `from_signed` represents its (64-bit) argument. -/
theorem C01_fromSigned {n : Int} (h : -2 ^ 63 ≤ n ∧ n < 2 ^ 63) : Rep (fromSigned n) n := by
  rw [rep_iff]
  unfold fromSigned
  dsimp only
  have h1 : (n % (𝐁 : Int)).toNat < 𝐁 := by omega
  have h2 : (n / (𝐁 : Int) % (𝐁 : Int)).toNat < 𝐁 := by omega
  have key : n = (n % (𝐁 : Int)).toNat + 𝐁 * (if (n / (𝐁 : Int) % (𝐁 : Int)).toNat < 𝐇 then
      ((n / (𝐁 : Int) % (𝐁 : Int)).toNat : Int) else (n / (𝐁 : Int) % (𝐁 : Int)).toNat - 𝐁) := by
    split <;> omega
  generalize (n % (𝐁 : Int)).toNat = lo at *
  generalize (n / (𝐁 : Int) % (𝐁 : Int)).toNat = hi at *
  by_cases hlo : lo < 𝐇
  · simp only [hlo, if_true, beq_iff_eq]
    split
    · refine ⟨norm_single.2 h1, ?_⟩
      rw [sval_single, if_pos hlo]; split at key <;> omega
    · refine ⟨norm_pair.2 ⟨h1, h2, by omega, by omega⟩, ?_⟩
      rw [sval_cons2, sval_single, key]
  · simp only [hlo, if_false, beq_iff_eq]
    split
    · refine ⟨norm_single.2 h1, ?_⟩
      rw [sval_single, if_neg hlo]; split at key <;> omega
    · refine ⟨norm_pair.2 ⟨h1, h2, by omega, by omega⟩, ?_⟩
      rw [sval_cons2, sval_single, key]

/-- C01: `from_unsigned` represents its (64-bit) argument. -/
theorem C01_fromUnsigned {n : Nat} (h : n < 2 ^ 64) : Rep (fromUnsigned n) n := by
  rw [rep_iff]
  unfold fromUnsigned
  dsimp only
  split
  · next h1 =>
    refine ⟨norm_cons.2 ⟨by omega, norm_pair.2 ⟨by omega, by omega, by omega, by omega⟩⟩, ?_⟩
    rw [sval_cons2, sval_cons2, sval_single]; split <;> omega
  · split
    · next h2 =>
      refine ⟨norm_pair.2 ⟨by omega, by omega, by omega, by omega⟩, ?_⟩
      rw [sval_cons2, sval_single]; split <;> omega
    · next h2 =>
      refine ⟨norm_single.2 (by omega), ?_⟩
      rw [sval_single]; split <;> omega

/-- sizes against magnitude, used for the conversions -/
theorem rep_length {d : Digits} {n : Int} (h : Rep d n) (k : Nat) :
    d.length ≤ k + 1 ↔ -(𝐇 * 𝐁 ^ k : Int) ≤ n ∧ n < 𝐇 * 𝐁 ^ k := by
  rw [rep_iff] at h
  obtain ⟨h1, rfl⟩ := h
  have h0 : d.length ≠ 0 := by simpa using h1.wf.1
  constructor
  · intro hl
    obtain ⟨j, hj⟩ : ∃ j, d.length = j + 1 := ⟨d.length - 1, by omega⟩
    have := sval_range j h1.wf hj
    have hp : (𝐇 : Int) * 𝐁 ^ j ≤ 𝐇 * 𝐁 ^ k :=
      mul_le_mul_of_nonneg_left (pow_le_pow_right₀ (by norm_num) (by omega)) (by norm_num)
    omega
  · intro hr
    by_contra hl
    obtain ⟨j, hj⟩ : ∃ j, d.length = j + 2 := ⟨d.length - 2, by omega⟩
    have := (norm_iff_value j h1.wf hj).1 h1
    have hp : (𝐇 : Int) * 𝐁 ^ k ≤ 𝐇 * 𝐁 ^ j :=
      mul_le_mul_of_nonneg_left (pow_le_pow_right₀ (by norm_num) (by omega)) (by norm_num)
    omega

/-- C01: `int_val` returns the value if it fits a 32-bit `int`, and throws otherwise. -/
theorem C01_intVal {d : Digits} {n : Int} (h : Rep d n) :
    intVal d = if -2 ^ 31 ≤ n ∧ n < 2 ^ 31 then some n else none := by
  have hl := rep_length h 0
  have h' := rep_iff.1 h
  unfold intVal
  match d, h' with
  | [], h' => exact absurd rfl h'.1.wf.1
  | [a], ⟨h1, h2⟩ =>
    have := hl.1 (by simp)
    rw [if_pos (c := _ ∧ _) (by constructor <;> omega)]
    have h2 : toS32 a = n := h2
    simp only [List.length_singleton, lt_irrefl, if_false, List.headD_cons, h2]
  | a :: b :: l, h' =>
    have : ¬ (a :: b :: l).length ≤ 0 + 1 := by simp
    rw [hl] at this
    rw [if_neg (c := _ ∧ _) (by omega)]; simp

/-- C01: `long_val` returns the value if it fits a 64-bit signed integer, and throws otherwise. -/
theorem C01_longVal {d : Digits} {n : Int} (h : Rep d n) :
    longVal d = if -2 ^ 63 ≤ n ∧ n < 2 ^ 63 then some n else none := by
  have hl := rep_length h 1
  have h' := rep_iff.1 h
  unfold longVal
  match d, h' with
  | [], h' => exact absurd rfl h'.1.wf.1
  | [a], ⟨h1, h2⟩ =>
    have := hl.1 (by simp)
    rw [if_pos (c := _ ∧ _) (by constructor <;> omega)]
    have h2 : toS32 a = n := h2
    simp [h2]
  | [a, b], ⟨h1, h2⟩ =>
    have := hl.1 (by simp)
    rw [if_pos (c := _ ∧ _) (by constructor <;> omega)]
    have w := norm_pair.1 h1
    rw [sval_cons2, sval_single] at h2
    simp only [List.length_cons, List.length_nil, List.headD_cons, List.getD_cons_succ,
      List.getD_cons_zero]
    norm_num
    split <;> split at h2 <;> omega
  | a :: b :: c :: l, h' =>
    have : ¬ (a :: b :: c :: l).length ≤ 1 + 1 := by simp
    rw [hl] at this
    rw [if_neg (c := _ ∧ _) (by omega)]; simp

/-- C01: `uint_val` returns the value if it fits an unsigned 32-bit integer, and throws
otherwise. -/
theorem C01_uintVal {d : Digits} {n : Int} (h : Rep d n) :
    uintVal d = if 0 ≤ n ∧ n < 2 ^ 32 then some n.toNat else none := by
  have h' := rep_iff.1 h
  have hn := isNegative_iff h'.1.wf
  rw [h'.2] at hn
  unfold uintVal
  by_cases h0 : n < 0
  · rw [if_pos (hn.2 h0), if_neg (by omega)]
  · rw [if_neg (by rw [hn]; exact h0)]
    match d, h' with
    | [], h' => exact absurd rfl h'.1.wf.1
    | [a], ⟨h1, h2⟩ =>
      have w := norm_single.1 h1
      rw [sval_single] at h2
      rw [if_pos (c := _ ∧ _) (by split at h2 <;> omega)]
      simp; split at h2 <;> omega
    | [a, b], ⟨h1, h2⟩ =>
      have w := norm_pair.1 h1
      rw [sval_cons2, sval_single] at h2
      by_cases hb : b = 0
      · subst hb
        simp at h2
        rw [if_pos (c := _ ∧ _) (by omega)]
        simp; omega
      · rw [if_neg (c := _ ∧ _) (by split at h2 <;> omega)]
        simp [hb]
    | a :: b :: c :: l, h' =>
      have hl := rep_length h 1
      have : ¬ (a :: b :: c :: l).length ≤ 1 + 1 := by simp
      rw [hl] at this
      rw [if_neg (c := _ ∧ _) (by omega)]
      simp

/-- C01: `ulong_val` returns the value if it fits an unsigned 64-bit integer, and throws
otherwise. -/
theorem C01_ulongVal {d : Digits} {n : Int} (h : Rep d n) :
    ulongVal d = if 0 ≤ n ∧ n < 2 ^ 64 then some n.toNat else none := by
  have h' := rep_iff.1 h
  have hn := isNegative_iff h'.1.wf
  rw [h'.2] at hn
  unfold ulongVal
  by_cases h0 : n < 0
  · rw [if_pos (hn.2 h0), if_neg (by omega)]
  · rw [if_neg (by rw [hn]; exact h0)]
    match d, h' with
    | [], h' => exact absurd rfl h'.1.wf.1
    | [a], ⟨h1, h2⟩ =>
      have w := norm_single.1 h1
      rw [sval_single] at h2
      rw [if_pos (c := _ ∧ _) (by split at h2 <;> omega)]
      simp; split at h2 <;> omega
    | [a, b], ⟨h1, h2⟩ =>
      have w := norm_pair.1 h1
      rw [sval_cons2, sval_single] at h2
      rw [if_pos (c := _ ∧ _) (by split at h2 <;> omega)]
      simp; split at h2 <;> omega
    | [a, b, c], ⟨h1, h2⟩ =>
      obtain ⟨w0, w⟩ := norm_cons.1 h1
      have w := norm_pair.1 w
      rw [sval_cons2, sval_cons2, sval_single] at h2
      by_cases hb : c = 0
      · subst hb
        simp at h2
        rw [if_pos (c := _ ∧ _) (by omega)]
        simp; omega
      · rw [if_neg (c := _ ∧ _) (by split at h2 <;> omega)]
        simp [hb]
    | a :: b :: c :: e :: l, h' =>
      have hl := rep_length h 2
      have : ¬ (a :: b :: c :: e :: l).length ≤ 2 + 1 := by simp
      rw [hl] at this
      rw [if_neg (c := _ ∧ _) (by omega)]
      simp

/-- C01: `convert` to a signed type with `k < 32` value bits returns the value if it fits, and
throws otherwise. -/
theorem C01_convert {d : Digits} {n : Int} {k : Nat} (hk : k < 32) (h : Rep d n) :
    convert k d = if -2 ^ k ≤ n ∧ n < 2 ^ k then some n else none := by
  have h' := rep_iff.1 h
  have hk2 : 2 ^ k ≤ 2 ^ 31 := Nat.pow_le_pow_right (by norm_num) (by omega)
  have hk1 : 1 ≤ 2 ^ k := Nat.one_le_two_pow
  have e : ((2 : Int) ^ k) = ((2 ^ k : Nat) : Int) := by push_cast; rfl
  rw [e]
  unfold convert
  match d, h' with
  | [], h' => exact absurd rfl h'.1.wf.1
  | [a], ⟨h1, h2⟩ =>
    have w := norm_single.1 h1
    have h3 : toS32 a = n := h2
    rw [sval_single] at h2
    generalize 2 ^ k = K at *
    simp only [List.length_singleton, lt_irrefl, false_or, List.headD_cons, dneg, h3]
    have hm : (𝐁 - K) % 𝐁 = 𝐁 - K := Nat.mod_eq_of_lt (by omega)
    rw [hm]
    split <;> split <;> first | rfl | (exfalso; split at h2 <;> omega)
  | a :: b :: l, h' =>
    have hl := rep_length h 0
    have : ¬ (a :: b :: l).length ≤ 0 + 1 := by simp
    rw [hl] at this
    generalize 2 ^ k = K at *
    rw [if_neg (c := _ ∧ _) (by omega)]; simp

example : Rep [5, 𝐁 - 1] (5 - 2 ^ 32) := rep_of_check (by decide)
example : longVal [5, 𝐁 - 1] = some (5 - 2 ^ 32) := by decide
example : intVal [5, 𝐁 - 1] = none := by decide
example : ulongVal [5, 𝐁 - 1, 0] = some (2 ^ 64 - 2 ^ 32 + 5) := by decide

/-! ### C02: comparison -/

/-- C02: `operator<` is integer comparison. -/
theorem C02_lt {d x : Digits} {a b : Int} (hd : Rep d a) (hx : Rep x b) :
    lt d x = true ↔ a < b := by
  rw [rep_iff] at hd hx
  rw [lt_spec hd.1 hx.1, hd.2, hx.2]

/-- C02: `operator==` is integer equality. -/
theorem C02_eq {d x : Digits} {a b : Int} (hd : Rep d a) (hx : Rep x b) :
    beq d x = true ↔ a = b := by
  rw [beq_iff_eq']
  constructor
  · rintro rfl; exact rep_fun hd hx
  · rintro rfl; exact rep_unique hd hx

/-- C02: comparison with a machine `int`. -/
theorem C02_eqInt {d : Digits} {a v : Int} (hd : Rep d a) (hv : -2 ^ 31 ≤ v ∧ v < 2 ^ 31) :
    eqInt d v = true ↔ a = v := by
  have := C01_intVal hd
  have h' := rep_iff.1 hd
  unfold intVal at this
  unfold eqInt
  match d, h' with
  | [], h' => exact absurd rfl h'.1.wf.1
  | [x], ⟨h1, h2⟩ =>
    have h2 : toS32 x = a := h2
    simp [h2]
  | x :: y :: l, h' =>
    simp at this
    simp only [List.length_cons, Bool.and_eq_true, beq_iff_eq]
    constructor
    · rintro ⟨h, -⟩; omega
    · rintro rfl; exact absurd hv.2 (by simpa using this hv.1)

/-- C02: the sign and parity tests. -/
theorem C02_sign {d : Digits} {a : Int} (hd : Rep d a) :
    (isNegative d = true ↔ a < 0) ∧ (isZero d = true ↔ a = 0) ∧ (isPositive d = true ↔ 0 < a) ∧
    (isOdd d = true ↔ a % 2 = 1) := by
  have h' := rep_iff.1 hd
  have hn : isNegative d = true ↔ a < 0 := by rw [isNegative_iff h'.1.wf, h'.2]
  have hz : isZero d = true ↔ a = 0 := by
    unfold isZero
    rw [beq_iff_eq]
    have h0 : Rep [0] 0 := rep_of_check (by decide)
    constructor
    · rintro rfl; exact rep_fun hd h0
    · rintro rfl; exact rep_unique hd h0
  refine ⟨hn, hz, ?_, ?_⟩
  · unfold isPositive
    simp only [Bool.not_eq_true', Bool.or_eq_false_iff]
    rw [← Bool.not_eq_true, ← Bool.not_eq_true, hn, hz]; omega
  · unfold isOdd
    match d, h' with
    | [], h' => exact absurd rfl h'.1.wf.1
    | [x], ⟨h1, h2⟩ =>
      rw [sval_single] at h2
      simp only [List.headD_cons, bne_iff_ne, ne_eq]; split at h2 <;> omega
    | x :: y :: l, ⟨h1, h2⟩ =>
      rw [sval_cons2] at h2
      simp only [List.headD_cons, bne_iff_ne, ne_eq]; omega

example : lt [0, 𝐁 - 1] [𝐇] = true ∧ lt [𝐁 - 1, 0] [0, 1] = true ∧ beq [1, 2] [1, 3] = false := by
  decide

/-! ### C03: addition -/

/-- C03: `a += b` with `b` a different object. -/
theorem C03_addAssign {d x : Digits} {a b : Int} (hd : Rep d a) (hx : Rep x b) :
    Rep (addAssign d x) (a + b) := by
  rw [rep_iff] at *
  have := addAssign_spec hd.1 hx.1
  rw [hd.2, hx.2] at this; exact this

/-- C03: `a += std::move(b)`. -/
theorem C03_addAssignMove {d x : Digits} {a b : Int} (hd : Rep d a) (hx : Rep x b) :
    Rep (addAssignMove d x) (a + b) := by
  rw [rep_iff] at *
  have := addAssignMove_spec hd.1 hx.1
  rw [hd.2, hx.2] at this; exact this

/-- C03: the four versions of `a + b`. -/
theorem C03_plus {d x : Digits} {a b : Int} (hd : Rep d a) (hx : Rep x b) :
    Rep (plusLL d x) (a + b) ∧ Rep (plusLR d x) (a + b) ∧ Rep (plusRL d x) (a + b) ∧
    Rep (plusRR d x) (a + b) := by
  have h1 := C03_addAssign hd hx
  have h2 := C03_addAssign hx hd
  rw [add_comm] at h2
  refine ⟨h1, h2, h1, ?_⟩
  unfold plusRR; split <;> assumption

/-- C03: `a += x` for a digit `x`, read as signed 32-bit value `n`. -/
theorem C03_addDigit {d : Digits} {a n : Int} (hd : Rep d a) (hn : -2 ^ 31 ≤ n ∧ n < 2 ^ 31) :
    Rep (addDigit d (n % 2 ^ 32).toNat) (a + n) := by
  rw [rep_iff] at *
  have := addDigit_spec (x := (n % 2 ^ 32).toNat) hd.1 (by omega)
  refine ⟨this.1, this.2.trans ?_⟩
  rw [hd.2, sval_single]; split <;> omega

/-- C03: `++a` and `--a`. -/
theorem C03_incr_decr {d : Digits} {a : Int} (hd : Rep d a) :
    Rep (incr d) (a + 1) ∧ Rep (decr d) (a - 1) := by
  rw [rep_iff] at hd
  exact ⟨rep_iff.2 ⟨carry_norm hd.1, by rw [incr, (carry_spec hd.1.wf).2, hd.2]⟩,
    rep_iff.2 ⟨borrow_norm hd.1, by rw [decr, (borrow_spec hd.1.wf).2, hd.2]⟩⟩

example : Rep [𝐁 - 1, 𝐁 - 1, 𝐇 - 1] (2 ^ 95 - 1) ∧ Rep [1] 1 ∧
    addAssign [𝐁 - 1, 𝐁 - 1, 𝐇 - 1] [1] = [0, 0, 𝐇, 0] :=
  ⟨rep_of_check (by decide), rep_of_check (by decide), by decide⟩

/-! ### C04: negation, complement, subtraction -/

/-- C04: `negate` (also unary minus). -/
theorem C04_negate {d : Digits} {a : Int} (hd : Rep d a) : Rep (negate d) (-a) := by
  rw [rep_iff] at *
  have := negate_spec hd.1.wf
  rw [hd.2] at this; exact this

/-- C04: `complement`. -/
theorem C04_complement {d : Digits} {a : Int} (hd : Rep d a) : Rep (complement d) (-1 - a) := by
  rw [rep_iff] at *
  have := complement_spec hd.1.wf
  rw [hd.2] at this; exact this

/-- C04: `abs`. -/
theorem C04_abs {d : Digits} {a : Int} (hd : Rep d a) : Rep (abs d) |a| := by
  have hn := (C02_sign hd).1
  unfold abs
  split
  · next h => rw [abs_of_neg (hn.1 h)]; exact C04_negate hd
  · next h => rw [abs_of_nonneg (by rw [hn] at h; omega)]; exact hd

/-- C04: `a -= b`. -/
theorem C04_subAssign {d x : Digits} {a b : Int} (hd : Rep d a) (hx : Rep x b) :
    Rep (subAssign d x) (a - b) := by
  rw [rep_iff] at *
  have := subAssign_spec hd.1 hx.1
  rw [hd.2, hx.2] at this; exact this

/-- C04: `a - b` and `std::move(a) - b`. -/
theorem C04_minus {d x : Digits} {a b : Int} (hd : Rep d a) (hx : Rep x b) :
    Rep (minusLL d x) (a - b) ∧ Rep (minusRL d x) (a - b) :=
  ⟨C04_subAssign hd hx, C04_subAssign hd hx⟩

/-- C04: `a -= x` for a digit `x`, read as signed 32-bit value `n`. -/
theorem C04_subDigit {d : Digits} {a n : Int} (hd : Rep d a) (hn : -2 ^ 31 ≤ n ∧ n < 2 ^ 31) :
    Rep (subDigit d (n % 2 ^ 32).toNat) (a - n) := by
  rw [rep_iff] at *
  have := subDigit_spec (x := (n % 2 ^ 32).toNat) hd.1 (by omega)
  refine ⟨this.1, this.2.trans ?_⟩
  rw [hd.2, sval_single]; split <;> omega

example : Rep [0, 𝐇] (-2 ^ 63) ∧ negate [0, 𝐇] = [0, 𝐇, 0] ∧ subDigit [𝐇] 𝐇 = [0] :=
  ⟨rep_of_check (by decide), by decide, by decide⟩

/-! ### C05: reverse subtraction -/

/-- C05, full statement: it is false of the code (finding F1). -/
def C05_statement : Prop :=
  ∀ (d x : Digits) (a b : Int), Rep d a → Rep x b → Rep (subtractFrom d x) (b - a)

/-- C05 fails: with `a = 5·2^64 + 2^64 - 2^32 - 1`, `b = -2`, `a.subtract_from(b)` does not
give `b - a` (finding F1). -/
theorem C05_subtractFrom_false : ¬ C05_statement := by
  intro h
  have h1 := h [𝐁 - 1, 𝐁 - 2, 5] [𝐁 - 2] (6 * 2 ^ 64 - 2 ^ 32 - 1) (-2)
    (rep_of_check (by decide)) (rep_of_check (by decide))
  have := check_of_rep h1
  revert this; decide

/-- The conditions under which reverse subtraction is right: `b ≥ 0`, or `a` (being overwritten)
has at most one digit more than `b`, or the digit of `a` just above those of `b` is neither of
the two largest digits. -/
theorem C05_subtractFrom_partial {d x : Digits} {a b : Int} (hd : Rep d a) (hx : Rep x b)
    (hs : 0 ≤ b ∨ d.length ≤ x.length + 1 ∨ d.getD x.length 0 < 2 ^ 32 - 2) :
    Rep (subtractFrom d x) (b - a) := by
  rw [rep_iff] at *
  obtain ⟨hd, rfl⟩ := hd
  obtain ⟨hx, rfl⟩ := hx
  unfold subtractFrom
  have hss : SubFromSafe d x := by
    rcases hs with hs | hs | hs
    · left; rwa [sval_sign hx.wf]
    · right; left; exact hs
    · right; right
      have : (d.drop x.length).headD 0 = d.getD x.length 0 := by
        simp [List.headD_eq_head?_getD, List.head?_drop, List.getD_eq_getElem?_getD]
      rw [this]; omega
  split
  · next hl =>
    obtain ⟨s1, s2, s3, -⟩ := signExtend_spec hd.wf x.length
    have s3 := s3 (by omega)
    have := subFrom_spec s1 hx (by omega) (.inr (.inl (by omega)))
    rw [s2] at this; exact this
  · next hl => exact subFrom_spec hd.wf hx (by omega) hss

/-- C05: `subtract_from(std::move(b))` under the same conditions. -/
theorem C05_subtractFromMove_partial {d x : Digits} {a b : Int} (hd : Rep d a) (hx : Rep x b)
    (hs : 0 ≤ b ∨ d.length ≤ x.length + 1 ∨ d.getD x.length 0 < 2 ^ 32 - 2) :
    Rep (subtractFromMove d x) (b - a) := by
  unfold subtractFromMove
  split
  · next h =>
    have := C05_subtractFrom_partial hd hx hs
    unfold subtractFrom at this
    rwa [if_neg (by omega)] at this
  · next h =>
    have := C04_subAssign hx hd
    unfold subAssign at this
    rwa [if_neg (by omega)] at this

/-- C05: `a -= std::move(b)`; here the roles are exchanged. -/
theorem C05_subAssignMove_partial {d x : Digits} {a b : Int} (hd : Rep d a) (hx : Rep x b)
    (hs : 0 ≤ a ∨ x.length ≤ d.length + 1 ∨ x.getD d.length 0 < 2 ^ 32 - 2) :
    Rep (subAssignMove d x) (a - b) := by
  unfold subAssignMove
  split
  · next h =>
    have := C04_subAssign hd hx
    unfold subAssign at this
    rwa [if_neg (by omega)] at this
  · next h =>
    have := C05_subtractFrom_partial hx hd hs
    unfold subtractFrom at this
    rwa [if_neg (by omega)] at this

/-- C05: `a - std::move(b)` and `std::move(a) - std::move(b)`. -/
theorem C05_minus_partial {d x : Digits} {a b : Int} (hd : Rep d a) (hx : Rep x b)
    (hs : 0 ≤ a ∨ x.length ≤ d.length + 1 ∨ x.getD d.length 0 < 2 ^ 32 - 2) :
    Rep (minusLR d x) (a - b) ∧ Rep (minusRR d x) (a - b) := by
  have h1 := C05_subtractFrom_partial hx hd hs
  refine ⟨h1, ?_⟩
  unfold minusRR
  split
  · exact h1
  · exact C04_subAssign hd hx

example : Rep [1, 2, 3] (1 + 2 * 2 ^ 32 + 3 * 2 ^ 64) ∧ Rep [𝐁 - 5] (-5) ∧
    [1, 2, 3].getD [𝐁 - 5].length 0 < 2 ^ 32 - 2 ∧
    subtractFrom [1, 2, 3] [𝐁 - 5] = [𝐁 - 6, 𝐁 - 3, 𝐁 - 4] :=
  ⟨rep_of_check (by decide), rep_of_check (by decide), by decide, by decide⟩

end Verif.BigInt
