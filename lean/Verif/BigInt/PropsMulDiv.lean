import Verif.BigInt.DivLemmas3
/-
Property theorems C06, C07 and C11 for `big_int`: multiplication, division and
powers.  `Rep d n` (Verif.BigInt.Spec) says that `d` is the shortest two's
complement representation of the integer `n`.  Floor division is Lean's
`Int.fdiv` / `Int.fmod` (quotient rounded towards −∞, remainder having the sign
of the divisor).
-/
namespace Verif.BigInt

/-! ### C06: multiplication -/

/-- C06: `a * b` (and `a *= b`). -/
theorem C06_mul {d x : Digits} {a b : Int} (hd : Rep d a) (hx : Rep x b) :
    Rep (mul d x) (a * b) := by
  rw [rep_iff] at *
  have := mul_spec hd.1.wf hx.1.wf
  rw [hd.2, hx.2] at this; exact this

/-- C06, full statement for multiplication by a digit: false of the code (finding F3). -/
def C06_mulDigit_statement : Prop :=
  ∀ (d : Digits) (a : Int) (x : Nat), x < 2 ^ 32 → Rep d a → Rep (mulDigit d x) (a * x)

/-- C06 fails for `a *= 0u` with `a = 2^32`: the result is not canonical, so that for
instance `is_zero` does not hold of it (finding F3). -/
theorem C06_mulDigit_false : ¬ C06_mulDigit_statement := by
  intro h
  have h1 := h [0, 1] (2 ^ 32) 0 (by norm_num) (rep_of_check (by decide))
  have := check_of_rep h1
  revert this; decide

/-- what goes wrong in finding F3: the product with 0 is not recognised as zero -/
theorem C06_mulDigit_zero_witness :
    Rep [0, 1] (2 ^ 32) ∧ mulDigit [0, 1] 0 = [0, 0] ∧ isZero (mulDigit [0, 1] 0) = false ∧
    mulInt [0, 1] 0 = [0, 0] := ⟨rep_of_check (by decide), by decide, by decide, by decide⟩

theorem nonneg_of_not {d : Digits} (hd : Norm d) (h : ¬ isNegative d = true) : 0 ≤ sval d := by
  rw [isNegative_iff hd.wf] at h; omega

/-- C06: `a *= x` for an unsigned digit `x` has the right value; the result is canonical
unless `x = 0` and `a` has more than one digit and is positive (finding F3). -/
theorem C06_mulDigit_partial {d : Digits} {a : Int} {x : Nat} (hx : x < 2 ^ 32) (hd : Rep d a) :
    WF (mulDigit d x) ∧ value (mulDigit d x) = a * x ∧
    (x ≠ 0 ∨ a < 2 ^ 31 → Rep (mulDigit d x) (a * x)) := by
  have hl := rep_length hd 0
  have h0 : d.length ≠ 0 := by simpa using hd.1.1.1
  rw [rep_iff] at hd
  obtain ⟨hd, rfl⟩ := hd
  simp only [value_eq_sval, rep_iff]
  have hn := isNegative_iff hd.wf
  unfold mulDigit
  by_cases h : isNegative d = true
  · rw [if_pos h]
    have hg := negate_spec hd.wf
    have hlt := hn.1 h
    have hm := multAdd_spec (a := 0) (x := x) hg.1 (by omega) (by omega) (by norm_num)
    have hg2 := negate_spec hm.1
    have e : sval (negate (multAdd (negate d) x 0)) = sval d * x := by
      rw [hg2.2, hm.2.1, hg.2]; simp
    exact ⟨hg2.1.wf, e, fun _ => ⟨hg2.1, e⟩⟩
  · rw [if_neg h]
    have hge := nonneg_of_not hd h
    have hm := multAdd_spec (a := 0) (x := x) hd hge (by omega) (by norm_num)
    have e : sval (multAdd d x 0) = sval d * x := by rw [hm.2.1]; simp
    refine ⟨hm.1, e, fun hc => ⟨hm.2.2 ?_, e⟩⟩
    rcases hc with hc | hc
    · exact Or.inl hc
    · right
      have : d.length ≤ 0 + 1 := hl.2 (by constructor <;> omega)
      omega

/-- C06: `a *= n` for an `int` `n`; same restriction as for digits. -/
theorem C06_mulInt_partial {d : Digits} {a n : Int} (hn : -2 ^ 31 ≤ n ∧ n < 2 ^ 31) (hd : Rep d a) :
    WF (mulInt d n) ∧ value (mulInt d n) = a * n ∧
    (n ≠ 0 ∨ a < 2 ^ 31 → Rep (mulInt d n) (a * n)) := by
  have hl := rep_length hd 0
  have h0 : d.length ≠ 0 := by simpa using hd.1.1.1
  rw [rep_iff] at hd
  obtain ⟨hd, rfl⟩ := hd
  simp only [value_eq_sval, rep_iff]
  have hneg := isNegative_iff hd.wf
  unfold mulInt
  dsimp only
  obtain ⟨x, hx⟩ : ∃ x, x = if n < 0 then dneg (n % (𝐁 : Int)).toNat else (n % (𝐁 : Int)).toNat :=
    ⟨_, rfl⟩
  rw [← hx]
  have hxn : x < 𝐁 ∧ (x : Int) = |n| := by
    rw [hx]; unfold dneg
    split
    · next h => rw [abs_of_neg h]; omega
    · next h => rw [abs_of_nonneg (by omega)]; omega
  clear hx
  obtain ⟨d1, hd1⟩ : ∃ d1, d1 = if isNegative d = true then negate d else d := ⟨_, rfl⟩
  rw [← hd1]
  have h1 : Norm d1 ∧ sval d1 = |sval d| := by
    rw [hd1]
    split
    · next h => rw [abs_of_neg (hneg.1 h)]; exact negate_spec hd.wf
    · next h => rw [abs_of_nonneg (nonneg_of_not hd h)]; exact ⟨hd, rfl⟩
  have hm := multAdd_spec (a := 0) (x := x) h1.1 (by rw [h1.2]; exact abs_nonneg _) hxn.1
    (by norm_num)
  have e0 : sval (multAdd d1 x 0) = |sval d| * |n| := by rw [hm.2.1, h1.2, hxn.2]; simp
  by_cases h : isNegative d = true <;> by_cases hn0 : n < 0
  · have hx0 : x ≠ 0 := by rintro rfl; rw [abs_of_neg hn0] at hxn; simp at hxn; omega
    have e : sval (multAdd d1 x 0) = sval d * n := by
      rw [e0, abs_of_neg (hneg.1 h), abs_of_neg hn0]; ring
    simp only [h, hn0, decide_true, bne_self_eq_false, Bool.false_eq_true, if_false]
    exact ⟨hm.1, e, fun _ => ⟨hm.2.2 (Or.inl hx0), e⟩⟩
  · have hg := negate_spec hm.1
    have e : sval (negate (multAdd d1 x 0)) = sval d * n := by
      rw [hg.2, e0, abs_of_neg (hneg.1 h), abs_of_nonneg (by omega)]; ring
    simp only [h, hn0, decide_false, Bool.bne_true, Bool.not_false, if_true]
    exact ⟨hg.1.wf, e, fun _ => ⟨hg.1, e⟩⟩
  · have hg := negate_spec hm.1
    have e : sval (negate (multAdd d1 x 0)) = sval d * n := by
      rw [hg.2, e0, abs_of_nonneg (nonneg_of_not hd h), abs_of_neg hn0]; ring
    simp only [h, hn0, decide_true, Bool.bne_false, if_true]
    exact ⟨hg.1.wf, e, fun _ => ⟨hg.1, e⟩⟩
  · have e : sval (multAdd d1 x 0) = sval d * n := by
      rw [e0, abs_of_nonneg (nonneg_of_not hd h), abs_of_nonneg (by omega)]
    simp only [h, hn0, decide_false, bne_self_eq_false, Bool.false_eq_true, if_false]
    refine ⟨hm.1, e, fun hc => ⟨hm.2.2 ?_, e⟩⟩
    rcases hc with hc | hc
    · left; rintro rfl; rw [abs_of_nonneg (by omega)] at hxn; simp at hxn; omega
    · right
      rw [hd1, if_neg h]
      have := nonneg_of_not hd h
      have : d.length ≤ 0 + 1 := hl.2 (by constructor <;> omega)
      omega

example : Rep [0, 𝐁 - 3] (-3 * 2 ^ 32) ∧ Rep [7, 1] (2 ^ 32 + 7) ∧
    mul [0, 𝐁 - 3] [7, 1] = [0, 𝐁 - 21, 𝐁 - 4] ∧ mulInt [7, 1] (-2) = [𝐁 - 14, 𝐁 - 3] :=
  ⟨rep_of_check (by decide), rep_of_check (by decide), by decide, by decide⟩

/-! ### C07: division -/

/-- C07, full statement: false of the code (finding F2). -/
def C07_statement : Prop :=
  ∀ (d x : Digits) (a b : Int), Rep d a → Rep x b → b ≠ 0 →
    ∃ q r, reduceMod d x = .ok (q, r) ∧ Rep q (a.fdiv b) ∧ Rep r (a.fmod b)

/-- C07 fails: `2^32 + 5` divided by `-(2^32 + 1)` gives quotient −1 and remainder 4, while
the remainder should lie between the divisor and 0 (finding F2). -/
theorem C07_reduceMod_false : ¬ C07_statement := by
  intro h
  obtain ⟨q, r, h1, h2, h3⟩ := h [5, 1] [𝐁 - 1, 𝐁 - 2] (2 ^ 32 + 5) (-(2 ^ 32 + 1))
    (rep_of_check (by decide)) (rep_of_check (by decide)) (by norm_num)
  have e : reduceMod [5, 1] [𝐁 - 1, 𝐁 - 2] = .ok ([𝐁 - 1], [4]) := by decide
  rw [e] at h1
  simp only [Outcome.ok.injEq, Prod.mk.injEq] at h1
  rw [← h1.2] at h3
  have := check_of_rep h3
  revert this; decide

/-- C07: division by zero throws, whatever the dividend. -/
theorem C07_zero {d x : Digits} {a : Int} (hd : Rep d a) (hx : Rep x 0) :
    reduceMod d x = .throw ∧ divAssign d x = .throw ∧ modAssign d x = .throw := by
  have h0 : x = [0] := rep_unique hx (rep_of_check (by decide))
  subst h0
  have := reduceMod_zero (rep_iff.1 hd).1
  refine ⟨this, ?_, ?_⟩
  · unfold divAssign; rw [this]; rfl
  · unfold modAssign; rw [this]

/-- C07: `reduce_mod` leaves floor quotient and remainder, and no assertion fails, provided
we are not in the situation of finding F2: dividend and divisor have equally many digits, the
divisor is negative, `a > -b`, and the leading digits add up to `2^32 - 1` (so that `a` and
`-b` start with the same digit). -/
theorem C07_reduceMod_partial {d x : Digits} {a b : Int} (hd : Rep d a) (hx : Rep x b) (hb : b ≠ 0)
    (hs : 0 < b ∨ a ≤ -b ∨ d.length ≠ x.length ∨ d.getLastD 0 + x.getLastD 0 ≠ 2 ^ 32 - 1) :
    ∃ q r, reduceMod d x = .ok (q, r) ∧ Rep q (a.fdiv b) ∧ Rep r (a.fmod b) := by
  rw [rep_iff] at hd hx
  obtain ⟨hd, rfl⟩ := hd
  obtain ⟨hx, rfl⟩ := hx
  have hbad : ¬ BadShortcut d x := by
    rintro ⟨h1, h2, h3, h4⟩
    rcases hs with h | h | h | h
    · omega
    · omega
    · exact h h1
    · exact h (by simpa [back] using h2)
  obtain ⟨q, r, e, hq, hr, hf⟩ := reduceMod_spec hd hx hb hbad
  have := (floorDiv_iff hb).1 hf
  exact ⟨q, r, e, rep_iff.2 ⟨hq, this.1⟩, rep_iff.2 ⟨hr, this.2⟩⟩

/-- C07, unconditional part: for nonzero divisor `reduce_mod` always returns (no assertion
fails), with canonical quotient and remainder satisfying `a = b q + r`; and for positive divisor
they are the floor quotient and remainder. -/
theorem C07_reduceMod_always {d x : Digits} {a b : Int} (hd : Rep d a) (hx : Rep x b) (hb : b ≠ 0) :
    ∃ q r qv rv, reduceMod d x = .ok (q, r) ∧ Rep q qv ∧ Rep r rv ∧ a = b * qv + rv ∧
      (0 < b → qv = a.fdiv b ∧ rv = a.fmod b) := by
  by_cases hs : 0 < b ∨ a ≤ -b ∨ d.length ≠ x.length ∨ d.getLastD 0 + x.getLastD 0 ≠ 2 ^ 32 - 1
  · obtain ⟨q, r, e, hq, hr⟩ := C07_reduceMod_partial hd hx hb hs
    exact ⟨q, r, _, _, e, hq, hr, (Int.mul_fdiv_add_fmod a b).symm, fun _ => ⟨rfl, rfl⟩⟩
  · simp only [not_or, not_not] at hs
    rw [rep_iff] at hd hx
    obtain ⟨hd, rfl⟩ := hd
    obtain ⟨hx, rfl⟩ := hx
    have e := reduceMod_bad hd hx ⟨hs.2.2.1, by simpa [back] using hs.2.2.2, by omega, by omega⟩
    have ha := addAssign_spec hd hx
    refine ⟨_, _, -1, sval d + sval x, e, C01_ofInt (by norm_num), rep_iff.2 ha, by ring, ?_⟩
    intro h; omega

/-- C07: the operators `/=`, `/`, `%=`, `%` (under the same proviso). -/
theorem C07_operators_partial {d x : Digits} {a b : Int} (hd : Rep d a) (hx : Rep x b) (hb : b ≠ 0)
    (hs : 0 < b ∨ a ≤ -b ∨ d.length ≠ x.length ∨ d.getLastD 0 + x.getLastD 0 ≠ 2 ^ 32 - 1) :
    (∃ q, divAssign d x = .ok q ∧ Rep q (a.fdiv b)) ∧
    (∃ r, modAssign d x = .ok r ∧ Rep r (a.fmod b)) := by
  obtain ⟨q, r, e, hq, hr⟩ := C07_reduceMod_partial hd hx hb hs
  constructor
  · unfold divAssign
    split
    · next h =>
      have : b = 1 := (C02_eqInt hx (by norm_num)).1 h
      subst this
      exact ⟨d, rfl, by simpa using hd⟩
    · rw [e]; exact ⟨q, rfl, hq⟩
  · unfold modAssign; rw [e]; exact ⟨r, rfl, hr⟩

/-- C07: `shift_modulo`, division by a nonzero digit. -/
theorem C07_shiftModulo {d : Digits} {a : Int} {m : Nat} (hd : Rep d a) (h0 : 0 < m) (hm : m < 2 ^ 32) :
    Rep (shiftModulo d m).1 (a / m) ∧ ((shiftModulo d m).2 : Int) = a % m := by
  rw [rep_iff] at *
  obtain ⟨hd, rfl⟩ := hd
  have := shiftModulo_spec hd.wf h0 (by omega)
  exact ⟨⟨this.1, this.2.1⟩, this.2.2⟩

-- a case of the conditional theorem with negative divisor of several digits
example : Rep [5, 7, 1] (2 ^ 64 + 7 * 2 ^ 32 + 5) ∧ Rep [𝐁 - 1, 𝐁 - 2] (-(2 ^ 32 + 1)) ∧
    [5, 7, 1].length ≠ [𝐁 - 1, 𝐁 - 2].length ∧
    reduceMod [5, 7, 1] [𝐁 - 1, 𝐁 - 2] = .ok ([𝐁 - 6, 𝐁 - 2], [𝐁 - 1]) :=
  ⟨rep_of_check (by decide), rep_of_check (by decide), by decide, by decide +kernel⟩

/-! ### C11: powers -/

/-- C11: `power` is exact. -/
theorem C11_power {d : Digits} {a : Int} (hd : Rep d a) (e : Nat) : Rep (power d e) (a ^ e) := by
  unfold power
  split
  · split
    · next h => subst h; simpa using C01_ofInt (n := 1) (by norm_num)
    · next h1 h2 =>
      have : e = 1 := by omega
      subst this; simpa using hd
  · next h =>
    rw [rep_iff] at *
    obtain ⟨hd, rfl⟩ := hd
    have := powerLoop_spec hd (e - 1) hd
    refine ⟨this.1, this.2.trans ?_⟩
    rw [← pow_succ', show e - 1 + 1 = e by omega]

example : Rep [𝐁 - 100000] (-100000) ∧ power [𝐁 - 100000] 3 = [1530494976, 4294734465] :=
  ⟨rep_of_check (by decide), by decide⟩

end Verif.BigInt
