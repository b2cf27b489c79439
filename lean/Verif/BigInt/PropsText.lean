import Verif.BigInt.RatLemmas2
/-
Property C10: decimal text.  The reference for decimal notation is Lean's `toString` on `Int`
(no superfluous zeros, `-` before negative numbers) and `Nat.ofDigitChars` for reading.
-/
namespace Verif.BigInt

/-- zero padding to `k` places -/
theorem pad_snoc {k r c : Nat} (hk : 0 < k) (hr : r < 10 ^ k) (hc : c < 10) :
    List.replicate (k + 1 - (Nat.toDigits 10 (10 * r + c)).length) '0' ++ Nat.toDigits 10 (10 * r + c) =
    (List.replicate (k - (Nat.toDigits 10 r).length) '0' ++ Nat.toDigits 10 r) ++ Nat.toDigits 10 c := by
  rcases Nat.eq_zero_or_pos r with rfl | h
  · have : (Nat.toDigits 10 c).length = 1 := by rw [Nat.toDigits_of_lt_base hc]; rfl
    rw [Nat.mul_zero, Nat.zero_add, this, Nat.toDigits_zero]
    simp only [List.length_singleton, List.append_assoc, List.cons_append, List.nil_append,
      Nat.add_sub_cancel]
    obtain ⟨k, rfl⟩ : ∃ j, k = j + 1 := ⟨k - 1, by omega⟩
    simp [List.replicate_succ', List.append_assoc]
  · rw [← Nat.toDigits_append_toDigits (by omega) h hc, List.length_append,
      Nat.toDigits_of_lt_base hc, List.length_singleton, Nat.add_sub_add_right, List.append_assoc]

theorem toDigits_split {m : Nat} (hm : 0 < m) : ∀ (k r : Nat), 0 < k → r < 10 ^ k →
    Nat.toDigits 10 (10 ^ k * m + r) = Nat.toDigits 10 m ++
      (List.replicate (k - (Nat.toDigits 10 r).length) '0' ++ Nat.toDigits 10 r)
  | 1, r, _, hr => by
    rw [pow_one] at *
    rw [← Nat.toDigits_append_toDigits (by omega) hm hr, Nat.toDigits_of_lt_base hr]
    rfl
  | k + 2, r, _, hr => by
    have hr' : r / 10 < 10 ^ (k + 1) := by rw [pow_succ] at hr; omega
    have ih := toDigits_split hm (k + 1) (r / 10) (by omega) hr'
    have hp := pad_snoc (k := k + 1) (by omega) hr' (Nat.mod_lt r (by norm_num : 0 < 10))
    rw [Nat.div_add_mod] at hp
    rw [hp, ← List.append_assoc, ← ih, Nat.toDigits_append_toDigits (by omega) (by positivity)
      (Nat.mod_lt r (by norm_num))]
    congr 1
    rw [pow_succ 10 (k + 1)]
    nth_rewrite 1 [← Nat.div_add_mod r 10]
    ring

theorem repr_signed {a : Int} (h : 0 < a) (neg : Bool) :
    (Int.repr (if neg then -a else a)).toList =
      (if neg then ['-'] else []) ++ Nat.toDigits 10 a.toNat := by
  obtain ⟨m, rfl⟩ : ∃ m : Nat, a = (m : Int) + 1 := ⟨(a - 1).toNat, by omega⟩
  cases neg
  · have : ((m : Int) + 1) = Int.ofNat (m + 1) := rfl
    simp only [Bool.false_eq_true, if_false, this, Int.repr]
    simp [Nat.repr]
  · have : -((m : Int) + 1) = Int.negSucc m := rfl
    simp only [if_true, this, Int.repr, String.toList_append]
    simp [Nat.repr]

theorem print_spec (neg : Bool) : ∀ (f : Nat) {d : Digits} {a : Int}, Rep d a → 0 < a → a < f →
    print f d neg = some ((if neg then ['-'] else []) ++ Nat.toDigits 10 a.toNat)
  | 0, d, a, _, h0, hf => by simp at hf; omega
  | f + 1, d, a, hd, h0, hf => by
    have hl := rep_length hd 0
    have hne : d.length ≠ 0 := by simpa using hd.1.1.1
    rw [print]
    by_cases h1 : d.length = 1
    · have := hl.1 (by omega)
      rw [if_pos h1, C01_intVal hd, if_pos (by omega), Option.map_some, repr_signed h0]
    · have hbig : 2 ^ 31 ≤ a := by
        by_contra hc
        exact h1 (by have := hl.2 ⟨by omega, by omega⟩; omega)
      obtain ⟨hq, hr⟩ := C07_shiftModulo (m := 1000000000) hd (by norm_num) (by norm_num)
      rw [if_neg h1]
      have hq0 : 0 < a / ((1000000000 : Nat) : Int) := by omega
      have ih := print_spec neg f hq hq0 (by omega)
      simp only [ih, Option.map_some]
      congr 1
      rw [List.append_assoc]
      congr 1
      have hr' : (shiftModulo d 1000000000).2 = a.toNat % 1000000000 := by omega
      have hqn : (a / ((1000000000 : Nat) : Int)).toNat = a.toNat / 1000000000 := by omega
      have hs := toDigits_split (m := a.toNat / 1000000000) (by omega) 9 (a.toNat % 1000000000)
        (by norm_num) (by norm_num; omega)
      rw [hr', hqn, pad9, ← hs]
      congr 1
      norm_num
      omega

/-- C10: printing a `big_int` gives the usual decimal notation of its value. -/
theorem C10_output {d : Digits} {n : Int} (hd : Rep d n) : output d = some (toString n).toList := by
  unfold output
  have hneg := isNeg_rep hd
  have hts : toString n = Int.repr n := rfl
  rw [hts]
  rcases lt_trichotomy n 0 with h | h | h
  · have hn := C04_negate hd
    simp only [hneg.2 h, if_true]
    have hf := fuelOf_gt hn.1.1
    rw [rep_iff] at hn
    rw [print_spec true _ (rep_iff.2 hn) (by omega) (by rw [hn.2] at hf; omega)]
    have := repr_signed (a := -n) (by omega) true
    simp only [if_true, neg_neg] at this ⊢
    rw [this]
  · subst h
    have : d = [0] := rep_unique hd (rep_of_check (by decide))
    subst this
    decide
  · have hc : isNegative d = false := by
      rw [← Bool.not_eq_true, hneg]; omega
    simp only [hc, Bool.false_eq_true, if_false]
    have hf := fuelOf_gt hd.1.1
    rw [rep_iff] at hd
    rw [print_spec false _ (rep_iff.2 hd) h (by rw [hd.2] at hf; omega)]
    have := repr_signed h false
    simp only [Bool.false_eq_true, if_false] at this ⊢
    rw [this]

theorem charVal_digit {c : Char} (h : c.isDigit = true) : charVal c = c.toNat - '0'.toNat ∧ charVal c < 10 := by
  have h1 : 48 ≤ c.toNat ∧ c.toNat ≤ 57 := by
    simp only [Char.isDigit, Bool.and_eq_true, decide_eq_true_eq] at h
    exact ⟨h.1, h.2⟩
  have e1 : '0'.toNat = 48 := rfl
  have e2 : '9'.toNat = 57 := rfl
  unfold charVal dadd dneg
  rw [e1, e2, if_pos h1.2]
  constructor <;> omega

theorem ofDigitValues_spec : ∀ (l : List Char) {d : Digits} {n : Nat}, Rep d n →
    (∀ c ∈ l, c.isDigit = true) →
    Rep ((l.map charVal).foldl (fun d v => multAdd d 10 v) d) (Nat.ofDigitChars 10 l n : Nat)
  | [], d, n, hd, _ => by simpa using hd
  | c :: l, d, n, hd, hl => by
    rw [List.map_cons, List.foldl_cons, Nat.ofDigitChars_cons]
    obtain ⟨e, hlt⟩ := charVal_digit (hl c (List.mem_cons_self ..))
    refine ofDigitValues_spec l ?_ (fun c h => hl c (List.mem_cons_of_mem _ h))
    rw [rep_iff] at *
    have := multAdd_spec (x := 10) (a := charVal c) hd.1 (by rw [hd.2]; omega) (by norm_num) (by omega)
    refine ⟨this.2.2 (.inl (by norm_num)), ?_⟩
    rw [this.2.1, hd.2, e]
    push_cast; ring

/-- C10: reading any string of decimal digits gives the number it denotes. -/
theorem C10_read (l : List Char) (hl : ∀ c ∈ l, c.isDigit = true) :
    Rep (ofString (String.ofList l)) (Nat.ofDigitChars 10 l 0 : Nat) := by
  unfold ofString ofDigitValues
  rw [String.toList_ofList]
  exact ofDigitValues_spec l (rep_of_check (by decide)) hl

/-- C10: printing the magnitude and reading it back gives back the same vector of digits. -/
theorem C10_roundTrip {d : Digits} {n : Nat} (hd : Rep d n) :
    ∃ t, output d = some t ∧ ofString (String.ofList t) = d := by
  refine ⟨_, C10_output hd, ?_⟩
  have e : (toString (n : Int)).toList = Nat.toDigits 10 n := by
    have : toString (n : Int) = Nat.repr n := rfl
    rw [this, Nat.repr, String.toList_ofList]
  rw [e]
  have := C10_read (Nat.toDigits 10 n) (fun c hc => Nat.isDigit_of_mem_toDigits (by norm_num) (by norm_num) hc)
  rw [Nat.ofDigitChars_toDigits (by norm_num) (by norm_num)] at this
  exact rep_unique this hd

/-- C10: a negative number prints as a minus sign followed by the text for its opposite. -/
theorem C10_negative {d : Digits} {n : Int} (hd : Rep d n) (h : n < 0) :
    ∃ t, output d = some ('-' :: t) ∧ output (negate d) = some t ∧
      ofString (String.ofList t) = negate d := by
  obtain ⟨m, rfl⟩ : ∃ m : Nat, n = Int.negSucc m := ⟨(-n - 1).toNat, by omega⟩
  have hn := C04_negate hd
  have hm : -Int.negSucc m = ((m + 1 : Nat) : Int) := rfl
  rw [hm] at hn
  obtain ⟨t, h1, h2⟩ := C10_roundTrip hn
  refine ⟨t, ?_, h1, h2⟩
  rw [C10_output hn] at h1
  injection h1 with h1
  rw [C10_output hd, ← h1]
  have e1 : toString (Int.negSucc m) = "-" ++ Nat.repr (m + 1) := rfl
  have e2 : toString ((m + 1 : Nat) : Int) = Nat.repr (m + 1) := rfl
  rw [e1, e2, String.toList_append]
  rfl

example : Rep [0, 0, 𝐁 - 1] (-2 ^ 64) ∧
    output [0, 0, 𝐁 - 1] = some "-18446744073709551616".toList ∧
    ofString "18446744073709551616" = [0, 0, 1] :=
  ⟨rep_of_check (by decide), by
    rw [C10_output (rep_of_check (n := -2 ^ 64) (by decide))]; decide +kernel, by decide +kernel⟩

end Verif.BigInt
