import Verif.Size.Model
import Verif.BitSet.Props2
import Mathlib.Data.Nat.Prime.Basic
import Mathlib.Data.Nat.Factorial.Basic
import Mathlib.Tactic.IntervalCases
import Mathlib.Tactic.NormNum.Prime
import Mathlib.Tactic.Ring
import Mathlib.Tactic.Linarith
/-
C25: numbers stored as products of powers of small primes.
-/
namespace Verif.Size
open Verif.BitSet

/-! ### specification -/

/-- the number denoted by a list of exponents: `∏ p_i ^ e_i` -/
def powers (ps : List Nat) (s : Sz) : Nat := (List.zipWith (fun p e => p ^ e.toNat) ps s).prod

/-- the number denoted by a `Size`: the product of the powers of the eleven primes 2,…,31 -/
def val (s : Sz) : Nat := powers [2, 3, 5, 7, 11, 13, 17, 19, 23, 29, 31] s

/-- eleven exponents, none negative, none above `B` -/
def Within (B : Nat) (s : Sz) : Prop := s.length = 11 ∧ ∀ e ∈ s, 0 ≤ e ∧ e ≤ B

instance (B : Nat) (s : Sz) : Decidable (Within B s) := by unfold Within; infer_instance

/-- all prime factors are at most 31 -/
def Smooth (a : Nat) : Prop := ∀ p, p.Prime → p ∣ a → p ≤ 31

/-! ### the primes -/

theorem isNext_false {j : Nat} {ps : List Nat} (h : isNext j ps = false) : ∃ p ∈ ps, p ∣ j := by
  induction ps with
  | nil => simp [isNext] at h
  | cons p ps ih =>
    rw [isNext] at h
    split at h
    · cases h
    · split at h
      · next c => exact ⟨p, by simp, Nat.dvd_of_mod_eq_zero c⟩
      · obtain ⟨q, hq, hd⟩ := ih h; exact ⟨q, by simp [hq], hd⟩

theorem isNext_true {j : Nat} {ps : List Nat} (hs : ps.Pairwise (· < ·)) (hb : ∀ p ∈ ps, p < 2 ^ 32)
    (h : isNext j ps = true) : ∀ p ∈ ps, p * p ≤ j → ¬ p ∣ j := by
  induction ps with
  | nil => simp
  | cons p ps ih =>
    rw [List.pairwise_cons] at hs
    have hp : u64 (p * p) = p * p := by
      apply Nat.mod_eq_of_lt
      have := hb p (by simp)
      nlinarith
    rw [isNext, hp] at h
    intro q hq hqq hd
    by_cases c : p * p > j
    · rcases List.mem_cons.1 hq with rfl | hq
      · omega
      · have := hs.1 q hq; nlinarith
    · rw [if_neg c] at h
      by_cases c2 : j % p = 0
      · rw [if_pos c2] at h; cases h
      · rw [if_neg c2] at h
        rcases List.mem_cons.1 hq with rfl | hq
        · exact c2 (Nat.mod_eq_zero_of_dvd hd)
        · exact ih hs.2 (fun p hp => hb p (by simp [hp])) h q hq hqq hd

/-- the primes below `j`, in order -/
def primesBelow (j : Nat) : List Nat := (List.range j).filter (fun p => decide p.Prime)

theorem mem_primesBelow {j p : Nat} : p ∈ primesBelow j ↔ p < j ∧ p.Prime := by
  simp [primesBelow]

theorem primesBelow_sorted (j : Nat) : (primesBelow j).Pairwise (· < ·) :=
  List.Pairwise.sublist List.filter_sublist List.pairwise_lt_range

theorem isNext_iff {j : Nat} (h2 : 2 ≤ j) (hj : j < 2 ^ 32) : isNext j (primesBelow j) = true ↔ j.Prime := by
  constructor
  · intro h
    by_contra hc
    have hm := Nat.minFac_prime (n := j) (by omega)
    have hsq : j.minFac ^ 2 ≤ j := Nat.minFac_sq_le_self (by omega) hc
    have hlt : j.minFac < j := by
      rcases lt_or_eq_of_le (Nat.minFac_le (n := j) (by omega)) with e | e
      · exact e
      · rw [e] at hm; exact absurd hm hc
    exact isNext_true (primesBelow_sorted j) (fun p hp => by have := (mem_primesBelow.1 hp).1; omega) h _
      (mem_primesBelow.2 ⟨hlt, hm⟩) (by rw [← sq]; exact hsq) (Nat.minFac_dvd j)
  · intro h
    by_contra hc
    obtain ⟨p, hp, hd⟩ := isNext_false (by simpa using hc)
    have := mem_primesBelow.1 hp
    rcases (Nat.dvd_prime h).1 hd with e | e
    · exact this.2.one_lt.ne' e
    · omega

theorem primesBelow_succ (j : Nat) : primesBelow (j + 1) = if j.Prime then primesBelow j ++ [j] else primesBelow j := by
  rw [primesBelow, List.range_succ, List.filter_append]
  by_cases c : j.Prime
  · rw [if_pos c, List.filter_cons_of_pos (by simpa using c)]; rfl
  · rw [if_neg c, List.filter_cons_of_neg (by simpa using c)]; simp [primesBelow]

theorem primesLoop_spec (K k j : Nat) (h2 : 2 ≤ j) (hj : j + k ≤ 2 ^ 32) (hK : (primesBelow (j + k)).length ≤ K) :
    primesLoop K k j (primesBelow j) = .ok (primesBelow (j + k)) := by
  induction k generalizing j with
  | zero => rfl
  | succ k ih =>
    have hi := isNext_iff h2 (by omega)
    have hs := primesBelow_succ j
    have hih := ih (j + 1) (by omega) (by omega) (by rwa [show j + 1 + k = j + (k + 1) by omega])
    rw [show j + 1 + k = j + (k + 1) by omega] at hih
    rw [primesLoop]
    by_cases c : j.Prime
    · rw [if_pos (hi.2 c)]
      rw [if_pos c] at hs
      have hlen : (primesBelow j).length < K := by
        have hmono : ∀ m, (primesBelow (j + 1)).length ≤ (primesBelow (j + 1 + m)).length := by
          intro m
          induction m with
          | zero => exact le_rfl
          | succ m ihm =>
            rw [← Nat.add_assoc, primesBelow_succ (j + 1 + m)]
            split
            · rw [List.length_append]; omega
            · exact ihm
        have := hmono k
        rw [hs, List.length_append, List.length_singleton, show j + 1 + k = j + (k + 1) by omega] at this
        omega
      rw [if_neg (by omega), ← hs, hih]
    · rw [if_neg (by rwa [hi])]
      rw [if_neg c] at hs
      rw [← hs, hih]

/-- The sieve finds exactly the primes up to `n`, in order, for every `n` and array large enough for
them. -/
theorem C25_primes (K n : Nat) (hn : n < 2 ^ 32)
    (hK : ((List.range (n + 1)).filter (fun p => decide p.Prime)).length ≤ K) :
    primeHelper K n = .ok ((List.range (n + 1)).filter (fun p => decide p.Prime)) := by
  have h2 : primesBelow 2 = [] := by decide
  cases n with
  | zero =>
    rw [show (List.range (0 + 1)).filter (fun p => decide p.Prime) = [] by decide]; rfl
  | succ n =>
    have := primesLoop_spec K n 2 le_rfl (by omega) (by rwa [show 2 + n = n + 1 + 1 by omega])
    rw [h2, show 2 + n = n + 1 + 1 by omega] at this
    exact this

example : (33:Nat) < 2 ^ 32 ∧ ((List.range (33 + 1)).filter (fun p => decide p.Prime)).length ≤ 11 := by decide +kernel

theorem primes_eq : primes = [2, 3, 5, 7, 11, 13, 17, 19, 23, 29, 31] := by decide +kernel

theorem mem_primes {p : Nat} : p ∈ primes ↔ p.Prime ∧ p ≤ 31 := by
  rw [primes_eq]
  constructor
  · intro h
    have : ∀ p ∈ [2, 3, 5, 7, 11, 13, 17, 19, 23, 29, 31], p.Prime ∧ p ≤ 31 := by decide
    exact this p h
  · rintro ⟨h1, h2⟩
    have : ∀ p, p < 32 → p.Prime → p ∈ [2, 3, 5, 7, 11, 13, 17, 19, 23, 29, 31] := by decide
    exact this p (by omega) h1

/-! ### construction from an integer -/

theorem s8_small {x : Int} (h : 0 ≤ x) (h' : x ≤ 127) : s8 x = x := by rw [s8]; omega

theorem extract_spec {p : Nat} (hp : 2 ≤ p) (k a : Nat) (e : Int) (ha : 0 < a) (hak : a < 2 ^ k) (he : 0 ≤ e)
    (hek : e + k ≤ 128) :
    ∃ (v a' : Nat), extract p (k + 1) a e = .ok (a', e + v) ∧ p ^ v * a' = a ∧ ¬ p ∣ a' ∧ v < k := by
  induction k generalizing a e with
  | zero => simp at hak; omega
  | succ k ih =>
    rw [extract]
    by_cases c : a % p = 0
    · rw [if_pos c]
      obtain ⟨b, rfl⟩ := Nat.dvd_of_mod_eq_zero c
      rw [Nat.mul_div_cancel_left _ (by omega)]
      have hb : 0 < b := Nat.pos_of_mul_pos_left ha
      have hbk : b < 2 ^ k := by
        rw [pow_succ] at hak
        by_contra hc
        have : 2 * b ≤ p * b := Nat.mul_le_mul_right b hp
        omega
      have hk : 0 < k := by
        rcases Nat.eq_zero_or_pos k with rfl | h
        · simp at hbk; omega
        · exact h
      rw [s8_small (by omega) (by push_cast at hek; omega)]
      obtain ⟨v, a', h1, h2, h3, h4⟩ := ih b (e + 1) hb hbk (by omega) (by push_cast at hek; omega)
      refine ⟨v + 1, a', ?_, ?_, h3, by omega⟩
      · rw [h1]; push_cast; congr 2; omega
      · rw [pow_succ, ← h2]; ring
    · rw [if_neg c]
      exact ⟨0, a, by simp, by simp, fun hd => c (Nat.mod_eq_zero_of_dvd hd), by omega⟩

theorem extractAll_spec {ps : List Nat} (hp : ∀ p ∈ ps, 2 ≤ p) (a : Nat) (ha : 0 < a) (ha64 : a < 2 ^ 64) :
    ∃ (a' : Nat) (s : Sz), extractAll 65 ps a = .ok (a', s) ∧ s.length = ps.length ∧ powers ps s * a' = a ∧
      (∀ p ∈ ps, ¬ p ∣ a') ∧ ∀ e ∈ s, 0 ≤ e ∧ e ≤ 63 := by
  induction ps generalizing a with
  | nil => exact ⟨a, [], rfl, rfl, by simp [powers], by simp, by simp⟩
  | cons p ps ih =>
    obtain ⟨v, b, h1, h2, h3, h4⟩ := extract_spec (hp p (by simp)) 64 a 0 ha ha64 le_rfl (by norm_num)
    have hb : 0 < b := by
      rcases Nat.eq_zero_or_pos b with rfl | h
      · exact absurd (dvd_zero p) h3
      · exact h
    have hba : b ≤ a := by rw [← h2]; exact Nat.le_mul_of_pos_left b (by have := hp p (by simp); positivity)
    obtain ⟨a', s, g1, g2, g3, g4, g5⟩ := ih (fun p hp' => hp p (by simp [hp'])) b hb (by omega)
    refine ⟨a', ((0:Int) + v) :: s, ?_, by simp [g2], ?_, ?_, ?_⟩
    · rw [extractAll, h1, Res.ok_bind, g1, Res.ok_bind]; rfl
    · rw [powers, List.zipWith_cons_cons, List.prod_cons, mul_assoc]
      rw [powers] at g3
      rw [g3, Int.zero_add, Int.toNat_natCast, h2]
    · intro q hq hd
      rcases List.mem_cons.1 hq with rfl | hq
      · exact h3 (hd.trans ⟨_, by rw [mul_comm]; exact g3.symm⟩)
      · exact g4 q hq hd
    · intro e he
      rcases List.mem_cons.1 he with rfl | he
      · omega
      · exact g5 e he

theorem make_spec (a : Nat) (ha : 0 < a) (ha64 : a < 2 ^ 64) :
    ∃ (a' : Nat) (s : Sz), make 65 a = .ok (s, decide (1 < a')) ∧ Within 63 s ∧ val s * a' = a ∧
      ∀ p, p.Prime → p ≤ 31 → ¬ p ∣ a' := by
  obtain ⟨a', s, h1, h2, h3, h4, h5⟩ := extractAll_spec (ps := primes) (fun p hp => (mem_primes.1 hp).1.two_le) a ha ha64
  refine ⟨a', s, ?_, ⟨by rw [h2, primes_eq]; rfl, h5⟩, by rw [val, ← primes_eq]; exact h3, ?_⟩
  · rw [make, h1, Res.ok_bind]
    simp only [Res.pure_eq]
    congr 3
    rw [eq_iff_iff]
    omega
  · intro p h1 h2 hd; exact h4 p (mem_primes.2 ⟨h1, h2⟩) hd

/-- Construction from a positive integer all whose prime factors are at most 31: no message is
printed and the object denotes that integer. -/
theorem C25_make (a : Nat) (ha : 0 < a) (ha64 : a < 2 ^ 64) (hs : Smooth a) :
    ∃ s, make 65 a = .ok (s, false) ∧ Within 63 s ∧ val s = a := by
  obtain ⟨a', s, h1, h2, h3, h4⟩ := make_spec a ha ha64
  have : a' = 1 := by
    by_contra hc
    have hm := Nat.minFac_prime hc
    have hd := Nat.minFac_dvd a'
    exact h4 _ hm (hs _ hm (hd.trans ⟨_, by rw [mul_comm]; exact h3.symm⟩)) hd
  subst this
  exact ⟨s, by rw [h1]; rfl, h2, by omega⟩

example : (0:Nat) < 696729600 ∧ (696729600:Nat) < 2 ^ 64 ∧
    make 65 696729600 = .ok ([14, 5, 2, 1, 0, 0, 0, 0, 0, 0, 0], false) := by decide +kernel
example : Smooth 696729600 := by
  intro p hp hd
  rw [show 696729600 = 2 ^ 14 * 3 ^ 5 * 5 ^ 2 * 7 by norm_num] at hd
  rcases (Nat.Prime.dvd_mul hp).1 hd with hd | hd
  · rcases (Nat.Prime.dvd_mul hp).1 hd with hd | hd
    · rcases (Nat.Prime.dvd_mul hp).1 hd with hd | hd
      · have := Nat.le_of_dvd (by norm_num) (hp.dvd_of_dvd_pow hd); omega
      · have := Nat.le_of_dvd (by norm_num) (hp.dvd_of_dvd_pow hd); omega
    · have := Nat.le_of_dvd (by norm_num) (hp.dvd_of_dvd_pow hd); omega
  · have := Nat.le_of_dvd (by norm_num) hd; omega

/-- For any other positive integer the message is printed, and only then. -/
theorem C25_make_message (a : Nat) (ha : 0 < a) (ha64 : a < 2 ^ 64) :
    ∃ s b, make 65 a = .ok (s, b) ∧ (b = false ↔ Smooth a) := by
  obtain ⟨a', s, h1, h2, h3, h4⟩ := make_spec a ha ha64
  refine ⟨s, _, h1, ?_⟩
  rw [decide_eq_false_iff_not]
  have ha' : 0 < a' := by
    rcases Nat.eq_zero_or_pos a' with rfl | h
    · omega
    · exact h
  constructor
  · intro h p hp hd
    obtain rfl : a' = 1 := by omega
    rw [← h3, mul_one] at hd
    by_contra hc
    obtain ⟨hl, -⟩ := h2
    -- a prime dividing a product of powers of primes is one of them
    have key : ∀ (ps : List Nat) (s : Sz), p ∣ powers ps s → ∃ q ∈ ps, p ∣ q := by
      intro ps
      induction ps with
      | nil => intro s h; simp [powers] at h; exact absurd h hp.one_lt.ne'
      | cons q ps ih =>
        intro s h
        cases s with
        | nil => simp [powers] at h; exact absurd h hp.one_lt.ne'
        | cons e s =>
          rw [powers, List.zipWith_cons_cons, List.prod_cons] at h
          rcases (Nat.Prime.dvd_mul hp).1 h with h | h
          · exact ⟨q, by simp, hp.dvd_of_dvd_pow h⟩
          · obtain ⟨q', h1, h2⟩ := ih s h; exact ⟨q', by simp [h1], h2⟩
    obtain ⟨q, hq, hdq⟩ := key _ _ hd
    rw [← primes_eq] at hq
    have h1 := (mem_primes.1 hq).1
    have := Nat.le_of_dvd h1.pos hdq
    have := (mem_primes.1 hq).2
    omega
  · intro hsm hc
    have hm := Nat.minFac_prime (n := a') (by omega)
    have hd := Nat.minFac_dvd a'
    exact h4 _ hm (hsm _ hm (hd.trans ⟨_, by rw [mul_comm]; exact h3.symm⟩)) hd

/-- Finding F30: the documentation promises a fatal error for integers that cannot be represented,
but the program only prints a message and goes on with a different number. -/
theorem C25_make_unrepresentable_false : make 65 74 = .ok ([1, 0, 0, 0, 0, 0, 0, 0, 0, 0, 0], true) ∧
    val [1, 0, 0, 0, 0, 0, 0, 0, 0, 0, 0] = 2 := by decide +kernel

/-- … and for 0 it goes on in an infinite loop: no number of passes suffices. -/
theorem C25_make_zero_false (fuel : Nat) : make fuel 0 = .outOfFuel := by
  have h : ∀ k e, extract 2 k 0 e = .outOfFuel := by
    intro k
    induction k with
    | zero => intro e; rfl
    | succ k ih => intro e; rw [extract, if_pos (Nat.zero_mod 2), Nat.zero_div]; exact ih _
  rw [make, primes_eq, extractAll, h]; rfl

/-! ### arithmetic -/

theorem powers_mul (ps : List Nat) {a b : Sz} (h : ps.length ≤ a.length) (h' : ps.length ≤ b.length)
    (ha : ∀ e ∈ a, 0 ≤ e) (hb : ∀ e ∈ b, 0 ≤ e) (B C : Nat) (hB : ∀ e ∈ a, e ≤ B) (hC : ∀ e ∈ b, e ≤ C) (hBC : B + C ≤ 127) :
    powers ps (mul a b) = powers ps a * powers ps b := by
  induction ps generalizing a b with
  | nil => simp [powers]
  | cons p ps ih =>
    cases a with
    | nil => simp at h
    | cons x a =>
      cases b with
      | nil => simp at h'
      | cons y b =>
        have hx := ha x (by simp)
        have hy := hb y (by simp)
        have hx' := hB x (by simp)
        have hy' := hC y (by simp)
        simp only [List.length_cons, Nat.add_le_add_iff_right] at h h'
        have := ih h h' (fun e he => ha e (by simp [he])) (fun e he => hb e (by simp [he]))
          (fun e he => hB e (by simp [he])) (fun e he => hC e (by simp [he]))
        rw [mul] at this
        rw [mul, List.zipWith_cons_cons]
        simp only [powers, List.zipWith_cons_cons, List.prod_cons] at this ⊢
        rw [this, s8_small (by omega) (by omega), Int.toNat_add hx hy, pow_add]
        ring

theorem within_mul {a b : Sz} {B C : Nat} (ha : Within B a) (hb : Within C b) (hBC : B + C ≤ 127) :
    Within (B + C) (mul a b) := by
  refine ⟨by simp [mul, ha.1, hb.1], ?_⟩
  intro e he
  rw [mul, List.mem_iff_getElem] at he
  obtain ⟨i, hi, rfl⟩ := he
  rw [List.getElem_zipWith]
  have h1 := ha.2 _ (List.getElem_mem (l := a) (n := i) (by simp at hi; omega))
  have h2 := hb.2 _ (List.getElem_mem (l := b) (n := i) (by simp at hi; omega))
  rw [s8_small (by omega) (by omega)]
  push_cast
  omega

/-- `*=` multiplies, as long as no exponent goes above 127. -/
theorem C25_mul {a b : Sz} {B C : Nat} (ha : Within B a) (hb : Within C b) (hBC : B + C ≤ 127) :
    Within (B + C) (mul a b) ∧ val (mul a b) = val a * val b :=
  ⟨within_mul ha hb hBC, powers_mul _ (by rw [ha.1]; rfl) (by rw [hb.1]; rfl) (fun e he => (ha.2 e he).1)
    (fun e he => (hb.2 e he).1) B C (fun e he => (ha.2 e he).2) (fun e he => (hb.2 e he).2) hBC⟩

example : Within 63 [63, 1, 0, 2, 0, 0, 0, 0, 0, 0, 5] ∧ Within 64 [64, 1, 0, 2, 0, 0, 0, 0, 0, 0, 5] ∧ 63 + 64 ≤ 127 := by
  decide

/-- beyond that exponents wrap around: `2^127 * 2` comes out with exponent -128 -/
theorem C25_mul_overflow_false : mul [127, 0, 0, 0, 0, 0, 0, 0, 0, 0, 0] [1, 0, 0, 0, 0, 0, 0, 0, 0, 0, 0] =
    [-128, 0, 0, 0, 0, 0, 0, 0, 0, 0, 0] := by decide

theorem coprime_powers {p : Nat} (hp : p.Prime) {ps : List Nat} (hps : ∀ q ∈ ps, q.Prime ∧ q ≠ p) (s : Sz) :
    Nat.Coprime p (powers ps s) := by
  induction ps generalizing s with
  | nil => simp [powers]
  | cons q ps ih =>
    cases s with
    | nil => simp [powers]
    | cons e s =>
      rw [powers, List.zipWith_cons_cons, List.prod_cons]
      have hq := hps q (by simp)
      exact Nat.Coprime.mul_right (Nat.Coprime.pow_right _ ((Nat.coprime_primes hp hq.1).2 (Ne.symm hq.2)))
        (ih (fun q hq => hps q (by simp [hq])) s)

/-- exponents of a divisor are at most those of the number -/
theorem powers_dvd {ps : List Nat} (hps : ∀ q ∈ ps, q.Prime) (hnd : ps.Nodup) {a b : Sz} (ha : a.length = ps.length)
    (hb : b.length = ps.length) (ha0 : ∀ e ∈ a, 0 ≤ e) (hd : powers ps b ∣ powers ps a) :
    List.Forall₂ (fun x y => y ≤ x) a b := by
  induction ps generalizing a b with
  | nil =>
    rw [List.length_nil, List.length_eq_zero_iff] at ha hb
    subst ha hb; exact .nil
  | cons p ps ih =>
    cases a with
    | nil => simp at ha
    | cons x a =>
      cases b with
      | nil => simp at hb
      | cons y b =>
        rw [List.nodup_cons] at hnd
        have hp := hps p (by simp)
        have hne : ∀ q ∈ ps, q.Prime ∧ q ≠ p := fun q hq => ⟨hps q (by simp [hq]), fun e => hnd.1 (e ▸ hq)⟩
        have ca := coprime_powers hp hne a
        have cb := coprime_powers hp hne b
        have hx := ha0 x (by simp)
        simp only [powers, List.zipWith_cons_cons, List.prod_cons] at hd ca cb
        refine .cons ?_ (ih (fun q hq => hps q (by simp [hq])) hnd.2 (by simpa using ha) (by simpa using hb)
          (fun e he => ha0 e (by simp [he])) ?_)
        · have h1 : p ^ y.toNat ∣ p ^ x.toNat :=
            (Nat.Coprime.pow_left y.toNat ca).dvd_of_dvd_mul_right ((Nat.dvd_mul_right _ _).trans hd)
          have := (Nat.pow_dvd_pow_iff_le_right hp.one_lt).1 h1
          omega
        · exact (Nat.Coprime.pow_right x.toNat cb.symm).dvd_of_dvd_mul_left ((Nat.dvd_mul_left _ _).trans hd)

theorem powers_div {ps : List Nat} (hps : ∀ q ∈ ps, 0 < q) {a b : Sz} (ha : a.length = ps.length)
    (hb0 : ∀ e ∈ b, 0 ≤ e) (ha1 : ∀ e ∈ a, e ≤ 127)
    (h : List.Forall₂ (fun x y => y ≤ x) a b) : powers ps (div a b) * powers ps b = powers ps a := by
  induction ps generalizing a b with
  | nil => simp [powers]
  | cons p ps ih =>
    cases h with
    | nil => simp at ha
    | cons h1 h2 =>
      next x y a b =>
      have hy := hb0 y (by simp)
      have hx := ha1 x (by simp)
      have := ih (fun q hq => hps q (by simp [hq])) (by simpa using ha) (fun e he => hb0 e (by simp [he]))
        (fun e he => ha1 e (by simp [he])) h2
      rw [div] at this
      rw [div, List.zipWith_cons_cons]
      simp only [powers, List.zipWith_cons_cons, List.prod_cons] at this ⊢
      rw [s8_small (by omega) (by omega), ← this]
      have e : x.toNat = (x - y).toNat + y.toNat := by omega
      rw [e, pow_add]
      ring

theorem primes_nodup : [2, 3, 5, 7, 11, 13, 17, 19, 23, 29, 31].Nodup := by decide
theorem primes_prime : ∀ q ∈ [2, 3, 5, 7, 11, 13, 17, 19, 23, 29, 31], Nat.Prime q := by decide

/-- `/=` divides, whenever the division is exact. -/
theorem C25_div {a b : Sz} {B C : Nat} (ha : Within B a) (hb : Within C b) (hB : B ≤ 127) (hd : val b ∣ val a) :
    Within B (div a b) ∧ val (div a b) * val b = val a := by
  have hf := powers_dvd primes_prime primes_nodup (by rw [ha.1]; rfl) (by rw [hb.1]; rfl) (fun e he => (ha.2 e he).1) hd
  refine ⟨⟨by simp [div, ha.1, hb.1], ?_⟩, powers_div (fun q hq => (primes_prime q hq).pos) (by rw [ha.1]; rfl)
    (fun e he => (hb.2 e he).1) (fun e he => by have := (ha.2 e he).2; omega) hf⟩
  intro e he
  rw [div, List.mem_iff_getElem] at he
  obtain ⟨i, hi, rfl⟩ := he
  rw [List.getElem_zipWith]
  have h1 := ha.2 _ (List.getElem_mem (l := a) (n := i) (by simp at hi; omega))
  have h2 := hb.2 _ (List.getElem_mem (l := b) (n := i) (by simp at hi; omega))
  have h3 := (List.forall₂_iff_get.1 hf).2 i (by simp at hi; omega) (by simp at hi; omega)
  simp only [List.get_eq_getElem] at h3
  rw [s8_small (by omega) (by omega)]
  omega

example : Within 14 [14, 5, 2, 1, 0, 0, 0, 0, 0, 0, 0] ∧ Within 10 [10, 4, 1, 1, 0, 0, 0, 0, 0, 0, 0] ∧
    val [10, 4, 1, 1, 0, 0, 0, 0, 0, 0, 0] ∣ val [14, 5, 2, 1, 0, 0, 0, 0, 0, 0, 0] ∧
    val (div [14, 5, 2, 1, 0, 0, 0, 0, 0, 0, 0] [10, 4, 1, 1, 0, 0, 0, 0, 0, 0, 0]) = 240 := by decide +kernel

/-- `==` compares the numbers denoted. -/
theorem C25_eq {a b : Sz} {B C : Nat} (ha : Within B a) (hb : Within C b) : beq a b = decide (val a = val b) := by
  rw [beq, Bool.eq_iff_iff, beq_iff_eq, decide_eq_true_eq]
  constructor
  · rintro rfl; rfl
  · intro h
    have h1 := powers_dvd primes_prime primes_nodup (by rw [ha.1]; rfl) (by rw [hb.1]; rfl) (fun e he => (ha.2 e he).1)
      (show val b ∣ val a by rw [h])
    have h2 := powers_dvd primes_prime primes_nodup (by rw [hb.1]; rfl) (by rw [ha.1]; rfl) (fun e he => (hb.2 e he).1)
      (show val a ∣ val b by rw [h])
    apply List.ext_getElem (by rw [ha.1, hb.1])
    intro i i1 i2
    have h3 := (List.forall₂_iff_get.1 h1).2 i i1 i2
    have h4 := (List.forall₂_iff_get.1 h2).2 i i2 i1
    simp only [List.get_eq_getElem] at h3 h4
    omega

/-- `twoShift(n)` multiplies by `2^n`. -/
theorem C25_twoShift {a : Sz} {B : Nat} (ha : Within B a) (n : Nat) (hn : B + n ≤ 127) :
    Within (B + n) (twoShift a n) ∧ val (twoShift a n) = val a * 2 ^ n := by
  obtain ⟨hl, h⟩ := ha
  cases a with
  | nil => simp at hl
  | cons x a =>
    have hx := h x (by simp)
    have e : s8 (x + n) = x + n := s8_small (by omega) (by omega)
    refine ⟨⟨by simpa [twoShift] using hl, ?_⟩, ?_⟩
    · intro y hy
      simp only [twoShift, List.getD_cons_zero, List.set_cons_zero, e] at hy
      rcases List.mem_cons.1 hy with rfl | hy
      · push_cast; omega
      · have := h y (by simp [hy]); push_cast; omega
    · simp only [twoShift, List.getD_cons_zero, List.set_cons_zero, e]
      rw [val, powers, List.zipWith_cons_cons, List.prod_cons, val, powers, List.zipWith_cons_cons, List.prod_cons]
      rw [Int.toNat_add hx.1 (by omega), Int.toNat_natCast, pow_add]
      ring

example : Within 31 [31, 15, 7, 4, 3, 2, 1, 1, 1, 1, 1] ∧ 31 + 32 ≤ 127 := by decide

/-! ### conversion to machine integers -/

theorem u64_mul_mod (a b : Nat) : u64 (u64 a * b) = u64 (a * b) := by
  rw [u64, u64, u64, Nat.mod_mul_mod]

theorem pieceLoop_spec (p e : Nat) {r : B2} {S : Finset Nat} (hr : Rep2 r S) (hS : ∀ i, i ∈ S ↔ e.testBit i = true) (i c : Nat)
    (hi : i ≤ 64) (hc : c = u64 (p ^ (e >>> i))) : pieceLoop p r i c = .ok (u64 (p ^ e)) := by
  induction i generalizing c with
  | zero => rw [pieceLoop, hc, Nat.shiftRight_zero]
  | succ i ih =>
    rw [pieceLoop]
    rw [C22_two_test hr (by omega), Res.ok_bind]
    apply ih _ (by omega)
    have hsq : u64 (c * c) = u64 (p ^ (2 * (e >>> (i + 1)))) := by
      rw [hc, u64_mul_mod, mul_comm, u64_mul_mod, two_mul, pow_add]
    have hdiv : e >>> i = 2 * (e >>> (i + 1)) + (if e.testBit i then 1 else 0) := by
      rw [Nat.testBit_eq_decide_div_mod_eq, Nat.shiftRight_eq_div_pow, Nat.shiftRight_eq_div_pow, pow_succ, ← Nat.div_div_eq_div_mul]
      by_cases c : e / 2 ^ i % 2 = 1
      · simp only [c, decide_true, if_true]; omega
      · simp only [c, decide_false]; simp; omega
    by_cases ct : e.testBit i = true
    · rw [if_pos (by rw [decide_eq_true_eq, hS]; exact ct), hsq, u64_mul_mod, hdiv, if_pos ct, pow_succ]
    · rw [if_neg (by rw [decide_eq_true_eq, hS]; exact ct), hsq, hdiv, if_neg ct]; rfl

theorem last_le {r : B2} {S : Finset Nat} (hr : Rep2 r S) : r.last ≤ 64 :=
  (C22_two_last hr 64).2 (fun _ hi => hr.sub hi)

/-- `piece(k)` is the power of the k-th prime, modulo `2^64`. -/
theorem C25_piece {s : Sz} {B : Nat} (hs : Within B s) (hB : B ≤ 127) (k : Nat) :
    piece s k = .ok (prime k ^ (s.getD k 0).toNat % 2 ^ 64) := by
  have hk : 0 ≤ s.getD k 0 ∧ s.getD k 0 ≤ 127 := by
    by_cases c : k < s.length
    · rw [List.getD_eq_getElem _ _ c]; have := hs.2 _ (List.getElem_mem c); omega
    · rw [List.getD_eq_default _ _ (by omega)]; omega
  have e : (s.getD k 0 % 18446744073709551616).toNat = (s.getD k 0).toNat := by
    rw [Int.emod_eq_of_lt hk.1 (by omega)]
  rw [piece]
  rw [e]
  obtain ⟨S, h1, h2, -⟩ := C22_two_wide (x := (s.getD k 0).toNat) (by omega)
  apply pieceLoop_spec _ _ h1 h2 _ _ (last_le h1)
  have hz : (s.getD k 0).toNat >>> (B2.ofWide (s.getD k 0).toNat).last = 0 := by
    rw [Nat.shiftRight_eq_div_pow]
    apply Nat.div_eq_of_lt
    apply Nat.lt_pow_two_of_testBit
    intro i hi
    by_contra hc
    have := (C22_two_last h1 _).1 le_rfl i ((h2 i).2 (by simpa using hc))
    omega
  rw [hz, pow_zero]; rfl

theorem powers_take (ps : List Nat) (s : Sz) (hl : s.length = ps.length) :
    powers ps s = ((List.range ps.length).map (fun i => ps.getD i 0 ^ (s.getD i 0).toNat)).prod := by
  rw [powers]
  congr 1
  apply List.ext_getElem (by simp [hl])
  intro i h1 h2
  simp at h1 h2
  rw [List.getElem_zipWith, List.getElem_map, List.getElem_range, List.getD_eq_getElem _ _ h2, List.getD_eq_getElem _ _ (by omega)]

/-- `toUlong()` is the number modulo `2^64`: exact when it fits. -/
theorem C25_toUlong {s : Sz} {B : Nat} (hs : Within B s) (hB : B ≤ 127) :
    toUlong s = .ok (val s % 2 ^ 64) := by
  have key : ∀ n, ulongLoop s n = .ok (u64 ((List.range n).map (fun i => prime i ^ (s.getD i 0).toNat)).prod) := by
    intro n
    induction n with
    | zero => rfl
    | succ n ih =>
      rw [ulongLoop, ih, Res.ok_bind, C25_piece hs hB, Res.ok_bind, Res.pure_eq, List.range_succ, List.map_append, List.prod_append]
      rw [u64_mul_mod]
      simp only [List.map_cons, List.map_nil, List.prod_cons, List.prod_nil, mul_one]
      congr 1
      exact Nat.mul_mod_mod _ _ _
  rw [toUlong, key]
  have : val s = ((List.range 11).map (fun i => prime i ^ (s.getD i 0).toNat)).prod := by
    rw [val, powers_take _ _ (by rw [hs.1]; rfl)]
    simp only [prime, primes_eq]
    rfl
  rw [this]; rfl

example : Within 14 [14, 5, 2, 1, 0, 0, 0, 0, 0, 0, 0] ∧ toUlong [14, 5, 2, 1, 0, 0, 0, 0, 0, 0, 0] = .ok 696729600 := by
  decide +kernel

/-! ### factorials and orders of Weyl groups -/

/-- `factorial(n)` is exact for `n ≤ 36`, that is for all factorials without prime factors above
31 (this includes all needed for rank at most 32). -/
theorem C25_factorial (n : Nat) (hn : n ≤ 36) : ∃ s, factorial n = .ok s ∧ Within 63 s ∧ val s = n.factorial := by
  have h : ∀ n, n < 37 → (match factorial n with | .ok s => decide (Within 63 s) && decide (val s = n.factorial) | _ => false) = true := by
    decide +kernel
  have := h n (by omega)
  revert this
  cases factorial n with
  | ok s => intro h; simp at h; exact ⟨s, rfl, h⟩
  | _ => intro h; cases h

example : factorial 33 = .ok [31, 15, 7, 4, 3, 2, 1, 1, 1, 1, 1] := by decide +kernel

/-- from 37 on it is wrong (F30): prime factors above 31 are lost -/
theorem C25_factorial_false : ∃ s, factorial 37 = .ok s ∧ val s = Nat.factorial 36 := by
  exact ⟨_, rfl, by decide +kernel⟩

/-- specification: the order of the Weyl group of a simple type -/
def weylOrder : Char × Nat → Nat
  | ('A', r) => (r + 1).factorial
  | ('B', r) => 2 ^ r * r.factorial
  | ('C', r) => 2 ^ r * r.factorial
  | ('D', r) => 2 ^ (r - 1) * r.factorial
  | ('E', 6) => 51840
  | ('E', 7) => 2903040
  | ('E', 8) => 696729600
  | ('F', _) => 1152
  | ('f', _) => 1152
  | ('G', _) => 12
  | ('g', _) => 12
  | _ => 1

/-- the simple types: of rank at least 1, those with a fixed rank having it -/
def SimpleType (t : Char × Nat) : Prop :=
  (t.1 ∈ ['A', 'B', 'C', 'D'] ∧ 1 ≤ t.2 ∧ t.2 ≤ 32) ∨ t ∈ [('E', 6), ('E', 7), ('E', 8), ('F', 4), ('f', 4), ('G', 2), ('g', 2)]

/-- the order computed for a simple type of rank at most 32; exponents are at most twice the rank -/
theorem weylSimple_spec (nd : Bool) (t : Char × Nat) (ht : SimpleType t) :
    ∃ s, weylSimple nd t.1 t.2 = .ok s ∧ Within (2 * t.2) s ∧ val s = weylOrder t := by
  have good : ∀ t : Char × Nat, (match weylSimple nd t.1 t.2 with
      | .ok s => decide (Within (2 * t.2) s) && decide (val s = weylOrder t) | _ => false) = true →
      ∃ s, weylSimple nd t.1 t.2 = .ok s ∧ Within (2 * t.2) s ∧ val s = weylOrder t := by
    intro t
    cases weylSimple nd t.1 t.2 with
    | ok s => intro h; simp at h; exact ⟨s, rfl, h⟩
    | _ => intro h; cases h
  apply good
  have h1 : ∀ nd : Bool, ∀ c ∈ ['A', 'B', 'C', 'D'], ∀ r, r < 33 → 1 ≤ r → (match weylSimple nd c r with
      | .ok s => decide (Within (2 * r) s) && decide (val s = weylOrder (c, r)) | _ => false) = true := by decide +kernel
  have h2 : ∀ nd : Bool, ∀ t ∈ [('E', 6), ('E', 7), ('E', 8), ('F', 4), ('f', 4), ('G', 2), ('g', 2)], (match weylSimple nd t.1 t.2 with
      | .ok s => decide (Within (2 * t.2) s) && decide (val s = weylOrder t) | _ => false) = true := by decide +kernel
  rcases ht with ⟨ht, hr, hr'⟩ | ht
  · exact h1 nd t.1 ht t.2 (by omega) hr
  · exact h2 nd t ht

theorem weylLoop_spec (nd : Bool) (lt : List (Char × Nat)) (hlt : ∀ t ∈ lt, SimpleType t) (c : Sz) (B : Nat) (hc : Within B c)
    (hB : B + 2 * (lt.map Prod.snd).sum ≤ 127) :
    ∃ s, weylLoop nd lt c = .ok s ∧ Within (B + 2 * (lt.map Prod.snd).sum) s ∧ val s = val c * (lt.map weylOrder).prod := by
  induction lt generalizing c B with
  | nil => exact ⟨c, rfl, by simpa using hc, by simp⟩
  | cons t lt ih =>
    obtain ⟨w, h1, h2, h3⟩ := weylSimple_spec nd t (hlt t (by simp))
    simp only [List.map_cons, List.sum_cons, List.prod_cons] at hB ⊢
    obtain ⟨g1, g2⟩ := C25_mul hc h2 (by omega)
    obtain ⟨s, k1, k2, k3⟩ := ih (fun t ht => hlt t (by simp [ht])) (mul c w) _ g1 (by omega)
    refine ⟨s, ?_, ?_, ?_⟩
    · rw [weylLoop, h1, Res.ok_bind, k1]
    · rwa [show B + 2 * (t.2 + (lt.map Prod.snd).sum) = B + 2 * t.2 + 2 * (lt.map Prod.snd).sum by omega]
    · rw [k3, g2, h3, mul_assoc]

/-- `weylSize` of any product of simple types with total rank at most 32 is the product of the
orders of the Weyl groups of the factors. -/
theorem C25_weylSize (nd : Bool) (lt : List (Char × Nat)) (hlt : ∀ t ∈ lt, SimpleType t)
    (hr : (lt.map Prod.snd).sum ≤ 32) :
    ∃ s, weylSize nd lt = .ok s ∧ Within 64 s ∧ val s = (lt.map weylOrder).prod := by
  have hm : make 65 1 = .ok (one, false) := by decide +kernel
  obtain ⟨s, h1, h2, h3⟩ := weylLoop_spec nd lt hlt one 0 (by decide) (by omega)
  refine ⟨s, ?_, ⟨h2.1, fun e he => ?_⟩, ?_⟩
  · rw [weylSize, hm, Res.ok_bind, h1]
  · have := h2.2 e he; push_cast at this ⊢; omega
  · rw [h3, show val one = 1 by decide, one_mul]

example : (∀ t ∈ [('E', 8), ('A', 1), ('B', 12)], SimpleType t) ∧ ([('E', 8), ('A', 1), ('B', 12)].map Prod.snd).sum ≤ 32 := by
  simp [SimpleType]

end Verif.Size
