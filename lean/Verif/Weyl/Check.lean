import Verif.Weyl.Model
/-
What is required of a transducer, and a function that tests it.
-/
namespace Verif.Weyl
open Verif

namespace Transducer

/-- `table(x,s)` -/
def ent (T : Transducer) (x s : Nat) : Nat := getByte T.table (T.limit * x + s)

/-- `elt[x].length` -/
def len (T : Transducer) (x : Nat) : Nat := getByte T.elt (2 * x)

/-- `elt[x].right` -/
def right (T : Transducer) (x : Nat) : Nat := getByte T.elt (2 * x + 1)

/-- the state obtained by `k` upward shifts, alternately by `u` and `v` and starting with `u` -/
def up (T : Transducer) : Nat → Nat → Nat → Nat → Option Nat
  | 0, y, _, _ => some y
  | k + 1, y, u, v => bif Nat.blt y (T.ent y u) && Nat.blt (T.ent y u) T.n then up T k (T.ent y u) v u else none

/-- a transducer for the generator `r` of a component with Coxeter matrix `M` -/
structure Good (M : Nat → Nat → Nat) (r : Nat) (T : Transducer) : Prop where
  limit : T.limit = r + 1
  two_le : 2 ≤ T.n
  small : T.n + r ≤ 255
  row0 : ∀ s < r, T.ent 0 s = T.n + s
  row0r : T.ent 0 r = 1
  len0 : T.len 0 = 0
  lt : ∀ x < T.n, ∀ s < r + 1, T.ent x s < T.n + r
  inv : ∀ x < T.n, ∀ s < r + 1, T.ent x s < T.n → T.ent x s ≠ x ∧ T.ent (T.ent x s) s = x
  up_len : ∀ x < T.n, ∀ s < r + 1, T.ent x s < T.n → x < T.ent x s → T.len (T.ent x s) = T.len x + 1
  right_le : ∀ x < T.n, 0 < x → T.right x < r + 1 ∧ T.ent x (T.right x) < x
  len_mono : ∀ x, x + 1 < T.n → T.len x ≤ T.len (x + 1)
  len_last : T.len (T.n - 2) < T.len (T.n - 1)
  len_le : T.len (T.n - 1) ≤ 63
  cycle : ∀ b < T.n, ∀ s < r + 1, ∀ t < r + 1, s < t → b < T.ent b s → T.ent b s < T.n → b < T.ent b t → T.ent b t < T.n →
    ∃ y, T.up (M s t) b s t = some y ∧ T.up (M s t) b t s = some y
  string : ∀ b < T.n, ∀ s < r + 1, ∀ t < r + 1, s ≠ t → b < T.ent b s → T.ent b s < T.n → T.n ≤ T.ent b t →
    ∃ y, T.up (M s t - 1) b s t = some y ∧ T.ent y (if M s t % 2 = 0 then t else s) = T.ent b t
  point : ∀ b < T.n, ∀ s < r + 1, ∀ t < r + 1, s < t → T.n ≤ T.ent b s → T.n ≤ T.ent b t →
    M (T.ent b s - T.n) (T.ent b t - T.n) = M s t

/-- test of a pair of generators, with entries `es` and `et` -/
def testPair (M : Nat → Nat → Nat) (T : Transducer) (b s t es et : Nat) : Bool :=
  bif Nat.blt es T.n then
    bif Nat.blt et T.n then
      match T.up (M s t) b s t, T.up (M s t) b t s with
      | some y, some z => Nat.beq y z
      | _, _ => false
    else match T.up (M s t - 1) b s t with
      | some y => Nat.beq (T.ent y (bif Nat.beq (M s t % 2) 0 then t else s)) et
      | none => false
  else bif Nat.blt et T.n then
    match T.up (M s t - 1) b t s with
      | some y => Nat.beq (T.ent y (bif Nat.beq (M s t % 2) 0 then s else t)) es
      | none => false
  else Nat.beq (M (es - T.n) (et - T.n)) (M s t)

/-- tests of the pairs of generators for state `b` -/
def testPairs (M : Nat → Nat → Nat) (T : Transducer) (b s es : Nat) : List Nat → Bool
  | [] => true
  | t :: l => (Nat.ble (T.ent b t) b || testPair M T b s t es (T.ent b t)) && testPairs M T b s es l

/-- test of state `x` and generator `s` -/
def testEntry (M : Nat → Nat → Nat) (r : Nat) (T : Transducer) (x s e : Nat) : Bool :=
  Nat.blt e (T.n + r) &&
  (bif Nat.blt e T.n then !Nat.beq e x && Nat.beq (T.ent e s) x && (Nat.ble e x || Nat.beq (T.len e) (T.len x + 1)) else true) &&
  (Nat.ble e x || testPairs M T x s e ((List.range (r + 1)).drop (s + 1)))

/-- test of a state -/
def testRow (M : Nat → Nat → Nat) (r : Nat) (T : Transducer) (x : Nat) : Bool :=
  (Nat.beq x 0 || (Nat.blt (T.right x) (r + 1) && Nat.blt (T.ent x (T.right x)) x && Nat.ble (T.len (x - 1)) (T.len x))) &&
  (List.range (r + 1)).all fun s => testEntry M r T x s (T.ent x s)

/-- test of a transducer -/
def test (M : Nat → Nat → Nat) (r : Nat) (T : Transducer) : Bool :=
  Nat.beq T.limit (r + 1) && Nat.ble 2 T.n && Nat.ble (T.n + r) 255 &&
  (List.range r).all (fun s => Nat.beq (T.ent 0 s) (T.n + s)) && Nat.beq (T.ent 0 r) 1 && Nat.beq (T.len 0) 0 &&
  Nat.blt (T.len (T.n - 2)) (T.len (T.n - 1)) && Nat.ble (T.len (T.n - 1)) 63 &&
  (List.range T.n).all (testRow M r T)

end Transducer

/-- `f n`; makes the kernel evaluate `n` first -/
def force {α : Type} (n : Nat) (f : Nat → α) : α :=
  match n with
  | 0 => f 0
  | k + 1 => f (k + 1)

theorem force_eq {α : Type} (n : Nat) (f : Nat → α) : force n f = f n := by cases n <;> rfl

/-- number of states of the transducer for generator `r` of given type: the index of the subgroup for the first `r`
generators in that for the first `r+1` ones -/
def Ty.states : Ty → Nat → Nat
  | .A, r => r + 2
  | .B, r | .C, r => 2 * (r + 1)
  | .D, 0 | .D, 1 => 2
  | .D, r => 2 * (r + 1)
  | .E, r => [2, 2, 3, 10, 16, 27, 56, 240].getD r 0
  | .F, r => [2, 3, 8, 24].getD r 0
  | .G, r => [2, 6].getD r 0

/-- construct the transducer number `r` with all assertions active, and test that it has `N` states and is a good one -/
def testMake (M : Nat → Nat → Nat) (r N : Nat) : Bool :=
  match Transducer.make false M r with
  | .ok T => force T.n fun n => force T.limit fun l => force T.elt fun e => force T.table fun t =>
      Nat.beq n N && (⟨n, l, e, t⟩ : Transducer).test M r
  | _ => false

namespace Transducer

theorem testPairs_mem {M : Nat → Nat → Nat} {T : Transducer} {b s es : Nat} {l : List Nat} (h : testPairs M T b s es l = true)
    {t : Nat} (ht : t ∈ l) (hb : b < T.ent b t) : testPair M T b s t es (T.ent b t) = true := by
  induction l with
  | nil => cases ht
  | cons a l ih =>
    simp only [testPairs, Bool.and_eq_true, Bool.or_eq_true, Nat.ble_eq] at h
    rcases List.mem_cons.1 ht with rfl | h1
    · exact h.1.resolve_left (by omega)
    · exact ih h.2 h1

theorem mem_drop_range {r s t : Nat} (h1 : s < t) (h2 : t < r + 1) : t ∈ (List.range (r + 1)).drop (s + 1) := by
  rw [List.mem_drop_iff_getElem]
  exact ⟨t - (s + 1), by simp; omega, by simp; omega⟩

theorem Good.of_test {M : Nat → Nat → Nat} {r : Nat} {T : Transducer} (hM : ∀ s t, M s t = M t s) (h : T.test M r = true) :
    Good M r T := by
  simp only [test, Bool.and_eq_true, List.all_eq_true, List.mem_range, Nat.beq_eq, Nat.ble_eq, Nat.blt_eq] at h
  obtain ⟨⟨⟨⟨⟨⟨⟨⟨h1, h2⟩, h3⟩, h4⟩, h5⟩, h6⟩, h7⟩, h8⟩, h9⟩ := h
  have row : ∀ x < T.n, (0 < x → T.right x < r + 1 ∧ T.ent x (T.right x) < x ∧ T.len (x - 1) ≤ T.len x) ∧
      ∀ s < r + 1, testEntry M r T x s (T.ent x s) = true := by
    intro x hx
    have := h9 x hx
    simp only [testRow, Bool.and_eq_true, Bool.or_eq_true, List.all_eq_true, List.mem_range, Nat.beq_eq, Nat.ble_eq, Nat.blt_eq] at this
    refine ⟨fun h0 => ?_, this.2⟩
    have h' := this.1.resolve_left (by omega)
    exact ⟨h'.1.1, h'.1.2, h'.2⟩
  have ent : ∀ x < T.n, ∀ s < r + 1, T.ent x s < T.n + r ∧
      (T.ent x s < T.n → T.ent x s ≠ x ∧ T.ent (T.ent x s) s = x ∧ (x < T.ent x s → T.len (T.ent x s) = T.len x + 1)) ∧
      (x < T.ent x s → ∀ t, s < t → t < r + 1 → x < T.ent x t → testPair M T x s t (T.ent x s) (T.ent x t) = true) := by
    intro x hx s hs
    have := (row x hx).2 s hs
    simp only [testEntry, Bool.and_eq_true, Bool.or_eq_true, Nat.blt_eq, Nat.ble_eq] at this
    refine ⟨this.1.1, fun h => ?_, fun h t h1 h2 h3 => testPairs_mem (this.2.resolve_left (by omega)) (mem_drop_range h1 h2) h3⟩
    have h' := this.1.2
    rw [show Nat.blt (T.ent x s) T.n = true from by rw [Nat.blt_eq]; exact h] at h'
    simp only [cond_true, Bool.and_eq_true, Bool.or_eq_true, Nat.ble_eq, Nat.beq_eq, Bool.not_eq_true'] at h'
    exact ⟨Nat.ne_of_beq_eq_false h'.1.1, h'.1.2, fun h4 => h'.2.resolve_left (by omega)⟩
  have blt_t : ∀ {a b : Nat}, a < b → Nat.blt a b = true := fun h => by rw [Nat.blt_eq]; exact h
  have blt_f : ∀ {a b : Nat}, b ≤ a → Nat.blt a b = false := fun h => by
    rw [Bool.eq_false_iff, Ne, Nat.blt_eq]; omega
  have parity : ∀ (m a b : Nat), (bif Nat.beq (m % 2) 0 then a else b) = if m % 2 = 0 then a else b := by
    intro m a b
    by_cases hm : m % 2 = 0
    · rw [hm]; rfl
    · have e : Nat.beq (m % 2) 0 = false := by rw [Bool.eq_false_iff, Ne, Nat.beq_eq]; exact hm
      rw [if_neg hm, e]; rfl
  refine { limit := h1, two_le := h2, small := h3, row0 := h4, row0r := h5, len0 := h6
           lt := fun x hx s hs => (ent x hx s hs).1
           inv := fun x hx s hs h => ⟨((ent x hx s hs).2.1 h).1, ((ent x hx s hs).2.1 h).2.1⟩
           up_len := fun x hx s hs h => ((ent x hx s hs).2.1 h).2.2
           right_le := fun x hx h0 => ⟨((row x hx).1 h0).1, ((row x hx).1 h0).2.1⟩
           len_mono := fun x hx => ((row (x + 1) hx).1 (by omega)).2.2
           len_last := h7, len_le := h8, cycle := ?_, string := ?_, point := ?_ }
  · intro b hb s hs t ht hst h10 h11 h12 h13
    have := (ent b hb s hs).2.2 h10 t hst ht h12
    rw [testPair, blt_t h11, blt_t h13] at this
    simp only [cond_true] at this
    split at this
    · rename_i y z e1 e2
      rw [Nat.beq_eq] at this
      exact ⟨y, e1, this ▸ e2⟩
    · cases this
  · intro b hb s hs t ht hst h10 h11 h12
    by_cases h : s < t
    · have := (ent b hb s hs).2.2 h10 t h ht (by omega)
      rw [testPair, blt_t h11, blt_f h12] at this
      simp only [cond_true, cond_false] at this
      split at this
      · rename_i y e1
        rw [Nat.beq_eq, parity] at this
        exact ⟨y, e1, this⟩
      · cases this
    · have := (ent b hb t ht).2.2 (by omega) s (by omega) hs h10
      rw [testPair, blt_f h12, blt_t h11, hM t s] at this
      simp only [cond_true, cond_false] at this
      split at this
      · rename_i y e1
        rw [Nat.beq_eq, parity] at this
        exact ⟨y, e1, this⟩
      · cases this
  · intro b hb s hs t ht hst h10 h11
    have := (ent b hb s hs).2.2 (by omega) t hst ht (by omega)
    rw [testPair, blt_f h10, blt_f h11] at this
    simpa only [cond_false, Nat.beq_eq] using this

end Transducer

theorem testMake_good {M : Nat → Nat → Nat} (hM : ∀ s t, M s t = M t s) {r N : Nat} (h : testMake M r N = true) :
    ∃ T, Transducer.make false M r = .ok T ∧ T.Good M r ∧ T.n = N := by
  unfold testMake at h
  split at h
  · rename_i T e
    simp only [force_eq, Bool.and_eq_true, Nat.beq_eq] at h
    exact ⟨T, e, .of_test hM h.2, h.1⟩
  · cases h

end Verif.Weyl
