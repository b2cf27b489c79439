import Verif.Tits.Impl
import Verif.Mat.Props
/-
Constructors of the model.
-/
namespace Verif.Tits
open Verif Verif.F2 Verif.Weyl Verif.Coxeter CoxeterSystem
set_option linter.unusedSectionVars false

theorem odd_tmod (x : Int) : decide (x.tmod 2 ≠ 0) = decide ((x : ZMod 2) = 1) := by
  rw [Bool.eq_iff_iff, decide_eq_true_iff, decide_eq_true_iff]
  rw [show (1 : ZMod 2) = ((1 : Int) : ZMod 2) by simp, ZMod.intCast_eq_intCast_iff_dvd_sub]
  have h1 : x.tmod 2 = 0 → (2 : Int) ∣ x := Int.dvd_of_tmod_eq_zero
  have h2 : (2 : Int) ∣ x → x.tmod 2 = 0 := Int.tmod_eq_zero_of_dvd
  by_cases h : x.tmod 2 = 0
  · have := h1 h
    simp only [h]
    omega
  · have : ¬ (2 : Int) ∣ x := fun e => h (h2 e)
    simp only [ne_eq, h, not_false_eq_true, true_iff]
    omega

theorem odd_emod (x : Int) : decide (x.emod 2 ≠ 0) = decide ((x : ZMod 2) = 1) := by
  rw [Bool.eq_iff_iff, decide_eq_true_iff, decide_eq_true_iff]
  rw [show (1 : ZMod 2) = ((1 : Int) : ZMod 2) by simp, ZMod.intCast_eq_intCast_iff_dvd_sub]
  show x % 2 ≠ 0 ↔ _
  omega

theorem bvLoop_spec (l : List Int) (j d : Nat) (hl : j + l.length ≤ 32) : ∃ d', bvLoop l j d = .ok d' ∧
    ∀ i, d'.testBit i = if j ≤ i ∧ i < j + l.length then decide (((l.getD (i - j) 0 : Int) : ZMod 2) = 1) else d.testBit i := by
  induction l generalizing j d with
  | nil => exact ⟨d, rfl, fun i => by rw [if_neg (by simp)]⟩
  | cons x l ih =>
    simp only [List.length_cons] at hl
    obtain ⟨d', h1, h2⟩ := ih (j + 1) (putBit d j (decide (x.tmod 2 ≠ 0))) (by omega)
    refine ⟨d', ?_, fun i => ?_⟩
    · rw [bvLoop, bsSet_ok (show j < dim by unfold dim; omega), Res.ok_bind, h1]
    · rw [h2, testBit_putBit, odd_tmod]
      simp only [List.length_cons]
      by_cases h0 : i = j
      · subst h0
        rw [if_neg (by omega), if_pos rfl, if_pos (by omega)]
        simp
      · rw [if_neg h0]
        by_cases h3 : j + 1 ≤ i ∧ i < j + 1 + l.length
        · rw [if_pos h3, if_pos (by omega)]
          obtain ⟨k, rfl⟩ : ∃ k, i = j + 1 + k := ⟨i - (j + 1), by omega⟩
          rw [show j + 1 + k - (j + 1) = k by omega, show j + 1 + k - j = k + 1 by omega, List.getD_cons_succ]
        · rw [if_neg h3, if_neg (by omega)]

variable {r : Nat}

theorem bvOfInts_ok (nd : Bool) (hr : r ≤ 32) (v : Fin r → Int) : bvOfInts nd (List.ofFn v) = .ok (bv (mod2 v)) := by
  obtain ⟨d, h1, h2⟩ := bvLoop_spec (List.ofFn v) 0 0 (by simpa using hr)
  unfold bvOfInts
  rw [Res.assertIn_bind nd (by simpa [dim] using hr), h1, Res.ok_bind, List.length_ofFn]
  simp only [List.length_ofFn, zero_add, Nat.zero_le, true_and, Nat.sub_zero, Nat.zero_testBit] at h2
  refine congrArg Res.ok (eq_bv ⟨rfl, lt_of_bits (n := r) fun i hi => by rw [h2, if_neg (by omega)]⟩ fun i => ?_)
  have e : (List.ofFn v).getD i.1 0 = v i := by
    have hi : i.1 < (List.ofFn v).length := by rw [List.length_ofFn]; exact i.2
    rw [List.getD_eq_getElem _ _ hi, List.getElem_ofFn]
  have h3 := h2 i.1
  rw [if_pos i.2] at h3
  simp only [Nat.sub_zero, e] at h3
  rw [vec_apply, h3]
  show (if decide (mod2 v i = 1) = true then (1 : ZMod 2) else 0) = mod2 v i
  generalize mod2 v i = a
  revert a; decide

theorem reduceAll_ok (nd : Bool) (hr : r ≤ 32) (l : List (Fin r → Int)) : TG.reduceAll nd (l.map List.ofFn) = .ok (l.map fun v => bv (mod2 v)) := by
  induction l with
  | nil => rfl
  | cons v l ih => rw [List.map_cons, TG.reduceAll, bvOfInts_ok nd hr, Res.ok_bind, ih, Res.ok_bind]; rfl

theorem bmOfMat_ok (nd : Bool) {m n : Nat} (hm : m ≤ 32) (A : Matrix (Fin m) (Fin n) Int) : ∃ B, bmOfMat nd (Mat.enc A) = .ok B ∧ IsMatrix m n B ∧
    ∀ (i : Fin m) (j : Fin n), entry B i j = A i j := by
  have hget : ∀ {i j : Nat} (hi : i < m) (hj : j < n), (Mat.enc A).get i j = .ok (Mat.ex A i j) := by
    intro i j hi hj
    rw [Mat.ex_lt A hi hj]
    exact Mat.C45_get A ⟨i, hi⟩ ⟨j, hj⟩
  obtain ⟨d, h1, h2, h3⟩ := Mat.forUp_inv (body := fun i d => Mat.forUp (fun j d => do
      let x ← (Mat.enc A).get i j
      let c ← Vec.get d j
      let c ← bsSet dim c i (decide (x.emod 2 ≠ 0))
      Vec.put d j c) n 0 d)
    (fun i (d : List Nat) => d.length = n ∧ ∀ p q, (d.getD q 0).testBit p = (decide (p < i ∧ q < n) && decide (((Mat.ex A p q : Int) : ZMod 2) = 1))) m 0
    (List.replicate n 0) ⟨by simp, fun p q => by
      simp [List.getD_eq_getElem?_getD, List.getElem?_replicate]; split <;> simp⟩ (by
      intro i d _ hi hd
      obtain ⟨d', g1, g2, g3⟩ := Mat.forUp_inv (body := fun j d => do
          let x ← (Mat.enc A).get i j
          let c ← Vec.get d j
          let c ← bsSet dim c i (decide (x.emod 2 ≠ 0))
          Vec.put d j c)
        (fun j (d : List Nat) => d.length = n ∧ ∀ p q, (d.getD q 0).testBit p =
          (decide ((p < i ∧ q < n) ∨ (p = i ∧ q < j)) && decide (((Mat.ex A p q : Int) : ZMod 2) = 1))) n 0 d ⟨hd.1, fun p q => by
            rw [hd.2]; simp⟩ (by
          intro j d _ hj hd
          have hl : j < d.length := by rw [hd.1]; omega
          refine ⟨d.set j (putBit d[j] i (decide ((Mat.ex A i j).emod 2 ≠ 0))), ?_, by simp [hd.1], ?_⟩
          · rw [hget (by omega) (by omega), Res.ok_bind, Vec.get_ok hl, Res.ok_bind, bsSet_ok (show i < dim by unfold dim; omega), Res.ok_bind, Vec.put_ok hl]
          · intro p q
            have e := hd.2 p q
            by_cases hq : q = j
            · subst hq
              rw [List.getD_eq_getElem _ _ (by simpa using hl), List.getElem_set_self, testBit_putBit]
              rw [List.getD_eq_getElem _ _ hl] at e
              by_cases hp : p = i
              · subst hp
                rw [if_pos rfl, odd_emod]
                simp
              · rw [if_neg hp, e]
                congr 1
                simp [hp]
            · have : (d.set j (putBit d[j] i (decide ((Mat.ex A i j).emod 2 ≠ 0)))).getD q 0 = d.getD q 0 := by
                rw [List.getD_eq_getElem?_getD, List.getD_eq_getElem?_getD, List.getElem?_set_ne (Ne.symm hq)]
              rw [this, e]
              congr 1
              rw [Bool.eq_iff_iff, decide_eq_true_iff, decide_eq_true_iff]
              omega)
      refine ⟨d', g1, g2, fun p q => ?_⟩
      rw [g3]
      congr 1
      rw [Bool.eq_iff_iff, decide_eq_true_iff, decide_eq_true_iff]
      omega)
  refine ⟨⟨d, m, n⟩, ?_, ⟨rfl, rfl, h2, ?_⟩, ?_⟩
  · unfold bmOfMat
    rw [Res.assertIn_bind nd (c := decide ((Mat.enc A).rows ≤ dim)) (decide_eq_true hm)]
    show (do let cols ← Mat.forUp _ m 0 (List.replicate n 0); pure (⟨cols, m, n⟩ : BM) : Res BM) = _
    exact (congrArg (fun x : Res (List Nat) => x >>= fun cols => pure (⟨cols, m, n⟩ : BM)) h1)
  · intro x hx
    obtain ⟨q, hq, rfl⟩ := List.getElem_of_mem hx
    refine lt_of_bits fun i hi => ?_
    have := h3 i q
    rw [List.getD_eq_getElem _ _ hq] at this
    rw [this]
    simp; omega
  · intro i j
    rw [entry, vec_apply]
    show (if (d.getD j 0).testBit i = true then (1 : ZMod 2) else 0) = A i j
    rw [h3, Mat.ex_fin]
    have : decide (i.1 < 0 + m ∧ j.1 < n) = true := by simp
    rw [this, Bool.true_and]
    generalize ((A i j : Int) : ZMod 2) = a
    revert a; decide


end Verif.Tits
