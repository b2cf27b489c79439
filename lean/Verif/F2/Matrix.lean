import Verif.F2.Solve
import Verif.BitSet.Lemmas
/-
C33: operations on bit vectors and bit matrices.
-/
namespace Verif.F2
open Verif

/-! ### Vectors -/

theorem popCount_parity (n x : Nat) : ((Bits.popCount n x : Nat) : ZMod 2) = ∑ i ∈ Finset.range n, vec x i := by
  induction n with
  | zero => simp [Bits.popCount]
  | succ n ih =>
    rw [Finset.sum_range_succ, ← ih]
    unfold Bits.popCount
    rw [List.range_succ, List.filter_append, List.length_append, Nat.cast_add]
    congr 1
    rw [vec_bz]
    cases hb : x.testBit n <;> simp [bz, hb]

/-- C33: `dot` is the scalar product over `Z/2`. -/
theorem C33_dot {n : Nat} (hn : n ≤ 64) {v w : BV} (_ : Fits n v) (hw : Fits n w) :
    (v.dot w = true ↔ ∑ i ∈ Finset.range n, vec v.data i * vec w.data i = 1) := by
  have hlt : v.data &&& w.data < 2 ^ n := Nat.and_lt_two_pow _ hw.2
  have hlt64 := hlt.trans_le (Nat.pow_le_pow_right (show 2 > 0 by omega) hn)
  have hvec : ∀ i, vec (v.data &&& w.data) i = vec v.data i * vec w.data i := by
    intro i
    rw [vec_bz, vec_bz, vec_bz, Nat.testBit_and]
    cases v.data.testBit i <;> cases w.data.testBit i <;> decide
  have hs : ∑ i ∈ Finset.range 64, vec (v.data &&& w.data) i = ∑ i ∈ Finset.range n, vec v.data i * vec w.data i := by
    rw [← Finset.sum_subset (Finset.range_subset_range.2 hn)]
    · exact Finset.sum_congr rfl fun i _ => hvec i
    · intro i _ hi
      rw [vec_eq_zero]
      exact Nat.testBit_lt_two_pow (hlt.trans_le (Nat.pow_le_pow_right (by omega) (by simpa using hi)))
  unfold BV.dot
  rw [Bits.C18_bitCount hlt64, ← hs, ← popCount_parity]
  rw [show (1 : ZMod 2) = ((1 : Nat) : ZMod 2) by simp, ZMod.natCast_eq_natCast_iff]
  unfold Nat.ModEq
  simp

example : (⟨5, 3⟩ : BV).dot ⟨4, 3⟩ = true ∧ (⟨5, 3⟩ : BV).dot ⟨7, 3⟩ = false := by decide +kernel

/-- C33: sums, single bits, flipping and extension of vectors. -/
theorem C33_vector (nd : Bool) {dim n : Nat} (hn : n ≤ dim) {v : BV} (hv : Fits n v) :
    (∀ w, Fits n w → ∃ s, v.add nd w = .ok s ∧ Fits n s ∧ vec s.data = vec v.data + vec w.data) ∧
    (∀ i < n, v.get nd dim i = .ok (v.data.testBit i)) ∧
    (∀ i < n, ∀ b, ∃ s, v.set nd dim i b = .ok s ∧ Fits n s ∧ vec s.data = Function.update (vec v.data) i (if b then 1 else 0)) ∧
    (∀ i < n, ∃ s, v.flip nd dim i = .ok s ∧ Fits n s ∧ vec s.data = Function.update (vec v.data) i (vec v.data i + 1)) ∧
    (∀ b, n < dim → ∃ s, v.pushBack nd dim b = .ok s ∧ Fits (n + 1) s ∧ vec s.data = Function.update (vec v.data) n (if b then 1 else 0)) := by
  obtain ⟨v, n'⟩ := v
  obtain ⟨rfl, hv⟩ := hv
  simp only at hn hv ⊢
  have hput : ∀ i b, vec (putBit v i b) = Function.update (vec v) i (if b then 1 else 0) := by
    intro i b
    funext j
    rw [vec_apply, testBit_putBit, Function.update_apply, vec_apply]
    by_cases h : j = i <;> simp [h]
  refine ⟨?_, fun i hi => get_ok' nd v hi hn, ?_, ?_, ?_⟩
  · rintro ⟨w, m⟩ ⟨rfl, hw⟩
    exact ⟨_, add_ok' nd v w, ⟨rfl, xor_lt hv hw⟩, vec_xor v w⟩
  · intro i hi b
    exact ⟨_, BV.set_ok nd v hi hn, ⟨rfl, putBit_lt hv hi⟩, hput i b⟩
  · intro i hi
    refine ⟨⟨v ^^^ 1 <<< i, n'⟩, ?_, ⟨rfl, xor_lt hv ?_⟩, ?_⟩
    · unfold BV.flip
      rw [Res.assertIn_bind nd (by simpa using hi), if_pos (by omega)]; rfl
    · rw [Nat.one_shiftLeft]; exact Nat.pow_lt_pow_right (by omega) hi
    · funext j
      simp only
      rw [vec_xor, Pi.add_apply, Function.update_apply, vec_apply (1 <<< i), Nat.one_shiftLeft, Nat.testBit_two_pow]
      by_cases h : j = i
      · subst h; simp
      · simp [h, Ne.symm h]
  · intro b hlt
    refine ⟨⟨putBit v n' b, n' + 1⟩, ?_, ⟨rfl, putBit_lt (hv.trans_le (Nat.pow_le_pow_right (by omega) (by omega))) (by omega)⟩, hput n' b⟩
    unfold BV.pushBack
    rw [Res.assertIn_bind nd (by simpa using hlt)]
    simp only
    rw [bsSet_ok hlt]; rfl

example : Fits 3 ⟨5, 3⟩ ∧ (⟨5, 3⟩ : BV).add false ⟨3, 3⟩ = .ok ⟨6, 3⟩ ∧ (⟨5, 3⟩ : BV).set false 32 1 true = .ok ⟨7, 3⟩ ∧
    (⟨5, 3⟩ : BV).set false 32 0 false = .ok ⟨4, 3⟩ ∧ (⟨5, 3⟩ : BV).flip false 32 1 = .ok ⟨7, 3⟩ ∧
    (⟨5, 3⟩ : BV).pushBack false 32 true = .ok ⟨13, 4⟩ := ⟨⟨rfl, by decide⟩, by decide +kernel⟩

theorem sliceLoop_spec {dim t : Nat} : ∀ m j c d, c ≤ j → j + m ≤ dim → ∃ d', sliceLoop dim t m j c d =
    .ok (d', c + ((List.range' j m).filter fun i => t.testBit i).length) ∧ (∀ p < c, d'.testBit p = d.testBit p) ∧
      ∀ (i p : Nat), ((List.range' j m).filter fun i => t.testBit i)[i]? = some p → d'.testBit (c + i) = d.testBit p := by
  intro m
  induction m with
  | zero => intro j c d _ _; exact ⟨d, rfl, fun _ _ => rfl, by simp⟩
  | succ m ih =>
    intro j c d hc hj
    rw [sliceLoop, bsTest_ok (by omega), Res.ok_bind, List.range'_succ]
    by_cases hb : t.testBit j = true
    · rw [if_pos hb, bsTest_ok (by omega), Res.ok_bind, bsSet_ok (by omega), Res.ok_bind, List.filter_cons_of_pos (by simpa using hb)]
      obtain ⟨d', h1, h2, h3⟩ := ih (j + 1) (c + 1) (putBit d c (d.testBit j)) (by omega) (by omega)
      refine ⟨d', by rw [h1, List.length_cons]; congr 2; omega, ?_, ?_⟩
      · intro p hp
        rw [h2 p (by omega), testBit_putBit, if_neg (by omega)]
      · intro i p hi
        cases i with
        | zero =>
          rw [List.getElem?_cons_zero, Option.some.injEq] at hi
          subst hi
          rw [Nat.add_zero, h2 c (by omega), testBit_putBit, if_pos rfl]
        | succ i =>
          rw [List.getElem?_cons_succ] at hi
          rw [show c + (i + 1) = c + 1 + i by omega, h3 i p hi, testBit_putBit, if_neg]
          have := List.mem_of_getElem? hi
          rw [List.mem_filter, List.mem_range'_1] at this
          omega
    · rw [if_neg hb, List.filter_cons_of_neg (by simpa using hb)]
      obtain ⟨d', h1, h2, h3⟩ := ih (j + 1) c d (by omega) (by omega)
      exact ⟨d', h1, h2, h3⟩

theorem slice_spec {dim n : Nat} (hn : n ≤ dim) (hd : dim ≤ 64) (v t : Nat) : ∃ d, BV.slice dim ⟨v, n⟩ t =
    .ok ⟨d, ((List.range n).filter fun i => t.testBit i).length⟩ ∧ d < 2 ^ ((List.range n).filter fun i => t.testBit i).length ∧
      ∀ (i p : Nat), ((List.range n).filter fun i => t.testBit i)[i]? = some p → d.testBit i = v.testBit p := by
  obtain ⟨d, h1, _, h3⟩ := sliceLoop_spec (dim := dim) (t := t) n 0 0 v (by omega) (by omega)
  rw [← List.range_eq_range', Nat.zero_add] at h1
  have hlen : ((List.range n).filter fun i => t.testBit i).length ≤ 64 := by
    have := List.length_filter_le (fun i => t.testBit i) (List.range n)
    rw [List.length_range] at this; omega
  have hbit : ∀ c i, (d &&& Bits.ltMask c).testBit i = (d.testBit i && decide (i < c)) := by
    intro c i; rw [Nat.testBit_and, (Bits.C18_masks c i).2.1]
  refine ⟨d &&& Bits.ltMask ((List.range n).filter fun i => t.testBit i).length, ?_, ?_, ?_⟩
  · unfold BV.slice
    rw [h1, Res.ok_bind]
    simp only
    rw [BitSet.ltM_ok hlen]; rfl
  · apply lt_of_bits
    intro i hi
    rw [hbit]; simp; omega
  · intro i p hp
    have hi := (List.getElem?_eq_some_iff.1 hp).1
    have := h3 i p (by rw [← List.range_eq_range']; exact hp)
    rw [Nat.zero_add] at this
    rw [hbit, this]; simp [hi]

/-- C33: `slice` extracts the coordinates at the positions of `t` below the size, in increasing order. -/
theorem C33_slice {dim n : Nat} (hn : n ≤ dim) (hd : dim ≤ 64) {v : BV} (hv : v.size = n) (t : Nat) : ∃ s, v.slice dim t = .ok s ∧
    Fits ((List.range n).filter fun i => t.testBit i).length s ∧
      ∀ (i p : Nat), ((List.range n).filter fun i => t.testBit i)[i]? = some p → vec s.data i = vec v.data p := by
  obtain ⟨v, n'⟩ := v
  subst hv
  obtain ⟨d, h1, h2, h3⟩ := slice_spec hn hd v t
  exact ⟨_, h1, ⟨rfl, h2⟩, fun i p hp => by rw [vec_apply, vec_apply, h3 i p hp]⟩

example : (⟨0b10110, 5⟩ : BV).slice 32 0b11010 = .ok ⟨5, 3⟩ := by decide +kernel

theorem unsliceLoop_spec {dim : Nat} : ∀ (l : List Nat), (∀ p ∈ l, p < dim) → l.Nodup → ∀ d r, ∃ r', unsliceLoop dim l d r = .ok r' ∧
    (∀ (i p : Nat), l[i]? = some p → r'.testBit p = d.testBit i) ∧ ∀ p, p ∉ l → r'.testBit p = r.testBit p := by
  intro l
  induction l with
  | nil => intro _ _ d r; exact ⟨r, rfl, by simp, fun _ _ => rfl⟩
  | cons p l ih =>
    intro hl hnd d r
    have hnc := List.nodup_cons.1 hnd
    rw [unsliceLoop]
    have hp := hl p List.mem_cons_self
    rw [bsTest_ok (by omega), Res.ok_bind, bsSet_ok hp, Res.ok_bind]
    obtain ⟨r', h1, h2, h3⟩ := ih (fun q hq => hl q (List.mem_cons_of_mem _ hq)) hnc.2 (d >>> 1) (putBit r p (d.testBit 0))
    refine ⟨r', h1, ?_, ?_⟩
    · intro i q hi
      cases i with
      | zero =>
        rw [List.getElem?_cons_zero, Option.some.injEq] at hi
        subst hi
        rw [h3 p hnc.1, testBit_putBit, if_pos rfl]
      | succ i =>
        rw [List.getElem?_cons_succ] at hi
        rw [h2 i q hi, Nat.testBit_shiftRight, Nat.add_comm]
    · intro q hq
      rw [List.mem_cons, not_or] at hq
      rw [h3 q hq.2, testBit_putBit, if_neg hq.1]

/-- C33: `unslice` places the coordinates at the positions of `t`, in increasing order, with zeros elsewhere. -/
theorem C33_unslice {dim n : Nat} (hn : n ≤ dim) (hd : dim ≤ 64) {t : Nat} (ht : t < 2 ^ n) (v : BV) : ∃ s, v.unslice dim t n = .ok s ∧
    Fits n s ∧ (∀ (i p : Nat), ((List.range n).filter fun i => t.testBit i)[i]? = some p → vec s.data p = vec v.data i) ∧
      ∀ p, t.testBit p = false → vec s.data p = 0 := by
  have hm : members t = (List.range n).filter fun i => t.testBit i := by
    refine members_spec (List.Pairwise.filter _ List.pairwise_lt_range) ?_ ?_
    · intro p
      rw [List.mem_filter, List.mem_range]
      exact ⟨fun h => ⟨testBit_lt ht h, h⟩, fun h => h.2⟩
    · intro p hp
      rw [List.mem_filter, List.mem_range] at hp
      omega
  obtain ⟨r, h1, h2, h3⟩ := unsliceLoop_spec (dim := dim) (members t) (by
    intro p hp
    rw [hm, List.mem_filter, List.mem_range] at hp
    omega) (List.Nodup.filter _ List.nodup_range) v.data 0
  have hz : ∀ p, t.testBit p = false → r.testBit p = false := by
    intro p hp
    rw [h3 p (by unfold members; rw [List.mem_filter]; simp [hp]), Nat.zero_testBit]
  refine ⟨⟨r, n⟩, by unfold BV.unslice; rw [h1]; rfl, ⟨rfl, ?_⟩, ?_, fun p hp => vec_eq_zero.2 (hz p hp)⟩
  · apply lt_of_bits
    intro i hi
    exact hz i (Nat.testBit_lt_two_pow (ht.trans_le (Nat.pow_le_pow_right (by omega) hi)))
  · intro i p hp
    rw [vec_apply, vec_apply, h2 i p (by rw [hm]; exact hp)]

example : (⟨5, 3⟩ : BV).unslice 32 0b11010 5 = .ok ⟨0b10010, 5⟩ := by decide +kernel

/-! ### Matrices -/

theorem IsMatrix.act_eq {r c : Nat} {A : BM} (h : IsMatrix r c A) (x : Nat → ZMod 2) : act A c x = lin A.cols x := by
  funext i
  unfold act lin
  rw [Finset.sum_apply, h.length]
  exact Finset.sum_congr rfl fun j _ => by rw [Pi.smul_apply, smul_eq_mul, mul_comm]; rfl

/-- C33: matrix times vector. -/
theorem C33_mulVec (nd : Bool) {dim r c : Nat} (hc : c ≤ dim) {A : BM} (hA : IsMatrix r c A) {v : BV} (hv : Fits c v) :
    ∃ w, A.mulVec nd dim v = .ok w ∧ Fits r w ∧ vec w.data = act A c (vec v.data) := by
  obtain ⟨d, h1, h2, h3⟩ := combSets_spec (dim := dim) v.data A.cols (by rw [hA.length]; exact hc)
  refine ⟨⟨d, r⟩, ?_, ⟨rfl, h3 r hA.fits⟩, by rw [hA.act_eq]; exact h2⟩
  unfold BM.mulVec
  rw [Res.assertIn_bind nd (by simp [hA.columns, hv.1]), h1, Res.ok_bind, hA.rows]; rfl

example : (⟨[3, 6, 5], 3, 3⟩ : BM).mulVec false 32 ⟨6, 3⟩ = .ok ⟨3, 3⟩ := by decide +kernel

theorem rightLoop_spec (nd : Bool) {dim r c : Nat} (hc : c ≤ dim) {A : BM} (hA : IsMatrix r c A) (v : BV) :
    ∀ m j, j + m = c → ∀ w, w < 2 ^ c → ∃ w', rightLoop nd dim A v m j ⟨w, c⟩ = .ok ⟨w', c⟩ ∧ w' < 2 ^ c ∧
      ∀ k, w'.testBit k = if j ≤ k ∧ k < c then v.dot ⟨A.cols.getD k 0, r⟩ else w.testBit k := by
  intro m
  induction m with
  | zero =>
    intro j hj w hw
    exact ⟨w, rfl, hw, fun k => by rw [if_neg (by omega)]⟩
  | succ m ih =>
    intro j hj w hw
    obtain ⟨w', h1, h2, h3⟩ := ih (j + 1) (by omega) _ (putBit_lt (b := v.dot ⟨A.cols.getD j 0, r⟩) hw (show j < c by omega))
    refine ⟨w', ?_, h2, ?_⟩
    · rw [rightLoop, hA.column nd (by omega), Res.ok_bind, BV.set_ok nd w (by omega) hc, Res.ok_bind]; exact h1
    · intro k
      rw [h3, testBit_putBit]
      by_cases hk : k = j
      · subst hk; rw [if_neg (by omega), if_pos rfl, if_pos (by omega)]
      · by_cases hk2 : j + 1 ≤ k ∧ k < c
        · rw [if_pos hk2, if_pos (by omega)]
        · rw [if_neg hk2, if_neg hk, if_neg (by omega)]

/-- C33: `right_act`, vector times matrix. -/
theorem C33_rightAct (nd : Bool) {dim r c : Nat} (hr : r ≤ 64) (hc : c ≤ dim) {A : BM} (hA : IsMatrix r c A) {v : BV} (hv : Fits r v) :
    ∃ w, A.rightAct nd dim v = .ok w ∧ Fits c w ∧ ∀ j < c, vec w.data j = ∑ i ∈ Finset.range r, vec v.data i * entry A i j := by
  obtain ⟨w, h1, h2, h3⟩ := rightLoop_spec nd hc hA v c 0 (by omega) 0 (Nat.pow_pos (by omega))
  refine ⟨⟨w, c⟩, ?_, ⟨rfl, h2⟩, ?_⟩
  · unfold BM.rightAct
    rw [Res.assertIn_bind nd (by simp [hA.rows, hv.1]), hA.columns]; exact h1
  · intro j hj
    have := C33_dot hr hv (w := ⟨A.cols.getD j 0, r⟩) ⟨rfl, hA.col_lt j⟩
    simp only [vec_apply w, h3, if_pos (show 0 ≤ j ∧ j < c by omega)]
    by_cases hd : v.dot ⟨A.cols.getD j 0, r⟩ = true
    · rw [if_pos hd]; exact (this.1 hd).symm
    · rw [if_neg hd]
      rcases z2 (∑ i ∈ Finset.range r, vec v.data i * entry A i j) with h | h
      · exact h.symm
      · exact absurd (this.2 h) hd

example : (⟨[3, 6], 3, 2⟩ : BM).rightAct false 32 ⟨1, 3⟩ = .ok ⟨1, 2⟩ := by decide +kernel

theorem entry_mul {A : BM} {r c : Nat} (hA : IsMatrix r c A) (m i : Nat) :
    lin A.cols (vec m) i = ∑ k ∈ Finset.range c, entry A i k * vec m k := by
  rw [← hA.act_eq]; rfl

theorem mulLoop_spec {dim c : Nat} (hc : c ≤ dim) {A : List Nat} (hA : A.length = c) : ∀ (M : List Nat), ∃ R, mulLoop dim A M = .ok R ∧
    R.length = M.length ∧ (∀ n, (∀ x ∈ A, x < 2 ^ n) → ∀ x ∈ R, x < 2 ^ n) ∧ ∀ (j : Nat), j < M.length → vec (R.getD j 0) = lin A (vec (M.getD j 0)) := by
  intro M
  induction M with
  | nil => exact ⟨[], rfl, rfl, by simp, by simp⟩
  | cons m M ih =>
    obtain ⟨R, h1, h2, h3, h4⟩ := ih
    obtain ⟨x, g1, g2, g3⟩ := combSets_spec (dim := dim) m A (by omega)
    refine ⟨x :: R, by rw [mulLoop, g1, Res.ok_bind, h1]; rfl, by simp [h2], ?_, ?_⟩
    · intro n hn y hy
      rcases List.mem_cons.1 hy with rfl | hy
      · exact g3 n hn
      · exact h3 n hn y hy
    · intro j hj
      cases j with
      | zero => exact g2
      | succ j => exact h4 j (by simpa using hj)

/-- C33: `operator*=` is multiplication of matrices. -/
theorem C33_mulAssign (nd : Bool) {dim r c d : Nat} (hr : r ≤ dim) (hc : c ≤ dim) {A M : BM} (hA : IsMatrix r c A) (hM : IsMatrix c d M) :
    ∃ R, A.mulAssign nd dim M = .ok R ∧ IsMatrix r d R ∧
      ∀ i j, j < d → entry R i j = ∑ k ∈ Finset.range c, entry A i k * entry M k j := by
  have htake : M.cols.take M.columns = M.cols := by rw [List.take_of_length_le]; rw [hM.length, hM.columns]
  obtain ⟨R, h1, h2, h3, h4⟩ := mulLoop_spec hc hA.length M.cols
  refine ⟨⟨R, r, d⟩, ?_, ⟨rfl, rfl, by rw [h2, hM.length], h3 r hA.fits⟩, ?_⟩
  · unfold BM.mulAssign
    rw [Res.assertIn_bind nd (by simp [hA.columns, hM.rows]), Res.assertIn_bind nd (by simpa [hA.rows] using hr), htake, h1, Res.ok_bind,
      hA.rows, hM.columns]; rfl
  · intro i j hj
    unfold entry
    simp only
    rw [h4 j (by rw [hM.length]; exact hj), entry_mul hA]; rfl

example : (⟨[3, 6], 3, 2⟩ : BM).mulAssign false 32 ⟨[3, 1, 2], 2, 3⟩ = .ok ⟨[5, 3, 6], 3, 3⟩ := by decide +kernel

theorem addColsLoop_spec : ∀ (a b : List Nat), a.length = b.length → ∃ R, addColsLoop a b a.length = .ok R ∧ R.length = a.length ∧
    (∀ n, (∀ x ∈ a, x < 2 ^ n) → (∀ x ∈ b, x < 2 ^ n) → ∀ x ∈ R, x < 2 ^ n) ∧ ∀ j, R.getD j 0 = a.getD j 0 ^^^ b.getD j 0 := by
  intro a
  induction a with
  | nil =>
    intro b hb
    have : b = [] := List.length_eq_zero_iff.1 hb.symm
    subst this
    exact ⟨[], rfl, rfl, by simp, by simp⟩
  | cons x a ih =>
    intro b hb
    cases b with
    | nil => simp at hb
    | cons y b =>
      obtain ⟨R, h1, h2, h3, h4⟩ := ih b (by simpa using hb)
      refine ⟨(x ^^^ y) :: R, by rw [List.length_cons, addColsLoop, h1]; rfl, by simp [h2], ?_, ?_⟩
      · intro n ha hb z hz
        rcases List.mem_cons.1 hz with rfl | hz
        · exact xor_lt (ha x List.mem_cons_self) (hb y List.mem_cons_self)
        · exact h3 n (fun w hw => ha w (List.mem_cons_of_mem _ hw)) (fun w hw => hb w (List.mem_cons_of_mem _ hw)) z hz
      · intro j
        cases j with
        | zero => rfl
        | succ j => exact h4 j

/-- C33: `operator+=` is addition of matrices. -/
theorem C33_addAssign (nd : Bool) {r c : Nat} {A B : BM} (hA : IsMatrix r c A) (hB : IsMatrix r c B) :
    ∃ R, A.addAssign nd B = .ok R ∧ IsMatrix r c R ∧ ∀ i j, entry R i j = entry A i j + entry B i j := by
  obtain ⟨R, h1, h2, h3, h4⟩ := addColsLoop_spec A.cols B.cols (by rw [hA.length, hB.length])
  refine ⟨⟨R, A.rows, A.columns⟩, ?_, ⟨hA.rows, hA.columns, by rw [h2, hA.length], h3 r hA.fits hB.fits⟩, ?_⟩
  · unfold BM.addAssign
    rw [Res.assertIn_bind nd (by simp [hA.rows, hB.rows]), Res.assertIn_bind nd (by simp [hA.columns, hB.columns]),
      show A.columns = A.cols.length by rw [hA.columns, hA.length], h1]; rfl
  · intro i j
    unfold entry
    simp only
    rw [h4, vec_xor]; rfl

example : (⟨[3, 6], 3, 2⟩ : BM).addAssign false ⟨[1, 7], 3, 2⟩ = .ok ⟨[2, 1], 3, 2⟩ := by decide +kernel

theorem set_spec (nd : Bool) {dim r c i j : Nat} (hr : r ≤ dim) (hi : i < r) (hj : j < c) {B : BM} (hB : IsMatrix r c B) (b : Bool) :
    ∃ R, B.set nd dim i j b = .ok R ∧ IsMatrix r c R ∧
      ∀ p q, (R.cols.getD q 0).testBit p = if p = i ∧ q = j then b else (B.cols.getD q 0).testBit p := by
  have hl : j < B.cols.length := by rw [hB.length]; exact hj
  have hg : B.cols.getD j 0 = B.cols[j] := List.getD_eq_getElem _ _ hl
  refine ⟨{ B with cols := B.cols.set j (putBit B.cols[j] i b) }, ?_, ⟨hB.rows, hB.columns, by simp [hB.length], ?_⟩, ?_⟩
  · unfold BM.set
    rw [Res.assertIn_bind nd (by simpa [hB.rows] using hi), Res.assertIn_bind nd (by simpa [hB.columns] using hj), Vec.get_ok hl, Res.ok_bind,
      bsSet_ok (by omega), Res.ok_bind, Vec.put_ok hl]; rfl
  · intro x hx
    rcases List.mem_or_eq_of_mem_set hx with hx | rfl
    · exact hB.fits x hx
    · exact putBit_lt (hB.fits _ (List.getElem_mem hl)) hi
  · intro p q
    simp only [List.getD_eq_getElem?_getD, List.getElem?_set]
    by_cases hq : j = q
    · subst hq
      rw [if_pos rfl, if_pos hl, Option.getD_some, testBit_putBit, List.getElem?_eq_getElem hl, Option.getD_some]
      by_cases hp : p = i <;> simp [hp]
    · rw [if_neg hq, if_neg (by omega)]

theorem transRow_spec (nd : Bool) {dim r c i : Nat} (hr : r ≤ dim) (hc : c ≤ dim) {A : BM} (hA : IsMatrix r c A) (hi : i < r) :
    ∀ m j, j + m = c → ∀ B, IsMatrix c r B → ∃ R, transRow nd dim A i m j B = .ok R ∧ IsMatrix c r R ∧
      ∀ p q, (R.cols.getD q 0).testBit p = if j ≤ p ∧ p < c ∧ q = i then (A.cols.getD p 0).testBit q else (B.cols.getD q 0).testBit p := by
  intro m
  induction m with
  | zero =>
    intro j hj B hB
    exact ⟨B, rfl, hB, fun p q => by rw [if_neg (by omega)]⟩
  | succ m ih =>
    intro j hj B hB
    obtain ⟨B1, h1, h2, h3⟩ := set_spec nd hc (show j < c by omega) hi hB ((A.cols.getD j 0).testBit i)
    obtain ⟨R, g1, g2, g3⟩ := ih (j + 1) (by omega) B1 h2
    refine ⟨R, by rw [transRow, hA.test nd hr hi (by omega), Res.ok_bind, h1, Res.ok_bind]; exact g1, g2, ?_⟩
    intro p q
    rw [g3, h3]
    by_cases hq : q = i
    · subst hq
      by_cases hp : p = j
      · subst hp; rw [if_neg (by omega), if_pos ⟨rfl, rfl⟩, if_pos (by omega)]
      · by_cases hp2 : j + 1 ≤ p ∧ p < c
        · rw [if_pos (by omega), if_pos (by omega)]
        · rw [if_neg (by omega), if_neg (by omega), if_neg (by omega)]
    · rw [if_neg (by omega), if_neg (by omega), if_neg (by omega)]

theorem transLoop_spec (nd : Bool) {dim r c : Nat} (hr : r ≤ dim) (hc : c ≤ dim) {A : BM} (hA : IsMatrix r c A) :
    ∀ m i, i + m = r → ∀ B, IsMatrix c r B → ∃ R, transLoop nd dim A m i B = .ok R ∧ IsMatrix c r R ∧
      ∀ p q, (R.cols.getD q 0).testBit p = if p < c ∧ i ≤ q ∧ q < r then (A.cols.getD p 0).testBit q else (B.cols.getD q 0).testBit p := by
  intro m
  induction m with
  | zero =>
    intro i hi B hB
    exact ⟨B, rfl, hB, fun p q => by rw [if_neg (by omega)]⟩
  | succ m ih =>
    intro i hi B hB
    obtain ⟨B1, h1, h2, h3⟩ := transRow_spec nd hr hc hA (show i < r by omega) c 0 (by omega) B hB
    obtain ⟨R, g1, g2, g3⟩ := ih (i + 1) (by omega) B1 h2
    refine ⟨R, by rw [transLoop, hA.columns, h1, Res.ok_bind]; exact g1, g2, ?_⟩
    intro p q
    rw [g3, h3]
    by_cases hq : q = i
    · subst hq
      by_cases hp : p < c
      · rw [if_neg (by omega), if_pos (by omega), if_pos (by omega)]
      · rw [if_neg (by omega), if_neg (by omega), if_neg (by omega)]
    · by_cases h : p < c ∧ i + 1 ≤ q ∧ q < r
      · rw [if_pos h, if_pos (by omega)]
      · rw [if_neg h, if_neg (by omega), if_neg (by omega)]

theorem zero_isMatrix (r c : Nat) : IsMatrix r c ⟨List.replicate c 0, r, c⟩ :=
  ⟨rfl, rfl, by simp, by intro x hx; rw [(List.mem_replicate.1 hx).2]; exact Nat.pow_pos (by omega)⟩

/-- C33: `transpose` transposes. -/
theorem C33_transpose (nd : Bool) {dim r c : Nat} (hr : r ≤ dim) (hc : c ≤ dim) {A : BM} (hA : IsMatrix r c A) :
    ∃ R, A.transpose nd dim = .ok R ∧ IsMatrix c r R ∧ ∀ i < r, ∀ j < c, entry R j i = entry A i j := by
  obtain ⟨R, h1, h2, h3⟩ := transLoop_spec nd hr hc hA r 0 (by omega) _ (zero_isMatrix c r)
  refine ⟨R, ?_, h2, ?_⟩
  · unfold BM.transpose BM.zero
    rw [Res.assertIn_bind nd (by simpa [hA.columns] using hc), Res.pure_eq, Res.ok_bind, hA.rows, hA.columns]; exact h1
  · intro i hi j hj
    unfold entry
    rw [vec_bz, vec_bz, h3, if_pos ⟨hj, Nat.zero_le _, hi⟩]

example : IsMatrix 3 2 ⟨[3, 6], 3, 2⟩ ∧ (⟨[3, 6], 3, 2⟩ : BM).transpose false 32 = .ok ⟨[1, 3, 2], 2, 3⟩ :=
  ⟨⟨rfl, rfl, rfl, by decide⟩, by decide +kernel⟩

theorem ofColumnsLoop_spec (nd : Bool) {r : Nat} : ∀ (b : List BV), (∀ v ∈ b, Fits r v) → ofColumnsLoop nd r b = .ok (b.map (·.data)) := by
  intro b
  induction b with
  | nil => intro _; rfl
  | cons v b ih =>
    intro hb
    rw [ofColumnsLoop, Res.assertIn_bind nd (by simpa using (hb v List.mem_cons_self).1), ih fun w hw => hb w (List.mem_cons_of_mem _ hw)]; rfl

/-- C33: a matrix constructed from its columns has these columns. -/
theorem C33_ofColumns (nd : Bool) {dim r : Nat} (hr : r ≤ dim) (b : List BV) (hb : ∀ v ∈ b, Fits r v) :
    ∃ A, BM.ofColumns nd dim b r = .ok A ∧ IsMatrix r b.length A ∧ ∀ (j : Nat) (v : BV), b[j]? = some v → A.column nd j = .ok v ∧
      ∀ i, entry A i j = vec v.data i := by
  have hA : IsMatrix r b.length ⟨b.map (·.data), r, b.length⟩ := by
    refine ⟨rfl, rfl, by simp, ?_⟩
    intro x hx
    obtain ⟨v, hv, rfl⟩ := List.mem_map.1 hx
    exact (hb v hv).2
  refine ⟨_, ?_, hA, ?_⟩
  · unfold BM.ofColumns
    rw [Res.assertIn_bind nd (by simpa using hr), ofColumnsLoop_spec nd b hb]; rfl
  · intro j v hj
    obtain ⟨hl, e⟩ := List.getElem?_eq_some_iff.1 hj
    have hg : (b.map (·.data)).getD j 0 = v.data := by
      rw [List.getD_eq_getElem _ _ (by simpa using hl), List.getElem_map, e]
    refine ⟨?_, fun i => by unfold entry; rw [hg]⟩
    rw [hA.column nd hl, hg, ← (hb v (List.mem_of_getElem? hj)).1]

example : BM.ofColumns false 32 [⟨3, 3⟩, ⟨6, 3⟩] 3 = .ok ⟨[3, 6], 3, 2⟩ := by decide +kernel

end Verif.F2
