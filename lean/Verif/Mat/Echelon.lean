import Mathlib.GroupTheory.Perm.Fin
import Mathlib.LinearAlgebra.Matrix.Determinant.Basic
import Verif.Mat.Embed

/-!
The invariants of `column_echelon`.
-/

open Finset
open scoped Matrix

namespace Verif.Mat

variable {m n : Nat}

theorem partialRow_enc (A : Matrix (Fin m) (Fin n) Int) (i : Fin m) {a l : Nat} (h1 : a ≤ l) (h2 : l ≤ n) :
    partialRow (enc A) i a l = .ok (List.ofFn fun t : Fin (l - a) => A i ⟨a + t.val, by omega⟩) := by
  rw [enc_tb, partialRow_tb _ i.2 h1 h2, vk_ofFn]
  congr 2; funext t
  rw [ex_lt A i.2 (show a + t.val < n by omega)]

/-- state of the first loop of `column_echelon`; the list `P` is that of pivot rows found -/
structure EchInv (A : Matrix (Fin m) (Fin n) Int) (C : Matrix (Fin n) (Fin n) Int) (P : List Nat) (i : Nat) (s : Ech) : Prop where
  M : s.M = enc (A * C)
  col : s.col = enc C
  det : C.det = sgn s.flip
  piv : s.piv = vk m fun r => decide (r ∈ P)
  len : s.l + P.length = n
  sorted : P.Pairwise (· < ·)
  ge : ∀ p ∈ P, i ≤ p ∧ p < m
  zero : ∀ (r : Fin m) (c : Fin n), i ≤ r.val → c.val < s.l → (A * C) r c = 0
  pos : ∀ (t : Nat) (ht : t < P.length) (r : Fin m) (c : Fin n), r.val = P[t] → c.val = s.l + t → 0 < (A * C) r c
  below : ∀ (t : Nat) (ht : t < P.length) (r : Fin m) (c : Fin n), P[t] < r.val → c.val = s.l + t → (A * C) r c = 0

theorem echStep_spec (nd : Bool) (hn : n < 2 ^ 64) {A : Matrix (Fin m) (Fin n) Int} {C : Matrix (Fin n) (Fin n) Int} {P : List Nat}
    {i : Nat} {s : Ech} (hi : i < m) (h : EchInv A C P (i + 1) s) :
    ∃ s', echStep nd i s = .ok s' ∧ ∃ C' P', EchInv A C' P' i s' := by
  obtain ⟨M, col, flip, piv, l⟩ := s
  obtain ⟨hM, hcol, hdet, hpiv, hlen, hsort, hge, hzero, hpos, hbelow⟩ := h
  simp only at hM hcol hdet hpiv hlen hzero hpos hbelow
  subst hM hcol hpiv
  have hl : l ≤ n := by omega
  have hp' : partialRow (enc (A * C)) i 0 l = .ok (List.ofFn fun t : Fin l => (A * C) ⟨i, hi⟩ ⟨t.val, by omega⟩) := by
    rw [enc_tb, partialRow_tb _ hi (Nat.zero_le l) hl, Nat.sub_zero, vk_ofFn]
    congr 2; funext t
    rw [Nat.zero_add, ex_lt (A * C) hi (show t.val < n by omega)]
  have hdest : (l + (2 ^ 64 - 1)) % 2 ^ 64 < l ∨ (fun t : Fin l => (A * C) ⟨i, hi⟩ ⟨t.val, by omega⟩) = 0 := by
    by_cases c : l = 0
    · subst c; right; funext t; exact t.elim0
    · left; omega
  obtain ⟨g, D, flip', g1, g2⟩ := gcd_spec nd (fun t : Fin l => (A * C) ⟨i, hi⟩ ⟨t.val, by omega⟩) flip
    ((l + (2 ^ 64 - 1)) % 2 ^ 64) hdest
  rw [echStep]
  simp only
  rw [hp', Res.ok_bind, g1, Res.ok_bind, theOps, Res.ok_bind,
    Res.assertIn_bind nd (decide_eq_true (show (enc D).rows = l ∧ (enc D).cols = l from ⟨rfl, rfl⟩))]
  by_cases hr : (fun t : Fin l => (A * C) ⟨i, hi⟩ ⟨t.val, by omega⟩) = 0
  · obtain ⟨z1, z2, z3⟩ := g2.zero hr
    rw [if_pos z1, Res.pure_eq]
    refine ⟨_, rfl, C, P, rfl, rfl, ?_, rfl, hlen, hsort, ?_, ?_, hpos, hbelow⟩
    · rw [z3]; exact hdet
    · intro p hp; have := hge p hp; omega
    · intro r c hr' hc
      by_cases e : r.val = i
      · have := congrFun hr ⟨c.val, hc⟩
        simp only [Pi.zero_apply] at this
        obtain rfl : r = ⟨i, hi⟩ := Fin.ext e
        exact this
      · exact hzero r c (by omega) hc
  · have hg : 0 < g := g2.pos hr
    have hl0 : 0 < l := by
      by_contra c
      obtain rfl : l = 0 := by omega
      exact hr (by funext t; exact t.elim0)
    have hd : (l + (2 ^ 64 - 1)) % 2 ^ 64 = l - 1 := by omega
    rw [if_neg hg.ne', columnApply_embed nd (by omega), Res.ok_bind, columnApply_embed nd (by omega), Res.ok_bind,
      put_vk _ hi, Res.ok_bind]
    have hrow : ∀ c : Fin n, c.val < l → (A * C * embed n 0 D) ⟨i, hi⟩ c = if c.val = l - 1 then g else 0 := by
      intro c hc
      have h1 := mul_embed_in (a := 0) (by omega) (A * C) D ⟨i, hi⟩ ⟨c.val, hc⟩
      have e : (⟨0 + c.val, by omega⟩ : Fin n) = c := by ext; simp
      simp only [e] at h1
      rw [h1]
      have h2 := congrFun g2.row ⟨c.val, hc⟩
      simp only [hd] at h2
      rw [← h2, Matrix.vecMul, dotProduct]
      refine Finset.sum_congr rfl fun t _ => ?_
      have e' : (⟨0 + t.val, by omega⟩ : Fin n) = ⟨t.val, by omega⟩ := Fin.ext (Nat.zero_add _)
      rw [e']
    have hbel : ∀ (r : Fin m) (c : Fin n), i < r.val → c.val < l → (A * C * embed n 0 D) r c = 0 := by
      intro r c hr hc
      have h1 := mul_embed_in (a := 0) (by omega) (A * C) D r ⟨c.val, hc⟩
      have e : (⟨0 + c.val, by omega⟩ : Fin n) = c := by ext; simp
      simp only [e] at h1
      rw [h1]
      refine Finset.sum_eq_zero fun t _ => ?_
      rw [hzero r _ (by omega) (show 0 + t.val < l by omega), zero_mul]
    have hout : ∀ (r : Fin m) (c : Fin n), l ≤ c.val → (A * C * embed n 0 D) r c = (A * C) r c := by
      intro r c hc
      exact mul_embed_out (A * C) D r (by omega)
    have hget := C45_get (A * C * embed n 0 D) ⟨i, hi⟩ ⟨l - 1, by omega⟩
    simp only at hget
    rw [hget, Res.ok_bind, hrow _ (by simp; omega), if_pos rfl, Res.assertIn_bind nd (by simp), Res.pure_eq]
    have hassoc : A * C * embed n 0 D = A * (C * embed n 0 D) := Matrix.mul_assoc _ _ _
    rw [hassoc] at hrow hbel hout
    refine ⟨_, rfl, C * embed n 0 D, i :: P, ?_, rfl, ?_, ?_, ?_, ?_, ?_, ?_, ?_, ?_⟩
    · show enc (A * C * embed n 0 D) = _
      rw [hassoc]
    · rw [Matrix.det_mul, det_embed (by omega), hdet, g2.det]
      show sgn flip * sgn (flip ^^ flip') = sgn flip'
      rw [sgn_xor, ← mul_assoc, sgn_sq, one_mul]
    · refine vk_congr fun r _ => ?_
      by_cases e : r = i <;> simp [e]
    · show l - 1 + (P.length + 1) = n; omega
    · rw [List.pairwise_cons]
      exact ⟨fun p hp => by have := hge p hp; omega, hsort⟩
    · intro p hp
      rcases List.mem_cons.1 hp with rfl | hp
      · omega
      · have := hge p hp; omega
    · intro r c hr hc
      simp only at hc
      by_cases e : r.val = i
      · obtain rfl : r = ⟨i, hi⟩ := Fin.ext e
        rw [hrow c (by omega), if_neg (by omega)]
      · exact hbel r c (by omega) (by omega)
    · intro t ht r c hr hc
      simp only at hc
      cases t with
      | zero =>
        obtain rfl : r = ⟨i, hi⟩ := Fin.ext hr
        rw [hrow c (by omega), if_pos (by omega)]; exact hg
      | succ t =>
        rw [List.getElem_cons_succ] at hr
        rw [hout r c (by omega)]
        exact hpos t (by simpa using ht) r c hr (by omega)
    · intro t ht r c hr hc
      simp only at hc
      cases t with
      | zero =>
        rw [List.getElem_cons_zero] at hr
        exact hbel r c hr (by omega)
      | succ t =>
        rw [List.getElem_cons_succ] at hr
        rw [hout r c (by omega)]
        exact hbelow t (by simpa using ht) r c hr (by omega)

theorem echLoop_spec (nd : Bool) (hn : n < 2 ^ 64) (A : Matrix (Fin m) (Fin n) Int) :
    ∃ s, forDown (echStep nd) m ⟨enc A, enc (1 : Matrix (Fin n) (Fin n) Int), false, List.replicate m false, n⟩ = .ok s ∧ ∃ C P, EchInv A C P 0 s := by
  refine forDown_inv (fun i s => ∃ C P, EchInv A C P i s) m _ ?_ ?_
  · refine ⟨1, [], ?_, rfl, ?_, ?_, ?_, ?_, ?_, ?_, ?_, ?_⟩
    · rw [Matrix.mul_one]
    · simp
    · rw [replicate_vk]; simp
    · simp
    · simp
    · simp
    · intro r c hr; omega
    · intro t ht; simp at ht
    · intro t ht; simp at ht
  · rintro i s hi ⟨C, P, h⟩
    exact echStep_spec nd hn hi h

/-! ### erasing the zero columns -/

/-- state of the second loop: the first `nc` columns of `A * C` remain, the others are zero -/
structure EraInv (A : Matrix (Fin m) (Fin n) Int) (C : Matrix (Fin n) (Fin n) Int) (P : List Nat) (l : Nat) (s : Mat Int × Mat Int × Bool) :
    Prop where
  M : s.1 = tb m (l + P.length) (ex (A * C))
  le : l + P.length ≤ n
  col : s.2.1 = enc C
  det : C.det = sgn s.2.2
  low : ∀ (r : Fin m) (c : Fin n), c.val < l → (A * C) r c = 0
  high : ∀ (r : Fin m) (c : Fin n), l + P.length ≤ c.val → (A * C) r c = 0
  pos : ∀ (t : Nat) (ht : t < P.length) (r : Fin m) (c : Fin n), r.val = P[t] → c.val = l + t → 0 < (A * C) r c
  below : ∀ (t : Nat) (ht : t < P.length) (r : Fin m) (c : Fin n), P[t] < r.val → c.val = l + t → (A * C) r c = 0

theorem cycle_val {n : Nat} {a b : Fin n} (hab : a ≤ b) (k : Fin n) : (Fin.cycleIcc a b k).val =
    if k.val < a.val then k.val else if k.val < b.val then k.val + 1 else if k = b then a.val else k.val := by
  have : NeZero n := ⟨by have := a.2; omega⟩
  by_cases h1 : k < a
  · rw [Fin.cycleIcc_of_lt h1, if_pos (show k.val < a.val from h1)]
  · rw [if_neg (show ¬ k.val < a.val from h1)]
    by_cases h2 : k < b
    · rw [Fin.cycleIcc_of_ge_of_lt (not_lt.1 h1) h2, if_pos (show k.val < b.val from h2)]
      rw [Fin.val_add_one_of_lt' (by have := b.2; have : k.val < b.val := h2; omega)]
    · rw [if_neg (show ¬ k.val < b.val from h2)]
      by_cases h3 : k = b
      · subst h3; rw [Fin.cycleIcc_of_last hab, if_pos rfl]
      · rw [Fin.cycleIcc_of_gt (lt_of_le_of_ne (not_lt.1 h2) (Ne.symm h3)), if_neg h3]

theorem sgn_parity (k : Nat) : sgn (decide (k % 2 = 1)) = (-1) ^ k := by
  rcases Nat.even_or_odd k with h | h
  · rw [h.neg_one_pow, decide_eq_false (by rw [Nat.even_iff] at h; omega)]; rfl
  · rw [h.neg_one_pow, decide_eq_true (by rw [Nat.odd_iff] at h; exact h)]; rfl

theorem echErase_spec (nd : Bool) {A : Matrix (Fin m) (Fin n) Int} {C : Matrix (Fin n) (Fin n) Int} {P : List Nat} {l : Nat}
    {s : Mat Int × Mat Int × Bool} (h : EraInv A C P (l + 1) s) :
    ∃ s', echErase nd l s = .ok s' ∧ ∃ C', EraInv A C' P l s' := by
  obtain ⟨M, col, flip⟩ := s
  obtain ⟨hM, hle, hcol, hdet, hlow, hhigh, hpos, hbelow⟩ := h
  simp only at hM hcol hdet
  subst hM hcol
  have hl : l < n := by omega
  have hb : l + P.length < n := by omega
  have hab : (⟨l, hl⟩ : Fin n) ≤ ⟨l + P.length, hb⟩ := by simp [Fin.le_def]
  have hcyc := fun k => cycle_val hab k
  simp only [Fin.ext_iff] at hcyc
  have hC' : A * C.submatrix id (Fin.cycleIcc ⟨l, hl⟩ ⟨l + P.length, hb⟩) =
      (A * C).submatrix id (Fin.cycleIcc ⟨l, hl⟩ ⟨l + P.length, hb⟩) := by
    ext r c; simp [Matrix.mul_apply]
  have hent : ∀ (r : Fin m) (c c' : Fin n), (if c.val < l then c.val else if c.val < l + P.length then c.val + 1 else
      if c.val = l + P.length then l else c.val) = c'.val →
      (A * C.submatrix id (Fin.cycleIcc ⟨l, hl⟩ ⟨l + P.length, hb⟩)) r c = (A * C) r c' := by
    intro r c c' e
    rw [hC', Matrix.submatrix_apply]
    exact congrArg _ (Fin.ext ((hcyc c).trans e))
  rw [echErase]
  simp only
  have he := eraseColumn_tb nd (m := m) (n := l + 1 + P.length) (ex (A * C)) (j := l) (by omega)
  rw [show l + 1 + P.length - 1 = l + P.length by omega] at he
  rw [he, Res.ok_bind, enc_tb C, column_tb nd _ hl, Res.ok_bind]
  have hlen : (tb m (l + P.length) fun r c => ex (A * C) r (if c < l then c else c + 1)).cols - l = P.length := by simp
  rw [hlen, forUp_ok (t := tb n n fun r c => if l ≤ c ∧ c < l + P.length then ex C r (c + 1) else ex C r c)
    (fun j => tb n n fun r c => if l ≤ c ∧ c < j then ex C r (c + 1) else ex C r c), Res.ok_bind,
    cols_tb, setColumn_tb nd _ (by omega), Res.ok_bind, Res.pure_eq]
  · refine ⟨_, rfl, C.submatrix id (Fin.cycleIcc ⟨l, hl⟩ ⟨l + P.length, hb⟩), ?_, ?_, ?_, ?_, ?_, ?_, ?_, ?_⟩
    · simp only
      refine tb_congr fun r c hr hc => ?_
      rw [ex_lt (A * C.submatrix _ _) hr (by omega)]
      by_cases e : c < l
      · rw [if_pos e, ex_lt _ hr (by omega)]
        exact (hent _ _ _ (by simp only; rw [if_pos e])).symm
      · rw [if_neg e, ex_lt _ hr (by omega)]
        exact (hent _ _ _ (by simp only; rw [if_neg e, if_pos hc])).symm
    · omega
    · simp only
      rw [enc_tb (C.submatrix _ _)]
      refine tb_congr fun r c hr hc => ?_
      rw [ex_lt (C.submatrix _ _) hr hc, Matrix.submatrix_apply]
      have e2 := hcyc ⟨c, hc⟩
      simp only at e2
      have e3 : C (id ⟨r, hr⟩) (Fin.cycleIcc ⟨l, hl⟩ ⟨l + P.length, hb⟩ ⟨c, hc⟩) =
        ex C r (Fin.cycleIcc ⟨l, hl⟩ ⟨l + P.length, hb⟩ ⟨c, hc⟩).val := by
        rw [ex_lt C hr (Fin.is_lt _)]; rfl
      rw [e3, e2]
      grind
    · rw [Matrix.det_permute', hdet, Fin.sign_cycleIcc_of_le hab]
      simp only
      rw [sgn_xor, sgn_parity, mul_comm, show l + P.length - l = P.length by omega]
      push_cast; rfl
    · intro r c hc
      rw [hent r c c (by rw [if_pos hc])]
      exact hlow r c (by omega)
    · intro r c hc
      by_cases e : c.val = l + P.length
      · rw [hent r c ⟨l, hl⟩ (by simp only; rw [if_neg (by omega), if_neg (by omega), if_pos e])]
        exact hlow r _ (by simp)
      · rw [hent r c c (by rw [if_neg (by omega), if_neg (by omega), if_neg e])]
        exact hhigh r c (by omega)
    · intro t ht r c hr hc
      rw [hent r c ⟨c.val + 1, by omega⟩ (by simp only; rw [if_neg (by omega), if_pos (by omega)])]
      exact hpos t ht r _ hr (by simp only; omega)
    · intro t ht r c hr hc
      rw [hent r c ⟨c.val + 1, by omega⟩ (by simp only; rw [if_neg (by omega), if_pos (by omega)])]
      exact hbelow t ht r _ hr (by simp only; omega)
  · exact tb_congr fun r c _ _ => by rw [if_neg (by omega)]
  · rfl
  · intro j hj1 hj2
    rw [column_tb nd _ (by omega), Res.ok_bind, setColumn_tb nd _ (by omega)]
    refine congrArg Res.ok (tb_congr fun r c hr hc => ?_)
    grind

/-- a matrix is in echelon form with pivot rows `piv`: each column has a positive entry in its pivot row and zeros below that, and the
pivot rows increase from left to right -/
structure IsEchelon {k : Nat} (E : Matrix (Fin m) (Fin k) Int) (piv : Fin k → Fin m) : Prop where
  mono : StrictMono piv
  pos : ∀ j, 0 < E (piv j) j
  below : ∀ i j, piv j < i → E i j = 0

theorem columnEchelon_spec (nd : Bool) (hn : n < 2 ^ 64) (A : Matrix (Fin m) (Fin n) Int) :
    ∃ (k : Nat) (piv : Fin k → Fin m) (E : Matrix (Fin m) (Fin k) Int) (C : Matrix (Fin n) (Fin n) Int) (flip : Bool),
      columnEchelon nd (enc A) = .ok (List.ofFn fun i => decide (i ∈ Set.range piv), enc E, enc C, flip) ∧
      IsEchelon E piv ∧ C.det = sgn flip ∧ k ≤ n ∧
      ∀ i (j : Fin n), (A * C) i j = if h : j.val < k then E i ⟨j.val, h⟩ else 0 := by
  obtain ⟨s, hs, C, P, hinv⟩ := echLoop_spec nd hn A
  obtain ⟨M, col, flip, piv, l⟩ := s
  obtain ⟨hM, hcol, hdet, hpiv, hlen, hsort, hge, hzero, hpos, hbelow⟩ := hinv
  simp only at hM hcol hdet hpiv hlen hzero hpos hbelow
  subst hM hcol hpiv
  obtain ⟨⟨M', col', flip'⟩, hs', C', hM', hle', hcol', hdet', hlow', hhigh', hpos', hbelow'⟩ :=
    forDown_inv (fun l s => ∃ C, EraInv A C P l s) (body := echErase nd) l (enc (A * C), enc C, flip)
    ⟨C, by rw [hlen]; exact enc_tb _, hlen.le, rfl, hdet, fun r c hc => hzero r c (by omega) hc, fun r c hc => by omega, hpos, hbelow⟩
    (fun l s _ ⟨C, h⟩ => echErase_spec nd h)
  simp only at hM' hcol' hdet'
  simp only [Nat.zero_add] at hM' hle' hhigh' hpos' hbelow'
  subst hM' hcol'
  refine ⟨P.length, fun t => ⟨P[t.val], (hge _ (List.getElem_mem _)).2⟩,
    Matrix.of fun i j => (A * C') i ⟨j.val, by omega⟩, C', flip', ?_, ⟨?_, ?_, ?_⟩, hdet', hle', ?_⟩
  · rw [columnEchelon, show (enc A).cols = n from rfl, show (enc A).rows = m from rfl, C45_identity, Res.ok_bind, hs, Res.ok_bind]
    simp only
    rw [hs', Res.ok_bind, Res.pure_eq]
    congr 1
    refine pair_ext ?_ (pair_ext ?_ rfl)
    · rw [vk_ofFn]
      congr 1; funext i
      congr 1
      rw [eq_iff_iff, List.mem_iff_getElem]
      constructor
      · rintro ⟨t, ht, e⟩; exact ⟨⟨t, ht⟩, Fin.ext e⟩
      · rintro ⟨t, e⟩; exact ⟨t.val, t.2, congrArg Fin.val e⟩
    · rw [tb_enc]
      congr 1; ext i j
      rw [Matrix.of_apply, Matrix.of_apply, ex_lt _ i.2 (by omega)]
  · intro a b hab
    exact List.pairwise_iff_getElem.1 hsort a.val b.val a.2 b.2 hab
  · intro j
    exact hpos' j.val j.2 _ _ rfl rfl
  · intro i j hij
    exact hbelow' j.val j.2 _ _ hij rfl
  · intro i j
    by_cases h : j.val < P.length
    · rw [dif_pos h]; rfl
    · rw [dif_neg h]; exact hhigh' i j (by omega)

end Verif.Mat
