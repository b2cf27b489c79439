import Verif.Perm.Props
import Verif.Mat.Diag

/-!
The main loop of `diagonalise`, and the final adjustments.
-/

open Finset Verif.Perm
open scoped Matrix

namespace Verif.Mat

variable {m n : Nat}

/-- the entries when row `r` has its pivot, with value given by `D`, in the column given by `P` -/
def pent (P : List Nat) (D : List Int) (r c : Nat) : Int := if P[r]? = some c then D[r]?.getD 0 else 0

/-- state before the iteration for column `l` -/
structure DInv (A : Matrix (Fin m) (Fin n) Int) (fix : Bool) (l : Nat) (s : Diag) (R : Matrix (Fin m) (Fin m) Int)
    (C : Matrix (Fin n) (Fin n) Int) (P : List Nat) : Prop extends Holds A fix s R C where
  kP : s.k = P.length
  kle : s.k ≤ m
  dlen : s.diag.length = P.length
  dpos : ∀ d ∈ s.diag, 0 < d
  piv : s.piv = vk n fun c => decide (c ∈ P)
  sorted : P.Pairwise (· < ·)
  lt : ∀ x ∈ P, x < l
  entries : ∀ (r : Fin m) (c : Fin n), r.val < s.k ∨ c.val < l → (R * A * C) r c = pent P s.diag r c

theorem diagStep_spec (nd fix : Bool) {A : Matrix (Fin m) (Fin n) Int} {l : Nat} (hl : l < n) {s : Diag} {R : Matrix (Fin m) (Fin m) Int}
    {C : Matrix (Fin n) (Fin n) Int} {P : List Nat} (h : DInv A fix l s R C P) :
    ∃ s', diagStep nd fix l s = .ok s' ∧ ∃ R' C' P', DInv A fix (l + 1) s' R' C' P' := by
  obtain ⟨M, row, col, rm, cm, piv, diag, k⟩ := s
  obtain ⟨⟨hM, hrow, hcol, hu, hdR, hdC⟩, hkP, hkle, hdlen, hdpos, hpiv, hsort, hlt, hent⟩ := h
  simp only at hM hrow hcol hdR hdC hkP hkle hdlen hdpos hpiv hent
  subst hM hrow hcol hpiv
  have hF1 : ∀ r c, k ≤ r → pent P diag r c = 0 := by
    intro r c hr
    rw [pent, List.getElem?_eq_none (by omega), if_neg (by simp)]
  have hF2 : ∀ r c, l ≤ c → pent P diag r c = 0 := by
    intro r c hc
    rw [pent, if_neg]
    intro e
    have := hlt c (List.mem_of_getElem? e)
    omega
  obtain ⟨v, g, D, flip, e1, e2, hr⟩ := rowClear_spec nd (R * A * C) hkle hl
  rw [diagStep]
  simp only
  rw [show (enc (R * A * C)).rows = m from rfl, e1, Res.ok_bind, e2, Res.ok_bind]
  by_cases hg : g = 0
  · rw [if_pos hg, Res.pure_eq]
    refine ⟨_, rfl, R, C, P, ⟨rfl, rfl, rfl, hu, hdR, hdC⟩, hkP, hkle, hdlen, hdpos, rfl, hsort, fun x hx => by have := hlt x hx; omega, ?_⟩
    intro r c h
    simp only at h ⊢
    by_cases h' : r.val < k ∨ c.val < l
    · exact hent r c h'
    · rw [hr.zero hg r c (by omega) (by omega), hF1 _ _ (by omega)]
  · rw [if_neg hg]
    have hk : k < m := hr.lt hg
    have hgpos : 0 < g := lt_of_le_of_ne hr.nonneg (Ne.symm hg)
    rw [put_vk _ hl, Res.ok_bind, diagRow_spec nd (s := ⟨enc (R * A * C), enc R, enc C, if fix = true then xor rm flip else flip, cm,
      vk n fun j => if j = l then true else decide (j ∈ P), diag, k⟩) (C := C) (R := R) (A := A) hl hk rfl rfl hr, Res.ok_bind]
    simp only
    have hassoc : embed m k Dᵀ * (R * A * C) = embed m k Dᵀ * R * A * C := by simp only [Matrix.mul_assoc]
    have hdetR : (embed m k Dᵀ * R).det = sgn flip * R.det := by rw [Matrix.det_mul, hr.det]
    obtain ⟨d', s', R', C', i1, i2, i3, i4, i5⟩ := diagInner_spec nd (A := A) (fix := fix) (F := pent P diag) hk hl hF1 hF2 (g.natAbs + 1)
      (d := g) (s := ⟨enc (embed m k Dᵀ * R * A * C), enc (embed m k Dᵀ * R), enc C, if fix = true then xor rm flip else flip, cm,
        vk n fun j => if j = l then true else decide (j ∈ P), diag, k⟩) (R := embed m k Dᵀ * R) (C := C)
      ⟨⟨rfl, rfl, rfl, by rw [hdetR]; exact (sgn_unit _).mul hu, fun hf => by
          simp only [if_pos hf]
          rw [hdetR, hdR hf, sgn_xor, mul_comm], hdC⟩, rfl, fun r c h => by
          rw [← hassoc]
          by_cases h' : r.val < k
          · rw [hr.above r c h']; exact hent r c (.inl h')
          · have hc : c.val < l := by omega
            rw [hr.zeroCol c (fun r hr => by rw [hent r c (.inr hc)]; exact hF1 _ _ hr) r]
            exact hent r c (.inr hc),
        fun r c h1 h2 => by rw [← hassoc]; exact hr.col r c h1 h2, hgpos⟩ (by omega)
    obtain ⟨M', row', col', rm', cm', piv', diag', k''⟩ := s'
    obtain ⟨⟨jM, jrow, jcol, ju, jdR, jdC⟩, jk, jframe, jcolz, jpos⟩ := i2
    simp only at i4 i5 jM jrow jcol jdR jdC jk
    subst i4 i5 jM jrow jcol jk
    rw [i1, Res.ok_bind, Res.pure_eq]
    refine ⟨_, rfl, R', C', P ++ [l], ⟨rfl, rfl, rfl, ju, ?_, jdC⟩, ?_, ?_, ?_, ?_, ?_, ?_, ?_, ?_⟩
    · intro hf
      simp only [Bool.xor_false]
      exact jdR hf
    · simp [hkP]
    · simp only; omega
    · simp [hdlen]
    · intro d hd
      simp only [List.mem_append, List.mem_singleton] at hd
      rcases hd with hd | rfl
      · exact hdpos d hd
      · exact jpos
    · refine vk_congr fun c _ => ?_
      by_cases e : c = l <;> simp [e]
    · rw [List.pairwise_append]
      refine ⟨hsort, by simp, fun a ha b hb => ?_⟩
      rw [List.mem_singleton] at hb
      subst hb; exact hlt a ha
    · intro x hx
      simp only [List.mem_append, List.mem_singleton] at hx
      rcases hx with hx | rfl
      · have := hlt x hx; omega
      · omega
    · intro r c h
      simp only at h ⊢
      rw [pent, List.getElem?_append, List.getElem?_append, hdlen, ← hkP]
      by_cases h1 : r.val < k''
      · rw [if_pos h1, if_pos h1, jframe r c (.inl h1)]; rfl
      · rw [if_neg h1, if_neg h1]
        by_cases h2 : r.val = k''
        · rw [h2, Nat.sub_self, List.getElem?_cons_zero, List.getElem?_cons_zero, Option.getD_some]
          by_cases h3 : c.val < l
          · rw [jframe r c (.inr h3), hF1 _ _ (by omega), if_neg (by simp; omega)]
          · rw [i3 r c h2 (by omega)]
            by_cases h4 : c.val = l
            · rw [if_pos h4, if_pos (by rw [h4])]
            · rw [if_neg h4, if_neg (by simp; omega)]
        · rw [show ([l][r.val - k'']? : Option Nat) = none from List.getElem?_eq_none (by simp; omega), if_neg (by simp)]
          by_cases h3 : c.val < l
          · rw [jframe r c (.inr h3), hF1 _ _ (by omega)]
          · rw [jcolz r c (by omega) (by omega), if_neg h2]

theorem members_vk {P : List Nat} (hs : P.Pairwise (· < ·)) (hlt : ∀ x ∈ P, x < n) : members (vk n fun c => decide (c ∈ P)) = P := by
  refine List.Pairwise.eq_of_mem_iff (r := (· < ·)) ?_ hs ?_
  · exact List.Pairwise.filter _ List.pairwise_lt_range
  · intro x
    rw [members, List.mem_filter, List.mem_range, length_vk]
    constructor
    · rintro ⟨h1, h2⟩
      rw [List.getD_eq_getElem?_getD, getElem?_vk, if_pos h1] at h2
      simpa using h2
    · intro hx
      refine ⟨hlt x hx, ?_⟩
      rw [List.getD_eq_getElem?_getD, getElem?_vk, if_pos (hlt x hx)]
      simpa using hx

theorem members_compl (P : List Nat) : members ((vk n fun c => decide (c ∈ P)).map not) = (List.range n).filter fun c => !decide (c ∈ P) := by
  rw [members, List.length_map, length_vk]
  refine List.filter_congr fun x hx => ?_
  rw [List.mem_range] at hx
  rw [List.getD_eq_getElem?_getD, List.getElem?_map, getElem?_vk, if_pos hx]
  rfl

/-- a list of pivot columns followed by the other columns -/
theorem isPerm_pivots {P : List Nat} (hs : P.Pairwise (· < ·)) (hlt : ∀ x ∈ P, x < n) :
    IsPerm n (P ++ (List.range n).filter fun c => !decide (c ∈ P)) := by
  have h1 : (List.range n).filter (fun c => decide (c ∈ P)) = P := by
    refine List.Pairwise.eq_of_mem_iff (r := (· < ·)) (List.Pairwise.filter _ List.pairwise_lt_range) hs ?_
    intro x
    simp only [List.mem_filter, List.mem_range, decide_eq_true_eq]
    exact ⟨fun h => h.2, fun h => ⟨hlt x h, h⟩⟩
  have h2 := List.filter_append_perm (fun c => decide (c ∈ P)) (List.range n)
  rw [h1] at h2
  exact h2

theorem sorted_ge {P : List Nat} (hs : P.Pairwise (· < ·)) (t : Nat) (ht : t < P.length) : t ≤ P[t] := by
  induction t with
  | zero => exact Nat.zero_le _
  | succ t ih =>
    have h1 := ih (by omega)
    have h2 := List.pairwise_iff_getElem.1 hs t (t + 1) (by omega) ht (by omega)
    omega

theorem sorted_eq {P : List Nat} (hs : P.Pairwise (· < ·)) (hlt : ∀ x ∈ P, x < P.length) (t : Nat) (ht : t < P.length) : P[t] = t := by
  refine le_antisymm ?_ (sorted_ge hs t ht)
  by_contra c
  -- counting from the end
  have key : ∀ d, t + d < P.length → ∃ h : t + d < P.length, t + d < P[t + d] := by
    intro d
    induction d with
    | zero => intro h; exact ⟨h, by simpa using c⟩
    | succ d ih =>
      intro h
      obtain ⟨h1, h2⟩ := ih (by omega)
      have h3 := List.pairwise_iff_getElem.1 hs (t + d) (t + (d + 1)) h1 h (by omega)
      exact ⟨h, by omega⟩
  obtain ⟨h1, h2⟩ := key (P.length - 1 - t) (by omega)
  have := hlt _ (List.getElem_mem h1)
  omega

/-- the pivot columns have been moved to the front -/
theorem diagSort_spec (nd : Bool) {P : List Nat} (hs : P.Pairwise (· < ·)) (hlt : ∀ x ∈ P, x < n) (C : Matrix (Fin n) (Fin n) Int) (cm : Bool) :
    ∃ (σ : Equiv.Perm (Fin n)) (cm' : Bool), diagSort nd (vk n fun c => decide (c ∈ P)) (enc C) cm = .ok (enc (C.submatrix id σ), cm') ∧
      (C.det = sgn cm → (C.submatrix id σ).det = sgn cm') ∧ ∀ (r : Nat) (c : Fin n), P[r]? = some (σ c).val ↔ r = c.val ∧ r < P.length := by
  rw [diagSort, members_vk hs hlt, members_compl]
  by_cases hc : (P.filter fun j => decide (j < P.length)).length < P.length
  · rw [if_pos hc]
    have hp := isPerm_pivots hs hlt
    obtain ⟨B, h1, h2, _⟩ := C26_pullBackColumns nd hp le_rfl C
    have hB : B = C.submatrix id hp.toPerm := by
      ext i j
      exact h2 i j
    simp only
    rw [h1, Res.ok_bind, C26_isNegative nd hp, Res.ok_bind, Res.pure_eq]
    refine ⟨hp.toPerm, _, by rw [hB], ?_, ?_⟩
    · intro hdet
      rw [Matrix.det_permute', hdet, sgn_xor, mul_comm]
      congr 1
      rcases Int.units_eq_one_or (Equiv.Perm.sign hp.toPerm) with h | h <;> rw [h] <;> decide
    · intro r c
      rw [hp.toPerm_apply]
      constructor
      · intro h
        have hmem := List.mem_of_getElem? h
        have hr : r < P.length := (List.getElem?_eq_some_iff.1 h).1
        refine ⟨?_, hr⟩
        have e := (List.getElem?_eq_some_iff.1 h).2
        have e' : (P ++ (List.range n).filter fun c => !decide (c ∈ P))[r]'(by rw [List.length_append]; omega) = P[r] := by
          rw [List.getElem_append_left hr]
        exact hp.inj _ _ (e'.trans e)
      · rintro ⟨rfl, h⟩
        rw [List.getElem_append_left h, List.getElem?_eq_getElem h]
  · rw [if_neg hc, Res.pure_eq]
    refine ⟨1, cm, by simp, by simp, ?_⟩
    have hall : ∀ x ∈ P, x < P.length := by
      have h1 := List.length_filter_le (fun j => decide (j < P.length)) P
      have h2 : (P.filter fun j => decide (j < P.length)).length = P.length := by omega
      rw [List.length_filter_eq_length_iff] at h2
      intro x hx
      simpa using h2 x hx
    intro r c
    rw [Equiv.Perm.one_apply, List.getElem?_eq_some_iff]
    constructor
    · rintro ⟨h, e⟩
      rw [sorted_eq hs hall r h] at e
      exact ⟨e, h⟩
    · rintro ⟨h1, h2⟩
      exact ⟨h2, by rw [sorted_eq hs hall r h2, h1]⟩

/-- a diagonal matrix, of any dimensions -/
def diagMat (m n : Nat) (D : List Int) : Matrix (Fin m) (Fin n) Int := Matrix.of fun i j => if i.val = j.val then D[i.val]?.getD 0 else 0

theorem diagonalise_spec (nd fix : Bool) (A : Matrix (Fin m) (Fin n) Int) :
    ∃ (D : List Int) (R : Matrix (Fin m) (Fin m) Int) (C : Matrix (Fin n) (Fin n) Int), diagonalise nd fix (enc A) = .ok (D, enc R, enc C) ∧
      D.length ≤ m ∧ D.length ≤ n ∧ R * A * C = diagMat m n D ∧ C.det = 1 ∧ IsUnit R.det ∧ (fix = true → R.det = 1) ∧
      (∀ i (h : i < D.length), D[i] ≠ 0 ∧ (0 < i → 0 < D[i])) := by
  rw [diagonalise, C45_identity, Res.ok_bind, C45_identity, Res.ok_bind, show (enc A).cols = n from rfl, show (enc A).rows = m from rfl]
  by_cases h0 : n = 0 ∨ m = 0
  · rw [if_pos h0, Res.pure_eq]
    refine ⟨[], 1, 1, rfl, by simp, by simp, ?_, by simp, by simp, by simp, by simp⟩
    ext i j
    rcases h0 with rfl | rfl
    · exact j.elim0
    · exact i.elim0
  rw [if_neg h0]
  have hn : 0 < n := by omega
  have hm : 0 < m := by omega
  obtain ⟨s, hs, R, C, P, hinv⟩ := forUp_inv (body := diagStep nd fix) (fun l s => ∃ R C P, DInv A fix l s R C P) n 0
    ⟨enc A, enc 1, enc 1, false, false, List.replicate n false, [], 0⟩
    ⟨1, 1, [], ⟨by simp, rfl, rfl, by simp, by simp, by simp⟩, rfl, by simp, rfl, by simp, by rw [replicate_vk]; simp, by simp, by simp,
      fun r c h => by simp at h⟩
    (fun l s _ hl ⟨R, C, P, h⟩ => diagStep_spec nd fix (by omega) h)
  rw [hs, Res.ok_bind]
  rw [Nat.zero_add] at hinv
  obtain ⟨M, row, col, rm, cm, piv, diag, k⟩ := s
  obtain ⟨⟨hM, hrow, hcol, hu, hdR, hdC⟩, hkP, hkle, hdlen, hdpos, hpiv, hsort, hlt, hent⟩ := hinv
  simp only at hM hrow hcol hdR hdC hkP hkle hdlen hdpos hpiv hent
  subst hM hrow hcol hpiv
  simp only
  obtain ⟨σ, cm', h1, h2, h3⟩ := diagSort_spec nd hsort hlt C cm
  rw [h1, Res.ok_bind]
  simp only
  -- the diagonal matrix before adjusting signs
  have hRC : R * A * C.submatrix id σ = diagMat m n diag := by
    ext i j
    have e : (R * A * C.submatrix id σ) i j = (R * A * C) i (σ j) := by simp [Matrix.mul_apply]
    rw [e, hent i (σ j) (.inr (σ j).2), pent, diagMat, Matrix.of_apply]
    by_cases c : i.val = j.val
    · rw [if_pos c]
      by_cases c' : i.val < P.length
      · rw [if_pos ((h3 _ _).2 ⟨c, c'⟩)]
      · rw [if_neg (fun e => c' ((h3 _ _).1 e).2), List.getElem?_eq_none (by omega)]; rfl
    · rw [if_neg c, if_neg (fun e => c ((h3 _ _).1 e).1)]
  have hPn : P.length ≤ n := by
    have := (isPerm_pivots hsort hlt).length
    rw [List.length_append] at this
    omega
  have hdiag : (if 0 < diag.length ∧ rm ≠ cm' then do Vec.put diag 0 (-(← Vec.get diag 0)) else pure diag : Res (List Int)) =
      .ok (diag.set 0 (sgn rm * sgn cm' * diag[0]?.getD 0)) := by
    by_cases c : 0 < diag.length
    · by_cases c' : rm = cm'
      · rw [if_neg (fun h => h.2 c'), Res.pure_eq, c', sgn_sq, one_mul]
        congr 1
        rw [List.getElem?_eq_getElem c, Option.getD_some, List.set_getElem_self]
      · rw [if_pos ⟨c, c'⟩, Vec.get_ok c, Res.ok_bind, Vec.put_ok c]
        have : sgn rm * sgn cm' = -1 := by revert c'; cases rm <;> cases cm' <;> decide
        rw [this, List.getElem?_eq_getElem c, Option.getD_some]; simp
    · rw [if_neg (fun h => c h.1), Res.pure_eq]
      have : diag = [] := List.length_eq_zero_iff.1 (by omega)
      subst this; rfl
  have hR' : (if rm = true then rowMul nd (enc R) 0 (-1) else pure (enc R) : Res (Mat Int)) = .ok (enc (R.updateRow ⟨0, hm⟩ (sgn rm • R ⟨0, hm⟩))) := by
    by_cases c : rm = true
    · rw [if_pos c, c]
      exact C45_rowMul nd R ⟨0, hm⟩ (-1)
    · rw [if_neg c, Bool.eq_false_iff.2 c, sgn_false, one_smul, Matrix.updateRow_eq_self, Res.pure_eq]
  have hC' : (if cm' = true then colMul nd (enc (C.submatrix id σ)) 0 (-1) else pure (enc (C.submatrix id σ)) : Res (Mat Int)) =
      .ok (enc ((C.submatrix id σ).updateCol ⟨0, hn⟩ (fun i => sgn cm' * C.submatrix id σ i ⟨0, hn⟩))) := by
    by_cases c : cm' = true
    · rw [if_pos c, c]
      exact C45_colMul nd (C.submatrix id σ) ⟨0, hn⟩ (-1)
    · rw [if_neg c, Bool.eq_false_iff.2 c]
      simp only [sgn_false, one_mul, Res.pure_eq]
      congr 2
      exact (Matrix.updateCol_eq_self _ _).symm
  rw [hdiag, Res.ok_bind, hR', Res.ok_bind, hC', Res.ok_bind, Res.pure_eq]
  refine ⟨_, _, _, rfl, ?_, ?_, ?_, ?_, ?_, ?_, ?_⟩
  · simp only [List.length_set]; omega
  · simp only [List.length_set]; omega
  · ext i j
    have e1 : ∀ (X : Matrix (Fin m) (Fin n) Int), (X.updateCol ⟨0, hn⟩ (fun i => sgn cm' * X i ⟨0, hn⟩)) i j =
        X i j * if j = ⟨0, hn⟩ then sgn cm' else 1 := by
      intro X
      rw [Matrix.updateCol_apply]
      by_cases c : j = ⟨0, hn⟩
      · rw [if_pos c, if_pos c, c, mul_comm]
      · rw [if_neg c, if_neg c, mul_one]
    have e2 : (R.updateRow ⟨0, hm⟩ (sgn rm • R ⟨0, hm⟩) * A * (C.submatrix id σ).updateCol ⟨0, hn⟩ (fun i => sgn cm' * C.submatrix id σ i ⟨0, hn⟩)) i j =
        (if i = ⟨0, hm⟩ then sgn rm else 1) * ((R * A * C.submatrix id σ) i j) * if j = ⟨0, hn⟩ then sgn cm' else 1 := by
      simp only [Matrix.mul_apply, Matrix.updateCol_apply, Matrix.updateRow_apply, Finset.sum_mul, Finset.mul_sum]
      by_cases ci : i = ⟨0, hm⟩ <;> by_cases cj : j = ⟨0, hn⟩ <;> simp [ci, cj, mul_assoc, mul_left_comm, mul_comm]
    rw [e2, hRC, diagMat, diagMat, Matrix.of_apply, Matrix.of_apply]
    by_cases c : i.val = j.val
    · rw [if_pos c, if_pos c, List.getElem?_set]
      by_cases ci : i.val = 0
      · rw [if_pos (Fin.ext ci), if_pos (Fin.ext (by simp only; omega)), if_pos ci.symm, ci]
        by_cases cl : 0 < diag.length
        · rw [if_pos cl, Option.getD_some]; ring
        · rw [if_neg cl, List.getElem?_eq_none (by omega)]; simp
      · rw [if_neg (fun e => ci (congrArg Fin.val e)), if_neg (fun e => ci (by have := congrArg Fin.val e; simp only at this; omega)),
          if_neg (fun e => ci e.symm)]
        ring
    · rw [if_neg c, if_neg c]; simp
  · have := Matrix.det_updateCol_smul (C.submatrix id σ) ⟨0, hn⟩ (sgn cm') (fun i => C.submatrix id σ i ⟨0, hn⟩)
    have e : (sgn cm' • fun i => C.submatrix id σ i ⟨0, hn⟩) = fun i => sgn cm' * C.submatrix id σ i ⟨0, hn⟩ := rfl
    rw [← e, this, Matrix.updateCol_eq_self, h2 hdC, sgn_sq]
  · rw [Matrix.det_updateRow_smul, Matrix.updateRow_eq_self]
    exact (sgn_unit _).mul hu
  · intro hf
    rw [Matrix.det_updateRow_smul, Matrix.updateRow_eq_self, hdR hf, sgn_sq]
  · intro i hi
    rw [List.length_set] at hi
    rw [List.getElem_set]
    by_cases c : 0 = i
    · subst c
      rw [if_pos rfl, List.getElem?_eq_getElem hi, Option.getD_some]
      exact ⟨mul_ne_zero ((sgn_unit rm).mul (sgn_unit cm')).ne_zero (hdpos _ (List.getElem_mem hi)).ne', fun h => by omega⟩
    · rw [if_neg c]
      exact ⟨(hdpos _ (List.getElem_mem hi)).ne', fun _ => hdpos _ (List.getElem_mem hi)⟩

end Verif.Mat
