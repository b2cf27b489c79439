import Verif.Mat.Echelon

/-!
The invariants of `echelon_solve`.
-/

open Finset
open scoped Matrix

namespace Verif.Mat

variable {m n k : Nat}

/-- a loop that changes entries of a vector one by one -/
theorem forVec {α : Type} {body : Nat → List α → Res (List α)} (F : Nat → α → α) {a len : Nat} (h : a + len ≤ n)
    (hb : ∀ (g : Nat → α) r, a ≤ r → r < a + len → body r (vk n g) = .ok (vk n fun s => if s = r then F r (g r) else g s)) (g : Nat → α) :
    forUp body len a (vk n g) = .ok (vk n fun r => if a ≤ r ∧ r < a + len then F r (g r) else g r) := by
  refine forUp_ok (fun j => vk n fun r => if a ≤ r ∧ r < j then F r (g r) else g r) ?_ rfl ?_
  · exact vk_congr fun r _ => by rw [if_neg (by omega)]
  · intro r h1 h2
    rw [hb _ r h1 h2]
    refine congrArg Res.ok (vk_congr fun s hs => ?_)
    by_cases e : s = r
    · subst e; rw [if_pos rfl, if_neg (by omega), if_pos (by omega)]
    · rw [if_neg e]
      by_cases e' : a ≤ s ∧ s < r
      · rw [if_pos e', if_pos (by omega)]
      · rw [if_neg e', if_neg (by omega)]

section
variable {E : Matrix (Fin m) (Fin k) Int} {piv : Fin k → Fin m}

/-- rows from `i` on determine the coefficients of the columns with pivot from `i` on -/
theorem IsEchelon.zero_of_rows (hE : IsEchelon E piv) {i : Nat} {z : Fin k → Int} (hz : ∀ r : Fin m, i ≤ r.val → (E *ᵥ z) r = 0) (t : Fin k)
    (ht : i ≤ (piv t).val) : z t = 0 := by
  obtain ⟨d, hd⟩ : ∃ d, k - t.val = d := ⟨_, rfl⟩
  induction d using Nat.strong_induction_on generalizing t with
  | _ d ih =>
    have h1 := hz (piv t) ht
    rw [Matrix.mulVec, dotProduct, Finset.sum_eq_single t] at h1
    · rcases mul_eq_zero.1 h1 with h | h
      · exact absurd h (hE.pos t).ne'
      · exact h
    · intro s _ hs
      rcases lt_or_gt_of_ne hs with h | h
      · rw [hE.below _ _ (hE.mono h), zero_mul]
      · rw [ih (k - s.val) (by have : t.val < s.val := h; omega) s (ht.trans (hE.mono h).le) rfl, mul_zero]
    · intro h; exact absurd (Finset.mem_univ t) h

/-- state of `echelon_solve` before treating row `i-1` -/
structure SolInv (E : Matrix (Fin m) (Fin k) Int) (piv : Fin k → Fin m) (b0 : Fin m → Int) (i : Nat) (s : Sol) (β : Fin m → Int) (ξ : Fin k → Int) :
    Prop where
  j : ∀ t : Fin k, t.val < s.j ↔ (piv t).val < i
  jle : s.j ≤ k
  f : 0 < s.f
  b : s.b = List.ofFn β
  x : s.x = List.ofFn ξ
  eq : β = s.f • b0 - E *ᵥ ξ
  zero : ∀ r : Fin m, i ≤ r.val → β r = 0
  low : ∀ t : Fin k, t.val < s.j → ξ t = 0
  min : ∀ (g : Int) (y : Fin k → Int), E *ᵥ y = g • b0 → s.f ∣ g

/-- a solution in terms of the current state -/
theorem SolInv.reduce (hE : IsEchelon E piv) {b0 : Fin m → Int} {i : Nat} {s : Sol} {β : Fin m → Int} {ξ : Fin k → Int}
    (h : SolInv E piv b0 i s β ξ) {g : Int} {y : Fin k → Int} (hy : E *ᵥ y = g • b0) :
    ∃ c w, g = s.f * c ∧ E *ᵥ w = c • β ∧ ∀ t : Fin k, s.j ≤ t.val → w t = 0 := by
  obtain ⟨c, rfl⟩ := h.min g y hy
  have hw : E *ᵥ (y - c • ξ) = c • β := by
    rw [Matrix.mulVec_sub, Matrix.mulVec_smul, hy, h.eq, smul_sub, smul_smul, mul_comm]
  refine ⟨c, y - c • ξ, rfl, hw, fun t ht => ?_⟩
  refine hE.zero_of_rows (i := i) (fun r hr => ?_) t ?_
  · rw [hw, Pi.smul_apply, h.zero r hr, smul_zero]
  · by_contra hc
    have := (h.j t).2 (by omega)
    omega

/-- the value in row `i-1` -/
theorem SolInv.rowValue (hE : IsEchelon E piv) {b0 : Fin m → Int} {i : Nat} {s : Sol} {β : Fin m → Int} {ξ : Fin k → Int}
    (h : SolInv E piv b0 (i + 1) s β ξ) (hi : i < m) {w : Fin k → Int} (hw : ∀ t : Fin k, s.j ≤ t.val → w t = 0) :
    (∀ t : Fin k, piv t = ⟨i, hi⟩ → (E *ᵥ w) ⟨i, hi⟩ = E ⟨i, hi⟩ t * w t) ∧
      ((∀ t : Fin k, piv t ≠ ⟨i, hi⟩) → (E *ᵥ w) ⟨i, hi⟩ = 0) := by
  have h0 : ∀ t : Fin k, piv t ≠ ⟨i, hi⟩ → E ⟨i, hi⟩ t * w t = 0 := by
    intro t ht
    by_cases c : s.j ≤ t.val
    · rw [hw t c, mul_zero]
    · have h1 := (h.j t).1 (by omega)
      have h2 : (piv t).val ≠ i := fun e => ht (Fin.ext e)
      rw [hE.below _ _ (show piv t < ⟨i, hi⟩ from Fin.lt_def.2 (by simp only; omega)), zero_mul]
  constructor
  · intro t ht
    rw [Matrix.mulVec, dotProduct, Finset.sum_eq_single t]
    · intro s' _ hs
      exact h0 s' fun e => hs (hE.mono.injective (e.trans ht.symm))
    · intro h; exact absurd (Finset.mem_univ t) h
  · intro ht
    rw [Matrix.mulVec, dotProduct]
    exact Finset.sum_eq_zero fun t _ => h0 t (ht t)

/-- the `BitMap` of pivot rows -/
theorem get_bits (piv : Fin k → Fin m) {i : Nat} (hi : i < m) :
    Vec.get (List.ofFn fun i => decide (i ∈ Set.range piv)) i = .ok (decide (⟨i, hi⟩ ∈ Set.range piv)) :=
  get_ofFn (fun i : Fin m => decide (i ∈ Set.range piv)) ⟨i, hi⟩

theorem solveStep_spec (nd : Bool) (hE : IsEchelon E piv) {b0 : Fin m → Int} {i : Nat} {s : Sol} {β : Fin m → Int} {ξ : Fin k → Int}
    (h : SolInv E piv b0 (i + 1) s β ξ) (hi : i < m) :
    (∃ s' β' ξ', solveStep nd (enc E) (List.ofFn fun i => decide (i ∈ Set.range piv)) i s = .ok s' ∧ SolInv E piv b0 i s' β' ξ') ∨
    (solveStep nd (enc E) (List.ofFn fun i => decide (i ∈ Set.range piv)) i s = .throw ∧ ∀ (g : Int) y, E *ᵥ y = g • b0 → g = 0) := by
  have h' := h
  obtain ⟨j, f, b, x⟩ := s
  obtain ⟨hj, hjle, hf, hb, hx, heq, hzero, hlow, hmin⟩ := h
  simp only at hj hjle hf hb hx heq hlow hmin
  subst hb hx
  rw [solveStep, get_bits piv hi, Res.ok_bind]
  simp only
  have hget := get_ofFn β ⟨i, hi⟩
  simp only at hget
  rw [hget, Res.ok_bind]
  by_cases hp : (⟨i, hi⟩ : Fin m) ∈ Set.range piv
  · left
    rw [decide_eq_true hp, if_pos rfl]
    obtain ⟨t0, ht0⟩ := hp
    have hv : (piv t0).val = i := by rw [ht0]
    have hjt : j = t0.val + 1 := by
      have h1 := (hj t0).2 (by omega)
      by_contra c
      have h2 : t0.val + 1 < k := by omega
      have h3 := (hj ⟨t0.val + 1, h2⟩).1 (by simp only; omega)
      have h4 : piv t0 < piv ⟨t0.val + 1, h2⟩ := hE.mono (Fin.lt_def.2 (by simp))
      rw [Fin.lt_def] at h4
      omega
    subst hjt
    rw [if_neg (by omega)]
    have hge := C45_get E ⟨i, hi⟩ t0
    simp only at hge
    rw [Nat.add_sub_cancel, hge, Res.ok_bind]
    have he : 0 < E ⟨i, hi⟩ t0 := by rw [← ht0]; exact hE.pos t0
    obtain ⟨e, hee⟩ : ∃ e, E ⟨i, hi⟩ t0 = e := ⟨_, rfl⟩
    obtain ⟨bi, hbi⟩ : ∃ bi, β ⟨i, hi⟩ = bi := ⟨_, rfl⟩
    rw [hee] at he
    rw [hee, hbi, Res.assertIn_bind nd (decide_eq_true (show e > 0 from he))]
    have hd0 : (0 : Int) < Int.gcd bi e := by
      have : 0 < Int.gcd bi e := Int.gcd_pos_of_ne_zero_right _ he.ne'
      omega
    rw [Res.assertIn_bind nd (decide_eq_true (show (Int.gcd bi e : Int) > 0 from hd0))]
    obtain ⟨d, hd⟩ : ∃ d : Int, (Int.gcd bi e : Int) = d := ⟨_, rfl⟩
    have hdb : d ∣ bi := hd ▸ Int.gcd_dvd_left ..
    have hde : d ∣ e := hd ▸ Int.gcd_dvd_right ..
    rw [hd] at hd0
    have hcop : ∀ c : Int, e ∣ c * bi → e / d ∣ c := by
      intro c hc
      have h1 : IsCoprime (e / d) (bi / d) := by
        rw [Int.isCoprime_iff_gcd_eq_one, ← hd, Int.gcd_comm]
        exact Int.gcd_ediv_gcd_ediv_gcd (by have := Int.gcd_pos_of_ne_zero_right bi he.ne'; omega)
      refine h1.dvd_of_dvd_mul_right ?_
      obtain ⟨u, hu⟩ := hc
      refine ⟨u, ?_⟩
      have e1 : e = e / d * d := (Int.ediv_mul_cancel hde).symm
      have e2 : bi = bi / d * d := (Int.ediv_mul_cancel hdb).symm
      have : (c * (bi / d)) * d = (e / d * u) * d := by
        calc (c * (bi / d)) * d = c * (bi / d * d) := by ring
          _ = c * bi := by rw [← e2]
          _ = e * u := hu
          _ = (e / d * d) * u := by rw [← e1]
          _ = _ := by ring
      exact mul_right_cancel₀ hd0.ne' this
    rw [hd, Int.tdiv_eq_ediv_of_dvd hdb, Int.tdiv_eq_ediv_of_dvd hde]
    obtain ⟨M, hM⟩ : ∃ M, bi / d = M := ⟨_, rfl⟩
    obtain ⟨q, hq⟩ : ∃ q, e / d = q := ⟨_, rfl⟩
    have hbM : bi = M * d := by rw [← hM, Int.ediv_mul_cancel hdb]
    have heq' : e = q * d := by rw [← hq, Int.ediv_mul_cancel hde]
    have hq0 : 0 < q := by
      by_contra c
      have : q * d ≤ 0 := Int.mul_nonpos_of_nonpos_of_nonneg (by omega) hd0.le
      omega
    rw [hq] at hcop
    rw [hM, hq]
    -- the scaling
    have hβz : ∀ r : Nat, i < r → exv β r = 0 := by
      intro r hr
      by_cases c : r < m
      · rw [exv_lt β c]; exact hzero ⟨r, c⟩ hr
      · rw [exv, dif_neg c]
    have hξz : ∀ t : Nat, t < t0.val + 1 → exv ξ t = 0 := by
      intro t ht
      have c : t < k := by omega
      rw [exv_lt ξ c]; exact hlow ⟨t, c⟩ ht
    have hscale : (if d < e then do
          let b ← forUp (fun k (b : List Int) => do Vec.put b k ((← Vec.get b k) * q)) (i + 1) 0 (List.ofFn β)
          let x ← forUp (fun l (x : List Int) => do Vec.put x l ((← Vec.get x l) * q)) ((List.ofFn ξ).length - (t0.val + 1)) (t0.val + 1) (List.ofFn ξ)
          pure (f * q, b, x)
        else pure (f, List.ofFn β, List.ofFn ξ) : Res (Int × List Int × List Int)) =
        .ok (f * q, vk m (fun r => exv β r * q), vk k (fun t => exv ξ t * q)) := by
      by_cases c : d < e
      · rw [if_pos c, ofFn_vk β, ofFn_vk ξ, length_vk,
          forVec (fun _ v => v * q) (by omega) (fun g r _ hr => by rw [get_vk g (by omega), Res.ok_bind, put_vk g (by omega)]), Res.ok_bind,
          forVec (fun _ v => v * q) (by omega) (fun g r _ hr => by rw [get_vk g (by omega), Res.ok_bind, put_vk g (by omega)]), Res.ok_bind,
          Res.pure_eq]
        congr 1
        refine pair_ext rfl (pair_ext (vk_congr fun r hr => ?_) (vk_congr fun t ht => ?_))
        · by_cases c' : 0 ≤ r ∧ r < 0 + (i + 1)
          · rw [if_pos c']
          · rw [if_neg c', hβz r (by omega), zero_mul]
        · by_cases c' : t0.val + 1 ≤ t ∧ t < t0.val + 1 + (k - (t0.val + 1))
          · rw [if_pos c']
          · rw [if_neg c', hξz t (by omega), zero_mul]
      · have hle : d ≤ e := Int.le_of_dvd he hde
        obtain rfl : d = e := by omega
        have hq1 : q = 1 := by
          rw [← hq]; exact Int.ediv_self he.ne'
        rw [if_neg c, hq1, mul_one, Res.pure_eq, ofFn_vk β, ofFn_vk ξ]
        simp only [mul_one]
    rw [hscale, Res.ok_bind]
    simp only
    have hbi' : exv β i = bi := by rw [exv_lt β hi, hbi]
    rw [get_vk _ hi, Res.ok_bind, hbi']
    have hass : M = (bi * q).tdiv e := by
      rw [hbM, mul_assoc, mul_comm d q, ← heq', Int.mul_tdiv_cancel _ he.ne']
    rw [Res.assertIn_bind nd (decide_eq_true hass), put_vk _ t0.2, Res.ok_bind]
    rw [forVec (fun r v => v - ex E r t0.val * M) (by omega) (fun g r _ hr => by
        rw [get_vk g (by omega), Res.ok_bind, enc_tb, get_tb _ (by omega) t0.2, Res.ok_bind, put_vk g (by omega)]), Res.ok_bind,
      get_vk _ hi, Res.ok_bind]
    have hz : (if 0 ≤ i ∧ i < 0 + (i + 1) then exv β i * q - ex E i t0.val * M else exv β i * q) = 0 := by
      rw [if_pos (by omega), hbi', ex_lt E hi t0.2]
      have e1 : E ⟨i, hi⟩ ⟨t0.val, t0.2⟩ = e := hee
      rw [e1, hbM, heq']; ring
    rw [Res.assertIn_bind nd (decide_eq_true hz), Res.pure_eq]
    refine ⟨_, fun r => q * β r - E r t0 * M, Function.update (fun t => q * ξ t) t0 M, rfl, ?_, ?_, ?_, ?_, ?_, ?_, ?_, ?_, ?_⟩
    · intro t
      simp only
      have h1 := hj t
      constructor
      · intro h
        have h2 : piv t < piv t0 := hE.mono (Fin.lt_def.2 h)
        rw [Fin.lt_def] at h2; omega
      · intro h
        by_contra c
        have h2 : piv t0 ≤ piv t := hE.mono.monotone (Fin.le_def.2 (by omega))
        rw [Fin.le_def] at h2; omega
    · simp only; omega
    · exact mul_pos hf hq0
    · simp only
      rw [vk_ofFn]
      congr 1; funext r
      rw [exv_fin]
      by_cases c : 0 ≤ r.val ∧ r.val < 0 + (i + 1)
      · rw [if_pos c, ex_fin, mul_comm]
      · rw [if_neg c, hzero r (by omega), hE.below r t0 (by rw [ht0, Fin.lt_def]; simp only; omega)]
        ring
    · simp only
      rw [vk_ofFn]
      congr 1; funext t
      rw [Function.update_apply, exv_fin]
      by_cases c : t = t0
      · rw [if_pos (congrArg Fin.val c), if_pos c]
      · rw [if_neg (fun e => c (Fin.ext e)), if_neg c, mul_comm]
    · funext r
      have h0 : ξ t0 = 0 := hlow t0 (by omega)
      have e1 : (Function.update (fun t => q * ξ t) t0 M) = q • ξ + Pi.single t0 M := by
        funext t
        by_cases c : t = t0
        · subst c; simp [h0]
        · simp [c]
      rw [e1, Matrix.mulVec_add, Matrix.mulVec_smul]
      have e2 := congrFun heq r
      simp only [Pi.sub_apply, Pi.smul_apply, smul_eq_mul, Pi.add_apply, Matrix.mulVec_single, Matrix.col_apply,
        MulOpposite.smul_eq_mul_unop, MulOpposite.unop_op] at e2 ⊢
      rw [e2]; ring
    · intro r hr
      by_cases c : r.val = i
      · obtain rfl : r = ⟨i, hi⟩ := Fin.ext c
        rw [hbi, hee, hbM, heq']; ring
      · rw [hzero r (by omega), hE.below r t0 (by rw [ht0, Fin.lt_def]; simp only; omega)]
        ring
    · intro t ht
      simp only at ht
      rw [Function.update_of_ne (fun e => by subst e; omega), hlow t (by omega), mul_zero]
    · intro g y hy
      simp only
      obtain ⟨c, w, hc, hw, hwz⟩ := h'.reduce hE hy
      simp only at hc hwz
      have h1 := (h'.rowValue hE hi hwz).1 t0 ht0
      rw [hw, Pi.smul_apply, hbi, hee, smul_eq_mul] at h1
      rw [hc]
      exact mul_dvd_mul_left f (hcop c ⟨w t0, h1⟩)
  · rw [decide_eq_false hp, if_neg (by simp)]
    by_cases hz : β ⟨i, hi⟩ = 0
    · left
      rw [if_neg (by simp [hz]), Res.pure_eq]
      refine ⟨_, β, ξ, rfl, ?_, hjle, hf, rfl, rfl, heq, ?_, hlow, hmin⟩
      · intro t
        rw [hj t]
        have : (piv t).val ≠ i := fun e => hp ⟨t, Fin.ext e⟩
        omega
      · intro r hr
        by_cases c : r.val = i
        · obtain rfl : r = ⟨i, hi⟩ := Fin.ext c
          exact hz
        · exact hzero r (by omega)
    · right
      rw [if_pos hz]
      refine ⟨rfl, fun g y hy => ?_⟩
      obtain ⟨c, w, hc, hw, hwz⟩ := h'.reduce hE hy
      have h1 := (h'.rowValue hE hi hwz).2 (fun t ht => hp ⟨t, ht⟩)
      rw [hw, Pi.smul_apply, smul_eq_mul] at h1
      rcases mul_eq_zero.1 h1 with h | h
      · rw [hc, h, mul_zero]
      · exact absurd h hz

theorem solveLoop_spec (nd : Bool) (hE : IsEchelon E piv) {b0 : Fin m → Int} (i : Nat) (hi : i ≤ m) {s : Sol} {β : Fin m → Int} {ξ : Fin k → Int}
    (h : SolInv E piv b0 i s β ξ) :
    (∃ s' β' ξ', forDown (solveStep nd (enc E) (List.ofFn fun i => decide (i ∈ Set.range piv))) i s = .ok s' ∧ SolInv E piv b0 0 s' β' ξ') ∨
    (forDown (solveStep nd (enc E) (List.ofFn fun i => decide (i ∈ Set.range piv))) i s = .throw ∧ ∀ (g : Int) y, E *ᵥ y = g • b0 → g = 0) := by
  induction i generalizing s β ξ with
  | zero => exact .inl ⟨s, β, ξ, rfl, h⟩
  | succ i ih =>
    rw [forDown]
    rcases solveStep_spec nd hE h (by omega) with ⟨s', β', ξ', h1, h2⟩ | ⟨h1, h2⟩
    · rw [h1, Res.ok_bind]; exact ih (by omega) h2
    · right; rw [h1, Res.throw_bind]; exact ⟨rfl, h2⟩

theorem members_length (hE : IsEchelon E piv) : (members (List.ofFn fun i => decide (i ∈ Set.range piv))).length = k := by
  have h : (members (List.ofFn fun i => decide (i ∈ Set.range piv))).Perm ((List.finRange k).map fun t => (piv t).val) := by
    rw [List.perm_ext_iff_of_nodup]
    · intro r
      rw [members, List.mem_filter, List.mem_range, List.length_ofFn, List.mem_map]
      constructor
      · rintro ⟨h1, h2⟩
        rw [List.getD_eq_getElem?_getD, List.getElem?_eq_getElem (by simpa using h1), Option.getD_some, List.getElem_ofFn, decide_eq_true_eq] at h2
        obtain ⟨t, ht⟩ := h2
        exact ⟨t, List.mem_finRange t, congrArg Fin.val ht⟩
      · rintro ⟨t, _, rfl⟩
        refine ⟨(piv t).2, ?_⟩
        rw [List.getD_eq_getElem?_getD, List.getElem?_eq_getElem (by simp), Option.getD_some, List.getElem_ofFn, decide_eq_true_eq]
        exact ⟨t, rfl⟩
    · exact List.Nodup.filter _ List.nodup_range
    · exact (List.nodup_finRange k).map fun a b e => hE.mono.injective (Fin.ext e)
  rw [h.length_eq]; simp

/-- `echelon_solve` -/
theorem echelonSolve_spec (nd : Bool) (hE : IsEchelon E piv) (b0 : Fin m → Int) :
    (∃ x f, echelonSolve nd (enc E) (List.ofFn fun i => decide (i ∈ Set.range piv)) (List.ofFn b0) = .ok (List.ofFn x, f) ∧
      0 < f ∧ E *ᵥ x = f • b0 ∧ ∀ (g : Int) y, E *ᵥ y = g • b0 → f ∣ g) ∨
    (echelonSolve nd (enc E) (List.ofFn fun i => decide (i ∈ Set.range piv)) (List.ofFn b0) = .throw ∧ ∀ (g : Int) y, E *ᵥ y = g • b0 → g = 0) := by
  rw [echelonSolve, Res.assertIn_bind nd (decide_eq_true (show (List.ofFn b0).length = (enc E).rows by simp [enc])), members_length hE,
    show (enc E).rows = m from rfl, show (enc E).cols = k from rfl]
  have h0 : SolInv E piv b0 m ⟨k, 1, List.ofFn b0, List.replicate k 0⟩ b0 0 :=
    ⟨fun t => by simp, le_rfl, by simp, rfl, List.ext_getElem (by simp) (by intros; simp), by simp, fun r hr => by omega, fun _ _ => rfl, fun g _ _ => one_dvd g⟩
  rcases solveLoop_spec nd hE m le_rfl h0 with ⟨s', β', ξ', h1, h2⟩ | ⟨h1, h2⟩
  · left
    rw [h1, Res.ok_bind]
    have hj : s'.j = 0 := by
      by_contra c
      have h3 := h2.jle
      have := (h2.j ⟨0, by omega⟩).1 (by simp only; omega)
      omega
    rw [Res.assertIn_bind nd (decide_eq_true hj), Res.pure_eq, h2.x]
    refine ⟨ξ', s'.f, rfl, h2.f, ?_, h2.min⟩
    have hβ : β' = 0 := funext fun r => h2.zero r (Nat.zero_le _)
    have := h2.eq
    rw [hβ] at this
    exact (sub_eq_zero.1 this.symm).symm
  · right
    rw [h1, Res.throw_bind]
    exact ⟨rfl, h2⟩

end

end Verif.Mat
