import Mathlib.Data.List.Sort
import Verif.Mat.Inverse
import Verif.Mat.Reduc2

/-!
The invariants of `diagonalise`.
-/

open Finset
open scoped Matrix

namespace Verif.Mat

variable {m n p k : Nat}

theorem partialColumn_enc (A : Matrix (Fin m) (Fin n) Int) {l a b : Nat} (hl : l < n) (h1 : a ≤ b) (h2 : b ≤ m) :
    partialColumn (enc A) l a b = .ok (List.ofFn fun t : Fin (b - a) => A ⟨a + t.val, by omega⟩ ⟨l, hl⟩) := by
  rw [enc_tb, partialColumn_tb _ hl h1 h2, vk_ofFn]
  congr 2; funext t
  rw [ex_lt A (show a + t.val < m by omega) hl]

/-- clearing the part of column `l` from row `k` on -/
structure RowClear (A : Matrix (Fin m) (Fin n) Int) (k l : Nat) (g : Int) (flip : Bool) (W : Matrix (Fin m) (Fin m) Int) : Prop where
  det : W.det = sgn flip
  above : ∀ (r : Fin m) (c : Fin n), r.val < k → (W * A) r c = A r c
  zeroCol : ∀ c : Fin n, (∀ r : Fin m, k ≤ r.val → A r c = 0) → ∀ r, (W * A) r c = A r c
  col : ∀ (r : Fin m) (c : Fin n), k ≤ r.val → c.val = l → (W * A) r c = if r.val = k then g else 0
  nonneg : 0 ≤ g
  zero : g = 0 → ∀ (r : Fin m) (c : Fin n), k ≤ r.val → c.val = l → A r c = 0
  fix : ∀ d, 0 < d → (∀ (r : Fin m) (c : Fin n), k ≤ r.val → c.val = l → d ∣ A r c) →
    (∀ (r : Fin m) (c : Fin n), r.val = k → c.val = l → A r c = d) → k < m →
    g = d ∧ flip = false ∧ ∀ (r : Fin m) (c : Fin n), r.val = k → (W * A) r c = A r c
  dvd : ∀ (r : Fin m) (c : Fin n), k ≤ r.val → c.val = l → g ∣ A r c
  lt : g ≠ 0 → k < m

theorem rowClear_spec (nd : Bool) (A : Matrix (Fin m) (Fin n) Int) {k l : Nat} (hk : k ≤ m) (hl : l < n) :
    ∃ (v : List Int) (g : Int) (D : Matrix (Fin (m - k)) (Fin (m - k)) Int) (flip : Bool),
      partialColumn (enc A) l k m = .ok v ∧ gcd nd v true false 0 = .ok (g, some (enc D), flip) ∧
      RowClear A k l g flip (embed m k Dᵀ) := by
  have hp := partialColumn_enc A hl hk le_rfl
  have hdest : 0 < m - k ∨ (fun t : Fin (m - k) => A ⟨k + t.val, by omega⟩ ⟨l, hl⟩) = 0 := by
    by_cases c : 0 < m - k
    · exact .inl c
    · right; funext t; exact absurd t.2 (by omega)
  obtain ⟨g, D, flip, h1, h2⟩ := gcd_spec nd (fun t : Fin (m - k) => A ⟨k + t.val, by omega⟩ ⟨l, hl⟩) false 0 hdest
  have hv := h2.value hdest
  refine ⟨_, g, D, flip, hp, h1, ?_⟩
  have hkm : k + (m - k) ≤ m := by omega
  have hrow : ∀ r : Fin m, k ≤ r.val → ∃ t : Fin (m - k), r = ⟨k + t.val, by omega⟩ :=
    fun r hr => ⟨⟨r.val - k, by omega⟩, Fin.ext (by simp only; omega)⟩
  refine ⟨?_, ?_, ?_, ?_, ?_, ?_, ?_, ?_, ?_⟩
  · rw [det_embed hkm, Matrix.det_transpose, h2.det]; simp
  · intro r c hr
    exact embed_mul_out A Dᵀ c (by omega)
  · intro c hc r
    by_cases hr : k ≤ r.val
    · obtain ⟨t, rfl⟩ := hrow r hr
      rw [embed_mul_in hkm, hc _ (by simp)]
      exact Finset.sum_eq_zero fun t _ => by rw [hc _ (by simp), mul_zero]
    · exact embed_mul_out A Dᵀ c (by omega)
  · intro r c hr hc
    obtain ⟨t, rfl⟩ := hrow r hr
    obtain rfl : c = ⟨l, hl⟩ := Fin.ext hc
    rw [embed_mul_in hkm]
    have := congrFun h2.row t
    rw [Matrix.vecMul, dotProduct] at this
    simp only at this ⊢
    rw [show (if k + t.val = k then g else 0) = if t.val = 0 then g else 0 from if_congr (by omega) rfl rfl, ← this]
    exact Finset.sum_congr rfl fun s _ => by rw [Matrix.transpose_apply, mul_comm]
  · rw [hv]
    exact Int.nonneg_of_normalize_eq_self Finset.normalize_gcd
  · intro hg r c hr hc
    obtain ⟨t, rfl⟩ := hrow r hr
    obtain rfl : c = ⟨l, hl⟩ := Fin.ext hc
    rw [hv, Finset.gcd_eq_zero_iff] at hg
    exact hg t (Finset.mem_univ t)
  · intro d hd hdiv hkl hk'
    have hpos : 0 < m - k := by omega
    have e0 : A ⟨k + (⟨0, hpos⟩ : Fin (m - k)).val, by simp only; omega⟩ ⟨l, hl⟩ = d := hkl _ _ (by simp) rfl
    obtain ⟨f1, f2, f3⟩ := h2.fix hpos rfl (by simp only at e0 ⊢; rw [e0]; exact hd) (by
      intro j; simp only at e0 ⊢; rw [e0]; exact hdiv _ _ (by simp) rfl)
    refine ⟨f1.trans e0, f2, ?_⟩
    intro r c hr
    obtain ⟨t, rfl⟩ := hrow r (by omega)
    have ht : t = ⟨0, hpos⟩ := Fin.ext (by simp only at hr ⊢; omega)
    subst ht
    rw [embed_mul_in hkm, Finset.sum_eq_single ⟨0, hpos⟩]
    · rw [Matrix.transpose_apply, f3, if_pos rfl, one_mul]
    · intro s _ hs
      rw [Matrix.transpose_apply, f3, if_neg (fun e => hs (Fin.ext e)), zero_mul]
    · intro h; exact absurd (Finset.mem_univ _) h
  · intro r c hr hc
    obtain ⟨t, rfl⟩ := hrow r hr
    obtain rfl : c = ⟨l, hl⟩ := Fin.ext hc
    rw [hv]
    exact Finset.gcd_dvd (f := fun t : Fin (m - k) => A ⟨k + t.val, by omega⟩ ⟨l, hl⟩) (Finset.mem_univ t)
  · intro hg
    by_contra c
    exact hg (h2.zero (hdest.resolve_left (by omega))).1

/-- clearing the part of row `k` from column `l` on -/
structure ColClear (A : Matrix (Fin m) (Fin n) Int) (k l : Nat) (g : Int) (flip : Bool) (W : Matrix (Fin n) (Fin n) Int) : Prop where
  det : W.det = sgn flip
  before : ∀ (r : Fin m) (c : Fin n), c.val < l → (A * W) r c = A r c
  zeroRow : ∀ r : Fin m, (∀ c : Fin n, l ≤ c.val → A r c = 0) → ∀ c, (A * W) r c = A r c
  row : ∀ (r : Fin m) (c : Fin n), l ≤ c.val → r.val = k → (A * W) r c = if c.val = l then g else 0
  nonneg : 0 ≤ g
  zero : g = 0 → ∀ (r : Fin m) (c : Fin n), l ≤ c.val → r.val = k → A r c = 0
  fix : ∀ d, 0 < d → (∀ (r : Fin m) (c : Fin n), l ≤ c.val → r.val = k → d ∣ A r c) →
    (∀ (r : Fin m) (c : Fin n), r.val = k → c.val = l → A r c = d) → l < n →
    g = d ∧ flip = false ∧ ∀ (r : Fin m) (c : Fin n), c.val = l → (A * W) r c = A r c
  dvd : ∀ (r : Fin m) (c : Fin n), l ≤ c.val → r.val = k → g ∣ A r c
  lt : g ≠ 0 → l < n

theorem colClear_spec (nd : Bool) (A : Matrix (Fin m) (Fin n) Int) (flip0 : Bool) {k l : Nat} (hk : k < m) (hl : l ≤ n) :
    ∃ (v : List Int) (g : Int) (D : Matrix (Fin (n - l)) (Fin (n - l)) Int) (flip : Bool),
      partialRow (enc A) k l n = .ok v ∧ gcd nd v true flip0 0 = .ok (g, some (enc D), flip) ∧
      ColClear A k l g (xor flip0 flip) (embed n l D) := by
  have hp := partialRow_enc A ⟨k, hk⟩ hl le_rfl
  have hdest : 0 < n - l ∨ (fun t : Fin (n - l) => A ⟨k, hk⟩ ⟨l + t.val, by omega⟩) = 0 := by
    by_cases c : 0 < n - l
    · exact .inl c
    · right; funext t; exact absurd t.2 (by omega)
  obtain ⟨g, D, flip, h1, h2⟩ := gcd_spec nd (fun t : Fin (n - l) => A ⟨k, hk⟩ ⟨l + t.val, by omega⟩) flip0 0 hdest
  have hv := h2.value hdest
  refine ⟨_, g, D, flip, hp, h1, ?_⟩
  have hkm : l + (n - l) ≤ n := by omega
  have hrow : ∀ r : Fin n, l ≤ r.val → ∃ t : Fin (n - l), r = ⟨l + t.val, by omega⟩ :=
    fun r hr => ⟨⟨r.val - l, by omega⟩, Fin.ext (by simp only; omega)⟩
  refine ⟨?_, ?_, ?_, ?_, ?_, ?_, ?_, ?_, ?_⟩
  · rw [det_embed hkm, h2.det]
  · intro r c hr
    exact mul_embed_out A D r (by omega)
  · intro r hr c
    by_cases hc : l ≤ c.val
    · obtain ⟨t, rfl⟩ := hrow c hc
      rw [mul_embed_in hkm, hr _ (by simp)]
      exact Finset.sum_eq_zero fun t _ => by rw [hr _ (by simp), zero_mul]
    · exact mul_embed_out A D r (by omega)
  · intro r c hc hr
    obtain ⟨t, rfl⟩ := hrow c hc
    obtain rfl : r = ⟨k, hk⟩ := Fin.ext hr
    rw [mul_embed_in hkm]
    have := congrFun h2.row t
    rw [Matrix.vecMul, dotProduct] at this
    simp only at this ⊢
    rw [show (if l + t.val = l then g else 0) = if t.val = 0 then g else 0 from if_congr (by omega) rfl rfl, ← this]
  · rw [hv]
    exact Int.nonneg_of_normalize_eq_self Finset.normalize_gcd
  · intro hg r c hc hr
    obtain ⟨t, rfl⟩ := hrow c hc
    obtain rfl : r = ⟨k, hk⟩ := Fin.ext hr
    rw [hv, Finset.gcd_eq_zero_iff] at hg
    exact hg t (Finset.mem_univ t)
  · intro d hd hdiv hkl hl'
    have hpos : 0 < n - l := by omega
    have e0 : A ⟨k, hk⟩ ⟨l + (⟨0, hpos⟩ : Fin (n - l)).val, by simp only; omega⟩ = d := hkl _ _ rfl (by simp)
    obtain ⟨f1, f2, f3⟩ := h2.fix hpos rfl (by simp only at e0 ⊢; rw [e0]; exact hd) (by
      intro j; simp only at e0 ⊢; rw [e0]; exact hdiv _ _ (by simp) rfl)
    refine ⟨f1.trans e0, by rw [f2]; simp, ?_⟩
    intro r c hc
    obtain ⟨t, rfl⟩ := hrow c (by omega)
    have ht : t = ⟨0, hpos⟩ := Fin.ext (by simp only at hc ⊢; omega)
    subst ht
    rw [mul_embed_in hkm, Finset.sum_eq_single ⟨0, hpos⟩]
    · rw [f3, if_pos rfl, mul_one]
    · intro s _ hs
      rw [f3, if_neg (fun e => hs (Fin.ext e)), mul_zero]
    · intro h; exact absurd (Finset.mem_univ _) h
  · intro r c hc hr
    obtain ⟨t, rfl⟩ := hrow c hc
    obtain rfl : r = ⟨k, hk⟩ := Fin.ext hr
    rw [hv]
    exact Finset.gcd_dvd (f := fun t : Fin (n - l) => A ⟨k, hk⟩ ⟨l + t.val, by omega⟩) (Finset.mem_univ t)
  · intro hg
    by_contra c
    exact hg (h2.zero (hdest.resolve_left (by omega))).1

/-- the matrices held by the state of `diagonalise` -/
structure Holds (A : Matrix (Fin m) (Fin n) Int) (fix : Bool) (s : Diag) (R : Matrix (Fin m) (Fin m) Int) (C : Matrix (Fin n) (Fin n) Int) :
    Prop where
  M : s.M = enc (R * A * C)
  row : s.row = enc R
  col : s.col = enc C
  unit : IsUnit R.det
  detR : fix = true → R.det = sgn s.rm
  detC : C.det = sgn s.cm

/-- state inside the iteration for column `l`, while entries of rows before `k` and columns before `l` are given by `F` -/
structure DInner (A : Matrix (Fin m) (Fin n) Int) (fix : Bool) (F : Nat → Nat → Int) (k l : Nat) (d : Int) (s : Diag)
    (R : Matrix (Fin m) (Fin m) Int) (C : Matrix (Fin n) (Fin n) Int) : Prop extends Holds A fix s R C where
  kk : s.k = k
  frame : ∀ (r : Fin m) (c : Fin n), r.val < k ∨ c.val < l → (R * A * C) r c = F r c
  colz : ∀ (r : Fin m) (c : Fin n), k ≤ r.val → c.val = l → (R * A * C) r c = if r.val = k then d else 0
  pos : 0 < d

/-- applying row operations -/
theorem diagRow_spec (nd : Bool) {A : Matrix (Fin m) (Fin n) Int} {s : Diag} {R : Matrix (Fin m) (Fin m) Int}
    {C : Matrix (Fin n) (Fin n) Int} {l : Nat} (hl : l < n) (hk : s.k < m) (hM : s.M = enc (R * A * C)) (hrow : s.row = enc R)
    {g : Int} {flip : Bool} {D : Matrix (Fin (m - s.k)) (Fin (m - s.k)) Int} (h : RowClear (R * A * C) s.k l g flip (embed m s.k Dᵀ)) :
    diagRow nd (g, some (enc D), flip) l s =
      .ok { s with M := enc (embed m s.k Dᵀ * R * A * C), row := enc (embed m s.k Dᵀ * R) } := by
  rw [diagRow, theOps, Res.ok_bind, C45_transpose, Res.ok_bind, hM, rowApply_embed nd (by omega), Res.ok_bind, hrow,
    rowApply_embed nd (by omega), Res.ok_bind]
  have hget := C45_get (embed m s.k Dᵀ * (R * A * C)) ⟨s.k, hk⟩ ⟨l, hl⟩
  simp only at hget
  rw [hget, Res.ok_bind, h.col _ _ le_rfl rfl, if_pos rfl, Res.assertIn_bind nd (by simp), Res.pure_eq]
  simp only [Matrix.mul_assoc]

theorem diagInner_spec (nd : Bool) {A : Matrix (Fin m) (Fin n) Int} {fix : Bool} {F : Nat → Nat → Int} {k l : Nat} (hk : k < m) (hl : l < n)
    (hF1 : ∀ r c, k ≤ r → F r c = 0) (hF2 : ∀ r c, l ≤ c → F r c = 0) (fuel : Nat) {d : Int} {s : Diag}
    {R : Matrix (Fin m) (Fin m) Int} {C : Matrix (Fin n) (Fin n) Int} (h : DInner A fix F k l d s R C) (hfuel : d.natAbs < fuel) :
    ∃ d' s' R' C', diagInner nd l fuel d s = .ok (d', false, s') ∧ DInner A fix F k l d' s' R' C' ∧
      (∀ (r : Fin m) (c : Fin n), r.val = k → l ≤ c.val → (R' * A * C') r c = if c.val = l then d' else 0) ∧
      s'.piv = s.piv ∧ s'.diag = s.diag := by
  induction fuel generalizing d s R C with
  | zero => omega
  | succ fuel ih =>
    obtain ⟨M, row, col, rm, cm, piv, diag, k'⟩ := s
    obtain ⟨⟨hM, hrow, hcol, hu, hdR, hdC⟩, hkk, hframe, hcolz, hpos⟩ := h
    simp only at hM hrow hcol hdR hdC hkk
    subst hM hrow hcol hkk
    rw [diagInner]
    simp only
    obtain ⟨v, g, D, flip, e1, e2, hc⟩ := colClear_spec nd (R * A * C) false hk (show l ≤ n by omega)
    rw [show (enc (R * A * C)).cols = n from rfl, e1, Res.ok_bind, e2, Res.ok_bind, theOps, Res.ok_bind,
      columnApply_embed nd (by omega), Res.ok_bind, columnApply_embed nd (by omega), Res.ok_bind]
    have hget := C45_get (R * A * C * embed n l D) ⟨k', hk⟩ ⟨l, hl⟩
    simp only at hget
    rw [hget, Res.ok_bind, hc.row _ _ le_rfl rfl, if_pos rfl, Res.assertIn_bind nd (by simp)]
    rw [Bool.false_xor] at hc
    have hassoc : R * A * C * embed n l D = R * A * (C * embed n l D) := Matrix.mul_assoc _ _ _
    rw [hassoc]
    have hframe' : ∀ (r : Fin m) (c : Fin n), r.val < k' ∨ c.val < l → (R * A * (C * embed n l D)) r c = F r c := by
      intro r c h
      by_cases c' : c.val < l
      · rw [← hassoc]
        rw [hc.before r c c']; exact hframe r c (.inr c')
      · have hr : r.val < k' := by omega
        rw [← hassoc]
        rw [hc.zeroRow r (fun c hc => by rw [hframe r c (.inl hr)]; exact hF2 _ _ hc) c]
        exact hframe r c (.inl hr)
    have hdetC : (C * embed n l D).det = sgn (xor cm flip) := by
      rw [Matrix.det_mul, hdC, hc.det, sgn_xor]
    have hgd : g ∣ d := by
      have := hc.dvd ⟨k', hk⟩ ⟨l, hl⟩ le_rfl rfl
      rwa [hcolz _ _ le_rfl rfl, if_pos rfl] at this
    have hgpos : 0 < g := by
      refine lt_of_le_of_ne hc.nonneg fun e => ?_
      rw [← e] at hgd
      exact hpos.ne' (zero_dvd_iff.1 hgd)
    by_cases cd : g = d
    · subst cd
      rw [if_pos rfl, Res.pure_eq]
      obtain ⟨_, f2, f3⟩ := hc.fix g hpos (fun r c h1 h2 => hc.dvd r c h1 h2)
        (fun r c h1 h2 => by rw [hcolz r c (by omega) h2, if_pos h1]) hl
      rw [hassoc] at f3
      subst f2
      refine ⟨g, _, R, C * embed n l D, rfl, ⟨⟨rfl, rfl, rfl, hu, hdR, hdetC⟩, rfl, hframe', ?_, hpos⟩, ?_, rfl, rfl⟩
      · intro r c h1 h2
        rw [f3 r c h2]; exact hcolz r c h1 h2
      · intro r c h1 h2
        rw [← hassoc]
        exact hc.row r c h2 h1
    · rw [if_neg cd]
      have hlt : g < d := lt_of_le_of_ne (Int.le_of_dvd hpos hgd) cd
      obtain ⟨v', g', D', flip', e1', e2', hr⟩ := rowClear_spec nd (R * A * (C * embed n l D)) hk.le hl
      rw [show (enc (R * A * (C * embed n l D))).rows = m from rfl, e1', Res.ok_bind, e2', Res.ok_bind]
      simp only
      rw [diagRow_spec nd (s := ⟨enc (R * A * (C * embed n l D)), enc R, enc (C * embed n l D), rm ^^ flip', cm ^^ flip, piv, diag, k'⟩)
        (C := C * embed n l D) (R := R) (A := A) hl hk rfl rfl hr, Res.ok_bind]
      simp only
      have hassoc' : embed m k' D'ᵀ * (R * A * (C * embed n l D)) = embed m k' D'ᵀ * R * A * (C * embed n l D) := by
        simp only [Matrix.mul_assoc]
      have hframe'' : ∀ (r : Fin m) (c : Fin n), r.val < k' ∨ c.val < l →
          (embed m k' D'ᵀ * R * A * (C * embed n l D)) r c = F r c := by
        intro r c h
        rw [← hassoc']
        by_cases c' : r.val < k'
        · rw [hr.above r c c']; exact hframe' r c (.inl c')
        · have hc : c.val < l := by omega
          rw [hr.zeroCol c (fun r hr => by rw [hframe' r c (.inr hc)]; exact hF1 _ _ hr) r]
          exact hframe' r c (.inr hc)
      have hdetR : (embed m k' D'ᵀ * R).det = sgn flip' * R.det := by rw [Matrix.det_mul, hr.det]
      have hg'g : g' ∣ g := by
        have := hr.dvd ⟨k', hk⟩ ⟨l, hl⟩ le_rfl rfl
        rwa [← hassoc, hc.row _ _ le_rfl rfl, if_pos rfl] at this
      have hg'pos : 0 < g' := by
        refine lt_of_le_of_ne hr.nonneg fun e => ?_
        rw [← e] at hg'g
        exact hgpos.ne' (zero_dvd_iff.1 hg'g)
      have hH : ∀ M', M' = enc (embed m k' D'ᵀ * R * A * (C * embed n l D)) →
          Holds A fix ⟨M', enc (embed m k' D'ᵀ * R), enc (C * embed n l D), rm ^^ flip', cm ^^ flip, piv, diag, k'⟩
          (embed m k' D'ᵀ * R) (C * embed n l D) := by
        rintro M' rfl
        refine ⟨rfl, rfl, rfl, ?_, ?_, hdetC⟩
        · rw [hdetR]; exact (sgn_unit _).mul hu
        · intro hf
          rw [hdetR, hdR hf, sgn_xor, mul_comm]
      have hcolz'' : ∀ (r : Fin m) (c : Fin n), k' ≤ r.val → c.val = l →
          (embed m k' D'ᵀ * R * A * (C * embed n l D)) r c = if r.val = k' then g' else 0 := by
        intro r c h1 h2
        rw [← hassoc']; exact hr.col r c h1 h2
      by_cases cg : g' < g
      · rw [if_pos cg]
        obtain ⟨d', s', R', C', i1, i2, i3, i4, i5⟩ := ih (d := g') (s := ⟨enc (embed m k' D'ᵀ * R * A * (C * embed n l D)),
          enc (embed m k' D'ᵀ * R), enc (C * embed n l D), rm ^^ flip', cm ^^ flip, piv, diag, k'⟩)
          (R := embed m k' D'ᵀ * R) (C := C * embed n l D)
          ⟨hH _ rfl, rfl, hframe'', hcolz'', hg'pos⟩ (by omega)
        exact ⟨d', s', R', C', i1, i2, i3, i4, i5⟩
      · rw [if_neg cg, Res.pure_eq]
        have hgg : g' = g := le_antisymm (Int.le_of_dvd hgpos hg'g) (not_lt.1 cg)
        subst hgg
        obtain ⟨_, f2, f3⟩ := hr.fix g' hgpos (fun r c h1 h2 => hr.dvd r c h1 h2)
          (fun r c h1 h2 => by rw [← hassoc, hc.row r c (by omega) h1, if_pos h2]) hk
        subst f2
        refine ⟨g', _, embed m k' D'ᵀ * R, C * embed n l D, rfl, ⟨hH _ rfl, rfl, hframe'', hcolz'', hgpos⟩, ?_, rfl, rfl⟩
        intro r c h1 h2
        rw [← hassoc', f3 r c h1, ← hassoc]
        exact hc.row r c h2 h1

end Verif.Mat
