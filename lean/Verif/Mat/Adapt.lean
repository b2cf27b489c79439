import Verif.Mat.Diag2

/-!
The invariants of `adapted_basis`.
-/

open Finset
open scoped Matrix

namespace Verif.Mat

variable {m n k : Nat}

/-! ### elementary operations -/

theorem updateCol_mul_updateRow {p : Nat} (X : Matrix (Fin p) (Fin m) Int) (Y : Matrix (Fin m) (Fin n) Int) {i k : Fin m} (h : i ≠ k) (q : Int) :
    X.updateCol i (fun r => X r i + q * X r k) * Y.updateRow k (fun c => Y k c - q * Y i c) = X * Y := by
  ext r c
  rw [Matrix.mul_apply, Matrix.mul_apply]
  have e : ∀ s, X.updateCol i (fun r => X r i + q * X r k) r s * Y.updateRow k (fun c => Y k c - q * Y i c) s c =
      X r s * Y s c + ((if s = i then q * X r k * Y i c else 0) + (if s = k then - (X r k * (q * Y i c)) else 0)) := by
    intro s
    rw [Matrix.updateCol_apply, Matrix.updateRow_apply]
    by_cases h1 : s = i
    · subst h1; rw [if_pos rfl, if_neg h, if_pos rfl, if_neg h]; ring
    · rw [if_neg h1, if_neg h1]
      by_cases h2 : s = k
      · subst h2; rw [if_pos rfl, if_pos rfl]; ring
      · rw [if_neg h2, if_neg h2]; ring
  simp only [e]
  rw [Finset.sum_add_distrib, Finset.sum_add_distrib, Finset.sum_ite_eq', Finset.sum_ite_eq', if_pos (Finset.mem_univ _), if_pos (Finset.mem_univ _)]
  ring

theorem det_addCol (X : Matrix (Fin m) (Fin m) Int) {i k : Fin m} (h : i ≠ k) (q : Int) : (X.updateCol i (fun r => X r i + q * X r k)).det = X.det :=
  Matrix.det_updateCol_add_smul_self X h q

/-! ### the matrix described by the state -/

/-- the first columns are those of a diagonal matrix in the rows of `P`, the others are in `M` -/
def adT (P : List Nat) (D : List Int) (M : Matrix (Fin m) (Fin n) Int) : Matrix (Fin m) (Fin n) Int :=
  Matrix.of fun r c => if c.val < P.length then (if P[c.val]? = some r.val then D[c.val]?.getD 0 else 0) else M r c

theorem adT_lt {P : List Nat} {D : List Int} (M : Matrix (Fin m) (Fin n) Int) (r : Fin m) {c : Fin n} (h : c.val < P.length) :
    adT P D M r c = if P[c.val]? = some r.val then D[c.val]?.getD 0 else 0 := if_pos h

theorem adT_ge {P : List Nat} {D : List Int} (M : Matrix (Fin m) (Fin n) Int) (r : Fin m) {c : Fin n} (h : P.length ≤ c.val) :
    adT P D M r c = M r c := if_neg (by omega)

theorem adT_mul_embed {P : List Nat} {D : List Int} {j : Nat} (hj : j = P.length) (hk : j + k = n) (M : Matrix (Fin m) (Fin n) Int)
    (ops : Matrix (Fin k) (Fin k) Int) : adT P D M * embed n j ops = adT P D (M * embed n j ops) := by
  ext r c
  by_cases h : c.val < j
  · rw [mul_embed_out _ _ _ (by omega), adT_lt _ _ (by omega), adT_lt _ _ (by omega)]
  · obtain ⟨t, ht⟩ : ∃ t : Fin k, c.val = j + t.val := ⟨⟨c.val - j, by omega⟩, by simp only; omega⟩
    have hc : c = ⟨j + t.val, by have := t.2; omega⟩ := Fin.ext ht
    rw [adT_ge _ _ (by omega), hc, mul_embed_in (by omega), mul_embed_in (by omega)]
    refine Finset.sum_congr rfl fun s _ => ?_
    rw [adT_ge _ _ (by simp only; omega)]

/-! ### `find_small_remainder` -/

theorem smallRem_spec (nd : Bool) {p : Nat} (v : Fin p → Int) (hp : 0 < p) {a : Int} (ha : v ⟨0, hp⟩ = a) (hpos : 0 < a) :
    (smallRem nd (List.ofFn v) = .ok none ∧ ∀ t, a ∣ v t) ∨
      ∃ t : Fin p, smallRem nd (List.ofFn v) = .ok (some t.val) ∧ 0 < t.val ∧ 0 < (v t).fmod (a) ∧ (v t).fmod (a) < a := by
  have hlen : (List.ofFn v).length = p := List.length_ofFn
  have e0 : Vec.get (List.ofFn v) 0 = .ok a := by rw [Vec.get_ok (by omega), List.getElem_ofFn, ha]
  rw [smallRem, e0, Res.ok_bind, Res.assertIn_bind nd (decide_eq_true hpos), hlen]
  obtain ⟨s, hs, h1, h2, h3, h4⟩ := forUp_inv (body := fun t (s : Int × Nat) => do
      let x ← Vec.get (List.ofFn v) t
      Res.assertIn nd (decide (0 < a))
      if a = 0 then .undefined
      else if 0 < x.fmod (a) ∧ x.fmod (a) < s.1 then pure (x.fmod (a), t)
      else pure s) (fun t (s : Int × Nat) => 0 < s.1 ∧ s.1 ≤ a ∧
        (s.1 < a → ∃ h : s.2 < p, 0 < s.2 ∧ (v ⟨s.2, h⟩).fmod (a) = s.1) ∧
        (s.1 = a → ∀ u : Fin p, u.val < t → a ∣ v u)) (p - 1) 1 (a, 0)
    ⟨hpos, le_rfl, fun h => absurd h (lt_irrefl _), fun _ u hu => by
      rw [show u = ⟨0, hp⟩ from Fin.ext (by simp only; omega), ha]⟩ (by
      rintro t ⟨mn, k⟩ ht1 ht2 ⟨i1, i2, i3, i4⟩
      simp only at i1 i2 i3 i4
      have htp : t < p := by omega
      rw [Vec.get_ok (by omega), Res.ok_bind, Res.assertIn_bind nd (decide_eq_true hpos), if_neg (by omega)]
      simp only [List.getElem_ofFn]
      have hmod := Int.fmod_lt_of_pos (v ⟨t, htp⟩) hpos
      have hmod' := Int.fmod_nonneg_of_pos (v ⟨t, htp⟩) hpos
      by_cases c : 0 < (v ⟨t, htp⟩).fmod (a) ∧ (v ⟨t, htp⟩).fmod (a) < mn
      · rw [if_pos c, Res.pure_eq]
        exact ⟨_, rfl, c.1, by simp only; omega, fun _ => ⟨htp, by omega, rfl⟩, fun h => by simp only at h; omega⟩
      · rw [if_neg c, Res.pure_eq]
        refine ⟨_, rfl, i1, i2, i3, ?_⟩
        intro h u hu
        simp only at h
        by_cases e : u.val = t
        · have : (v ⟨t, htp⟩).fmod (a) = 0 := by omega
          rw [show u = ⟨t, htp⟩ from Fin.ext e]
          exact Int.dvd_of_fmod_eq_zero this
        · exact i4 h u (by omega))
  rw [hs, Res.ok_bind, Res.pure_eq]
  by_cases c : s.1 < a
  · right
    obtain ⟨h, h', h''⟩ := h3 c
    rw [if_pos c]
    exact ⟨⟨s.2, h⟩, rfl, h', by rw [h'']; exact h1, by rw [h'']; exact c⟩
  · left
    rw [if_neg c]
    exact ⟨rfl, fun t => h4 (by omega) t (by omega)⟩

/-! ### replacing a row by a remainder -/

theorem adaptSwap_tb (nd : Bool) (f g : Nat → Nat → Int) {i k j : Nat} (hi : i < m) (hk : k < m) (hj : j < n) (hik : i ≠ k)
    (hd : f i j ≠ 0) (h1 : 0 < f k j - (f k j).fdiv (f i j) * f i j) (h2 : f k j - (f k j).fdiv (f i j) * f i j < f i j) :
    adaptSwap nd i k j n m (tb m n f) (tb m m g) = .ok
      (tb m n fun r c => if j ≤ c then (if r = i then f k c - (f k j).fdiv (f i j) * f i c else if r = k then f i c else f r c) else f r c,
       tb m m fun r c => if c = i then g r k else if c = k then g r i + (f k j).fdiv (f i j) * g r k else g r c) := by
  rw [adaptSwap, get_tb f hk hj, Res.ok_bind, get_tb f hi hj, Res.ok_bind, if_neg hd]
  have e1 : forUp (fun l (M : Mat Int) => do
      let t ← M.get i l
      let x' ← M.get k l
      let M ← M.set i l (x' - (f k j).fdiv (f i j) * t)
      M.set k l t) (n - j) j (tb m n f) =
      .ok (tb m n fun r c => if j ≤ c then (if r = i then f k c - (f k j).fdiv (f i j) * f i c else if r = k then f i c else f r c) else f r c) := by
    refine forUp_ok (fun l => tb m n fun r c => if j ≤ c ∧ c < l then
      (if r = i then f k c - (f k j).fdiv (f i j) * f i c else if r = k then f i c else f r c) else f r c) ?_ ?_ ?_
    · exact tb_congr fun r c _ _ => by rw [if_neg (by omega)]
    · exact tb_congr fun r c _ hc => if_congr (by omega) rfl rfl
    · intro l hl1 hl2
      have hl : l < n := by omega
      rw [get_tb _ hi hl, Res.ok_bind, get_tb _ hk hl, Res.ok_bind, set_tb _ hi hl, Res.ok_bind, set_tb _ hk hl]
      refine congrArg Res.ok (tb_congr fun r c _ _ => ?_)
      rw [if_neg (show ¬ (j ≤ l ∧ l < l) by omega), if_neg (show ¬ (j ≤ l ∧ l < l) by omega)]
      by_cases c1 : c = l
      · subst c1
        by_cases c2 : r = k
        · subst c2
          rw [if_pos ⟨rfl, rfl⟩, if_pos (by omega), if_neg (by omega), if_pos rfl]
        · rw [if_neg (by omega)]
          by_cases c3 : r = i
          · subst c3
            rw [if_pos ⟨rfl, rfl⟩, if_pos (by omega), if_pos rfl]
          · rw [if_neg (by omega), if_neg (by omega), if_pos (by omega), if_neg c3, if_neg c2]
      · rw [if_neg (by omega), if_neg (by omega)]
        exact if_congr (by omega) rfl rfl
  have e2 : forUp (fun l (B : Mat Int) => do
      let t ← B.get l k
      let x' ← B.get l i
      let B ← B.set l k (x' + (f k j).fdiv (f i j) * t)
      B.set l i t) m 0 (tb m m g) =
      .ok (tb m m fun r c => if c = i then g r k else if c = k then g r i + (f k j).fdiv (f i j) * g r k else g r c) := by
    refine forUp_ok (fun l => tb m m fun r c => if r < l then
      (if c = i then g r k else if c = k then g r i + (f k j).fdiv (f i j) * g r k else g r c) else g r c) ?_ ?_ ?_
    · exact tb_congr fun r c _ _ => by rw [if_neg (by omega)]
    · exact tb_congr fun r c hr _ => if_pos (by omega)
    · intro l hl1 hl2
      have hl : l < m := by omega
      rw [get_tb _ hl hk, Res.ok_bind, get_tb _ hl hi, Res.ok_bind, set_tb _ hl hk, Res.ok_bind, set_tb _ hl hi]
      refine congrArg Res.ok (tb_congr fun r c _ _ => ?_)
      rw [if_neg (lt_irrefl l), if_neg (lt_irrefl l)]
      by_cases c1 : r = l
      · subst c1
        rw [if_pos (show r < r + 1 by omega)]
        by_cases c2 : c = i
        · rw [if_pos ⟨rfl, c2⟩, if_pos c2]
        · rw [if_neg (by omega), if_neg c2]
          by_cases c3 : c = k
          · rw [if_pos ⟨rfl, c3⟩, if_pos c3]
          · rw [if_neg (by omega), if_neg c3, if_neg (lt_irrefl r)]
      · rw [if_neg (by omega), if_neg (by omega)]
        exact if_congr (by omega) rfl rfl
  rw [e1, Res.ok_bind, get_tb _ hi hj, Res.ok_bind, get_tb _ hk hj, Res.ok_bind, if_pos le_rfl, if_pos rfl, if_pos le_rfl, if_neg (Ne.symm hik),
    if_pos rfl, Res.assertIn_bind nd (by rw [decide_eq_true h1, decide_eq_true h2]; rfl), e2]
  rfl

/-- `M` has been brought to the form where row `i` has only an entry `d` in column `j`, and `A * U = B * adT P D M` -/
structure AHold (A : Matrix (Fin m) (Fin n) Int) (P : List Nat) (D : List Int) (M : Matrix (Fin m) (Fin n) Int) (B : Matrix (Fin m) (Fin m) Int)
    (U : Matrix (Fin n) (Fin n) Int) : Prop where
  eq : A * U = B * adT P D M
  detU : IsUnit U.det
  detB : IsUnit B.det

structure AInner (A : Matrix (Fin m) (Fin n) Int) (P : List Nat) (D : List Int) (i j : Nat) (d : Int) (M : Matrix (Fin m) (Fin n) Int)
    (B : Matrix (Fin m) (Fin m) Int) (U : Matrix (Fin n) (Fin n) Int) : Prop extends AHold A P D M B U where
  above : ∀ (r : Fin m) (c : Fin n), r.val < i → j ≤ c.val → M r c = 0
  row : ∀ (r : Fin m) (c : Fin n), r.val = i → j ≤ c.val → M r c = if c.val = j then d else 0
  pos : 0 < d

/-- the effect of clearing row `i` by column operations -/
theorem AHold.colClear {A : Matrix (Fin m) (Fin n) Int} {P : List Nat} {D : List Int} {M : Matrix (Fin m) (Fin n) Int} {B : Matrix (Fin m) (Fin m) Int}
    {U : Matrix (Fin n) (Fin n) Int} (h : AHold A P D M B U) {i j : Nat} (hj : j = P.length) (hjn : j ≤ n) {g : Int} {flip : Bool}
    {ops : Matrix (Fin (n - j)) (Fin (n - j)) Int} (hc : ColClear M i j g flip (embed n j ops))
    (above : ∀ (r : Fin m) (c : Fin n), r.val < i → j ≤ c.val → M r c = 0) (hg : g ≠ 0) :
    AInner A P D i j g (M * embed n j ops) B (U * embed n j ops) := by
  refine ⟨⟨?_, ?_, h.detB⟩, ?_, ?_, lt_of_le_of_ne hc.nonneg (Ne.symm hg)⟩
  · rw [← Matrix.mul_assoc, h.eq, Matrix.mul_assoc, adT_mul_embed hj (by omega)]
  · rw [Matrix.det_mul, hc.det]; exact h.detU.mul (sgn_unit _)
  · intro r c hr hcj
    rw [hc.zeroRow r (fun c hc => above r c hr hc)]
    exact above r c hr hcj
  · intro r c hr hcj
    exact hc.row r c hcj hr

theorem adaptLoop_spec (nd : Bool) {A : Matrix (Fin m) (Fin n) Int} {P : List Nat} {D : List Int} {i j : Nat} (hi : i < m) (hj : j < n)
    (hjP : j = P.length) (hP : ∀ x ∈ P, x < i) (fuel : Nat) {d : Int} {M : Matrix (Fin m) (Fin n) Int} {B : Matrix (Fin m) (Fin m) Int}
    {U : Matrix (Fin n) (Fin n) Int} (h : AInner A P D i j d M B U) (hfuel : d.natAbs < fuel) :
    ∃ d' M' B' U', adaptLoop nd i j n m fuel (enc M) (enc B) d = .ok (enc M', enc B', d') ∧ AInner A P D i j d' M' B' U' ∧
      ∀ r : Fin m, i ≤ r.val → d' ∣ M' r ⟨j, hj⟩ := by
  induction fuel generalizing d M B U with
  | zero => omega
  | succ fuel ih =>
    rw [adaptLoop, partialColumn_enc M hj (show i ≤ m by omega) le_rfl, Res.ok_bind]
    have hp : 0 < m - i := by omega
    have hd : M ⟨i, hi⟩ ⟨j, hj⟩ = d := by rw [h.row _ _ rfl le_rfl, if_pos rfl]
    rcases smallRem_spec nd (fun t : Fin (m - i) => M ⟨i + t.val, by omega⟩ ⟨j, hj⟩) hp hd h.pos with ⟨e, hdiv⟩ | ⟨t, e, ht, hr1, hr2⟩
    · rw [e, Res.ok_bind]
      simp only
      rw [Res.pure_eq]
      refine ⟨d, M, B, U, rfl, h, ?_⟩
      intro r hr
      have := hdiv ⟨r.val - i, by omega⟩
      simp only at this
      rwa [show (⟨i + (r.val - i), by omega⟩ : Fin m) = r from Fin.ext (by simp only; omega)] at this
    · rw [e, Res.ok_bind]
      simp only
      have hkm : t.val + i < m := by omega
      have hk' : (⟨i + t.val, by omega⟩ : Fin m) = ⟨t.val + i, hkm⟩ := Fin.ext (by simp only; omega)
      rw [hk'] at hr1 hr2
      have hik : (⟨i, hi⟩ : Fin m) ≠ ⟨t.val + i, hkm⟩ := by intro e; have := congrArg Fin.val e; simp only at this; omega
      obtain ⟨q, hq⟩ : ∃ q, q = (M ⟨t.val + i, hkm⟩ ⟨j, hj⟩).fdiv d := ⟨_, rfl⟩
      have hrem : M ⟨t.val + i, hkm⟩ ⟨j, hj⟩ - q * d = (M ⟨t.val + i, hkm⟩ ⟨j, hj⟩).fmod d := by
        rw [hq, Int.fmod_def]; ring
      -- the new matrices
      obtain ⟨M1, hM1⟩ : ∃ M1 : Matrix (Fin m) (Fin n) Int, M1 = Matrix.of fun r c => if j ≤ c.val then
          (if r = ⟨i, hi⟩ then M ⟨t.val + i, hkm⟩ c - q * M ⟨i, hi⟩ c else if r = ⟨t.val + i, hkm⟩ then M ⟨i, hi⟩ c else M r c) else M r c := ⟨_, rfl⟩
      obtain ⟨B1, hB1⟩ : ∃ B1 : Matrix (Fin m) (Fin m) Int, B1 = Matrix.of fun r c => if c = ⟨i, hi⟩ then B r ⟨t.val + i, hkm⟩ else
          if c = ⟨t.val + i, hkm⟩ then B r ⟨i, hi⟩ + q * B r ⟨t.val + i, hkm⟩ else B r c := ⟨_, rfl⟩
      have hsw : adaptSwap nd i (t.val + i) j n m (enc M) (enc B) = .ok (enc M1, enc B1) := by
        have x1 : ex M i j = d := by rw [ex_lt M hi hj]; exact hd
        have x2 : ex M (t.val + i) j = M ⟨t.val + i, hkm⟩ ⟨j, hj⟩ := ex_lt M hkm hj
        rw [enc_tb M, enc_tb B, adaptSwap_tb nd _ _ hi hkm hj (by omega) (by rw [x1]; exact h.pos.ne') (by rw [x1, x2, ← hq, hrem]; exact hr1)
          (by rw [x1, x2, ← hq, hrem]; exact hr2), x1, x2, ← hq, tb_enc, tb_enc, hM1, hB1]
        refine congrArg Res.ok (pair_ext ?_ ?_)
        · congr 1; ext r c
          simp only [Matrix.of_apply, Fin.ext_iff, ex_fin, ex_lt M hi c.2, ex_lt M hkm c.2]
        · congr 1; ext r c
          simp only [Matrix.of_apply, Fin.ext_iff, ex_fin, ex_lt B r.2 hi, ex_lt B r.2 hkm]
      have hT0 : ∀ (r : Fin m) (c : Fin n), i ≤ r.val → c.val < j → adT P D M r c = 0 := by
        intro r c hr hc
        rw [adT, Matrix.of_apply, if_pos (by omega), if_neg]
        intro e
        have := hP _ (List.mem_of_getElem? e)
        omega
      have hT1 : adT P D M1 = ((adT P D M).updateRow ⟨t.val + i, hkm⟩ (fun c => adT P D M ⟨t.val + i, hkm⟩ c - q * adT P D M ⟨i, hi⟩ c)).submatrix
          (Equiv.swap ⟨i, hi⟩ ⟨t.val + i, hkm⟩) id := by
        ext r c
        rw [Matrix.submatrix_apply, id]
        by_cases hc : c.val < j
        · have e1 : adT P D M1 r c = adT P D M r c := by
            rw [adT_lt _ _ (by omega), adT_lt _ _ (by omega)]
          rw [e1]
          by_cases c1 : r = ⟨i, hi⟩
          · rw [c1, Equiv.swap_apply_left, Matrix.updateRow_self, hT0 ⟨i, hi⟩ _ le_rfl hc, hT0 ⟨t.val + i, hkm⟩ _ (by simp) hc]; ring
          · by_cases c2 : r = ⟨t.val + i, hkm⟩
            · rw [c2, Equiv.swap_apply_right, Matrix.updateRow_ne hik, hT0 ⟨i, hi⟩ _ le_rfl hc, hT0 ⟨t.val + i, hkm⟩ _ (by simp) hc]
            · rw [Equiv.swap_apply_of_ne_of_ne c1 c2, Matrix.updateRow_ne c2]
        · have e0 : ∀ (X : Matrix (Fin m) (Fin n) Int) r, adT P D X r c = X r c := by
            intro X r; rw [adT, Matrix.of_apply, if_neg (by omega)]
          rw [e0]
          by_cases c1 : r = ⟨i, hi⟩
          · rw [c1, Equiv.swap_apply_left, Matrix.updateRow_self, e0, e0, hM1, Matrix.of_apply, if_pos (by omega), if_pos rfl]
          · by_cases c2 : r = ⟨t.val + i, hkm⟩
            · rw [c2, Equiv.swap_apply_right, Matrix.updateRow_ne hik, e0, hM1, Matrix.of_apply, if_pos (by omega), if_neg hik.symm, if_pos rfl]
            · rw [Equiv.swap_apply_of_ne_of_ne c1 c2, Matrix.updateRow_ne c2, e0, hM1, Matrix.of_apply, if_pos (by omega), if_neg c1, if_neg c2]
      have hB1' : B1 = (B.updateCol ⟨i, hi⟩ (fun r => B r ⟨i, hi⟩ + q * B r ⟨t.val + i, hkm⟩)).submatrix id (Equiv.swap ⟨i, hi⟩ ⟨t.val + i, hkm⟩) := by
        ext r c
        rw [Matrix.submatrix_apply, id, hB1, Matrix.of_apply]
        by_cases c1 : c = ⟨i, hi⟩
        · rw [c1, if_pos rfl, Equiv.swap_apply_left, Matrix.updateCol_ne hik.symm]
        · by_cases c2 : c = ⟨t.val + i, hkm⟩
          · rw [c2, if_neg hik.symm, if_pos rfl, Equiv.swap_apply_right, Matrix.updateCol_self]
          · rw [if_neg c1, if_neg c2, Equiv.swap_apply_of_ne_of_ne c1 c2, Matrix.updateCol_ne c1]
      have h1 : AHold A P D M1 B1 U := by
        refine ⟨?_, h.detU, ?_⟩
        · rw [h.eq, hT1, hB1', Matrix.submatrix_mul_equiv, updateCol_mul_updateRow _ _ hik, Matrix.submatrix_id_id]
        · rw [hB1', Matrix.det_permute', det_addCol _ hik]
          exact (Units.isUnit _ |>.map (Int.castRingHom Int)).mul h.detB
      have ha1 : ∀ (r : Fin m) (c : Fin n), r.val < i → j ≤ c.val → M1 r c = 0 := by
        intro r c hr hc
        rw [hM1, Matrix.of_apply, if_pos hc, if_neg (by simp only [Fin.ext_iff]; omega), if_neg (by simp only [Fin.ext_iff]; omega)]
        exact h.above r c hr hc
      have hM1d : M1 ⟨i, hi⟩ ⟨j, hj⟩ = (M ⟨t.val + i, hkm⟩ ⟨j, hj⟩).fmod d := by
        rw [hM1, Matrix.of_apply, if_pos le_rfl, if_pos rfl, hd, hrem]
      obtain ⟨v, g, ops, flip, e1, e2, hc⟩ := colClear_spec nd M1 false hi hj.le
      have hgd : g ∣ M1 ⟨i, hi⟩ ⟨j, hj⟩ := hc.dvd _ _ le_rfl rfl
      have hg : g ≠ 0 := by
        intro e
        have := hc.zero e ⟨i, hi⟩ ⟨j, hj⟩ le_rfl rfl
        omega
      have hin := h1.colClear hjP hj.le hc ha1 hg
      have hgle : g ≤ (M ⟨t.val + i, hkm⟩ ⟨j, hj⟩).fmod d := Int.le_of_dvd hr1 (hM1d ▸ hgd)
      have hx : (enc (M1 * embed n j ops)).get i j = .ok g := by
        rw [enc_tb, get_tb _ hi hj, ex_lt _ hi hj, hc.row _ _ le_rfl rfl, if_pos rfl]
      rw [hsw, Res.ok_bind, e1, Res.ok_bind, e2, Res.ok_bind]
      simp only [theOps]
      rw [Res.ok_bind, columnApply_embed nd (by omega), Res.ok_bind, hx, Res.ok_bind, Res.assertIn_bind nd (decide_eq_true rfl)]
      exact ih hin (by have := hin.pos; omega)

/-! ### clearing a column -/

theorem adaptClear_spec (nd : Bool) {A : Matrix (Fin m) (Fin n) Int} {P : List Nat} {D : List Int} {i j : Nat} (hi : i < m) (hj : j < n)
    (hjP : j = P.length) (hjD : j = D.length) (hP : ∀ x ∈ P, x < i) {d : Int} {M : Matrix (Fin m) (Fin n) Int} {B : Matrix (Fin m) (Fin m) Int}
    {U : Matrix (Fin n) (Fin n) Int} (h : AInner A P D i j d M B U) (hdvd : ∀ r : Fin m, i ≤ r.val → d ∣ M r ⟨j, hj⟩) :
    ∃ B', adaptClear nd i j m (enc M) (enc B) = .ok (enc B') ∧ AHold A (P ++ [i]) (D ++ [d]) M B' U := by
  have hd : M ⟨i, hi⟩ ⟨j, hj⟩ = d := by rw [h.row _ _ rfl le_rfl, if_pos rfl]
  have hT0 : ∀ (r : Fin m) (c : Fin n), i ≤ r.val → c.val < j → adT P D M r c = 0 := by
    intro r c hr hc
    rw [adT, Matrix.of_apply, if_pos (by omega), if_neg]
    intro e
    have := hP _ (List.mem_of_getElem? e)
    omega
  obtain ⟨s, hs, B', rfl, h1, h2⟩ := forUp_inv (body := fun k (B : Mat Int) => do
      let x ← (enc M).get k j
      let d ← (enc M).get i j
      if d = 0 then .undefined
      else do
        Res.assertIn nd (decide (x.tmod d = 0))
        colOp nd B i k (x.tdiv d))
    (fun k (s : Mat Int) => ∃ B' : Matrix (Fin m) (Fin m) Int, s = enc B' ∧ IsUnit B'.det ∧
      A * U = B' * Matrix.of fun r c => if i < r.val ∧ r.val < k ∧ c.val = j then 0 else adT P D M r c) (m - (i + 1)) (i + 1) (enc B)
    ⟨B, rfl, h.detB, by
      rw [h.eq]; congr 1; ext r c; rw [Matrix.of_apply, if_neg (by omega)]⟩ (by
      rintro k _ hk1 hk2 ⟨B', rfl, i1, i2⟩
      have hkm : k < m := by omega
      have hik : (⟨i, hi⟩ : Fin m) ≠ ⟨k, hkm⟩ := by intro e; have := congrArg Fin.val e; simp only at this; omega
      have hdk := hdvd ⟨k, hkm⟩ (by simp only; omega)
      rw [enc_tb M, get_tb _ hkm hj, Res.ok_bind, get_tb _ hi hj, Res.ok_bind, ex_lt _ hkm hj, ex_lt _ hi hj, hd, if_neg h.pos.ne',
        Res.assertIn_bind nd (decide_eq_true (Int.dvd_iff_tmod_eq_zero.1 hdk)), C45_colOp nd B' ⟨i, hi⟩ ⟨k, hkm⟩]
      obtain ⟨q, hq⟩ := hdk
      have hq' : (M ⟨k, hkm⟩ ⟨j, hj⟩).tdiv d = q := by rw [hq]; exact Int.mul_tdiv_cancel_left _ h.pos.ne'
      refine ⟨_, rfl, _, rfl, ?_, ?_⟩
      · rw [det_addCol _ hik]; exact i1
      · rw [i2, hq', ← updateCol_mul_updateRow B' _ hik q]
        congr 1
        ext r c
        rw [Matrix.updateRow_apply, Matrix.of_apply]
        by_cases c1 : r = ⟨k, hkm⟩
        · subst c1
          rw [if_pos rfl, Matrix.of_apply, Matrix.of_apply, if_neg (by simp only; omega), if_neg (by simp only; omega)]
          by_cases c2 : c.val < j
          · rw [if_neg (by omega), hT0 _ _ (by simp only; omega) c2, hT0 _ _ le_rfl c2]; ring
          · have e0 : ∀ r, adT P D M r c = M r c := by
              intro r; rw [adT, Matrix.of_apply, if_neg (by omega)]
            rw [e0, e0, h.row ⟨i, hi⟩ c rfl (by omega)]
            by_cases c3 : c.val = j
            · obtain rfl : c = ⟨j, hj⟩ := Fin.ext c3
              rw [if_pos (⟨by simp only; omega, by simp, rfl⟩ : i < (⟨k, hkm⟩ : Fin m).val ∧ (⟨k, hkm⟩ : Fin m).val < k + 1 ∧ (⟨j, hj⟩ : Fin n).val = j), if_pos rfl, hq]; ring
            · rw [if_neg c3, if_neg (fun h => c3 h.2.2)]; ring
        · rw [if_neg c1, Matrix.of_apply]
          have : r.val ≠ k := fun e => c1 (Fin.ext e)
          exact if_congr (by omega) rfl rfl)
  refine ⟨B', hs, ?_, h.detU, h1⟩
  rw [h2]
  congr 1
  ext r c
  rw [Matrix.of_apply]
  by_cases c1 : c.val < j
  · rw [if_neg (by omega), adT_lt _ _ (by omega), adT_lt _ _ (by rw [List.length_append]; omega), List.getElem?_append_left (by omega),
      List.getElem?_append_left (by omega)]
  · by_cases c2 : c.val = j
    · rw [adT_ge _ _ (by omega), adT_lt _ _ (by rw [List.length_append, List.length_singleton]; omega), List.getElem?_append_right (by omega),
        List.getElem?_append_right (by omega), show c.val - P.length = 0 by omega, show c.val - D.length = 0 by omega, List.getElem?_cons_zero,
        List.getElem?_cons_zero, Option.getD_some]
      by_cases c3 : r.val = i
      · rw [if_neg (by omega), if_pos (by rw [c3]), h.row r c c3 (by omega), if_pos c2]
      · rw [if_neg (show ¬ some i = some r.val by simpa using Ne.symm c3)]
        by_cases c4 : i < r.val
        · rw [if_pos ⟨c4, by omega, c2⟩]
        · rw [if_neg (by omega), h.above r c (by omega) (by omega)]
    · rw [if_neg (by omega), adT_ge _ _ (by omega), adT_ge _ _ (by rw [List.length_append, List.length_singleton]; omega)]

/-! ### the main loop -/

/-- state before the iteration for row `i` -/
structure AInv (A : Matrix (Fin m) (Fin n) Int) (i : Nat) (s : Adapt) (P : List Nat) (M : Matrix (Fin m) (Fin n) Int)
    (B : Matrix (Fin m) (Fin m) Int) (U : Matrix (Fin n) (Fin n) Int) : Prop extends AHold A P s.diag M B U where
  hM : s.M = enc M
  hB : s.B = enc B
  kept : s.kept = vk m fun r => decide (r ∈ P)
  hj : s.j = P.length
  jn : s.j ≤ n
  dlen : s.diag.length = P.length
  dpos : ∀ d ∈ s.diag, 0 < d
  sorted : P.Pairwise (· < ·)
  lt : ∀ x ∈ P, x < i
  above : ∀ (r : Fin m) (c : Fin n), r.val < i → s.j ≤ c.val → M r c = 0

theorem adaptStep_spec (nd : Bool) {A : Matrix (Fin m) (Fin n) Int} {i : Nat} (hi : i < m) {s : Adapt} {P : List Nat} {M : Matrix (Fin m) (Fin n) Int}
    {B : Matrix (Fin m) (Fin m) Int} {U : Matrix (Fin n) (Fin n) Int} (h : AInv A i s P M B U) :
    ∃ s', adaptStep nd n m i s = .ok s' ∧ ∃ P' M' B' U', AInv A (i + 1) s' P' M' B' U' := by
  obtain ⟨M0, B0, kept, diag, j⟩ := s
  obtain ⟨hold, rfl, rfl, rfl, hj, hjn, hdlen, hdpos, hsort, hlt, habove⟩ := h
  simp only at hold hj hjn hdlen hdpos habove
  rw [adaptStep]
  simp only
  obtain ⟨v, g, ops, flip, e1, e2, hc⟩ := colClear_spec nd M false hi hjn
  rw [e1, Res.ok_bind, e2, Res.ok_bind]
  by_cases hg : g = 0
  · rw [if_pos hg, Res.pure_eq]
    refine ⟨_, rfl, P, M, B, U, hold, rfl, rfl, rfl, hj, hjn, hdlen, hdpos, hsort, fun x hx => by have := hlt x hx; omega, ?_⟩
    intro r c hr hcj
    by_cases e : r.val = i
    · exact hc.zero hg r c hcj e
    · exact habove r c (by omega) hcj
  · rw [if_neg hg]
    have hjn' : j < n := hc.lt hg
    have hin := hold.colClear hj hjn hc habove hg
    have hx : (enc (M * embed n j ops)).get i j = .ok g := by
      rw [enc_tb, get_tb _ hi hjn', ex_lt _ hi hjn', hc.row _ _ le_rfl rfl, if_pos rfl]
    simp only [theOps]
    rw [put_vk _ hi, Res.ok_bind, Res.ok_bind, columnApply_embed nd (by omega), Res.ok_bind, hx, Res.ok_bind, Res.assertIn_bind nd (decide_eq_true rfl)]
    obtain ⟨d', M', B', U', f1, f2, f3⟩ := adaptLoop_spec nd hi hjn' hj hlt (g.natAbs + 1) hin (by omega)
    obtain ⟨B'', g1, g2⟩ := adaptClear_spec nd hi hjn' hj (by omega) hlt f2 f3
    have hx' : (enc M').get i j = .ok d' := by
      rw [enc_tb, get_tb _ hi hjn', ex_lt _ hi hjn', f2.row _ _ rfl le_rfl, if_pos rfl]
    rw [f1, Res.ok_bind]
    simp only
    rw [g1, Res.ok_bind, hx', Res.ok_bind, Res.assertIn_bind nd (decide_eq_true rfl), Res.pure_eq]
    refine ⟨_, rfl, P ++ [i], M', B'', U', g2, rfl, rfl, ?_, by simp [hj], by simp only; omega, by simp [hdlen], ?_, ?_, ?_, ?_⟩
    · refine vk_congr fun c _ => ?_
      by_cases e : c = i <;> simp [e]
    · intro d hd
      simp only [List.mem_append, List.mem_singleton] at hd
      rcases hd with hd | rfl
      · exact hdpos d hd
      · exact f2.pos
    · rw [List.pairwise_append]
      refine ⟨hsort, by simp, fun a ha b hb => ?_⟩
      rw [List.mem_singleton] at hb
      subst hb; exact hlt a ha
    · intro x hx
      simp only [List.mem_append, List.mem_singleton] at hx
      rcases hx with hx | rfl
      · have := hlt x hx; omega
      · omega
    · intro r c hr hcj
      simp only at hcj
      by_cases e : r.val = i
      · rw [f2.row r c e (by omega), if_neg (by omega)]
      · exact f2.above r c (by omega) (by omega)

/-- writing given columns in a matrix -/
theorem setCols_tb (nd : Bool) (f : Nat → Nat → Int) (b : Nat → Nat → Int) :
    forUp (fun t (B : Mat Int) => do setColumn nd B t (← Vec.get (vk n fun t => vk m (b t)) t)) n 0 (tb m n f) = .ok (tb m n fun r c => b c r) := by
  refine forUp_ok (fun l => tb m n fun r c => if c < l then b c r else f r c) ?_ ?_ ?_
  · exact tb_congr fun r c _ _ => by rw [if_neg (by omega)]
  · exact tb_congr fun r c _ hc => if_pos (by omega)
  · intro l _ hl
    rw [get_vk _ (by omega), Res.ok_bind, setColumn_tb nd _ (by omega)]
    refine congrArg Res.ok (tb_congr fun r c _ _ => ?_)
    by_cases e : c = l
    · rw [if_pos e, if_pos (by omega), e]
    · rw [if_neg e]
      exact if_congr (by omega) rfl rfl

theorem adaptedBasis_spec (nd : Bool) (A : Matrix (Fin m) (Fin n) Int) :
    ∃ (B : Matrix (Fin m) (Fin m) Int) (D : List Int) (U : Matrix (Fin n) (Fin n) Int), adaptedBasis nd (enc A) = .ok (enc B, D) ∧
      D.length ≤ m ∧ D.length ≤ n ∧ A * U = B * diagMat m n D ∧ IsUnit U.det ∧ IsUnit B.det ∧ ∀ d ∈ D, 0 < d := by
  rw [adaptedBasis, C45_identity, Res.ok_bind, show (enc A).cols = n from rfl, show (enc A).rows = m from rfl]
  obtain ⟨s, hs, P, M, B, U, hinv⟩ := forUp_inv (body := adaptStep nd n m) (fun i s => ∃ P M B U, AInv A i s P M B U) m 0
    ⟨enc A, enc 1, List.replicate m false, [], 0⟩
    ⟨[], A, 1, 1, ⟨by
        rw [Matrix.mul_one, Matrix.one_mul]; ext r c; rw [adT_ge _ _ (by simp)], by simp, by simp⟩, rfl, rfl, by rw [replicate_vk]; simp, rfl, by simp, rfl,
      by simp, by simp, by simp, fun r c h => by simp at h⟩
    (fun i s _ hi ⟨P, M, B, U, h⟩ => adaptStep_spec nd (by omega) h)
  rw [hs, Res.ok_bind]
  rw [Nat.zero_add] at hinv
  obtain ⟨M0, B0, kept, diag, j⟩ := s
  obtain ⟨hold, rfl, rfl, rfl, hj, hjn, hdlen, hdpos, hsort, hlt, habove⟩ := hinv
  simp only at hold hj hjn hdlen hdpos habove ⊢
  have hp := isPerm_pivots hsort hlt
  have hPm : P.length ≤ m := by
    have := hp.length
    rw [List.length_append] at this
    omega
  -- what remains after a permutation of the rows
  have key : ∀ σ : Equiv.Perm (Fin m), (∀ (r : Fin m) (c : Nat), P[c]? = some (σ r).val ↔ c = r.val ∧ c < P.length) →
      A * U = B.submatrix id σ * diagMat m n diag ∧ IsUnit (B.submatrix id σ).det := by
    intro σ hσ
    constructor
    · have : diagMat m n diag = (adT P diag M).submatrix σ id := by
        ext r c
        rw [Matrix.submatrix_apply, id, diagMat, Matrix.of_apply]
        by_cases h1 : c.val < P.length
        · rw [adT_lt _ _ h1]
          by_cases h2 : r.val = c.val
          · rw [if_pos h2, if_pos ((hσ r c.val).2 ⟨h2.symm, h1⟩), h2]
          · rw [if_neg h2, if_neg (fun e => h2 ((hσ r c.val).1 e).1.symm)]
        · rw [adT_ge _ _ (by omega), habove _ _ (σ r).2 (by omega)]
          by_cases h2 : r.val = c.val
          · rw [if_pos h2, List.getElem?_eq_none (by omega)]; rfl
          · rw [if_neg h2]
      rw [hold.eq, this, Matrix.submatrix_mul_equiv, Matrix.submatrix_id_id]
    · rw [Matrix.det_permute']
      exact (Units.isUnit _ |>.map (Int.castRingHom Int)).mul hold.detB
  by_cases hfull : (vk m fun r => decide (r ∈ P)).all id = true
  · rw [if_pos hfull, Res.pure_eq]
    have hall : ∀ x, x < m → x ∈ P := by
      intro x hx
      rw [List.all_eq_true] at hfull
      have := hfull (decide (x ∈ P)) (List.mem_map.2 ⟨x, List.mem_range.2 hx, rfl⟩)
      simpa using this
    have hlen : P.length = m := by
      have := hp.length
      rw [List.length_append, List.filter_eq_nil_iff.2 (fun a ha => by simpa using hall a (List.mem_range.1 ha))] at this
      simpa using this
    have hPt := fun t ht => sorted_eq hsort (fun x hx => by rw [hlen]; exact hlt x hx) t ht
    obtain ⟨h1, h2⟩ := key 1 (by
      intro r c
      rw [Equiv.Perm.one_apply, List.getElem?_eq_some_iff]
      constructor
      · rintro ⟨h, e⟩
        rw [hPt c h] at e
        exact ⟨e, h⟩
      · rintro ⟨h1, h2⟩
        exact ⟨h2, by rw [hPt c h2, h1]⟩)
    rw [show B.submatrix id (1 : Equiv.Perm (Fin m)) = B from rfl] at h1 h2
    exact ⟨B, diag, U, rfl, by omega, by omega, h1, hold.detU, h2, hdpos⟩
  · rw [if_neg hfull, members_vk hsort hlt, members_compl]
    have hlen : (P ++ (List.range m).filter fun c => !decide (c ∈ P)).length = m := hp.length
    have hcols : (tab m fun t => do column nd (enc B) (← Vec.get (P ++ (List.range m).filter fun c => !decide (c ∈ P)) t)) =
        .ok (vk m fun t => vk m fun r => ex B r ((P ++ (List.range m).filter fun c => !decide (c ∈ P))[t]?.getD 0)) := by
      refine tab_ok _ fun t ht => ?_
      rw [Vec.get_ok (by omega), Res.ok_bind, enc_tb, column_tb nd _ (hp.lt (by omega)), List.getElem?_eq_getElem (by omega),
        Option.getD_some]
    rw [hcols, Res.ok_bind, enc_tb B, setCols_tb, Res.ok_bind, Res.pure_eq, tb_enc]
    obtain ⟨h1, h2⟩ := key hp.toPerm (by
      intro c r
      rw [hp.toPerm_apply]
      constructor
      · intro h
        have hr : r < P.length := (List.getElem?_eq_some_iff.1 h).1
        refine ⟨?_, hr⟩
        have e := (List.getElem?_eq_some_iff.1 h).2
        have e' : (P ++ (List.range m).filter fun c => !decide (c ∈ P))[r]'(by rw [List.length_append]; omega) = P[r] := by
          rw [List.getElem_append_left hr]
        exact hp.inj _ _ (e'.trans e)
      · rintro ⟨rfl, h⟩
        rw [List.getElem_append_left h, List.getElem?_eq_getElem h])
    refine ⟨B.submatrix id hp.toPerm, diag, U, ?_, by omega, by omega, h1, hold.detU, h2, hdpos⟩
    refine congrArg Res.ok (pair_ext ?_ rfl)
    congr 1; ext r c
    rw [Matrix.submatrix_apply, id, Matrix.of_apply, List.getElem?_eq_getElem (by have := c.2; omega), Option.getD_some, ← hp.toPerm_apply, ex_fin]

end Verif.Mat
