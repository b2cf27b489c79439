import Verif.KL.Hecke

/-! `T_s C_y = q C_y` when `s` is in the tau invariant of `y`. -/

namespace Verif.KL

open Polynomial LaurentPolynomial

variable {B : Type} [Fintype B] [DecidableEq B] {b : Blk B} {D : Mod B → Mod B}
  {P : B → B → ℕ[X]}

/-- the characteristic vector of a set -/
noncomputable def ind (S : Finset B) : Mod B := fun x => if x ∈ S then 1 else 0

omit [Fintype B] in
theorem ind_congr {S : Finset B} {x y : B} (h : x ∈ S ↔ y ∈ S) : ind S x = ind S y := by
  unfold ind
  by_cases hx : x ∈ S
  · rw [if_pos hx, if_pos (h.mp hx)]
  · rw [if_neg hx, if_neg (fun hy => hx (h.mpr hy))]
omit [Fintype B] in
theorem ind_pos {S : Finset B} {x : B} (h : x ∈ S) : ind S x = 1 := if_pos h
omit [Fintype B] in
theorem ind_neg {S : Finset B} {x : B} (h : x ∉ S) : ind S x = 0 := if_neg h

omit [Fintype B] in
theorem plus_ic (hb : b.WF) {s : ℕ} (hs : s < b.rank) {y : B}
    (hy : b.st s y = .imaginaryCompact) : Plus b s (ind {y}) := by
  have hv : ∀ x, b.st s x ≠ .imaginaryCompact → ind {y} x = 0 := by
    intro x hx
    apply ind_neg
    intro h
    rw [Finset.mem_singleton] at h
    exact hx (h ▸ hy)
  unfold Plus
  funext x
  have hr := hb s hs x
  simp only [Blk.Rel] at hr
  simp only [Blk.T, Pi.smul_apply, smul_eq_mul]
  cases hx : b.st s x <;> simp only [hx] at hr ⊢
  · rw [hv x (by rw [hx]; decide), hv (b.cross s x) (by rw [hr.1]; decide)]
  · rw [hv x (by rw [hx]; decide)]; simp
  · rw [hv x (by rw [hx]; decide), hv (b.cross s x) (by rw [hr.1]; decide),
      hv (b.cay s x).1 (by rw [hr.2.2.2.2.1]; decide)]; simp
  · rw [hv x (by rw [hx]; decide), hv _ (by rw [hr.2.1]; decide),
      hv _ (by rw [hr.2.2.1]; decide)]; simp
  · rw [hv x (by rw [hx]; decide), hv (b.cross s x) (by rw [hr.1]; decide)]; simp
  · rw [hv x (by rw [hx]; decide), hv (b.cross s x) (by rw [hr.1]; decide),
      hv (b.cay s x).1 (by rw [hr.2.2.2.2.1]; decide)]; simp
  · rw [hv x (by rw [hx]; decide), hv _ (by rw [hr.2.1]; decide),
      hv _ (by rw [hr.2.2.1]; decide)]; simp

omit [Fintype B] in
theorem plus_cd (hb : b.WF) {s : ℕ} (hs : s < b.rank) {y : B}
    (hy : b.st s y = .complexDescent) : Plus b s (ind {y, b.cross s y}) := by
  have hry := hb s hs y
  simp only [Blk.Rel, hy] at hry
  obtain ⟨y1, y2, _⟩ := hry
  have hv : ∀ x, b.st s x ≠ .complexDescent → b.st s x ≠ .complexAscent →
      ind {y, b.cross s y} x = 0 := by
    intro x hx hx'
    apply ind_neg
    intro h
    rw [Finset.mem_insert, Finset.mem_singleton] at h
    rcases h with h | h
    · exact hx (h ▸ hy)
    · exact hx' (h ▸ y1)
  have hc : ∀ x, b.cross s (b.cross s x) = x →
      ind {y, b.cross s y} (b.cross s x) = ind {y, b.cross s y} x := by
    intro x hxx
    apply ind_congr
    simp only [Finset.mem_insert, Finset.mem_singleton]
    constructor
    · rintro (h | h)
      · right; rw [← h, hxx]
      · left
        have := congrArg (b.cross s) h
        rwa [hxx, y2] at this
    · rintro (h | h)
      · right; rw [h]
      · left; rw [h, y2]
  unfold Plus
  funext x
  have hr := hb s hs x
  simp only [Blk.Rel] at hr
  simp only [Blk.T, Pi.smul_apply, smul_eq_mul]
  cases hx : b.st s x <;> simp only [hx] at hr ⊢
  · rw [hc x hr.2.1]
  · rw [hv x (by rw [hx]; decide) (by rw [hx]; decide)]; simp
  · rw [hv x (by rw [hx]; decide) (by rw [hx]; decide), hv (b.cross s x) (by rw [hr.1]; decide)
      (by rw [hr.1]; decide), hv (b.cay s x).1 (by rw [hr.2.2.2.2.1]; decide)
      (by rw [hr.2.2.2.2.1]; decide)]; simp
  · rw [hv x (by rw [hx]; decide) (by rw [hx]; decide), hv _ (by rw [hr.2.1]; decide)
      (by rw [hr.2.1]; decide),
      hv _ (by rw [hr.2.2.1]; decide) (by rw [hr.2.2.1]; decide)]; simp
  · rw [hc x hr.2.1]; ring
  · rw [hv x (by rw [hx]; decide) (by rw [hx]; decide), hv (b.cross s x) (by rw [hr.1]; decide)
      (by rw [hr.1]; decide),
      hv (b.cay s x).1 (by rw [hr.2.2.2.2.1]; decide) (by rw [hr.2.2.2.2.1]; decide)]; simp
  · rw [hv x (by rw [hx]; decide) (by rw [hx]; decide), hv _ (by rw [hr.2.1]; decide)
      (by rw [hr.2.1]; decide),
      hv _ (by rw [hr.2.2.1]; decide) (by rw [hr.2.2.1]; decide)]; simp

omit [Fintype B] in
theorem plus_r1 (hb : b.WF) {s : ℕ} (hs : s < b.rank) {y : B}
    (hy : b.st s y = .realTypeI) : Plus b s (ind {y, (b.cay s y).1, (b.cay s y).2}) := by
  have hry := hb s hs y
  simp only [Blk.Rel, hy] at hry
  obtain ⟨y1, y2, y3, y4, y5, _, _, y8, y9⟩ := hry
  have hv : ∀ x, b.st s x ≠ .realTypeI → b.st s x ≠ .imaginaryTypeI →
      ind {y, (b.cay s y).1, (b.cay s y).2} x = 0 := by
    intro x hx hx'
    apply ind_neg
    intro h
    simp only [Finset.mem_insert, Finset.mem_singleton] at h
    rcases h with h | h | h
    · exact hx (h ▸ hy)
    · exact hx' (h ▸ y2)
    · exact hx' (h ▸ y3)
  have hi : ∀ x, b.st s x = .imaginaryTypeI →
      ind {y, (b.cay s y).1, (b.cay s y).2} (b.cross s x) =
        ind {y, (b.cay s y).1, (b.cay s y).2} x ∧
      ind {y, (b.cay s y).1, (b.cay s y).2} (b.cay s x).1 =
        ind {y, (b.cay s y).1, (b.cay s y).2} x := by
    intro x hx
    have hr := hb s hs x
    simp only [Blk.Rel, hx] at hr
    obtain ⟨c1, _, c3, _, c5, _, c7, c8⟩ := hr
    have ne1 : x ≠ y := by rintro rfl; rw [hx] at hy; exact absurd hy (by decide)
    have ne2 : b.cross s x ≠ y := by rintro rfl; rw [c1] at hy; exact absurd hy (by decide)
    have ne3 : (b.cay s x).1 ≠ (b.cay s y).1 := by
      intro h; rw [h, y2] at c5; exact absurd c5 (by decide)
    have ne4 : (b.cay s x).1 ≠ (b.cay s y).2 := by
      intro h; rw [h, y3] at c5; exact absurd c5 (by decide)
    constructor
    · apply ind_congr
      simp only [Finset.mem_insert, Finset.mem_singleton, ne1, ne2, false_or]
      constructor
      · rintro (h | h)
        · right; rw [← c3, h, y4]
        · left; rw [← c3, h, y5]
      · rintro (h | h)
        · right; rw [h, y4]
        · left; rw [h, y5]
    · apply ind_congr
      simp only [Finset.mem_insert, Finset.mem_singleton, ne1, ne3, ne4, false_or, or_false]
      constructor
      · intro h
        rcases pair_cases c8 with ⟨h1, _⟩ | ⟨_, h2⟩
        · left; rw [← h, h1]
        · right; rw [← h, h2]
      · rintro (h | h)
        · rw [h, y8]
        · rw [h, y9]
  have hrr : ∀ x, b.st s x = .realTypeI →
      ind {y, (b.cay s y).1, (b.cay s y).2} (b.cay s x).1 =
        ind {y, (b.cay s y).1, (b.cay s y).2} x ∧
      ind {y, (b.cay s y).1, (b.cay s y).2} (b.cay s x).2 =
        ind {y, (b.cay s y).1, (b.cay s y).2} x := by
    intro x hx
    have hr := hb s hs x
    simp only [Blk.Rel, hx] at hr
    obtain ⟨_, c2, c3, _, _, _, _, c8, c9⟩ := hr
    have h1 := (hi _ c2).2
    have h2 := (hi _ c3).2
    rw [c8] at h1
    rw [c9] at h2
    exact ⟨h1.symm, h2.symm⟩
  unfold Plus
  funext x
  have hr := hb s hs x
  simp only [Blk.Rel] at hr
  simp only [Blk.T, Pi.smul_apply, smul_eq_mul]
  cases hx : b.st s x <;> simp only [hx] at hr ⊢
  · rw [hv x (by rw [hx]; decide) (by rw [hx]; decide), hv (b.cross s x) (by rw [hr.1]; decide)
      (by rw [hr.1]; decide)]
  · rw [hv x (by rw [hx]; decide) (by rw [hx]; decide)]; simp
  · rw [(hi x hx).1, (hi x hx).2]; ring
  · rw [hv x (by rw [hx]; decide) (by rw [hx]; decide), hv _ (by rw [hr.2.1]; decide)
      (by rw [hr.2.1]; decide),
      hv _ (by rw [hr.2.2.1]; decide) (by rw [hr.2.2.1]; decide)]; simp
  · rw [hv x (by rw [hx]; decide) (by rw [hx]; decide), hv (b.cross s x) (by rw [hr.1]; decide)
      (by rw [hr.1]; decide)]; simp
  · rw [hv x (by rw [hx]; decide) (by rw [hx]; decide), hv (b.cross s x) (by rw [hr.1]; decide)
      (by rw [hr.1]; decide),
      hv (b.cay s x).1 (by rw [hr.2.2.2.2.1]; decide) (by rw [hr.2.2.2.2.1]; decide)]; simp
  · rw [(hrr x hx).1, (hrr x hx).2]; ring

omit [Fintype B] in
theorem plus_r2 (hb : b.WF) {s : ℕ} (hs : s < b.rank) {y : B}
    (hy : b.st s y = .realTypeII) : Plus b s (ind {y, (b.cay s y).1}) := by
  have hry := hb s hs y
  simp only [Blk.Rel, hy] at hry
  obtain ⟨y1, y2, y3, _, y5, _, y7, y8⟩ := hry
  have hv : ∀ x, b.st s x ≠ .realTypeII → b.st s x ≠ .imaginaryTypeII →
      ind {y, (b.cay s y).1} x = 0 := by
    intro x hx hx'
    apply ind_neg
    intro h
    simp only [Finset.mem_insert, Finset.mem_singleton] at h
    rcases h with h | h
    · exact hx (h ▸ hy)
    · exact hx' (h ▸ y5)
  have hi : ∀ x, b.st s x = .imaginaryTypeII →
      ind {y, (b.cay s y).1} (b.cay s x).1 + ind {y, (b.cay s y).1} (b.cay s x).2 =
        ind {y, (b.cay s y).1} x := by
    intro x hx
    have hr := hb s hs x
    simp only [Blk.Rel, hx] at hr
    obtain ⟨c1, c2, c3, _, _, _, _, c8, c9⟩ := hr
    have ne1 : x ≠ y := by rintro rfl; rw [hx] at hy; exact absurd hy (by decide)
    have ne2 : (b.cay s x).1 ≠ (b.cay s y).1 := by
      intro h; rw [h, y5] at c2; exact absurd c2 (by decide)
    have ne3 : (b.cay s x).2 ≠ (b.cay s y).1 := by
      intro h; rw [h, y5] at c3; exact absurd c3 (by decide)
    by_cases h0 : x = (b.cay s y).1
    · rw [ind_pos (x := x) (by rw [h0]; simp)]
      rcases pair_cases y8 with ⟨h1, h2⟩ | ⟨h1, h2⟩
      · rw [ind_pos (x := (b.cay s x).1) (by rw [h0, h1]; simp),
          ind_neg (x := (b.cay s x).2)]
        · ring
        · simp only [Finset.mem_insert, Finset.mem_singleton, ne3, or_false]
          rw [h0, h2]; exact y2
      · rw [ind_pos (x := (b.cay s x).2) (by rw [h0, h2]; simp),
          ind_neg (x := (b.cay s x).1)]
        · ring
        · simp only [Finset.mem_insert, Finset.mem_singleton, ne2, or_false]
          rw [h0, h1]; exact y2
    · rw [ind_neg (x := x) (by simp [ne1, h0]), ind_neg, ind_neg]
      · ring
      · simp only [Finset.mem_insert, Finset.mem_singleton, ne3, or_false]
        intro h; apply h0; rw [← h, c9]
      · simp only [Finset.mem_insert, Finset.mem_singleton, ne2, or_false]
        intro h; apply h0; rw [← h, c8]
  unfold Plus
  funext x
  have hr := hb s hs x
  simp only [Blk.Rel] at hr
  simp only [Blk.T, Pi.smul_apply, smul_eq_mul]
  cases hx : b.st s x <;> simp only [hx] at hr ⊢
  · rw [hv x (by rw [hx]; decide) (by rw [hx]; decide), hv (b.cross s x) (by rw [hr.1]; decide)
      (by rw [hr.1]; decide)]
  · rw [hv x (by rw [hx]; decide) (by rw [hx]; decide)]; simp
  · rw [hv x (by rw [hx]; decide) (by rw [hx]; decide), hv (b.cross s x) (by rw [hr.1]; decide)
      (by rw [hr.1]; decide), hv (b.cay s x).1 (by rw [hr.2.2.2.2.1]; decide)
      (by rw [hr.2.2.2.2.1]; decide)]; simp
  · rw [hi x hx]; ring
  · rw [hv x (by rw [hx]; decide) (by rw [hx]; decide), hv (b.cross s x) (by rw [hr.1]; decide)
      (by rw [hr.1]; decide)]; simp
  · obtain ⟨_, _, _, _, c5, _, _, c8⟩ := hr
    have h := hi _ c5
    rcases pair_cases c8 with ⟨h1, h2⟩ | ⟨h1, h2⟩
    · rw [h1, h2] at h; rw [← h]; ring
    · rw [h1, h2] at h; rw [← h]; ring
  · rw [hv x (by rw [hx]; decide) (by rw [hx]; decide), hv _ (by rw [hr.2.1]; decide)
      (by rw [hr.2.1]; decide),
      hv _ (by rw [hr.2.2.1]; decide) (by rw [hr.2.2.1]; decide)]; simp

omit [Fintype B] in
/-- a vector of the plus space that is `t_y` plus basis vectors one shorter -/
theorem exists_plus (hb : b.WF) {s : ℕ} (hs : s < b.rank) {y : B}
    (hy : (b.st s y).isDescent = true) :
    ∃ S : Finset B, Plus b s (ind S) ∧ y ∈ S ∧ ∀ x ∈ S, x = y ∨ b.len x + 1 = b.len y := by
  have hr := hb s hs y
  simp only [Blk.Rel] at hr
  cases h : b.st s y <;> simp only [h, Status.isDescent, Bool.false_eq_true] at hy hr
  · exact ⟨_, plus_ic hb hs h, by simp, by simp⟩
  · refine ⟨_, plus_cd hb hs h, by simp, ?_⟩
    simp only [Finset.mem_insert, Finset.mem_singleton, forall_eq_or_imp, forall_eq, true_or,
      true_and]
    right; omega
  · refine ⟨_, plus_r2 hb hs h, by simp, ?_⟩
    simp only [Finset.mem_insert, Finset.mem_singleton, forall_eq_or_imp, forall_eq, true_or,
      true_and]
    right; omega
  · refine ⟨_, plus_r1 hb hs h, by simp, ?_⟩
    simp only [Finset.mem_insert, Finset.mem_singleton, forall_eq_or_imp, forall_eq, true_or,
      true_and]
    constructor <;> right <;> omega

/-- an element of the plus space has no coordinate at an ascent -/
theorem asc_zero (hb : b.WF) (hP : IsKLV b D P) {s : ℕ} (hs : s < b.rank) {g : B → L}
    (hg : Plus b s (comb P g))
    (ih : ∀ z, g z ≠ 0 → (b.st s z).isDescent = true → Plus b s (cvec P z)) (z : B)
    (hz : (b.st s z).isDescent = false) : g z = 0 := by
  let g' : B → L := fun z => if (b.st s z).isDescent then 0 else g z
  have hplus : Plus b s (comb P g') := by
    have h1 : comb P g' = comb P g - comb P (g - g') := by rw [comb_sub]; abel
    rw [h1]
    refine hg.sub (Plus.sum _ _ (fun w _ => ?_))
    by_cases hw : (b.st s w).isDescent = true
    · by_cases h0 : g w = 0
      · have : (g - g') w = 0 := by simp only [Pi.sub_apply, g', if_pos hw, h0, sub_self]
        rw [this, zero_smul]
        unfold Plus; rw [b.T_zero, smul_zero]
      · exact (ih w h0 hw).smul _
    · have : (g - g') w = 0 := by simp only [Pi.sub_apply, g', if_neg hw, sub_self]
      rw [this, zero_smul]
      unfold Plus; rw [b.T_zero, smul_zero]
  have key : g' = 0 := by
    by_contra hne
    obtain ⟨x, hx, hm⟩ := exists_max b hne
    have htop := hP.comb_top g' x hm
    have hxd : (b.st s x).isDescent = false := by
      by_contra h
      exact hx (if_pos (by simpa using h))
    have habove : ∀ w, b.len x < b.len w → comb P g' w = 0 := fun w hw =>
      hP.comb_above g' w (fun u hu => lt_of_le_of_lt (hm u hu) hw)
    apply hx
    rw [← htop]
    have hr := hb s hs x
    cases h : b.st s x <;> simp only [h, Status.isDescent, Bool.true_eq_false] at hxd
    · rw [hplus.complexAscent x h]
      simp only [Blk.Rel, h] at hr
      exact habove _ (by omega)
    · exact hplus.realNonparity x h
    · rw [hplus.imaginaryTypeI x h hr]
      simp only [Blk.Rel, h] at hr
      exact habove _ (by omega)
    · rw [hplus.imaginaryTypeII x h]
      simp only [Blk.Rel, h] at hr
      rw [habove _ (by omega), habove _ (by omega), add_zero]
  have := congrFun key z
  simpa [g', hz] using this

/-- `T_s C_y = q C_y` -/
theorem IsKLV.eigen (hb : b.WF) (hD : IsDuality b D) (hP : IsKLV b D P) {s : ℕ}
    (hs : s < b.rank) (N : ℕ) : ∀ y : B, b.len y < N → (b.st s y).isDescent = true →
    Plus b s (cvec P y) := by
  induction N with
  | zero => intro y h; exact absurd h (Nat.not_lt_zero _)
  | succ N ih =>
    intro y hlen hy
    obtain ⟨S, hS, hyS, hlow⟩ := exists_plus hb hs hy
    -- the difference with `C_y`
    obtain ⟨a, ha, hbd⟩ := hP.exists_comb (ind S - cvec P y)
    have hbd1 : ∀ x, Bd ((b.len y : ℤ) - b.len x) ((ind S - cvec P y) x) := by
      intro x
      by_cases hx : x = y
      · subst hx
        rw [Pi.sub_apply, hP.self, ind_pos hyS, sub_self (1 : L)]; exact Bd.zero _
      · refine Bd.sub ?_ (hP.bd hx)
        by_cases hxS : x ∈ S
        · rw [ind_pos hxS]
          rcases hlow x hxS with h | h
          · exact absurd h hx
          · exact Bd.one.mono (by omega)
        · rw [ind_neg hxS]; exact Bd.zero _
    have hbd2 := hbd _ hbd1
    have hlen2 : ∀ z, a z ≠ 0 → b.len z < b.len y := by
      have hzero : ∀ x, b.len y ≤ b.len x → (ind S - cvec P y) x = 0 := by
        intro x hx
        by_cases hxy : x = y
        · subst hxy; rw [Pi.sub_apply, hP.self, ind_pos hyS, sub_self]
        · rw [Pi.sub_apply, hP.cvec_zero hxy hx, ind_neg, sub_zero]
          intro hxS
          rcases hlow x hxS with h | h
          · exact hxy h
          · omega
      intro z hz
      by_contra hge
      obtain ⟨x, hx, hm⟩ := exists_max b (a := a) (by rintro rfl; exact hz rfl)
      have h1 := hm z hz
      have h2 := hP.comb_top a x hm
      rw [← ha, hzero x (by omega)] at h2
      exact hx h2.symm
    -- coordinates of `q^{l(y)} D(ind S) - ind S`
    let g : B → L := fun z =>
      LaurentPolynomial.T ((b.len y : ℤ) - b.len z) * LaurentPolynomial.invert (a z) - a z
    have hS' : ind S = cvec P y + comb P a := by rw [← ha]; abel
    have hD1 : (LaurentPolynomial.T (b.len y : ℤ) : L) • D (ind S) - ind S = comb P g := by
      have h1 : (LaurentPolynomial.T (b.len y : ℤ) : L) • D (ind S) = cvec P y +
          comb P (fun z =>
            LaurentPolynomial.T ((b.len y : ℤ) - b.len z) * LaurentPolynomial.invert (a z)) := by
        rw [hS', hD.add, hP.dual, hP.D_comb hD, smul_add, smul_smul, ← LaurentPolynomial.T_add,
          ← comb_smul]
        simp only [add_neg_cancel, LaurentPolynomial.T_zero, one_smul, ← mul_assoc,
          ← LaurentPolynomial.T_add, ← sub_eq_add_neg]
      rw [h1, hS', show g = (fun z => LaurentPolynomial.T ((b.len y : ℤ) - b.len z) *
        LaurentPolynomial.invert (a z)) - a from rfl, comb_sub]
      abel
    have hg : Plus b s (comb P g) := by
      rw [← hD1]
      exact ((hS.dual hD hs).smul _).sub hS
    have hg0 : ∀ z, g z ≠ 0 → a z ≠ 0 := by
      intro z hz h0
      exact hz (by simp only [g, h0, map_zero, mul_zero, sub_zero])
    have ha0 : ∀ z, (b.st s z).isDescent = false → a z = 0 := by
      intro z hz
      have h1 := asc_zero hb hP hs hg
        (fun w hw hwd => ih w (by have := hlen2 w (hg0 w hw); omega) hwd) z hz
      have h2 : a z = LaurentPolynomial.T ((b.len y : ℤ) - b.len z) *
          LaurentPolynomial.invert (a z) := (sub_eq_zero.mp h1).symm
      exact sym_zero h2 (hbd2 z)
    have hc : cvec P y = ind S - comb P a := by rw [hS']; abel
    rw [hc]
    refine hS.sub (Plus.sum _ _ (fun z _ => ?_))
    by_cases hz : (b.st s z).isDescent = true
    · by_cases h0 : a z = 0
      · rw [h0, zero_smul]; unfold Plus; rw [b.T_zero, smul_zero]
      · exact (ih z (by have := hlen2 z h0; omega) hz).smul _
    · rw [ha0 z (by simpa using hz), zero_smul]; unfold Plus; rw [b.T_zero, smul_zero]

theorem IsKLV.plus (hb : b.WF) (hD : IsDuality b D) (hP : IsKLV b D P) {s : ℕ}
    (hs : s < b.rank) {y : B} (hy : (b.st s y).isDescent = true) : Plus b s (cvec P y) :=
  hP.eigen hb hD hs (b.len y + 1) y (Nat.lt_succ_self _) hy

end Verif.KL
