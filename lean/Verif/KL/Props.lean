import Verif.KL.Fill
import Verif.KL.Unique
import Verif.KL.Example

/-!
# The table of Kazhdan-Lusztig-Vogan polynomials (C60) and their mu coefficients (C61)

Setting (`Ctx`): a block `b` of the specification with the relations of a block, a duality `D` of
its Hecke module, and its polynomials `P`; and a block `bt` of the program that represents `b`.
`fills nd M bt limits (Table.new bt)` constructs a table and calls `fill` with each of `limits`.
-/

set_option linter.unusedSectionVars false

namespace Verif.KL

open Polynomial

variable {B : Type} [Fintype B] [DecidableEq B]
variable {bt : Block} {b : Blk B} {D : Mod B → Mod B} {P : B → B → ℕ[X]} {el : ℕ → B} {M : ℕ}

/-- **C60**: the specification determines the polynomials -/
theorem C60_determined {P' : B → B → ℕ[X]} (hD : IsDuality b D) (h : IsKLV b D P)
    (h' : IsKLV b D P') : P = P' := h.unique hD h'

/-- the list of coefficients of a polynomial, without superfluous zeros -/
def Coeffs (p : List ℕ) (f : ℕ[X]) : Prop := p.getLast? ≠ some 0 ∧ ∀ i, p.getD i 0 = f.coeff i

theorem Is.coeffs {p : Pol} {f : ℕ[X]} (h : Is M p f) : Coeffs p f := by
  refine ⟨?_, fun i => (h.coeff i).symm⟩
  intro e
  have hne : p ≠ [] := by intro e'; rw [e'] at e; simp at e
  have := (Poly.canon_iff p).1 h.1 (by simpa using hne)
  apply this
  rw [List.getLast?_eq_getElem?] at e
  rw [List.getD_eq_getElem?_getD, e]; rfl

theorem Coeffs.unique {p p' : Pol} {f : ℕ[X]} (h : Coeffs p f) (h' : Coeffs p' f) : p = p' := by
  have key : ∀ {p p' : List ℕ}, Coeffs p f → Coeffs p' f → p.length ≤ p'.length := by
    intro p p' h h'
    by_contra hcon
    have hcon : p'.length < p.length := Nat.lt_of_not_le hcon
    have h1 := h.2 (p.length - 1)
    have h0 := h'.2 (p.length - 1)
    rw [List.getD_eq_default _ _ (by omega)] at h0
    rw [← h0] at h1
    apply h.1
    rw [List.getLast?_eq_getElem?]
    rw [List.getD_eq_getElem?_getD] at h1
    rw [List.getElem?_eq_getElem (by omega)] at h1 ⊢
    exact congrArg some h1
  have hl : p.length = p'.length := le_antisymm (key h h') (key h' h)
  apply List.ext_getElem hl
  intro i h1 h2
  have := (h.2 i).trans (h'.2 i).symm
  rwa [List.getD_eq_getElem _ _ h1, List.getD_eq_getElem _ _ h2] at this

/-- **C60**: after any sequence of calls of `fill` the columns `y` below one of the limits (where 0
means no limit) have been computed, and then `KL_pol(x,y)` is `P_{x,y}`.  The only other outcome
is the exception for numeric overflow, and that is possible only if some coefficient times 4
exceeds the capacity `M` of a coefficient; no assertion fails and nothing undefined happens, with
or without assertions. -/
theorem C60_fill (hc : Ctx bt b D P el M) (nd : Bool) (limits : List ℕ) :
    (∃ t, fills nd M bt limits (Table.new bt) = .ok t ∧
      (∀ y, y ∈ t.holes ↔ y < bt.size ∧ ∀ l ∈ limits, (if l = 0 then bt.size else l) ≤ y) ∧
      ∀ y, y < bt.size → y ∉ t.holes → ∀ x, x < bt.size →
        ∃ p, klPol nd bt t (some x) y = .ok p ∧ Coeffs p (P (el x) (el y))) ∨
    (fills nd M bt limits (Table.new bt) = .throw ∧ ∃ x y i, M ≤ 4 * (P x y).coeff i) := by
  rcases fills_ok hc nd limits (Table.new bt) TableOK.new with ⟨t, h1, h2, h3⟩ | ⟨h1, h2⟩
  · left
    refine ⟨t, h1, fun y => ?_, fun y hy hn x hx => ?_⟩
    · rw [h3.1]
      have : y ∈ (Table.new bt).holes ↔ y < bt.size := by simp [Table.new]
      rw [this]; rfl
    · obtain ⟨p, g1, g2⟩ := (h2.filled y hy hn).klSome hc nd hx hy
      exact ⟨p, g1, g2.coeffs⟩
  · right
    refine ⟨h1, ?_⟩
    by_contra hcon
    push Not at hcon
    exact h2 hcon

/-- **C60**: `KL_pol(UndefBlock,y)` is zero -/
theorem C60_undef (hc : Ctx bt b D P el M) (nd : Bool) {limits : List ℕ} {t : Table}
    (h : fills nd M bt limits (Table.new bt) = .ok t) {y : ℕ} (hy : y < bt.size)
    (hn : y ∉ t.holes) : klPol nd bt t none y = .ok [] := by
  rcases fills_ok hc nd limits (Table.new bt) TableOK.new with ⟨t', h1, h2, h3⟩ | ⟨h1, h2⟩
  · rw [h] at h1; cases h1
    obtain ⟨p, g1, g2⟩ := (h2.filled y hy hn).klPol hc nd hy none (by simp)
    rw [g1]
    have : p.isEmpty = true := g2.isEmpty_iff.2 rfl
    rw [List.isEmpty_iff.1 this]
  · rw [h] at h1; cases h1

/-- **C60**: the polynomials do not depend on the history of calls that led to the computation of
the column, nor on whether assertions are compiled -/
theorem C60_history (hc : Ctx bt b D P el M) (nd nd' : Bool) {limits limits' : List ℕ}
    {t t' : Table} (h : fills nd M bt limits (Table.new bt) = .ok t)
    (h' : fills nd' M bt limits' (Table.new bt) = .ok t') {y : ℕ} (hy : y < bt.size)
    (hn : y ∉ t.holes) (hn' : y ∉ t'.holes) {x : ℕ} (hx : x < bt.size) :
    ∃ p, klPol nd bt t (some x) y = .ok p ∧ klPol nd' bt t' (some x) y = .ok p := by
  rcases C60_fill hc nd limits with ⟨t1, h1, _, h2⟩ | ⟨h1, _⟩
  · rw [h] at h1; cases h1
    rcases C60_fill hc nd' limits' with ⟨t2, h3, _, h4⟩ | ⟨h3, _⟩
    · rw [h'] at h3; cases h3
      obtain ⟨p, g1, g2⟩ := h2 y hy hn x hx
      obtain ⟨p', g3, g4⟩ := h4 y hy hn' x hx
      exact ⟨p, g1, by rw [g3, g4.unique g2]⟩
    · rw [h'] at h3; cases h3
  · rw [h] at h1; cases h1

/-- **C61**: `mu_column(y)` lists the `x` with `mu(x,y) ≠ 0` in increasing order with these values -/
theorem C61_mu_column (hc : Ctx bt b D P el M) (nd : Bool) {limits : List ℕ} {t : Table}
    (h : fills nd M bt limits (Table.new bt) = .ok t) {y : ℕ} (hy : y < bt.size)
    (hn : y ∉ t.holes) : ∃ l, t.mu[y]? = some l ∧ (l.map Prod.fst).Pairwise (· < ·) ∧
      ∀ x c, (x, c) ∈ l ↔ x < bt.size ∧ c = mu b P (el x) (el y) ∧ c ≠ 0 := by
  rcases fills_ok hc nd limits (Table.new bt) TableOK.new with ⟨t', h1, h2, h3⟩ | ⟨h1, h2⟩
  · rw [h] at h1; cases h1
    obtain ⟨l, g1, g2, g3⟩ := (h2.filled y hy hn).mu
    exact ⟨l, g1, h3.2 MuSorted.new y hy hn l g1, g3⟩
  · rw [h] at h1; cases h1

/-- **C61**: `mu(x,y)` for `x ≠ y`.  The full claim, that it is `mu(x,y)` if `x < y` and 0
otherwise (kl.cpp 146), fails for `x = y`, see `C61_mu_self_false`. -/
theorem C61_mu_partial (hc : Ctx bt b D P el M) (nd : Bool) {limits : List ℕ} {t : Table}
    (h : fills nd M bt limits (Table.new bt) = .ok t) {x y : ℕ} (hx : x < bt.size)
    (hy : y < bt.size) (hn : y ∉ t.holes) (hne : x ≠ y) :
    muVal nd bt t x y = .ok (mu b P (el x) (el y)) := by
  rcases fills_ok hc nd limits (Table.new bt) TableOK.new with ⟨t', h1, h2, h3⟩ | ⟨h1, h2⟩
  · rw [h] at h1; cases h1
    exact muVal_ok hc nd hx hy (h2.filled y hy hn) hne
  · rw [h] at h1; cases h1

/-- **C61**: `mu(y,y)` is always 1, where the documentation and the definition of mu say 0 -/
theorem C61_mu_self_false (hc : Ctx bt b D P el M) (nd : Bool) {limits : List ℕ} {t : Table}
    (h : fills nd M bt limits (Table.new bt) = .ok t) {y : ℕ} (hy : y < bt.size)
    (hn : y ∉ t.holes) : muVal nd bt t y y = .ok 1 ∧ mu b P (el y) (el y) = 0 := by
  rcases fills_ok hc nd limits (Table.new bt) TableOK.new with ⟨t', h1, h2, h3⟩ | ⟨h1, h2⟩
  · rw [h] at h1; cases h1
    refine ⟨?_, by rw [mu, if_neg (by omega)]⟩
    obtain ⟨p, g1, g2⟩ := (h2.filled y hy hn).klSome hc nd hy hy
    rw [hc.data.klv.one] at g2
    have e : p = [1] := (Is.coeffs g2).unique (Is.one hc.two).coeffs
    subst e
    rw [muVal, g1, Res.ok_bind]
    have : bt.lDiff nd y y = .ok 0 := by
      rw [Block.lDiff, Res.assertIn_bind nd (by simp)]
      have := hc.rep.bound y hy
      rw [Nat.add_sub_cancel_left]; rfl
    rw [if_neg (by simp), this, Res.ok_bind]; rfl
  · rw [h] at h1; cases h1

/-- **C61**: the symmetric use in W-graphs: an `x` with one more than the length of `y` that is
above `y` by a reflection appears with coefficient 1 -/
theorem C61_mu_above (hc : Ctx bt b D P el M) {s : ℕ} (hs : s < b.rank) {x y : B}
    (h : y ∈ up b s x) : P x y = 1 ∧ mu b P x y = 1 := by
  obtain ⟨h1, h2, _⟩ := hc.data.down_mu ⟨s, hs, h⟩
  exact ⟨h1, h2⟩

/-! ### A case that meets the hypotheses: the block of `SL(3,R)` -/

example : Ctx Example.bt Example.b Example.D Example.P Example.el (2 ^ 32) := Example.ctx
example : Small Example.P (2 ^ 32) := Example.small

/-- after two calls of `fill` the table is complete, and two of its values -/
example : ∃ t, fills false (2 ^ 32) Example.bt [4, 0] (Table.new Example.bt) = .ok t ∧
    t.holes = [] ∧ klPol false Example.bt t (some 1) 4 = .ok [1] ∧
    klPol false Example.bt t (some 2) 4 = .ok [] := by
  rcases C60_fill Example.ctx false [4, 0] with ⟨t, h1, h2, h3⟩ | ⟨_, x, y, i, h⟩
  · have hh : t.holes = [] := by
      rw [List.eq_nil_iff_forall_not_mem]
      intro y hy
      rw [h2] at hy
      have := hy.2 0 (by simp)
      rw [if_pos rfl] at this
      omega
    obtain ⟨p, g1, g2⟩ := h3 4 (by decide) (by rw [hh]; simp) 1 (by decide)
    obtain ⟨p', g3, g4⟩ := h3 4 (by decide) (by rw [hh]; simp) 2 (by decide)
    refine ⟨t, h1, hh, ?_, ?_⟩
    · rw [g1, g2.unique (p' := [1])]
      have : Example.P (Example.el 1) (Example.el 4) = 1 := if_pos (by decide)
      rw [this]; exact (Is.one (M := 2) (le_refl _)).coeffs
    · rw [g3, g4.unique (p' := [])]
      have : Example.P (Example.el 2) (Example.el 4) = 0 := if_neg (by decide)
      rw [this]; exact (Is.nil (M := 2)).coeffs
  · have := Example.small x y i; omega

example : ∃ t, fills true (2 ^ 32) Example.bt [3] (Table.new Example.bt) = .ok t ∧ 2 ∉ t.holes ∧
    3 ∈ t.holes := by
  rcases C60_fill Example.ctx true [3] with ⟨t, h1, h2, _⟩ | ⟨_, x, y, i, h⟩
  · refine ⟨t, h1, ?_, ?_⟩
    · rw [h2]; simp
    · rw [h2]; simp [Example.bt]
  · have := Example.small x y i; omega

/-- the polynomials of this block are determined by its duality -/
example : ∀ P', IsKLV Example.b Example.D P' → P' = Example.P :=
  fun _ h => C60_determined Example.dual h Example.klv

/-- a pair with a nonzero mu, and one where the recursion for real nonparity roots gives zero -/
example : mu Example.b Example.P 1 4 = 1 ∧ Example.P 2 4 = 0 := by
  constructor
  · rw [mu, if_pos (by decide)]; simp [Example.P, Example.le, Example.b, Example.len]
  · simp [Example.P, Example.le]

end Verif.KL
