import Verif.Tits.Abstract
/-
Generators of the Tits group, their relations, and the canonical lifts of elements of the Weyl group.
-/
namespace Verif.Tits
open CoxeterSystem Verif.Coxeter
set_option linter.unusedSectionVars false

variable {B : Type} [Fintype B] [DecidableEq B]
variable {C : B → B → ℤ} {V : Type} [AddCommGroup V] [Module (ZMod 2) V] (D : Datum C V)
variable {M : CoxeterMatrix B} {W : Type} [Group W] (cs : CoxeterSystem M W) (h : IsCartan C M)

section
include h
theorem length_alternating {s t : B} (hst : s ≠ t) {k : ℕ} (hk : k ≤ M s t) : cs.length (cs.wordProd (alternatingWord s t k)) = k := by
  induction k generalizing s t with
  | zero => simp [alternatingWord]
  | succ k ih =>
    rw [alternatingWord_succ, List.concat_eq_append, cs.wordProd_append, cs.wordProd_singleton]
    have hk' : k < M t s := by rw [M.symmetric]; omega
    have hnd : ¬ cs.IsRightDescent (cs.wordProd (alternatingWord t s k)) t := by
      intro hd
      obtain ⟨a, b, ha, hb, e⟩ := dihedral cs h (Ne.symm hst) hk'
      have hneg := geom_neg cs h hd
      rw [e] at hneg
      have h0 : a • root t + b • root s = (0 : B → ℤ) := by
        funext i
        refine le_antisymm (hneg i) ?_
        simp only [Pi.add_apply, Pi.smul_apply, smul_eq_mul, root_apply]
        split <;> split <;> simp [ha, hb]
        omega
      rw [h0] at e
      have : geom cs h (cs.wordProd (alternatingWord t s k)) (root t) = geom cs h (cs.wordProd (alternatingWord t s k)) 0 := by rw [e, map_zero]
      exact root_ne_zero t (geom_injective cs h _ this)
    rw [cs.not_isRightDescent_iff] at hnd
    rw [hnd, ih (Ne.symm hst) (by omega)]
end

variable [Fintype W] {D cs h}

/-- the canonical generators -/
def sigma (s : B) : Elt D cs h := ⟨0, cs.simple s⟩

/-- elements of order 2 in the torus -/
def iota (x : V) : Elt D cs h := ⟨x, 1⟩

/-- projection to the Weyl group -/
def proj : Elt D cs h →* W where
  toFun := Elt.w
  map_one' := rfl
  map_mul' _ _ := rfl

theorem iota_mul (x : V) (a : Elt D cs h) : iota x * a = ⟨x + a.t, a.w⟩ := by
  rw [Elt.mul_def]
  refine Elt.ext' ?_ (one_mul _)
  simp [iota, D.cocycle_one_left]

theorem mul_iota (x : V) (a : Elt D cs h) : a * iota x = ⟨a.t + D.rho cs h a.w x, a.w⟩ := by
  rw [Elt.mul_def]
  refine Elt.ext' ?_ (mul_one _)
  simp [iota, D.cocycle_one_right]

theorem iota_add (x y : V) : (iota (x + y) : Elt D cs h) = iota x * iota y := by rw [iota_mul]; rfl

theorem iota_inv (x : V) : (iota x : Elt D cs h)⁻¹ = iota x := by
  rw [inv_eq_iff_mul_eq_one, ← iota_add, vadd]; rfl

theorem sigma_mul (s : B) (a : Elt D cs h) : sigma s * a =
    ⟨D.refl s a.t + ind (cs.length (cs.simple s * a.w) < cs.length a.w) • D.m s, cs.simple s * a.w⟩ := by
  rw [Elt.mul_def]
  refine Elt.ext' ?_ rfl
  simp [sigma, D.cocycle_simple_left, D.rho_simple]

theorem mul_sigma (s : B) (a : Elt D cs h) : a * sigma s =
    ⟨a.t + ind (cs.length (a.w * cs.simple s) < cs.length a.w) • D.rho cs h a.w (D.m s), a.w * cs.simple s⟩ := by
  rw [Elt.mul_def]
  refine Elt.ext' ?_ rfl
  simp [sigma, D.cocycle_simple_right]

theorem sigma_sq (s : B) : (sigma s * sigma s : Elt D cs h) = iota (D.m s) := by
  rw [sigma_mul]
  refine Elt.ext' ?_ (cs.simple_mul_simple_self s)
  simp [sigma, ind, iota]

theorem sigma_inv (s : B) : (sigma s : Elt D cs h)⁻¹ = iota (D.m s) * sigma s := by
  rw [inv_eq_iff_mul_eq_one, ← mul_assoc]
  have e : sigma s * iota (D.m s) = (iota (D.m s) * sigma s : Elt D cs h) := by
    rw [mul_iota, iota_mul]
    refine Elt.ext' ?_ rfl
    simp [sigma, D.rho_simple, D.refl_m h]
  rw [e, mul_assoc, sigma_sq, ← iota_add, vadd]; rfl

theorem sigma_conj (s : B) (x : V) : sigma s * iota x * (sigma s)⁻¹ = (iota (D.refl s x) : Elt D cs h) := by
  rw [mul_inv_eq_iff_eq_mul, mul_iota, iota_mul]
  refine Elt.ext' ?_ rfl
  simp [sigma, D.rho_simple]

/-- the canonical lift -/
theorem sigma_word {l : List B} (hl : cs.IsReduced l) : ((l.map sigma).prod : Elt D cs h) = ⟨0, cs.wordProd l⟩ := by
  induction l with
  | nil => rw [List.map_nil, List.prod_nil, cs.wordProd_nil]; rfl
  | cons s l ih =>
    have hl' : cs.IsReduced l := hl.drop 1
    have e := hl
    unfold CoxeterSystem.IsReduced at e hl'
    rw [cs.wordProd_cons, List.length_cons] at e
    rw [List.map_cons, List.prod_cons, ih (hl.drop 1), sigma_mul]
    refine Elt.ext' ?_ (cs.wordProd_cons s l).symm
    simp [ind, e, hl']

theorem sigma_braid (s t : B) : (((alternatingWord s t (M s t)).map sigma).prod : Elt D cs h) =
    ((alternatingWord t s (M s t)).map sigma).prod := by
  by_cases hst : s = t
  · subst hst; rfl
  · have e1 : cs.IsReduced (alternatingWord s t (M s t)) := by
      unfold CoxeterSystem.IsReduced
      rw [length_alternating cs h hst le_rfl, length_alternatingWord]
    have e2 : cs.IsReduced (alternatingWord t s (M s t)) := by
      unfold CoxeterSystem.IsReduced
      rw [length_alternating cs h (Ne.symm hst) (by rw [M.symmetric]), length_alternatingWord]
    rw [sigma_word e1, sigma_word e2]
    refine Elt.ext' rfl ?_
    have := cs.prod_alternatingWord_eq_prod_alternatingWord_sub s t (M s t) (by omega)
    rw [this]
    congr 1
    rw [show M s t * 2 - M s t = M s t by omega]

theorem elt_eq (a : Elt D cs h) : a = iota a.t * ⟨0, a.w⟩ := by
  rw [iota_mul]; exact Elt.ext' (by simp) rfl

end Verif.Tits
