import Verif.Canon.GenProps
/-
An inner class with 65536 Cartan classes: the product of 16 copies of SL(2), with the trivial automorphism.
-/
namespace Verif.Canon
open Verif Verif.Root Verif.Mat Verif.Datum Verif.Weyl Verif.Inv Verif.Coxeter CoxeterSystem
open scoped Matrix

def manyRoot (s i : Fin 16) : ℤ := if i = s then 2 else 0
def manyCoroot (s i : Fin 16) : ℤ := if i = s then 1 else 0
def manyC (s t : Fin 16) : ℤ := if s = t then 2 else 0
def manyComps : List Comp := (List.range 16).map fun i => ⟨.A, i, [i]⟩

theorem manyCart : cart manyRoot manyCoroot = manyC := by
  funext s t
  simp only [cart, dotProduct, manyRoot, manyCoroot, manyC, ite_mul, mul_ite, zero_mul, mul_zero, Finset.sum_ite_eq', Finset.mem_univ, if_true]
  by_cases h : s = t
  · simp [h]
  · rw [if_neg h, if_neg fun e => h e.symm]

theorem manyDynkin : IsDynkin 16 manyC manyComps := dynkin_of_test (by simp [manyComps, Ty.RankOK, Comp.rank]) (by decide +kernel)

theorem manyCard : Nat.card (coxMatrix manyC).Group = 65536 ∧ ∀ w, (coxMatrix manyC).toCoxeterSystem.length w ≤ 16 := by
  obtain ⟨W, φ, hW, hI⟩ := C40_weylGroup false manyDynkin (coxMatrix manyC).toCoxeterSystem
  obtain ⟨z, z1, -, z3⟩ := hI.order
  obtain ⟨w0, -, q1, q2, -⟩ := hI.longest
  have e1 : (do let W ← WG.make false 16 manyComps; let z ← W.order; pure (Size.val z)) = .ok 65536 := by decide +kernel
  have e2 : (do let W ← WG.make false 16 manyComps; W.maxLength) = .ok 16 := by decide +kernel
  rw [hW, Res.ok_bind, z1] at e1
  rw [hW, Res.ok_bind, q1] at e2
  have e1 : Size.val z = 65536 := by injection e1
  have e2 := Res.ok.inj e2
  refine ⟨by rw [← z3, e1], fun w => ?_⟩
  by_cases hw : w = w0
  · rw [hw]; omega
  · have := q2 w hw; omega

theorem many_comm {G : Type} [Group G] (cs : CoxeterSystem (coxMatrix manyC) G) (s t : Fin 16) : cs.simple s * cs.simple t = cs.simple t * cs.simple s := by
  by_cases h : s = t
  · rw [h]
  · have hm : coxMatrix manyC s t = 2 := by
      show (if s = t then 1 else bondOrder (manyC s t * manyC t s)) = 2
      rw [if_neg h, manyC, if_neg h, zero_mul]; rfl
    have := cs.simple_mul_simple_pow s t
    rw [hm, pow_two] at this
    have h2 := mul_eq_one_iff_eq_inv.1 this
    rw [h2, mul_inv_rev, cs.inv_simple, cs.inv_simple]

theorem many_comm' {G : Type} [Group G] (cs : CoxeterSystem (coxMatrix manyC) G) (g x : G) : g * x = x * g := by
  have h1 : ∀ s x, cs.simple s * x = x * cs.simple s := fun s x => by
    induction x using cs.simple_induction_left with
    | one => simp
    | mul_simple_left w i ih => rw [← mul_assoc, many_comm cs s i, mul_assoc, ih, mul_assoc]
  induction g using cs.simple_induction_left with
  | one => simp
  | mul_simple_left w i ih => rw [mul_assoc, ih, ← mul_assoc, h1, mul_assoc]

theorem many_sq {G : Type} [Group G] (cs : CoxeterSystem (coxMatrix manyC) G) (g : G) : g * g = 1 := by
  induction g using cs.simple_induction_left with
  | one => simp
  | mul_simple_left w i ih =>
    rw [mul_assoc, ← mul_assoc w, many_comm' cs w (cs.simple i), mul_assoc, ih, mul_one, cs.simple_mul_simple_self]

/-- There is an inner class to which `C74_generate_false` applies: its construction does not end. -/
theorem C74_many : ∃ (W : WG) (rd : RD), WG.make false 16 manyComps = .ok W ∧ RD.make false ⟨enc (colMat manyRoot), enc (colMat manyCoroot), true⟩ = .ok rd ∧
    ∃ F, ∀ fuel, F ≤ fuel → ∀ x, generate false fuel rd ⟨W, List.range 16⟩ ≠ .ok x := by
  have hC : Spec.Cartan (cart manyRoot manyCoroot) manyComps := by rw [manyCart]; exact ⟨manyDynkin, by decide +kernel, by decide +kernel, by decide +kernel⟩
  have hcd : Nat.card (coxMatrix (cart manyRoot manyCoroot)).Group = 65536 ∧ ∀ w, (coxMatrix (cart manyRoot manyCoroot)).toCoxeterSystem.length w ≤ 16 := by
    rw [manyCart]; exact manyCard
  have hab : ∀ g x : (coxMatrix (cart manyRoot manyCoroot)).Group, g * x = x * g ∧ g * g = 1 := by
    rw [manyCart]
    exact fun g x => ⟨many_comm' (coxMatrix manyC).toCoxeterSystem g x, many_sq (coxMatrix manyC).toCoxeterSystem g⟩
  obtain ⟨W, φ, θ, rd, N, R, R', A, h1, h2, H⟩ := C72_input false true hC (coxMatrix (cart manyRoot manyCoroot)).toCoxeterSystem (r := 16) (by decide)
    (f := id) (fun _ => rfl) (List.range 16) (by decide) 1 (by simp) (by simp) (by simp) (by rw [hcd.1]; decide) (fun w => by have := hcd.2 w; omega)
  refine ⟨W, rd, h1, h2, max 17 (N + 1), fun fuel hfu x => C74_generate_false H (by omega) (fun w => by have := hcd.2 w; omega) (fun hfew => ?_) x⟩
  have hθ : ∀ g, θ g = g := fun g => by
    induction g using (coxMatrix (cart manyRoot manyCoroot)).toCoxeterSystem.simple_induction_left with
    | one => exact map_one _
    | mul_simple_left w i ih => rw [map_mul, ih, H.twist.simple]; rfl
  have := H.finite
  have := Fintype.ofFinite (coxMatrix (cart manyRoot manyCoroot)).Group
  have hl := hfew (Finset.univ : Finset (coxMatrix (cart manyRoot manyCoroot)).Group).toList (fun w _ => by
    show θ w = w⁻¹
    rw [hθ, eq_inv_iff_mul_eq_one]; exact (hab w w).2) ((Finset.nodup_toList _).imp fun {w x} hwx ⟨g, hg⟩ => hwx (by
      rw [hg, hθ, (hab g w).1, mul_inv_cancel_right]))
  rw [Finset.length_toList, Finset.card_univ, ← Nat.card_eq_fintype_card, hcd.1] at hl
  omega

end Verif.Canon
