import Verif.Inv.Fresh
/-
The record made by `add_involution`.
-/
namespace Verif.Inv
open Verif Verif.Root Verif.Mat Verif.Datum Verif.Weyl Verif.Coxeter CoxeterSystem
open scoped Matrix

variable {n r : Nat} {Mx : CoxeterMatrix (Fin n)} {G : Type} [Group G]
variable {nd : Bool} {cs : CoxeterSystem Mx G} {α αv : Fin n → Fin r → ℤ} {comps : List Comp} {pc : Bool} {rd : RD} {N : Nat} {R R' : Nat → Fin n → ℤ}
  {T : TWG} {φ : G → List Nat} {f : Fin n → Fin n} {θ : G →* G} {δ : Matrix (Fin r) (Fin r) ℤ} {A : G →* Matrix (Fin r) (Fin r) ℤ}

/-- the product of the reflections in the roots numbered `l`, the first acting first -/
def reflProd (α αv : Fin n → Fin r → ℤ) (R R' : Nat → Fin n → ℤ) : List Nat → Matrix (Fin r) (Fin r) ℤ
  | [] => 1
  | a :: l => reflProd α αv R R' l * reflMat (lin α (R a)) (lin αv (R' a))

theorem reflProd_append (α αv : Fin n → Fin r → ℤ) (R R' : Nat → Fin n → ℤ) (l : List Nat) (a : Nat) :
    reflProd α αv R R' (l ++ [a]) = reflMat (lin α (R a)) (lin αv (R' a)) * reflProd α αv R R' l := by
  induction l with
  | nil => simp [reflProd]
  | cons b l ih => rw [List.cons_append, reflProd, ih, reflProd, mul_assoc]

variable (H : Input nd cs α αv comps pc rd N R R' T φ f θ δ A)
include H

theorem Input.act_mat (w : G) : T.W.act nd (fun s M => rd.simpleReflectLeft nd s M) (φ w) (enc δ) = .ok (enc (A w * δ)) := by
  letI : MulAction G (Matrix (Fin r) (Fin r) ℤ) :=
    { smul := fun g M => A g * M
      one_smul := fun M => by show A 1 * M = M; rw [map_one, one_mul]
      mul_smul := fun g h M => by show A (g * h) * M = A g * (A h * M); rw [map_mul, mul_assoc] }
  have h1 := (H.weyl.act (Matrix (Fin r) (Fin r) ℤ) (fun s M => if h : s < n then .ok (A (cs.simple ⟨s, h⟩) * M) else .undefined)
    (fun s a => by rw [dif_pos s.2]; rfl) w δ).1
  refine actLoop_nat nd T.W Mat.enc _ _ ?_ (φ w) _ _ _ h1
  intro M s M' h
  by_cases hs : s < n
  · rw [dif_pos hs] at h
    cases h
    have := (C69_datum H.datum).simpleReflectLeft r M ⟨s, hs⟩
    rw [H.action]
    exact this
  · rw [dif_neg hs] at h; cases h

theorem Input.reflectLoop (l : List Nat) (hl : ∀ a ∈ l, a < 2 * N) (M : Matrix (Fin r) (Fin r) ℤ) :
    Tab.reflectLoop nd rd l (enc M) = .ok (enc (reflProd α αv R R' l * M)) := by
  induction l generalizing M with
  | nil => rw [Tab.reflectLoop, reflProd, one_mul]
  | cons a l ih =>
    rw [Tab.reflectLoop, (C69_datum H.datum).reflectLeft r M a (hl a (by simp)), Res.ok_bind, ih (fun b hb => hl b (by simp [hb])), reflProd, mul_assoc]

/-- image of a root under a simple reflection -/
theorem Input.srefl (s : Fin n) (a : Nat) (ha : a < 2 * N) : ∃ m < 2 * N, rd.rs.simpleReflected s a = .ok m ∧ lin α (R m) = smat α αv s *ᵥ lin α (R a) ∧
    lin αv (R' m) = lin αv (R' a) ᵥ* smat α αv s := by
  obtain ⟨m, hm, h1, h2, h3⟩ := H.datum.base.answers.simpleReflected s a ha
  refine ⟨m, hm, h1, ?_, ?_⟩
  · have e : R m = R a - form (cart α αv) (R a) (Spec.unit s) • Spec.unit s := by
      funext i; rw [h2, ← pair_eq]; rfl
    rw [e, lin_refl, lin_unit, lin_unit, (reflMat_mulVec _ _ _).1]
  · have e : R' m = R' a - form (cart α αv) (Spec.unit s) (R' a) • Spec.unit s := by
      funext i; rw [h3, ← pair_eq]; rfl
    rw [e, lin_corefl, lin_unit, lin_unit, (reflMat_mulVec _ _ _).2]

theorem Input.reflectAll (s : Fin n) (l : List Nat) (hl : ∀ a ∈ l, a < 2 * N) : ∃ l', Inv.reflectAll rd.rs s l = .ok l' ∧ (∀ a ∈ l', a < 2 * N) ∧ l'.length = l.length ∧
    reflProd α αv R R' l' = smat α αv s * reflProd α αv R R' l * smat α αv s := by
  induction l with
  | nil => exact ⟨[], rfl, by simp, rfl, by rw [reflProd, mul_one, smat_sq H.cartan]⟩
  | cons a l ih =>
    obtain ⟨l', h1, h2, h3, h4⟩ := ih fun b hb => hl b (by simp [hb])
    obtain ⟨m, hm, g1, g2, g3⟩ := H.srefl s a (hl a (by simp))
    refine ⟨m :: l', by rw [Inv.reflectAll, g1, Res.ok_bind, h1, Res.ok_bind], ?_, by simp [h3], ?_⟩
    · intro b hb
      rcases List.mem_cons.1 hb with rfl | hb
      · exact hm
      · exact h2 b hb
    · have := mul_reflMat (smat α αv s) (lin α (R m)) (lin αv (R' m)) (lin α (R a)) (lin αv (R' a))
        (by rw [g2, Matrix.mulVec_mulVec, smat_sq H.cartan, Matrix.one_mulVec]) g3.symm
      rw [reflProd, h4, reflProd, mul_assoc, this]
      simp only [mul_assoc]

theorem Input.simple_lt (s : Fin n) : N + s.1 < 2 * N := by
  have := H.datum.base.numbering.simple.1
  have := s.2
  omega

/-- the number of letters that are multiplications -/
theorem Input.cayleyLoop {l : List (Fin n × Bool)} {w : G} (h : RedExpr cs θ l w) : ∃ (res : List Nat) (x : G),
    Inv.cayleyLoop nd rd.rs T (l.map fun y => letter y.1 y.2).reverse ([], WG.one) = .ok (res, φ x) ∧ (∀ a ∈ res, a < 2 * N) ∧
    reflProd α αv R R' res * (A x * δ) = invMat A δ w ∧ cs.length w + res.length = 2 * l.length := by
  have happ : ∀ (l1 l2 : List Int) st st', Inv.cayleyLoop nd rd.rs T l1 st = .ok st' → Inv.cayleyLoop nd rd.rs T (l1 ++ l2) st = Inv.cayleyLoop nd rd.rs T l2 st' := by
    intro l1
    induction l1 with
    | nil => intro l2 st st' h; cases h; rfl
    | cons a l1 ih =>
      intro l2 st st' h
      rw [List.cons_append]
      rw [Inv.cayleyLoop] at h ⊢
      by_cases ha : 0 ≤ a
      · rw [if_pos ha] at h ⊢
        cases hx : rd.rs.simpleNbr nd a.toNat with
        | ok y =>
          rw [hx, Res.ok_bind] at h
          rw [Res.ok_bind]
          exact ih _ _ _ h
        | _ => rw [hx] at h; cases h
      · rw [if_neg ha] at h ⊢
        cases hx : T.conjGen nd st.2 (-1 - a).toNat with
        | ok y =>
          simp only [hx, Res.ok_bind] at h ⊢
          cases hy : Inv.reflectAll rd.rs (-1 - a).toNat st.1 with
          | ok z =>
            simp only [hy, Res.ok_bind] at h ⊢
            exact ih _ _ _ h
          | _ => simp only [hy] at h; cases h
        | _ => simp only [hx] at h; cases h
  induction h with
  | nil => exact ⟨[], 1, by rw [← H.weyl.one]; rfl, by simp, by simp [reflProd, invMat], by simp⟩
  | @mul l w s hl hc hlt ih =>
    obtain ⟨res, x, h1, h2, h3, h4⟩ := ih
    refine ⟨res ++ [N + s.1], x, ?_, ?_, ?_, ?_⟩
    · rw [List.map_cons, List.reverse_cons, happ _ _ _ _ h1]
      have e : letter s.1 false = (s.1 : ℤ) := rfl
      rw [e, Inv.cayleyLoop, if_pos (by omega), Int.toNat_natCast, H.datum.base.answers.simpleNbr, Res.ok_bind, Inv.cayleyLoop]
    · intro a ha
      rcases List.mem_append.1 ha with ha | ha
      · exact h2 a ha
      · rw [List.mem_singleton.1 ha]; exact H.simple_lt s
    · rw [reflProd_append, (simple_lin H.datum.base s).1, (simple_lin H.datum.base s).2, mul_assoc, h3, H.inv_mul]
    · have := cs.length_simple_mul w s
      simp only [List.length_append, List.length_cons, List.length_nil]
      omega
  | @conj l w s hl hc hlt ih =>
    obtain ⟨res, x, h1, h2, h3, h4⟩ := ih
    obtain ⟨res', g1, g2, g3, g4⟩ := H.reflectAll s res h2
    refine ⟨res', cs.simple s * x * θ (cs.simple s), ?_, g2, ?_, ?_⟩
    · rw [List.map_cons, List.reverse_cons, happ _ _ _ _ h1]
      have e : letter s.1 true = -1 - (s.1 : ℤ) := rfl
      have e2 : (-1 - (-1 - (s.1 : ℤ))).toNat = s.1 := by omega
      rw [e, Inv.cayleyLoop, if_neg (by omega)]
      simp only [e2]
      rw [H.twisted.conjGen, Res.ok_bind]
      simp only [g1, Res.ok_bind, Inv.cayleyLoop]
    · have := H.inv_conj x s
      rw [invMat] at this
      rw [this, g4, H.inv_conj, ← h3, invMat]
      have hq := smat_sq H.cartan s
      calc smat α αv s * reflProd α αv R R' res * smat α αv s * (smat α αv s * (A x * δ) * smat α αv s)
          = smat α αv s * reflProd α αv R R' res * (smat α αv s * smat α αv s) * ((A x * δ) * smat α αv s) := by simp only [mul_assoc]
        _ = _ := by rw [hq, mul_one]; simp only [mul_assoc]
    · have hw := hl.isTI H.twist
      have hl2 : cs.length (cs.simple s * w * θ (cs.simple s)) = cs.length w + 2 := by
        have h1 := (commutation_iff H.twist hw s).not.mpr hc
        have hd := hw.descent H.twist s
        rw [H.twist.simple] at hd h1 ⊢
        have n1 := cs.length_mul_simple w (f s)
        have n3 := cs.length_simple_mul (w * cs.simple (f s)) s
        rw [mul_assoc]
        by_contra hne
        apply h1
        constructor <;> omega
      rw [hl2, g3]
      simp only [List.length_cons]
      omega

theorem Input.freshRec {t : Tab} (h1 : t.rd = rd) (h2 : t.delta = enc δ) (h3 : t.tw = T) {fuel : Nat} {w : G} (hw : IsTI θ w) (hf : cs.length w < fuel) :
    ∃ X, t.freshRec nd fuel (φ w) = .ok X ∧ IsRec cs θ α N R (invMat A δ w) w X := by
  have hr := H.rank
  obtain ⟨l, hl, hex⟩ := H.twisted.involutionExpr w hw
  obtain ⟨res, x, c1, c2, c3, c4⟩ := H.cayleyLoop hl
  obtain ⟨k, L, M, hk, i1, i2, i3, i4⟩ := imageMats_ok nd hr (invMat A δ w)
  obtain ⟨d, d1, d2⟩ := Data.make_ok H.datum (H.inv_root w) (H.inv_root_inj hw)
  obtain ⟨V, v1, v2⟩ := fiberDenom_ok nd hr (invMat A δ w)
  obtain ⟨u, hu⟩ := H.inv_rho w
  refine ⟨⟨d, enc (invMat A δ w), enc M, enc L, List.ofFn u, V, (cs.length w + res.length) / 2, cs.length w⟩, ?_,
    ⟨rfl, d2.perm_length, d2.perm, d2.im, d2.re, d2.cx, d2.simpleIm, d2.simpleRe, ⟨k, L, M, hk, rfl, rfl, i2, i3, i4⟩, ⟨u, rfl, hu.symm⟩, v2, ⟨l, hl, by
      show (cs.length w + res.length) / 2 = _
      omega⟩, rfl⟩⟩
  unfold Tab.freshRec cayleyRoots
  rw [h1, h2, h3, hex fuel hf, Res.ok_bind, c1, Res.ok_bind]
  simp only []
  rw [H.act_mat, Res.ok_bind, H.reflectLoop res c2, Res.ok_bind, c3, i1, Res.ok_bind]
  simp only []
  rw [(C69_datum H.datum).twoRho, C45_apply, Res.ok_bind, C45_vecAdd, Res.ok_bind, hu, C45_vecDivExact, if_neg (by
    rintro (h | ⟨i, hi⟩)
    · omega
    · exact hi ⟨u i, rfl⟩), Res.ok_bind, d1, Res.ok_bind, v1, Res.ok_bind, H.weyl.length, Res.ok_bind]
  congr 3
  funext i
  simp

end Verif.Inv
