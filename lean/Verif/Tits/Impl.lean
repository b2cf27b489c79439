import Verif.Tits.Spec
import Verif.Tits.Lift
import Verif.Weyl.Iface
import Verif.F2.Matrix
/-
The functions of the model compute in the group constructed in `Abstract.lean`.
-/
namespace Verif.Tits
open Verif Verif.F2 Verif.Weyl Verif.Coxeter CoxeterSystem
set_option linter.unusedSectionVars false

variable {r : Nat}

theorem bv_fits (x : Fin r → ZMod 2) : Fits r (bv x) := ⟨rfl, Nat.ofBits_lt_two_pow _⟩

theorem bv_size (x : Fin r → ZMod 2) : (bv x).size = r := rfl

theorem vec_bv (x : Fin r → ZMod 2) (i : Fin r) : vec (bv x).data i = x i := by
  rw [vec_apply]
  show (if (Nat.ofBits _).testBit i.1 = true then (1 : ZMod 2) else 0) = x i
  rw [Nat.testBit_ofBits_lt _ _ i.2]
  generalize hx : x i = a
  revert a
  intro a hx
  clear hx
  revert a; decide

theorem eq_bv {v : BV} (hv : Fits r v) {x : Fin r → ZMod 2} (hx : ∀ i : Fin r, vec v.data i = x i) : v = bv x := by
  obtain ⟨d, n⟩ := v
  obtain ⟨h1, h2⟩ := hv
  simp only at h1 h2 hx
  subst h1
  show (⟨d, n⟩ : BV) = ⟨_, n⟩
  congr 1
  refine Nat.eq_of_testBit_eq fun i => ?_
  by_cases hi : i < n
  · rw [Nat.testBit_ofBits_lt _ _ hi, Bool.eq_iff_iff, ← vec_eq_one, decide_eq_true_iff, ← hx ⟨i, hi⟩]
  · rw [Nat.testBit_ofBits_ge _ _ (by omega)]
    exact Nat.testBit_lt_two_pow (h2.trans_le (Nat.pow_le_pow_right (by omega) (by omega)))

theorem bv_inj {x y : Fin r → ZMod 2} (h : bv x = bv y) : x = y := by
  funext i
  rw [← vec_bv x i, h, vec_bv]

theorem bv_zero : bv (0 : Fin r → ZMod 2) = BV.zero r := by
  refine (eq_bv (v := BV.zero r) ⟨rfl, by simp [BV.zero]⟩ fun i => ?_).symm
  rw [vec_apply]; simp [BV.zero]; rfl

theorem bv_add (nd : Bool) (x y : Fin r → ZMod 2) : (bv x).add nd (bv y) = .ok (bv (x + y)) := by
  show BV.add nd ⟨_, r⟩ ⟨_, r⟩ = _
  rw [add_ok']
  congr 1
  refine eq_bv ⟨rfl, xor_lt (bv_fits x).2 (bv_fits y).2⟩ fun i => ?_
  rw [vec_xor]
  exact congrArg₂ (· + ·) (vec_bv x i) (vec_bv y i)

theorem bv_dot (hr : r ≤ 64) (x y : Fin r → ZMod 2) : (bv x).dot (bv y) = decide (∑ i, x i * y i = 1) := by
  rw [Bool.eq_iff_iff, decide_eq_true_iff, C33_dot hr (bv_fits x) (bv_fits y), Finset.sum_range]
  simp only [vec_bv]

theorem bv_mulVec (nd : Bool) {c : Nat} (hc : c ≤ 32) {A : BM} (hA : IsMatrix r c A) (x : Fin c → ZMod 2) :
    A.mulVec nd dim (bv x) = .ok (bv fun i : Fin r => ∑ j : Fin c, entry A i j * x j) := by
  obtain ⟨w, h1, h2, h3⟩ := C33_mulVec nd (dim := dim) hc hA (bv_fits x)
  rw [h1, eq_bv h2 (x := fun i : Fin r => ∑ j : Fin c, entry A i j * x j)]
  intro i
  rw [h3, act, Finset.sum_range]
  simp only [vec_bv]

/-- the object stores the roots and coroots of `D` -/
structure Stores {n : Nat} {C : Fin n → Fin n → ℤ} (T : TG) (D : Datum C (Fin r → ZMod 2)) : Prop where
  rank : T.rank = r
  le : r ≤ 32
  root : ∀ s : Fin n, ∃ a, T.roots[s.1]? = some (bv a) ∧ ∀ x, D.ev s x = ∑ i, a i * x i
  coroot : ∀ s : Fin n, T.coroots[s.1]? = some (bv (D.m s))

variable {n : Nat} {C : Fin n → Fin n → ℤ} {T : TG} {D : Datum C (Fin r → ZMod 2)}

theorem Stores.getCoroot (hT : Stores T D) (s : Fin n) : Vec.get T.coroots s = .ok (bv (D.m s)) := by
  rw [Vec.get, hT.coroot]

theorem Stores.getRoot (hT : Stores T D) (s : Fin n) : ∃ a : Fin r → ZMod 2, Vec.get T.roots s = .ok (bv a) ∧ ∀ x : Fin r → ZMod 2, (bv a).dot (bv x) = decide (D.ev s x = 1) := by
  obtain ⟨a, h1, h2⟩ := hT.root s
  refine ⟨a, by rw [Vec.get, h1], fun x => ?_⟩
  rw [bv_dot (hT.le.trans (by omega)), h2]

theorem Stores.reflect (hT : Stores T D) (nd : Bool) (x : Fin r → ZMod 2) (s : Fin n) : T.reflect nd (bv x) s = .ok (bv (D.refl s x)) := by
  obtain ⟨a, h1, h2⟩ := hT.getRoot s
  unfold TG.reflect
  rw [h1, Res.ok_bind, h2]
  by_cases h : D.ev s x = 1
  · rw [if_pos (by simpa using h), hT.getCoroot, Res.ok_bind, bv_add, D.refl_apply, h, one_smul]
  · have h0 : D.ev s x = 0 := by
      revert h
      generalize D.ev s x = b
      revert b; decide
    rw [if_neg (by simpa using h), D.refl_apply, h0, zero_smul, add_zero]; rfl

variable {M : CoxeterMatrix (Fin n)} {G : Type} [Group G] {cs : CoxeterSystem M G} {h : IsCartan C M}

theorem Stores.reflectAll (hT : Stores T D) (nd : Bool) (h : IsCartan C M) (l : List (Fin n)) (x : Fin r → ZMod 2) :
    T.reflectAll nd (l.map Fin.val) (bv x) = .ok (bv (D.rho cs h (cs.wordProd l)⁻¹ x)) := by
  induction l generalizing x with
  | nil => simp [TG.reflectAll]
  | cons s l ih =>
    rw [List.map_cons, TG.reflectAll, hT.reflect, Res.ok_bind, ih, cs.wordProd_cons, mul_inv_rev, cs.inv_simple, D.rho_mul, D.rho_simple]

variable {φ : G → List Nat} {nd : Bool}

theorem Stores.pushAcross (hT : Stores T D) (h : IsCartan C M) (hW : Implements nd cs T.tw.W φ) (x : Fin r → ZMod 2) (g : G) :
    T.pushAcross nd (bv x) (φ g) = .ok (bv (D.rho cs h g⁻¹ x)) := by
  obtain ⟨l, h1, h2, -⟩ := hW.word g
  unfold TG.pushAcross
  rw [h1, Res.ok_bind, hT.reflectAll nd h (cs := cs), h2]

theorem Stores.pullAcross (hT : Stores T D) (h : IsCartan C M) (hW : Implements nd cs T.tw.W φ) (x : Fin r → ZMod 2) (g : G) :
    T.pullAcross nd (φ g) (bv x) = .ok (bv (D.rho cs h g x)) := by
  obtain ⟨l, h1, h2, -⟩ := hW.word g
  unfold TG.pullAcross
  rw [h1, Res.ok_bind, ← List.map_reverse, hT.reflectAll nd h (cs := cs), cs.wordProd_reverse, h2, inv_inv]

variable [Fintype G]

/-- the representation of an element -/
def psi (φ : G → List Nat) (a : Elt D cs h) : TE := ⟨bv a.t, φ a.w⟩

theorem Stores.leftAdd (nd : Bool) (T : TG) (x : Fin r → ZMod 2) (a : Elt D cs h) : T.leftAdd nd (bv x) (psi φ a) = .ok (psi φ (iota x * a)) := by
  rw [iota_mul]
  show (do pure { psi φ a with t := ← (bv a.t).add nd (bv x) } : Res TE) = _
  rw [bv_add, Res.ok_bind, add_comm]; rfl

theorem Stores.rightAdd (hT : Stores T D) (hW : Implements nd cs T.tw.W φ) (x : Fin r → ZMod 2) (a : Elt D cs h) :
    T.rightAdd nd (psi φ a) (bv x) = .ok (psi φ (a * iota x)) := by
  rw [mul_iota]
  unfold TG.rightAdd
  show (do let y ← T.pullAcross nd (φ a.w) (bv x); pure { psi φ a with t := ← (bv a.t).add nd y } : Res TE) = _
  rw [hT.pullAcross h hW, Res.ok_bind, bv_add, Res.ok_bind]; rfl

theorem len_left (cs : CoxeterSystem M G) (s : Fin n) (g : G) : (cs.length (cs.simple s * g) < cs.length g ∧ ¬ cs.length g < cs.length (cs.simple s * g)) ∨
    (cs.length g < cs.length (cs.simple s * g) ∧ ¬ cs.length (cs.simple s * g) < cs.length g) := by
  rcases cs.length_simple_mul g s with e | e <;> omega

theorem len_right (cs : CoxeterSystem M G) (s : Fin n) (g : G) : (cs.length (g * cs.simple s) < cs.length g ∧ ¬ cs.length g < cs.length (g * cs.simple s)) ∨
    (cs.length g < cs.length (g * cs.simple s) ∧ ¬ cs.length (g * cs.simple s) < cs.length g) := by
  rcases cs.length_mul_simple g s with e | e <;> omega

theorem Stores.sigmaMult (hT : Stores T D) (hW : Implements nd cs T.tw.W φ) (s : Fin n) (a : Elt D cs h) :
    T.sigmaMult nd s (psi φ a) = .ok (psi φ (sigma s * a)) := by
  unfold TG.sigmaMult
  show (do
    let t ← T.reflect nd (bv a.t) s
    let (w, d) ← T.tw.W.leftMultiplyGen nd (φ a.w) s
    if d < 0 then T.leftAdd nd (← Vec.get T.coroots s) ⟨t, w⟩ else pure ⟨t, w⟩ : Res TE) = _
  rw [hT.reflect, Res.ok_bind, hW.leftMultiplyGen, Res.ok_bind, sigma_mul]
  simp only
  rcases len_left cs s a.w with ⟨h1, -⟩ | ⟨h1, h2⟩
  · rw [if_pos (by omega), hT.getCoroot, Res.ok_bind, ind, if_pos h1, one_smul]
    have := Stores.leftAdd nd T (φ := φ) (D.m s) (⟨D.refl s a.t, cs.simple s * a.w⟩ : Elt D cs h)
    rw [iota_mul, add_comm] at this
    exact this
  · rw [if_neg (by omega), ind, if_neg h2, zero_smul, add_zero]; rfl

theorem Stores.sigmaInvMult (hT : Stores T D) (hW : Implements nd cs T.tw.W φ) (s : Fin n) (a : Elt D cs h) :
    T.sigmaInvMult nd s (psi φ a) = .ok (psi φ ((sigma s)⁻¹ * a)) := by
  unfold TG.sigmaInvMult
  show (do
    let t ← T.reflect nd (bv a.t) s
    let (w, d) ← T.tw.W.leftMultiplyGen nd (φ a.w) s
    if d > 0 then T.leftAdd nd (← Vec.get T.coroots s) ⟨t, w⟩ else pure ⟨t, w⟩ : Res TE) = _
  rw [hT.reflect, Res.ok_bind, hW.leftMultiplyGen, Res.ok_bind, sigma_inv, mul_assoc, sigma_mul, iota_mul]
  simp only
  rcases len_left cs s a.w with ⟨h1, -⟩ | ⟨h1, h2⟩
  · rw [if_neg (by omega), ind, if_pos h1, one_smul, add_comm, add_assoc, vadd, add_zero]; rfl
  · rw [if_pos (by omega), hT.getCoroot, Res.ok_bind, ind, if_neg h2, zero_smul, add_zero]
    have := Stores.leftAdd nd T (φ := φ) (D.m s) (⟨D.refl s a.t, cs.simple s * a.w⟩ : Elt D cs h)
    rw [iota_mul] at this
    exact this

theorem rho_ws (s : Fin n) (g : G) : D.rho cs h (g * cs.simple s) (D.m s) = D.rho cs h g (D.m s) := by
  rw [D.rho_mul, D.rho_simple, D.refl_m h]

theorem Stores.multSigma (hT : Stores T D) (hW : Implements nd cs T.tw.W φ) (s : Fin n) (a : Elt D cs h) :
    T.multSigma nd (psi φ a) s = .ok (psi φ (a * sigma s)) := by
  unfold TG.multSigma
  show (do
    let (w, d) ← T.tw.W.multGen nd (φ a.w) s
    if d < 0 then T.rightAdd nd ⟨bv a.t, w⟩ (← Vec.get T.coroots s) else pure ⟨bv a.t, w⟩ : Res TE) = _
  rw [hW.multGen, Res.ok_bind, mul_sigma]
  simp only
  rcases len_right cs s a.w with ⟨h1, -⟩ | ⟨h1, h2⟩
  · rw [if_pos (by omega), hT.getCoroot, Res.ok_bind, ind, if_pos h1, one_smul]
    have := hT.rightAdd hW (D.m s) (⟨a.t, a.w * cs.simple s⟩ : Elt D cs h)
    rw [mul_iota, rho_ws] at this
    exact this
  · rw [if_neg (by omega), ind, if_neg h2, zero_smul, add_zero]; rfl

theorem Stores.multSigmaInv (hT : Stores T D) (hW : Implements nd cs T.tw.W φ) (s : Fin n) (a : Elt D cs h) :
    T.multSigmaInv nd (psi φ a) s = .ok (psi φ (a * (sigma s)⁻¹)) := by
  have e : (sigma s : Elt D cs h)⁻¹ = sigma s * iota (D.m s) := by
    rw [inv_eq_iff_mul_eq_one, ← mul_assoc, sigma_sq, ← iota_add, vadd]; rfl
  unfold TG.multSigmaInv
  show (do
    let (w, d) ← T.tw.W.multGen nd (φ a.w) s
    if d > 0 then T.rightAdd nd ⟨bv a.t, w⟩ (← Vec.get T.coroots s) else pure ⟨bv a.t, w⟩ : Res TE) = _
  rw [hW.multGen, Res.ok_bind, e, ← mul_assoc, mul_sigma, mul_iota]
  simp only
  rw [rho_ws]
  rcases len_right cs s a.w with ⟨h1, -⟩ | ⟨h1, h2⟩
  · rw [if_neg (by omega), ind, if_pos h1, one_smul, add_assoc, vadd, add_zero]; rfl
  · rw [if_pos (by omega), hT.getCoroot, Res.ok_bind, ind, if_neg h2, zero_smul, add_zero]
    have := hT.rightAdd hW (D.m s) (⟨a.t, a.w * cs.simple s⟩ : Elt D cs h)
    rw [mul_iota, rho_ws] at this
    exact this

theorem Stores.prodLoop (hT : Stores T D) (hW : Implements nd cs T.tw.W φ) (l : List (Fin n)) (b : Elt D cs h) :
    T.prodLoop nd (l.map Fin.val) (psi φ b) = .ok (psi φ ((l.reverse.map sigma).prod * b)) := by
  induction l generalizing b with
  | nil => simp [TG.prodLoop]
  | cons s l ih =>
    rw [List.map_cons, TG.prodLoop, hT.sigmaMult hW, Res.ok_bind, ih, List.reverse_cons, List.map_append, List.prod_append, List.map_singleton,
      List.prod_singleton, mul_assoc]

theorem Stores.prod (hT : Stores T D) (hW : Implements nd cs T.tw.W φ) (a b : Elt D cs h) :
    T.prod nd (psi φ a) (psi φ b) = .ok (psi φ (a * b)) := by
  obtain ⟨l, h1, h2, h3⟩ := hW.word a.w
  have hl : cs.IsReduced l := by unfold CoxeterSystem.IsReduced; rw [h2, h3]
  unfold TG.prod
  show (do
    let ww ← T.tw.W.word nd (φ a.w)
    let b ← T.prodLoop nd ww.reverse (psi φ b)
    T.leftAdd nd (bv a.t) b : Res TE) = _
  rw [h1, Res.ok_bind, ← List.map_reverse, hT.prodLoop hW, List.reverse_reverse, Res.ok_bind, Stores.leftAdd, ← mul_assoc, sigma_word hl, h2, iota_mul,
    add_zero]

end Verif.Tits
