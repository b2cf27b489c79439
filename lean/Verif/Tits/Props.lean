import Verif.Tits.Make
import Verif.Weyl.TwistedProps
/-
C66: the class `TitsGroup` computes in the Tits group.
-/
namespace Verif.Tits
open Verif Verif.F2 Verif.Weyl Verif.Coxeter CoxeterSystem
set_option linter.unusedSectionVars false

variable {n r : Nat} {C : Fin n → Fin n → Int}

/-- roots and coroots modulo 2 -/
def datum (α αv : Fin n → Fin r → Int) (hp : ∀ s t, ∑ i, α s i * αv t i = C s t) : Datum C (Fin r → ZMod 2) where
  m s := mod2 (αv s)
  ev s := { toFun := fun x => ∑ i, mod2 (α s) i * x i
            map_add' := fun x y => by simp [mul_add, Finset.sum_add_distrib]
            map_smul' := fun a x => by
              simp only [Pi.smul_apply, smul_eq_mul, RingHom.id_apply, Finset.mul_sum]
              exact Finset.sum_congr rfl fun i _ => by ring }
  pair s t := by
    show ∑ i, mod2 (α s) i * mod2 (αv t) i = _
    rw [← hp]
    simp [mod2]

theorem datum_ev (α αv : Fin n → Fin r → Int) (hp : ∀ s t, ∑ i, α s i * αv t i = C s t) (s : Fin n) (x : Fin r → ZMod 2) :
    (datum α αv hp).ev s x = ∑ i, mod2 (α s) i * x i := rfl

theorem datum_m (α αv : Fin n → Fin r → Int) (hp : ∀ s t, ∑ i, α s i * αv t i = C s t) (s : Fin n) : (datum α αv hp).m s = mod2 (αv s) := rfl

variable {M : CoxeterMatrix (Fin n)} {G : Type} [Group G] {cs : CoxeterSystem M G} {h : IsCartan C M}
section
variable [Fintype G]

theorem isTits (α αv : Fin n → Fin r → Int) (hp : ∀ s t, ∑ i, α s i * αv t i = C s t) (cs : CoxeterSystem M G) (h : IsCartan C M) :
    IsTits cs α αv (iota : _ → Elt (datum α αv hp) cs h) sigma proj where
  torus_mul := iota_add
  torus_injective x y e := by
    have := congrArg Elt.t e
    exact this
  proj_sigma s := rfl
  kernel a := by
    constructor
    · intro e
      refine ⟨a.t, Elt.ext' rfl e⟩
    · rintro ⟨x, rfl⟩; rfl
  square s := sigma_sq s
  conj s x := by rw [sigma_conj]; rfl
  braid s t := sigma_braid s t

variable {D : Datum C (Fin r → ZMod 2)} {T : TG} {nd : Bool} {φ : G → List Nat}

theorem exists_reduced (cs : CoxeterSystem M G) (g : G) : ∃ l, cs.IsReduced l ∧ cs.wordProd l = g := by
  obtain ⟨l, h1, h2⟩ := cs.exists_isReduced g
  exact ⟨l, h1, h2.symm⟩

theorem invMatLoop_ok (hT : Stores T D) (h : IsCartan C M) (nd : Bool) (hI : IsMatrix r r T.inv) (l : List (Fin n)) (k i : Nat) (hk : i + k = r) (m : BM)
    (hm : IsMatrix r i m) (hc : ∀ (p : Fin r) (q : Nat), q < i → entry m p q = ∑ j : Fin r, entry T.inv p j *
      D.rho cs h (cs.wordProd l)⁻¹ (fun a => if a.1 = q then 1 else 0) j) :
    ∃ A, T.invMatLoop nd (l.map Fin.val) k i m = .ok A ∧ IsMatrix r r A ∧ ∀ (p : Fin r) (q : Nat), q < r → entry A p q = ∑ j : Fin r, entry T.inv p j *
      D.rho cs h (cs.wordProd l)⁻¹ (fun a => if a.1 = q then 1 else 0) j := by
  induction k generalizing i m with
  | zero => obtain rfl : i = r := by omega
            exact ⟨m, rfl, hm, hc⟩
  | succ k ih =>
    have hr := hT.le
    have hu : BV.unit nd dim T.rank i = .ok (bv (fun a : Fin r => if a.1 = i then 1 else 0)) := by
      obtain ⟨-, -, h3, -⟩ := C33_vector nd (dim := dim) (n := r) hT.le (v := BV.zero r) ⟨rfl, by simp [BV.zero]⟩
      obtain ⟨s, e1, e2, e3⟩ := h3 i (by omega) true
      rw [BV.unit, hT.rank, e1, eq_bv e2]
      intro j
      rw [e3]
      by_cases hj : j.1 = i
      · simp [hj]
      · simp [hj, vec_apply, BV.zero]
    rw [TG.invMatLoop, hu, Res.ok_bind, hT.reflectAll nd h (cs := cs), Res.ok_bind, TG.twisted, bv_mulVec nd hT.le hI, Res.ok_bind]
    set y : Fin r → ZMod 2 := fun p => ∑ j : Fin r, entry T.inv p j * D.rho cs h (cs.wordProd l)⁻¹ (fun a => if a.1 = i then 1 else 0) j with hy
    have e : m.addColumn nd (bv y) = .ok ⟨m.cols ++ [(bv y).data], r, i + 1⟩ := by
      unfold BM.addColumn
      rw [Res.assertIn_bind nd (by rw [hm.rows]; exact decide_eq_true (bv_size y)), hm.rows, hm.columns]; rfl
    rw [e, Res.ok_bind]
    have hm' : IsMatrix r (i + 1) ⟨m.cols ++ [(bv y).data], r, i + 1⟩ := by
      refine ⟨rfl, rfl, by simp [hm.length], ?_⟩
      intro x hx
      rcases List.mem_append.1 hx with hx | hx
      · exact hm.fits x hx
      · rw [List.mem_singleton.1 hx]; exact (bv_fits y).2
    refine ih (i + 1) (by omega) _ hm' ?_
    intro p q hq
    by_cases hqi : q = i
    · subst hqi
      have : entry ⟨m.cols ++ [(bv y).data], r, q + 1⟩ p q = y p := by
        rw [entry, List.getD_eq_getElem _ _ (by simp [hm.length]), List.getElem_append_right (by rw [hm.length])]
        simp only [hm.length, Nat.sub_self, List.getElem_cons_zero]
        exact vec_bv y p
      rw [this]
    · have hq' : q < m.cols.length := by rw [hm.length]; omega
      rw [← hc p q (by omega), entry, entry, List.getD_eq_getElem _ _ (by simp; omega), List.getD_eq_getElem _ _ hq', List.getElem_append_left hq']

theorem mul_iota' (a : Elt D cs h) (x : Fin r → ZMod 2) : a * iota x = iota (D.rho cs h a.w x) * a := by
  rw [mul_iota, iota_mul, add_comm]

theorem word_conj (l : List (Fin n)) (x : Fin r → ZMod 2) : iota (D.rho cs h (cs.wordProd l)⁻¹ x) = ((l.map sigma).prod⁻¹ * iota x * (l.map sigma).prod : Elt D cs h) := by
  have e : ∀ l : List (Fin n), ((l.map sigma).prod : Elt D cs h).w = cs.wordProd l := by
    intro l
    induction l with
    | nil => rfl
    | cons s l ih =>
      rw [List.map_cons, List.prod_cons, cs.wordProd_cons, ← ih]; rfl
  have := mul_iota' ((l.map sigma).prod : Elt D cs h) (D.rho cs h (cs.wordProd l)⁻¹ x)
  rw [e, ← D.rho_mul, mul_inv_cancel, D.rho_one] at this
  rw [mul_assoc, ← this, inv_mul_cancel_left]

theorem implementsTits (hT : Stores T D) (h : IsCartan C M) (hW : Implements nd cs T.tw.W φ) {f : Fin n → Fin n} (hf : ∀ s : Fin n, T.tw.twistedGen s = .ok (f s).1)
    (hI : IsMatrix r r T.inv) {δ : Matrix (Fin r) (Fin r) Int} (hδ : ∀ i j : Fin r, entry T.inv i j = δ j i)
    {α αv : Fin n → Fin r → Int} (hα : ∀ s : Fin n, T.roots[s.1]? = some (bv (mod2 (α s)))) (hαv : ∀ s : Fin n, T.coroots[s.1]? = some (bv (mod2 (αv s)))) :
    ImplementsTits nd cs T φ f α αv δ (iota : _ → Elt D cs h) sigma proj (psi φ) := by
  have hlift : ∀ x (l : List (Fin n)), cs.IsReduced l → (iota x * (l.map sigma).prod : Elt D cs h) = ⟨x, cs.wordProd l⟩ := by
    intro x l hl
    rw [sigma_word hl, iota_mul, add_zero]
  have hsm := fun s a => hT.sigmaMult (h := h) hW s a
  have hsi := fun s a => hT.sigmaInvMult (h := h) hW s a
  have hms := fun s a => hT.multSigma (h := h) hW s a
  have hmi := fun s a => hT.multSigmaInv (h := h) hW s a
  refine
    { root := fun s => by rw [TG.dualMAlpha, Vec.get, hα], coroot := fun s => by rw [TG.mAlpha, Vec.get, hαv], injective := ?_, stored := ?_, weyl := fun a => rfl, one := ?_, lift := ?_, torus := ?_, liftLeft := ?_, liftRight := ?_, leftTorusPart := ?_,
      rightTorusPart := ?_, length := ?_, eq := ?_, reflect := ?_, pushAcross := ?_, pullAcross := ?_, twisted := ?_, involutionMatrix := ?_,
      leftAdd := fun x a => Stores.leftAdd nd T x a, rightAdd := fun x a => hT.rightAdd hW x a, sigmaMult := hsm, sigmaInvMult := hsi, multSigma := hms,
      multSigmaInv := hmi, prod := fun a b => hT.prod hW a b, sigmaConjugate := ?_, sigmaInvConjugate := ?_, twistedConjugate := ?_,
      inverseTwistedConjugate := ?_ }
  · intro a b e
    have e1 := congrArg TE.t e
    have e2 := congrArg TE.w e
    exact Elt.ext' (bv_inj e1) (hW.injective e2)
  · intro x l hl
    rw [hlift x l hl]; rfl
  · show (⟨BV.zero T.rank, WG.one⟩ : TE) = ⟨bv 0, φ 1⟩
    rw [hT.rank, bv_zero, hW.one]
  · intro l hl
    rw [sigma_word hl]
    show (⟨BV.zero T.rank, _⟩ : TE) = ⟨bv 0, _⟩
    rw [hT.rank, bv_zero]
  · intro x
    show (⟨bv x, WG.one⟩ : TE) = ⟨bv x, φ 1⟩
    rw [hW.one]
  · intro x l hl
    rw [hlift x l hl]; rfl
  · intro x l hl
    unfold TG.liftRight
    rw [hT.pullAcross h hW, Res.ok_bind, sigma_word hl, mul_iota, zero_add]; rfl
  · intro x l hl
    rw [hlift x l hl]; rfl
  · intro x l hl
    rw [sigma_word hl, mul_iota, zero_add]
    show T.pushAcross nd (bv _) (φ _) = _
    rw [hT.pushAcross h hW, D.rho_inv]
  · intro a
    exact hW.length a.w
  · intro a b
    by_cases hw : a.w = b.w
    · refine ⟨decide (a.t = b.t), ?_, ?_, ?_⟩
      · unfold TE.eq
        have : (psi φ a).w = (psi φ b).w := congrArg φ hw
        rw [if_pos this]
        show BV.eq nd (bv a.t) (bv b.t) = _
        unfold BV.eq
        rw [Res.assertIn_bind nd (by simp [bv_size])]
        show Res.ok _ = _
        congr 1
        rw [Bool.eq_iff_iff, decide_eq_true_iff, decide_eq_true_iff]
        constructor
        · intro e
          refine bv_inj (BV.mk.injEq _ _ _ _ ▸ ⟨e, rfl⟩)
        · intro e; rw [e]
      · unfold TE.ne
        have : (psi φ a).w = (psi φ b).w := congrArg φ hw
        rw [if_neg (by simpa using this)]
        show (do pure (!(← BV.eq nd (bv a.t) (bv b.t))) : Res Bool) = _
        unfold BV.eq
        rw [Res.assertIn_bind nd (by simp [bv_size])]
        show Res.ok _ = _
        congr 2
        rw [Bool.eq_iff_iff, decide_eq_true_iff, decide_eq_true_iff]
        constructor
        · intro e
          refine bv_inj (BV.mk.injEq _ _ _ _ ▸ ⟨e, rfl⟩)
        · intro e; rw [e]
      · rw [decide_eq_true_iff]
        exact ⟨fun e => Elt.ext' e hw, fun e => by rw [e]⟩
    · have : (psi φ a).w ≠ (psi φ b).w := fun e => hw (hW.injective e)
      refine ⟨false, ?_, ?_, ?_⟩
      · unfold TE.eq; rw [if_neg this]
      · unfold TE.ne; rw [if_pos this]; rfl
      · simp only [Bool.false_eq_true, false_iff]
        exact fun e => hw (by rw [e])
  · intro x s
    exact ⟨_, hT.reflect nd x s, (sigma_conj s x).symm⟩
  · intro x a
    refine ⟨_, hT.pushAcross h hW x a.w, ?_⟩
    rw [mul_iota', ← D.rho_mul, mul_inv_cancel, D.rho_one]
  · intro x a
    exact ⟨_, hT.pullAcross h hW x a.w, mul_iota' a x⟩
  · intro x
    unfold TG.twisted
    rw [bv_mulVec nd hT.le hI]
    simp only [hδ]
  · intro l
    have hz : BM.zero nd dim T.rank 0 = .ok ⟨[], r, 0⟩ := by
      unfold BM.zero
      rw [hT.rank, Res.assertIn_bind nd (c := decide (r ≤ dim)) (decide_eq_true hT.le)]; rfl
    obtain ⟨A, h1, h2, h3⟩ := invMatLoop_ok (cs := cs) hT h nd hI l r 0 (by omega) ⟨[], r, 0⟩ ⟨rfl, rfl, rfl, by simp⟩ (fun p q hq => absurd hq (by omega))
    refine ⟨A, ?_, h2, fun x => ⟨_, word_conj l x, ?_⟩⟩
    · unfold TG.involutionMatrix
      rw [hz, Res.ok_bind, hT.rank, h1]
    · have e := bv_mulVec nd hT.le h2 x
      rw [show (32 : Nat) = dim from rfl, e]
      congr 2
      funext i
      simp only [fun j : Fin r => h3 i j.1 j.2]
      have ex : x = ∑ j : Fin r, x j • (fun a : Fin r => if a.1 = j.1 then (1 : ZMod 2) else 0) := by
        funext a
        simp only [Finset.sum_apply, Pi.smul_apply, smul_eq_mul]
        rw [Finset.sum_eq_single a]
        · simp
        · intro b _ hb
          rw [if_neg (fun e => hb (Fin.ext e.symm)), mul_zero]
        · simp
      conv_rhs => rw [ex]
      simp only [map_sum, map_smul, Finset.sum_apply, Pi.smul_apply, smul_eq_mul, Finset.mul_sum, Finset.sum_mul]
      rw [Finset.sum_comm]
      refine Finset.sum_congr rfl fun j _ => Finset.sum_congr rfl fun k _ => ?_
      rw [hδ]; ring
  · intro s a
    unfold TG.sigmaConjugate
    rw [hsm, Res.ok_bind, hmi]
  · intro s a
    unfold TG.sigmaInvConjugate
    rw [hsi, Res.ok_bind, hms]
  · intro s a
    unfold TG.twistedConjugate
    rw [hsm, Res.ok_bind, hf, Res.ok_bind, hmi]
  · intro s a
    unfold TG.inverseTwistedConjugate
    rw [hsi, Res.ok_bind, hf, Res.ok_bind, hms]

end

/-! ### the constructors -/

theorem unit_ok (nd : Bool) (hr : r ≤ 32) (i : Nat) (hi : i < r) : BV.unit nd dim r i = .ok (bv (fun a : Fin r => if a.1 = i then 1 else 0)) := by
  obtain ⟨-, -, h3, -⟩ := C33_vector nd (dim := dim) (n := r) hr (v := BV.zero r) ⟨rfl, by simp [BV.zero]⟩
  obtain ⟨s, e1, e2, e3⟩ := h3 i hi true
  rw [BV.unit, e1, eq_bv e2]
  intro j
  rw [e3]
  by_cases hj : j.1 = i
  · simp [hj]
  · simp [hj, vec_apply, BV.zero]

theorem make_ok (nd : Bool) (tw : TWG) (hr : r ≤ 32) (α αv : Fin n → Fin r → Int) (hp : ∀ s t, ∑ i, α s i * αv t i = C s t) (δ : Matrix (Fin r) (Fin r) Int) :
    ∃ T, TG.make nd tw r (List.ofFn fun s => List.ofFn (α s)) (List.ofFn fun s => List.ofFn (αv s)) (Mat.enc δ) = .ok T ∧ T.tw = tw ∧
      Stores T (datum α αv hp) ∧ (∀ s : Fin n, T.roots[s.1]? = some (bv (mod2 (α s)))) ∧ IsMatrix r r T.inv ∧ ∀ i j : Fin r, entry T.inv i j = δ j i := by
  obtain ⟨B, h1, h2, h3⟩ := bmOfMat_ok nd hr δ.transpose
  have e : ∀ v : Fin n → Fin r → Int, (List.ofFn fun s => List.ofFn (v s)) = (List.ofFn v).map List.ofFn := fun v => by rw [List.map_ofFn]; rfl
  refine ⟨⟨tw, r, (List.ofFn α).map fun v => bv (mod2 v), (List.ofFn αv).map fun v => bv (mod2 v), B⟩, ?_, rfl, ⟨rfl, hr, ?_, ?_⟩, ?_, h2, h3⟩
  · unfold TG.make
    rw [Mat.C45_transposed, Res.ok_bind, h1, Res.ok_bind, e, e, reduceAll_ok nd hr, Res.ok_bind, reduceAll_ok nd hr, Res.ok_bind]; rfl
  · intro s
    refine ⟨mod2 (α s), ?_, fun x => rfl⟩
    show ((List.ofFn α).map fun v => bv (mod2 v))[s.1]? = _
    rw [List.map_ofFn, List.getElem?_ofFn, dif_pos s.2]; rfl
  · intro s
    show ((List.ofFn αv).map fun v => bv (mod2 v))[s.1]? = _
    rw [List.map_ofFn, List.getElem?_ofFn, dif_pos s.2]; rfl
  · intro s
    show ((List.ofFn α).map fun v => bv (mod2 v))[s.1]? = _
    rw [List.map_ofFn, List.getElem?_ofFn, dif_pos s.2]; rfl

theorem adjointLoop_ok (nd : Bool) (hn : n ≤ 32) (C : Fin n → Fin n → Int) {tw : List Nat} {f : Fin n → Fin n} (ht : ∀ s : Fin n, tw[s.1]? = some (f s).1)
    (k i : Nat) (hk : i + k = n) (l1 l2 : List BV) (m : BM) (h1 : l1 = (List.ofFn fun s : Fin n => bv fun a : Fin n => if a.1 = s.1 then 1 else 0).take i)
    (h2 : l2 = (List.ofFn fun s : Fin n => bv (mod2 fun a => C a s)).take i) (hm : IsMatrix n n m)
    (he : ∀ p q : Fin n, (m.cols.getD q.1 0).testBit p.1 = decide (p.1 < i ∧ q = f p)) :
    ∃ A, TG.adjointLoop nd (Mat.enc (Matrix.of C)) tw n k i (l1, l2, m) =
      .ok (List.ofFn fun s : Fin n => bv fun a : Fin n => if a.1 = s.1 then 1 else 0, List.ofFn fun s : Fin n => bv (mod2 fun a => C a s), A) ∧
      IsMatrix n n A ∧ ∀ p q : Fin n, (A.cols.getD q.1 0).testBit p.1 = decide (q = f p) := by
  induction k generalizing i l1 l2 m with
  | zero =>
    obtain rfl : i = n := by omega
    refine ⟨m, ?_, hm, fun p q => ?_⟩
    · rw [TG.adjointLoop, h1, h2, List.take_of_length_le (by simp), List.take_of_length_le (by simp)]
    · rw [he, decide_eq_decide]
      exact ⟨fun e => e.2, fun e => ⟨p.2, e⟩⟩
  | succ k ih =>
    have hi : i < n := by omega
    have hc := Mat.C45_column nd (Matrix.of C) ⟨i, hi⟩
    have hb := bvOfInts_ok nd hn fun a => C a ⟨i, hi⟩
    obtain ⟨m', e1, e2, e3⟩ := set_spec nd (dim := dim) hn hi (f ⟨i, hi⟩).2 hm true
    have ht' : Vec.get tw i = .ok (f ⟨i, hi⟩).1 := by
      have := ht ⟨i, hi⟩
      rw [Vec.get, this]
    have hc' : Mat.column nd (Mat.enc (Matrix.of C)) i = .ok (List.ofFn fun a => C a ⟨i, hi⟩) := hc
    rw [TG.adjointLoop, unit_ok nd hn i hi, Res.ok_bind, hc', Res.ok_bind, hb, Res.ok_bind, ht', Res.ok_bind, e1, Res.ok_bind]
    refine ih (i + 1) (by omega) _ _ m' ?_ ?_ e2 ?_
    · rw [List.take_succ, List.getElem?_ofFn, dif_pos hi, ← h1]; rfl
    · rw [List.take_succ, List.getElem?_ofFn, dif_pos hi, ← h2]; rfl
    · intro p q
      rw [e3, he]
      by_cases hpi : p.1 = i
      · obtain rfl : p = ⟨i, hi⟩ := Fin.ext hpi
        by_cases hq : q = f ⟨i, hi⟩
        · rw [if_pos ⟨rfl, by rw [hq]⟩]
          simp [hq]
        · rw [if_neg (fun e => hq (Fin.ext e.2)), decide_eq_decide]
          simp [hq]
      · rw [if_neg (fun e => hpi e.1), decide_eq_decide]
        constructor
        · rintro ⟨a, b⟩; exact ⟨by omega, b⟩
        · rintro ⟨a, b⟩; exact ⟨by omega, b⟩

/-- the simple roots of an adjoint group are the standard basis of the weight lattice -/
def adjRoot (s : Fin n) : Fin n → Int := fun i => if i = s then 1 else 0

/-- the simple coroots of an adjoint group are the columns of the Cartan matrix -/
def adjCoroot (C : Fin n → Fin n → Int) (s : Fin n) : Fin n → Int := fun i => C i s

theorem adj_pair (C : Fin n → Fin n → Int) (s t : Fin n) : ∑ i, adjRoot s i * adjCoroot C t i = C s t := by
  simp [adjRoot, adjCoroot]

/-- the permutation matrix of a twist -/
def permMatrix (f : Fin n → Fin n) : Matrix (Fin n) (Fin n) Int := Matrix.of fun i j => if i = f j then 1 else 0

theorem makeAdjoint_ok (nd : Bool) (tw : TWG) (hn : n ≤ 32) (C : Fin n → Fin n → Int) {f : Fin n → Fin n} (ht : ∀ s : Fin n, tw.twist[s.1]? = some (f s).1) :
    ∃ T, TG.makeAdjoint nd (Mat.enc (Matrix.of C)) tw = .ok T ∧ T.tw = tw ∧
      Stores T (datum adjRoot (adjCoroot C) (adj_pair C)) ∧ (∀ s : Fin n, T.roots[s.1]? = some (bv (mod2 (adjRoot s)))) ∧ IsMatrix n n T.inv ∧ ∀ i j : Fin n, entry T.inv i j = (permMatrix f j i : Int) := by
  have hz : BM.zero nd dim n n = .ok ⟨List.replicate n 0, n, n⟩ := by
    unfold BM.zero
    rw [Res.assertIn_bind nd (c := decide (n ≤ dim)) (decide_eq_true hn)]; rfl
  obtain ⟨A, h1, h2, h3⟩ := adjointLoop_ok nd hn C ht n 0 (by omega) [] [] _ (by simp) (by simp) (zero_isMatrix n n) (fun p q => by simp)
  refine ⟨⟨tw, n, List.ofFn fun s : Fin n => bv fun a : Fin n => if a.1 = s.1 then 1 else 0, List.ofFn fun s : Fin n => bv (mod2 fun a => C a s), A⟩, ?_, rfl, ⟨rfl, hn, ?_, ?_⟩, ?_, h2, ?_⟩
  rotate_left
  · intro s
    refine ⟨fun a : Fin n => if a.1 = s.1 then 1 else 0, ?_, fun x => ?_⟩
    · show (List.ofFn fun s : Fin n => bv fun a : Fin n => if a.1 = s.1 then 1 else 0)[s.1]? = _
      rw [List.getElem?_ofFn, dif_pos s.2]
    · rw [datum_ev]
      refine Finset.sum_congr rfl fun i _ => ?_
      by_cases hi : i = s
      · simp [mod2, adjRoot, hi]
      · have hi2 : i.1 ≠ s.1 := fun e => hi (Fin.ext e)
        simp [mod2, adjRoot, hi, hi2]
  · intro s
    show (List.ofFn fun s : Fin n => bv (mod2 fun a => C a s))[s.1]? = _
    rw [List.getElem?_ofFn, dif_pos s.2]; rfl
  · intro s
    show (List.ofFn fun s : Fin n => bv fun a : Fin n => if a.1 = s.1 then 1 else 0)[s.1]? = _
    rw [List.getElem?_ofFn, dif_pos s.2]
    show some (bv fun a : Fin n => if a.1 = s.1 then 1 else 0) = _
    congr 2
    funext i
    by_cases hi : i = s
    · simp [mod2, adjRoot, hi]
    · have hi2 : i.1 ≠ s.1 := fun e => hi (Fin.ext e)
      simp [mod2, adjRoot, hi, hi2]
  · intro i j
    show entry A i j = _
    rw [entry, vec_apply, h3]
    by_cases hj : j = f i
    · simp [hj, permMatrix]
    · simp [hj, permMatrix]
  · unfold TG.makeAdjoint
    show (do let m ← BM.zero nd dim n n
             let (r, c, m) ← TG.adjointLoop nd (Mat.enc (Matrix.of C)) tw.twist n n 0 ([], [], m)
             pure ⟨tw, n, r, c, m⟩ : Res TG) = _
    rw [hz, Res.ok_bind, h1, Res.ok_bind]; rfl

theorem Implements.fintype {cs : CoxeterSystem M G} {W : WG} {φ : G → List Nat} {nd : Bool} (h : Implements nd cs W φ) : Nonempty (Fintype G) := by
  obtain ⟨N, -⟩ := h.packed
  exact ⟨Fintype.ofEquiv _ N.symm⟩

/-- **C66**: for every root datum whose simple roots and coroots are `α` and `αv`, of finite type, and every twist, the constructor
succeeds and the class computes in the Tits group. -/
theorem C66_titsGroup (nd : Bool) {comps : List Comp} (h : IsDynkin n C comps) (hd : ∀ s, C s s = 2) (hn : ∀ s t, s ≠ t → C s t ≤ 0)
    (hz : ∀ s t, C s t = 0 → C t s = 0) {f : Fin n → Fin n} (hf1 : ∀ s, f (f s) = s) (hf2 : ∀ s t, C (f s) (f t) = C s t)
    (cs : CoxeterSystem (coxMatrix C) G) (tw : List Nat) (ht : ∀ s : Fin n, tw[s.1]? = some (f s).1)
    (hr : r ≤ 32) (α αv : Fin n → Fin r → Int) (hp : ∀ s t, ∑ i, α s i * αv t i = C s t) (δ : Matrix (Fin r) (Fin r) Int) :
    ∃ W φ T, WG.make nd n comps = .ok W ∧ Implements nd cs W φ ∧
      TG.make nd ⟨W, tw⟩ r (List.ofFn fun s => List.ofFn (α s)) (List.ofFn fun s => List.ofFn (αv s)) (Mat.enc δ) = .ok T ∧
      ∃ (𝒯 : Type) (_ : Group 𝒯) (ι : (Fin r → ZMod 2) → 𝒯) (σ : Fin n → 𝒯) (π : 𝒯 →* G) (ψ : 𝒯 → TE),
        IsTits cs α αv ι σ π ∧ ImplementsTits nd cs T φ f α αv δ ι σ π ψ := by
  obtain ⟨W, φ, θ, h1, h2, -, h4⟩ := C47_twisted nd h hd hn hz hf1 hf2 cs tw ht
  obtain ⟨T, e1, e2, e3, e6, e4, e5⟩ := make_ok nd ⟨W, tw⟩ hr α αv hp δ
  obtain ⟨_⟩ := Implements.fintype h2
  have hC := isCartan_of_dynkin h hd hn hz
  exact ⟨W, φ, T, h1, h2, e1, Elt (datum α αv hp) cs hC, inferInstance, iota, sigma, proj, psi φ, isTits α αv hp cs hC,
    implementsTits e3 hC (by rw [e2]; exact h2) (by rw [e2]; exact h4.twistedGen) e4 e5 e6 e3.coroot⟩

/-- **C66** for the adjoint group of a Cartan matrix -/
theorem C66_adjoint (nd : Bool) {comps : List Comp} (h : IsDynkin n C comps) (hd : ∀ s, C s s = 2) (hn : ∀ s t, s ≠ t → C s t ≤ 0)
    (hz : ∀ s t, C s t = 0 → C t s = 0) {f : Fin n → Fin n} (hf1 : ∀ s, f (f s) = s) (hf2 : ∀ s t, C (f s) (f t) = C s t)
    (cs : CoxeterSystem (coxMatrix C) G) (tw : List Nat) (ht : ∀ s : Fin n, tw[s.1]? = some (f s).1) :
    ∃ W φ T, WG.make nd n comps = .ok W ∧ Implements nd cs W φ ∧ TG.makeAdjoint nd (Mat.enc (Matrix.of C)) ⟨W, tw⟩ = .ok T ∧
      ∃ (𝒯 : Type) (_ : Group 𝒯) (ι : (Fin n → ZMod 2) → 𝒯) (σ : Fin n → 𝒯) (π : 𝒯 →* G) (ψ : 𝒯 → TE),
        IsTits cs (fun s i => if i = s then 1 else 0) (fun s i => C i s) ι σ π ∧
        ImplementsTits nd cs T φ f (fun s i => if i = s then 1 else 0) (fun s i => C i s) (Matrix.of fun i j => if i = f j then 1 else 0) ι σ π ψ := by
  obtain ⟨W, φ, θ, h1, h2, -, h4⟩ := C47_twisted nd h hd hn hz hf1 hf2 cs tw ht
  obtain ⟨T, e1, e2, e3, e6, e4, e5⟩ := makeAdjoint_ok nd ⟨W, tw⟩ h.rank_le C ht
  obtain ⟨_⟩ := Implements.fintype h2
  have hC := isCartan_of_dynkin h hd hn hz
  exact ⟨W, φ, T, h1, h2, e1, Elt (datum adjRoot (adjCoroot C) (adj_pair C)) cs hC, inferInstance, iota, sigma, proj, psi φ,
    isTits adjRoot (adjCoroot C) (adj_pair C) cs hC,
    implementsTits e3 hC (by rw [e2]; exact h2) (by rw [e2]; exact h4.twistedGen) e4 e5 e6 e3.coroot⟩

/-! ### an example: GL(5), with the automorphism that is minus the reversal of the coordinates -/

def exRoot (s : Fin 4) : Fin 5 → Int := fun i => if i.1 = s.1 then 1 else if i.1 = s.1 + 1 then -1 else 0

def exDelta : Matrix (Fin 5) (Fin 5) Int := Matrix.of fun i j => if i.1 + j.1 = 4 then -1 else 0

theorem exTits : ∃ W φ T, WG.make false 4 exCompsA = .ok W ∧ Implements false (coxMatrix exCA).toCoxeterSystem W φ ∧
      TG.make false ⟨W, [3, 2, 1, 0]⟩ 5 (List.ofFn fun s => List.ofFn (exRoot s)) (List.ofFn fun s => List.ofFn (exRoot s)) (Mat.enc exDelta) = .ok T ∧
      ∃ (𝒯 : Type) (_ : Group 𝒯) (ι : (Fin 5 → ZMod 2) → 𝒯) (σ : Fin 4 → 𝒯) (π : 𝒯 →* (coxMatrix exCA).Group) (ψ : 𝒯 → TE),
        IsTits (coxMatrix exCA).toCoxeterSystem exRoot exRoot ι σ π ∧ ImplementsTits false (coxMatrix exCA).toCoxeterSystem T φ exTwist exRoot exRoot exDelta ι σ π ψ :=
  C66_titsGroup false exDynkinA (by decide) (by decide) (by decide) (by decide) (by decide) _ _ (by decide) (by decide) exRoot exRoot (by decide) exDelta

/-- the hypotheses of `C66_adjoint` are met -/
example := C66_adjoint false exDynkinA (by decide) (by decide) (by decide) (f := exTwist) (by decide) (by decide) (coxMatrix exCA).toCoxeterSystem [3, 2, 1, 0] (by decide)

end Verif.Tits
