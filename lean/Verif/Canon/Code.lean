import Verif.Canon.Link
/-
The loops of `canonicalize`.
-/
namespace Verif.Canon
open Verif Verif.Root Verif.Mat Verif.Datum Verif.Weyl Verif.Inv Verif.Coxeter CoxeterSystem
open scoped Matrix

variable {n r : Nat} {Mx : CoxeterMatrix (Fin n)} {G : Type} [Group G]
variable {nd : Bool} {cs : CoxeterSystem Mx G} {α αv : Fin n → Fin r → ℤ} {comps : List Comp} {pc : Bool} {rd : RD} {N : Nat} {R R' : Nat → Fin n → ℤ}
  {T : TWG} {φ : G → List Nat} {f : Fin n → Fin n} {θ : G →* G} {δ : Matrix (Fin r) (Fin r) ℤ} {A : G →* Matrix (Fin r) (Fin r) ℤ} {Γ : Fin n → Prop}

theorem scan_ok {test : Nat → Res Bool} {t : Nat → Bool} (l : List Nat) (h : ∀ s ∈ l, test s = .ok (t s)) : scan test l = .ok (l.find? t) := by
  induction l with
  | nil => rfl
  | cons s l ih =>
    rw [scan, h s (by simp), Res.ok_bind, List.find?_cons]
    cases t s
    · exact ih fun u hu => h u (by simp [hu])
    · rfl

theorem mem_gens {gens : List Bool} (hg : IsGens n gens Γ) (k : Nat) : k ∈ Root.members gens ↔ ∃ s : Fin n, s.1 = k ∧ Γ s := by
  rw [mem_members']
  constructor
  · intro h
    have hk := hg.2.2 k h
    exact ⟨⟨k, hk⟩, rfl, (hg.2.1 ⟨k, hk⟩).1 h⟩
  · rintro ⟨s, rfl, hs⟩
    exact (hg.2.1 s).2 hs

/-- the result of a scan over generators -/
theorem scan_gens {gens : List Bool} (hg : IsGens n gens Γ) {test : Nat → Res Bool} {P : Fin n → Prop}
    (h : ∀ s : Fin n, Γ s → ∃ b, test s = .ok b ∧ (b = true ↔ P s)) :
    (scan test (Root.members gens) = .ok none ∧ ∀ s, Γ s → ¬ P s) ∨ ∃ s : Fin n, Γ s ∧ P s ∧ scan test (Root.members gens) = .ok (some s.1) := by
  have ht : ∀ s ∈ Root.members gens, test s = .ok (match test s with | .ok b => b | _ => false) := by
    intro k hk
    obtain ⟨s, rfl, hs⟩ := (mem_gens hg k).1 hk
    obtain ⟨b, hb, -⟩ := h s hs
    rw [hb]
  have hsc := scan_ok (t := fun s => match test s with | .ok b => b | _ => false) _ ht
  cases hfd : (Root.members gens).find? (fun s => match test s with | .ok b => b | _ => false) with
  | none =>
    refine .inl ⟨by rw [hsc, hfd], fun s hs hP => ?_⟩
    obtain ⟨b, hb, hbP⟩ := h s hs
    have := List.find?_eq_none.1 hfd s.1 ((mem_gens hg _).2 ⟨s, rfl, hs⟩)
    rw [hb] at this
    exact this (hbP.2 hP)
  | some k =>
    have hm := List.mem_of_find?_eq_some hfd
    have hv := List.find?_some hfd
    obtain ⟨s, rfl, hs⟩ := (mem_gens hg k).1 hm
    obtain ⟨b, hb, hbP⟩ := h s hs
    rw [hb] at hv
    exact .inr ⟨s, hs, hbP.1 hv, by rw [hsc, hfd]⟩

variable (H : Input nd cs α αv comps pc rd N R R' T φ f θ δ A)
include H
set_option linter.unusedSectionVars false

/-- the two sums -/
noncomputable abbrev rsum (H : Input nd cs α αv comps pc rd N R R' T φ f θ δ A) (w : G) := xs cs H.cartan f (posF N R) (-1) w
noncomputable abbrev isum (H : Input nd cs α αv comps pc rd N R R' T φ f θ δ A) (w : G) := xs cs H.cartan f (posF N R) 1 w

theorem test1_ok (x y : Fin n → ℤ) (s : Fin n) : ∃ b, test1 nd rd (List.ofFn (lin α x)) (List.ofFn (lin α y)) s = .ok b ∧
    (b = true ↔ pairing (cart α αv) s x < 0 ∨ pairing (cart α αv) s x = 0 ∧ pairing (cart α αv) s y < 0) := by
  unfold test1
  rw [(C69_datum H.datum).simpleCoroot, Res.ok_bind, C45_dot, Res.ok_bind, Res.ok_bind, C45_dot, Res.ok_bind, dotProduct_comm, lin_pairing, dotProduct_comm, lin_pairing]
  by_cases h1 : pairing (cart α αv) s x < 0
  · rw [if_pos h1]; exact ⟨true, rfl, by simp [h1]⟩
  · rw [if_neg h1]
    by_cases h2 : pairing (cart α αv) s x = 0
    · rw [if_pos h2]; exact ⟨_, rfl, by simp [h2]⟩
    · rw [if_neg h2]; exact ⟨false, rfl, by simp [h1, h2]⟩

theorem reflect_ok (x : Fin n → ℤ) (s : Fin n) : rd.simpleReflect nd s (List.ofFn (lin α x)) = .ok (List.ofFn (lin α (srefl (cart α αv) s x))) := by
  rw [(C69_datum H.datum).simpleReflect, add_zero, lin_pairing, srefl_apply, Datum.lin_sub, Datum.lin_smul]
  congr 4
  rw [← unit_eq, lin_unit]

/-- an element tested positively is neither real nor imaginary -/
theorem test1_complex {w : G} {s : Fin n} (h : pairing (cart α αv) s (rsum H w) < 0 ∨ pairing (cart α αv) s (rsum H w) = 0 ∧ pairing (cart α αv) s (isum H w) ≤ 0) :
    trueInv cs H.cartan f w (Coxeter.root s) ≠ Coxeter.root s ∧ trueInv cs H.cartan f w (Coxeter.root s) ≠ -Coxeter.root s := by
  have := H.finite
  constructor
  · intro e
    have h1 := xs_zero H.cartan H.twist H.cartf (Φ := posF N R) e
    have h2 := xs_two H.cartan (isPos H) (c := 1) (by rw [one_smul]; exact e)
    simp only [rsum, isum] at h
    omega
  · intro e
    have h2 := xs_two H.cartan (isPos H) (c := -1) (by rw [neg_smul, one_smul]; exact e)
    simp only [rsum, isum] at h
    omega

/-- the number of passes left -/
noncomputable def meas (N : Nat) (R' : Nat → Fin n → ℤ) (α αv : Fin n → Fin r → ℤ) (Φ : Finset (Fin n → ℤ)) (x y : Fin n → ℤ) : Nat :=
  negs ((Finset.range N).map (addLeftEmbedding N)) (fun k => lin αv (R' k)) (lin α ((1 + ∑ s, ∑ z ∈ Φ, |pairing (cart α αv) s z|) • x + y))

omit [Group G] H in
theorem meas_le (x y : Fin n → ℤ) : meas N R' α αv (posF N R) x y ≤ N := by
  unfold meas
  refine (negs_le_card _ _ _).trans ?_
  simp

theorem isum_bound (w : G) (s : Fin n) : |pairing (cart α αv) s (isum H w)| < 1 + ∑ s, ∑ z ∈ posF N R, |pairing (cart α αv) s z| := by
  have h1 : |pairing (cart α αv) s (isum H w)| ≤ ∑ z ∈ posF N R, |pairing (cart α αv) s z| := by
    unfold isum xs
    rw [map_sum]
    refine (Finset.abs_sum_le_sum_abs _ _).trans ?_
    refine Finset.sum_le_sum_of_subset_of_nonneg (fun z hz => ((mem_eig _).1 hz).1) fun z _ _ => abs_nonneg _
  have h2 : ∑ z ∈ posF N R, |pairing (cart α αv) s z| ≤ ∑ s, ∑ z ∈ posF N R, |pairing (cart α αv) s z| :=
    Finset.single_le_sum (f := fun s => ∑ z ∈ posF N R, |pairing (cart α αv) s z|) (fun s _ => Finset.sum_nonneg fun z _ => abs_nonneg _) (Finset.mem_univ s)
  omega

theorem meas_down {w : G} {s : Fin n} (h : pairing (cart α αv) s (rsum H w) < 0 ∨ pairing (cart α αv) s (rsum H w) = 0 ∧ pairing (cart α αv) s (isum H w) < 0) :
    meas N R' α αv (posF N R) (srefl (cart α αv) s (rsum H w)) (srefl (cart α αv) s (isum H w)) + 1 = meas N R' α αv (posF N R) (rsum H w) (isum H w) := by
  have hS := full_sys H.datum.base
  have hb := isum_bound H w s
  unfold meas
  generalize hM : (1 + ∑ s, ∑ z ∈ posF N R, |pairing (cart α αv) s z|) = M0 at *
  have hlt : pairing (cart α αv) s (M0 • rsum H w + isum H w) < 0 := by
    rw [map_add, map_smul, smul_eq_mul]
    have := abs_lt.1 hb
    rcases h with h | ⟨h, h'⟩
    · nlinarith
    · rw [h, mul_zero, zero_add]; exact h'
  have e := hS.negs_down (i := s) (v := lin α (M0 • rsum H w + isum H w)) (by
    show lin α _ ⬝ᵥ lin αv (R' (N + s)) < 0
    rw [(simple_lin H.datum.base s).2, lin_pairing]; exact hlt)
  rw [← e]
  congr 2
  show lin α _ = Datum.refl (lin α (R (N + s))) (lin αv (R' (N + s))) _
  rw [(simple_lin H.datum.base s).1, (simple_lin H.datum.base s).2]
  unfold Datum.refl
  rw [lin_pairing, srefl_apply, srefl_apply, map_add, map_smul]
  have hroot : lin α (Coxeter.root s) = α s := by rw [← unit_eq, lin_unit]
  rw [← hroot, ← Datum.lin_smul, ← Datum.lin_sub]
  congr 1
  funext i
  simp only [Pi.add_apply, Pi.sub_apply, Pi.smul_apply, smul_eq_mul]
  ring

/-- conjugations of which the last is a simple one -/
theorem conj_cons {w w' : G} {s : Fin n} {l : List (Fin n)} (e : cs.simple s * w * θ (cs.simple s) = cs.wordProd l * w' * (θ (cs.wordProd l))⁻¹) :
    w = cs.wordProd (s :: l) * w' * (θ (cs.wordProd (s :: l)))⁻¹ := by
  rw [cs.wordProd_cons, map_mul, mul_inv_rev]
  have : cs.simple s * cs.wordProd l * w' * ((θ (cs.wordProd l))⁻¹ * (θ (cs.simple s))⁻¹) =
      cs.simple s * (cs.wordProd l * w' * (θ (cs.wordProd l))⁻¹) * (θ (cs.simple s))⁻¹ := by group
  rw [this, ← e, mul_assoc (cs.simple s), mul_assoc (cs.simple s * w), mul_inv_cancel, mul_one, cs.simple_mul_simple_cancel_left]

theorem phase1_ok {gens : List Bool} (hg : IsGens n gens Γ) (fuel : Nat) : ∀ (w : G) (ww : List Nat), IsTI θ w → meas N R' α αv (posF N R) (rsum H w) (isum H w) < fuel →
    ∃ (w' : G) (l : List (Fin n)), (∀ s ∈ l, Γ s) ∧ w = cs.wordProd l * w' * (θ (cs.wordProd l))⁻¹ ∧ IsTI θ w' ∧ Lex (cart α αv) Γ (rsum H w') (isum H w') ∧ (Lex (cart α αv) Γ (rsum H w) (isum H w) → l = []) ∧
      phase1 nd rd T gens fuel ⟨List.ofFn (lin α (rsum H w)), List.ofFn (lin α (isum H w)), φ w, ww⟩ =
        .ok ⟨List.ofFn (lin α (rsum H w')), List.ofFn (lin α (isum H w')), φ w', ww ++ l.map Fin.val⟩ := by
  have := H.finite
  induction fuel with
  | zero => intro w ww _ h; omega
  | succ fuel ih =>
    intro w ww hw hm
    rcases scan_gens hg (fun s _ => test1_ok H (rsum H w) (isum H w) s) with ⟨hsc, hno⟩ | ⟨s, hs, hP, hsc⟩
    · refine ⟨w, [], by simp, by simp, hw, fun s hs => ?_, fun _ => rfl, ?_⟩
      · have h1 := hno s hs
        constructor
        · by_contra h2; exact h1 (.inl (by omega))
        · intro h0; by_contra h2; exact h1 (.inr ⟨h0, by omega⟩)
      · rw [phase1, hsc, Res.ok_bind]; simp
    · have hc := test1_complex H (hP.imp_right fun h => ⟨h.1, h.2.le⟩)
      have e1 := xs_step H.cartan H.twist H.cartf (isPos H) hc.1 hc.2 (c := -1) (.inr rfl)
      have e2 := xs_step H.cartan H.twist H.cartf (isPos H) hc.1 hc.2 (c := 1) (.inl rfl)
      have hd := meas_down H hP
      obtain ⟨w', l, g1, g2, g3, g4, -, g5⟩ := ih (cs.simple s * w * θ (cs.simple s)) (ww ++ [s.1]) (IsTI.conjSimple H.twist hw s) (by
        show meas N R' α αv (posF N R) (xs _ _ _ _ _ _) (xs _ _ _ _ _ _) < fuel
        rw [e1, e2]
        have : meas N R' α αv (posF N R) (srefl (cart α αv) s (rsum H w)) (srefl (cart α αv) s (isum H w)) < fuel := by omega
        exact this)
      refine ⟨w', s :: l, ?_, conj_cons H g2, g3, g4, fun hL => ?_, ?_⟩
      · intro u hu
        rcases List.mem_cons.1 hu with rfl | hu
        · exact hs
        · exact g1 u hu
      · have q := hL s hs
        rcases hP with h | ⟨h, h'⟩
        · exact absurd q.1 (by omega)
        · exact absurd (q.2 h) (by omega)
      · rw [phase1, hsc, Res.ok_bind]
        simp only []
        rw [reflect_ok H, Res.ok_bind, reflect_ok H, Res.ok_bind, H.twisted.conjGen, Res.ok_bind]
        simp only []
        have g5' := g5
        simp only [rsum, isum] at g5'
        rw [e1, e2] at g5'
        rw [g5']
        simp

/-- the generators that are kept -/
theorem dropLoop_ok (x y : Fin n → ℤ) (l : List (Fin n)) : ∀ (gens : List Bool), gens.length = 32 → (n ≤ 32) → (∀ s ∈ l, 0 ≤ pairing (cart α αv) s x) →
    ∃ gens', dropLoop nd rd (List.ofFn (lin α x)) (List.ofFn (lin α y)) (l.map Fin.val) gens = .ok gens' ∧ gens'.length = 32 ∧
      ∀ k, RS.bit gens' k = true ↔ RS.bit gens k = true ∧ ∀ s ∈ l, s.1 = k → ¬ (0 < pairing (cart α αv) s x ∨ 0 < pairing (cart α αv) s y) := by
  induction l with
  | nil => intro gens h1 _ _; exact ⟨gens, rfl, h1, by simp⟩
  | cons s l ih =>
    intro gens h1 h2 h3
    have hD := C69_datum H.datum
    have hb : ∃ b : Bool, (b = true ↔ 0 < pairing (cart α αv) s x ∨ 0 < pairing (cart α αv) s y) ∧
        dropLoop nd rd (List.ofFn (lin α x)) (List.ofFn (lin α y)) ((s :: l).map Fin.val) gens =
          dropLoop nd rd (List.ofFn (lin α x)) (List.ofFn (lin α y)) (l.map Fin.val) (if b then gens.set s.1 false else gens) := by
      have hput : Vec.put gens s.1 false = .ok (gens.set s.1 false) := Vec.put_ok (show s.1 < gens.length by have := s.2; omega) _
      rw [List.map_cons, dropLoop]
      simp only [hD.simpleCoroot, Res.ok_bind, C45_dot, lin_pairing]
      by_cases hx : pairing (cart α αv) s x > 0
      · refine ⟨true, by simp [hx], ?_⟩
        rw [if_pos hx, if_pos rfl, if_pos trivial, hput, Res.ok_bind]
      · rw [if_neg hx]
        by_cases hy : pairing (cart α αv) s y > 0
        · refine ⟨true, by simp [hy], ?_⟩
          rw [if_pos (by simpa using hy), hput, Res.ok_bind, if_pos rfl]
        · refine ⟨false, by simp; omega, ?_⟩
          rw [if_neg (by simpa using hy)]; rfl
    obtain ⟨b, hb1, hb2⟩ := hb
    obtain ⟨gens', g1, g2, g3⟩ := ih (if b then gens.set s.1 false else gens) (by split <;> simp [h1]) h2 (fun u hu => h3 u (by simp [hu]))
    refine ⟨gens', by rw [hb2, g1], g2, fun k => ?_⟩
    rw [g3]
    have key : RS.bit (if b then gens.set s.1 false else gens) k = true ↔ RS.bit gens k = true ∧ (s.1 = k → ¬ b = true) := by
      cases b
      · simp
      · simp only [if_true]
        unfold RS.bit
        rw [List.getElem?_set]
        by_cases hk : s.1 = k
        · rw [if_pos hk]
          have : k < gens.length := by have := s.2; omega
          simp [hk, this]
        · rw [if_neg hk]; simp [hk]
    rw [key, hb1]
    constructor
    · rintro ⟨⟨q1, q2⟩, q3⟩
      refine ⟨q1, fun u hu => ?_⟩
      rcases List.mem_cons.1 hu with rfl | hu
      · exact q2
      · exact q3 u hu
    · rintro ⟨q1, q2⟩
      exact ⟨⟨q1, q2 s (by simp)⟩, fun u hu => q2 u (by simp [hu])⟩

theorem test2_ok (w : G) (s : Fin n) : ∃ b, test2 nd rd T (φ w) s = .ok b ∧ (b = true ↔ ∀ i, trueInv cs H.cartan f w (Coxeter.root s) i ≤ 0) := by
  obtain ⟨m, hm, e1, e2⟩ := imageSimple_ok H w s
  refine ⟨rd.rs.isNeg m, by rw [test2, e1, Res.ok_bind], ?_⟩
  rw [H.datum.base.answers.isNeg m hm, e2]

theorem phase2_ok {gens : List Bool} {J : Fin n → Prop} (hg : IsGens n gens J) (fuel : Nat) : ∀ (w : G) (ww : List Nat), IsTI θ w → cs.length w < fuel →
    (∀ s, J s → pairing (cart α αv) s (rsum H w) = 0 ∧ pairing (cart α αv) s (isum H w) = 0) →
    ∃ (w' : G) (l : List (Fin n)), (∀ s ∈ l, J s) ∧ w = cs.wordProd l * w' * (θ (cs.wordProd l))⁻¹ ∧ IsTI θ w' ∧ rsum H w' = rsum H w ∧ isum H w' = isum H w ∧
      (∀ s, J s → ∀ i, 0 ≤ trueInv cs H.cartan f w' (Coxeter.root s) i) ∧
      ((∀ s, J s → ∀ i, 0 ≤ trueInv cs H.cartan f w (Coxeter.root s) i) → l = []) ∧ phase2 nd rd T gens fuel (φ w, ww) = .ok (φ w', ww ++ l.map Fin.val) := by
  have := H.finite
  induction fuel with
  | zero => intro w ww _ h; omega
  | succ fuel ih =>
    intro w ww hw hm hJ
    rcases scan_gens hg (fun s _ => test2_ok H w s) with ⟨hsc, hno⟩ | ⟨s, hs, hP, hsc⟩
    · refine ⟨w, [], by simp, by simp, hw, rfl, rfl, fun s hs => ?_, fun _ => rfl, ?_⟩
      · obtain ⟨m, hm, e⟩ := image_root H w s
        obtain ⟨t, ht⟩ := H.datum.base.numbering.isRoot cs H.cartan hm
        rcases ht.sign with h1 | h1
        · rw [e]; exact h1.1
        · exact absurd (by rw [e]; exact h1.1) (hno s hs)
      · rw [phase2, hsc, Res.ok_bind]; simp
    · have hz := hJ s hs
      have hc := test1_complex H (.inr ⟨hz.1, hz.2.le⟩)
      have e1 := xs_step H.cartan H.twist H.cartf (isPos H) hc.1 hc.2 (c := -1) (.inr rfl)
      have e2 := xs_step H.cartan H.twist H.cartf (isPos H) hc.1 hc.2 (c := 1) (.inl rfl)
      have f1 : rsum H (cs.simple s * w * θ (cs.simple s)) = rsum H w := by
        show xs _ _ _ _ _ _ = _
        rw [e1, srefl_apply, hz.1, zero_smul, sub_zero]
      have f2 : isum H (cs.simple s * w * θ (cs.simple s)) = isum H w := by
        show xs _ _ _ _ _ _ = _
        rw [e2, srefl_apply, hz.2, zero_smul, sub_zero]
      have hdesc : cs.length (cs.simple s * w) < cs.length w := by
        by_contra hlt
        have h0 := cs.length_simple_mul w s
        have := (H.descent hw s).2 (by omega)
        obtain ⟨m, hm, e⟩ := image_root H w s
        obtain ⟨t, ht⟩ := H.datum.base.numbering.isRoot cs H.cartan hm
        rw [e] at this hP
        exact ht.ne_zero (not_both this hP)
      have hne : cs.simple s * w ≠ w * θ (cs.simple s) := fun e => by
        have := (H.real hw s).2 ⟨e, hdesc⟩
        have h2 := (eig_simple H w (-1) s).1 (by rw [this, neg_smul, one_smul])
        rw [neg_smul, one_smul] at h2
        exact hc.2 h2
      have hstep := IsTI.step H.twist hw hdesc hne
      obtain ⟨w', l, g1, g2, g3, g4, g5, g6, -, g7⟩ := ih (cs.simple s * w * θ (cs.simple s)) (ww ++ [s.1]) (IsTI.conjSimple H.twist hw s) (by omega) (by rw [f1, f2]; exact hJ)
      refine ⟨w', s :: l, ?_, conj_cons H g2, g3, by rw [g4, f1], by rw [g5, f2], g6, fun hL => ?_, ?_⟩
      · intro u hu
        rcases List.mem_cons.1 hu with rfl | hu
        · exact hs
        · exact g1 u hu
      · obtain ⟨m, hm, e⟩ := image_root H w s
        obtain ⟨t, ht⟩ := H.datum.base.numbering.isRoot cs H.cartan hm
        have hL := hL s hs
        rw [e] at hL hP
        exact absurd (not_both hL hP) ht.ne_zero
      · rw [phase2, hsc, Res.ok_bind]
        simp only []
        rw [H.twisted.conjGen, Res.ok_bind]
        simp only []
        rw [g7]
        simp

/-- `canonicalize` -/
theorem canonicalize_ok {gens : List Bool} (hg : IsGens n gens Γ) {fuel : Nat} (hf1 : N < fuel) (hf2 : ∀ w, cs.length w < fuel) {w : G} (hw : IsTI θ w) :
    ∃ (w' : G) (l : List (Fin n)), (∀ s ∈ l, Γ s) ∧ w = cs.wordProd l * w' * (θ (cs.wordProd l))⁻¹ ∧ IsTI θ w' ∧ Can cs H.cartan f (posF N R) Γ w' ∧ (Can cs H.cartan f (posF N R) Γ w → l = []) ∧
      canonicalize nd fuel rd T (φ w) gens = .ok (l.map Fin.val, φ w') := by
  have := H.finite
  obtain ⟨d, d1, d2⟩ := build_ok H hw
  have hn : n ≤ 32 := H.datum.cartan.dynkin.rank_le
  have t1 : twoRho nd rd d.re = .ok (List.ofFn (lin α (rsum H w))) := by
    rw [twoRho_ok H d2.re, ← eigSum_eq H]
    unfold eigSum
    simp only [neg_smul, one_smul]
    congr!
  have t2 : twoRho nd rd d.im = .ok (List.ofFn (lin α (isum H w))) := by
    rw [twoRho_ok H d2.im, ← eigSum_eq H]
    unfold eigSum
    simp only [one_smul]
    congr!
  obtain ⟨w1, l1, a1, a2, a3, a4, a6, a5⟩ := phase1_ok H hg fuel w [] hw (lt_of_le_of_lt (meas_le _ _) hf1)
  obtain ⟨ll, hll⟩ : ∃ ll : List (Fin n), Root.members gens = ll.map Fin.val := by
    have : ∀ l : List Nat, (∀ k ∈ l, k < n) → ∃ ll : List (Fin n), l = ll.map Fin.val := by
      intro l hl
      induction l with
      | nil => exact ⟨[], rfl⟩
      | cons k l ih =>
        obtain ⟨ll, rfl⟩ := ih fun u hu => hl u (by simp [hu])
        exact ⟨⟨k, hl k (by simp)⟩ :: ll, rfl⟩
    exact this _ fun k hk => hg.2.2 k (mem_members'.1 hk)
  have hmem : ∀ s, s ∈ ll ↔ Γ s := fun s => by
    have := mem_gens hg s.1
    rw [hll, List.mem_map] at this
    constructor
    · intro hs
      obtain ⟨u, e, hu⟩ := this.1 ⟨s, hs, rfl⟩
      rwa [Fin.ext e] at hu
    · intro hs
      obtain ⟨u, hu, e⟩ := this.2 ⟨s, rfl, hs⟩
      rwa [Fin.ext e] at hu
  obtain ⟨gens', b1, b2, b3⟩ := dropLoop_ok H (rsum H w1) (isum H w1) ll gens hg.1 hn fun s hs => (a4 s ((hmem s).1 hs)).1
  have hg' : IsGens n gens' fun s => Γ s ∧ pairing (cart α αv) s (rsum H w1) = 0 ∧ pairing (cart α αv) s (isum H w1) = 0 := by
    refine ⟨b2, fun s => ?_, fun k hk => hg.2.2 k ((b3 k).1 hk).1⟩
    rw [b3, hg.2.1]
    constructor
    · rintro ⟨q1, q2⟩
      have q3 := q2 s ((hmem s).2 q1) rfl
      have q4 := a4 s q1
      have q5 : pairing (cart α αv) s (rsum H w1) = 0 := by by_contra hne; exact q3 (.inl (lt_of_le_of_ne q4.1 (Ne.symm hne)))
      refine ⟨q1, q5, ?_⟩
      by_contra hne
      exact q3 (.inr (lt_of_le_of_ne (q4.2 q5) (Ne.symm hne)))
    · rintro ⟨q1, q2, q3⟩
      refine ⟨q1, fun u _ hu => ?_⟩
      rw [Fin.ext hu, q2, q3]; simp
  obtain ⟨w2, l2, c1, c2, c3, c4, c5, c6, c8, c7⟩ := phase2_ok H hg' fuel w1 (l1.map Fin.val) a3 (hf2 w1) fun s hs => hs.2
  refine ⟨w2, l1 ++ l2, ?_, ?_, c3, ⟨by show Lex _ _ (rsum H w2) (isum H w2); rw [c4, c5]; exact a4, fun s hs q1 q2 => c6 s ⟨hs, ?_, ?_⟩⟩, fun hcan => ?_, ?_⟩
  · intro s hs
    rcases List.mem_append.1 hs with hs | hs
    · exact a1 s hs
    · exact (c1 s hs).1
  · rw [a2, c2, cs.wordProd_append, map_mul, mul_inv_rev]; group
  · rw [← c4]; exact q1
  · rw [← c5]; exact q2
  · have e1 := a6 hcan.lex
    subst e1
    have e2 : w = w1 := by simpa using a2
    subst e2
    rw [c8 fun s hs => hcan.pos s hs.1 hs.2.1 hs.2.2, List.append_nil]
  · unfold canonicalize
    rw [d1, Res.ok_bind, t1, Res.ok_bind, t2, Res.ok_bind, a5, Res.ok_bind]
    simp only [List.nil_append]
    rw [hll, b1, Res.ok_bind, c7, Res.ok_bind]
    simp

end Verif.Canon
