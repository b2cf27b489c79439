import Verif.Inv.Cayley
/-
The record made by `add_cross`.
-/
namespace Verif.Inv
open Verif Verif.Root Verif.Mat Verif.Datum Verif.Weyl Verif.Coxeter CoxeterSystem
open scoped Matrix

variable {n r : Nat} {Mx : CoxeterMatrix (Fin n)} {G : Type} [Group G]
variable {nd : Bool} {cs : CoxeterSystem Mx G} {α αv : Fin n → Fin r → ℤ} {comps : List Comp} {pc : Bool} {rd : RD} {N : Nat} {R R' : Nat → Fin n → ℤ}
  {T : TWG} {φ : G → List Nat} {f : Fin n → Fin n} {θ : G →* G} {δ : Matrix (Fin r) (Fin r) ℤ} {A : G →* Matrix (Fin r) (Fin r) ℤ}

/-! ### exchange of images -/

theorem swapLoop_ok {m : Nat} {pi : List Nat} {σ : Nat → Nat} (hpi : ∀ a < m, pi[a]? = some (σ a) ∧ σ a < m ∧ σ (σ a) = a) (p0 : List Nat) (h0 : p0.length = m) :
    ∀ (d k : Nat) (p : List Nat), k + d = m → p.length = m → (∀ a < m, p[a]? = if min a (σ a) < k then p0[σ a]? else p0[a]?) →
    ∃ p', swapLoop pi (List.range' k d) p = .ok p' ∧ p'.length = m ∧ ∀ a < m, p'[a]? = p0[σ a]? := by
  intro d
  induction d with
  | zero =>
    intro k p hk hl h
    refine ⟨p, rfl, hl, fun a ha => ?_⟩
    rw [h a ha, if_pos (by omega)]
  | succ d ih =>
    intro k p hk hl h
    have hkm : k < m := by omega
    obtain ⟨h1, h2, h3⟩ := hpi k hkm
    rw [List.range'_succ, swapLoop, Perm.Vec.get_of h1, Res.ok_bind]
    by_cases hlt : k < σ k
    · rw [if_pos hlt, Vec.get_ok (by omega), Res.ok_bind, Vec.get_ok (by omega), Res.ok_bind, Vec.put_ok (by omega), Res.ok_bind, Vec.put_ok (by rw [List.length_set]; omega),
        Res.ok_bind]
      have e1 : p0[k]? = some p[k] := by
        rw [← List.getElem?_eq_getElem, h k hkm, if_neg (by omega)]
      have e2 : p0[σ k]? = some p[σ k] := by
        rw [← List.getElem?_eq_getElem, h _ h2, if_neg (by omega)]
      refine ih (k + 1) _ (by omega) (by simpa using hl) fun a ha => ?_
      obtain ⟨g1, g2, g3⟩ := hpi a ha
      rw [List.getElem?_set, List.getElem?_set]
      by_cases c1 : σ k = a
      · rw [if_pos c1, if_pos (by rw [List.length_set]; omega), if_pos (by rw [← c1, h3]; omega), ← c1, h3, e1]
      · rw [if_neg c1]
        by_cases c2 : k = a
        · rw [if_pos c2, if_pos (by omega), ← c2, if_pos (by omega), e2]
        · rw [if_neg c2, h a ha]
          have : σ a ≠ k := fun e => c1 (by rw [← e, g3])
          by_cases c3 : min a (σ a) < k
          · rw [if_pos c3, if_pos (by omega)]
          · rw [if_neg c3, if_neg (by omega)]
    · rw [if_neg hlt]
      refine ih (k + 1) _ (by omega) hl fun a ha => ?_
      obtain ⟨g1, g2, g3⟩ := hpi a ha
      rw [h a ha]
      by_cases c3 : min a (σ a) < k
      · rw [if_pos c3, if_pos (by omega)]
      · rw [if_neg c3]
        by_cases c4 : min a (σ a) < k + 1
        · rw [if_pos c4]
          have : a = k ∨ σ a = k := by omega
          rcases this with e | e
          · subst e
            have : σ a = a := by omega
            rw [this]
          · have : σ k = a := by rw [← e, g3]
            have : a = k := by omega
            rw [e, this]
        · rw [if_neg c4]

/-- the permutation of the roots by a simple reflection -/
structure SPerm (α αv : Fin n → Fin r → ℤ) (N : Nat) (R : Nat → Fin n → ℤ) (s : Fin n) (pi : List Nat) (σ : Nat → Nat) : Prop where
  length : pi.length = 2 * N
  get : ∀ a < 2 * N, pi[a]? = some (σ a)
  lt : ∀ a < 2 * N, σ a < 2 * N
  root : ∀ a < 2 * N, lin α (R (σ a)) = smat α αv s *ᵥ lin α (R a)
  invol : ∀ a < 2 * N, σ (σ a) = a
  pos : ∀ a < 2 * N, N ≤ a → a ≠ N + s → N ≤ σ a

theorem SPerm.isPerm {s : Fin n} {pi : List Nat} {σ : Nat → Nat} (h : SPerm α αv N R s pi σ) : Perm.IsPerm (2 * N) pi := by
  refine Perm.isPerm_of? h.length (fun i hi => ⟨σ i, h.get i hi, h.lt i hi⟩) fun i j k h1 h2 => ?_
  have hi : i < 2 * N := by have := (List.getElem?_eq_some_iff.1 h1).1; rw [h.length] at this; exact this
  have hj : j < 2 * N := by have := (List.getElem?_eq_some_iff.1 h2).1; rw [h.length] at this; exact this
  rw [h.get i hi] at h1
  rw [h.get j hj] at h2
  rw [← h.invol i hi, ← h.invol j hj, Option.some.inj h1, Option.some.inj h2]

theorem bit_iff {b : List Bool} {k : Nat} : RS.bit b k = true ↔ b[k]? = some true := by
  unfold RS.bit
  cases b[k]? with
  | none => simp
  | some x => simp

section
variable (hs : Datum.System nd α αv comps pc rd N R R')
include hs

theorem sperm (s : Fin n) : ∃ pi σ, Vec.get rd.rs.perms s = .ok pi ∧ SPerm α αv N R s pi σ := by
  have hN := hs.base.numbering.simple.1
  have hsn := s.2
  have hc : IsCartan (cart α αv) (Weyl.coxMatrix (cart α αv)) := hs.cartan.isCartan
  obtain ⟨M, W, g, cs, h, hf, n', β, β', fd, fa, fl, hn, H⟩ := built_real hs.base.cartan hs.base.built
  have hn' : n' = N := by
    have := hs.base.answers.numPos
    unfold RS.numPos at this
    rw [H.roots] at this
    simpa using this
  subst hn'
  obtain ⟨fn, t, h1, -, -⟩ := (H.row s (by omega)).perm
  have hg : Vec.get rd.rs.perms s = .ok ((List.range (2 * n')).map fn) := Perm.Vec.get_of h1
  have hsr : ∀ a < 2 * n', fn a < 2 * n' ∧ lin α (R (fn a)) = smat α αv s *ᵥ lin α (R a) := by
    intro a ha
    obtain ⟨m, hm, g1, g2, g3⟩ := hs.base.answers.simpleReflected s a ha
    have e : m = fn a := by
      unfold RS.simpleReflected at g1
      rw [hg, Res.ok_bind, Vec.get_ok (by simpa using ha)] at g1
      simpa using (Res.ok.inj g1).symm
    subst e
    refine ⟨hm, ?_⟩
    have e : R (fn a) = R a - form (cart α αv) (R a) (Spec.unit s) • Spec.unit s := by
      funext i; rw [g2, ← pair_eq]; rfl
    rw [e, lin_refl, lin_unit, lin_unit, (reflMat_mulVec _ _ _).1]
  have hinv : ∀ a < 2 * n', fn (fn a) = a := fun a ha => by
    obtain ⟨e1, e2⟩ := hsr a ha
    obtain ⟨e3, e4⟩ := hsr _ e1
    refine all_inj hs.base e3 ha (.inl ?_)
    rw [e4, e2, Matrix.mulVec_mulVec, smat_sq hc, Matrix.one_mulVec]
  refine ⟨_, fn, hg, by simp, fun a ha => by simp [ha], fun a ha => (hsr a ha).1, fun a ha => (hsr a ha).2, hinv, fun a ha h1 h2 => ?_⟩
  obtain ⟨c, hc1, -, hc2, -⟩ := (full_sys hs.base).perm s a (by
    simp only [Finset.mem_map, Finset.mem_range, addLeftEmbedding_apply]
    exact ⟨a - n', by omega, by omega⟩) h2
  simp only [Finset.mem_map, Finset.mem_range, addLeftEmbedding_apply] at hc1
  obtain ⟨c', hc', rfl⟩ := hc1
  have : fn a = n' + c' := by
    refine all_inj hs.base (hsr a ha).1 (by omega) (.inl ?_)
    rw [hc2, (hsr a ha).2, (simple_lin hs.base s).1, (simple_lin hs.base s).2, (reflMat_mulVec _ _ _).1]
  omega

variable {s : Fin n} {pi : List Nat} {σ : Nat → Nat} (hp : SPerm α αv N R s pi σ)
include hp

theorem simpleIn_conj {S S' : Nat → Prop} (h1 : ∀ k, S k → k < 2 * N) (h2 : ∀ k < 2 * N, (S' k ↔ S (σ k))) (h2' : ∀ k, S' k → k < 2 * N)
    (h3 : ¬ S (N + s)) (h4 : ¬ S' (N + s)) {k : Nat} (hk : Spec.IsSimpleIn N R S k) : Spec.IsSimpleIn N R S' (σ k) := by
  have hfin := hs.cartan.finite
  obtain ⟨a1, a2, a3⟩ := hk
  have hk := h1 k a1
  have hc : IsCartan (cart α αv) (Weyl.coxMatrix (cart α αv)) := hs.cartan.isCartan
  refine ⟨(h2 _ (hp.lt k hk)).2 (by rw [hp.invol k hk]; exact a1), hp.pos k hk a2 (fun e => h3 (by rw [← e]; exact a1)), ?_⟩
  rintro ⟨b, c, hb, hbN, hc', hcN, e⟩
  have hb2 := h2' b hb
  have hc2 := h2' c hc'
  refine a3 ⟨σ b, σ c, (h2 b hb2).1 hb, hp.pos b hb2 hbN (fun e => h4 (by rw [← e]; exact hb)), (h2 c hc2).1 hc',
    hp.pos c hc2 hcN (fun e => h4 (by rw [← e]; exact hc')), fun i => ?_⟩
  have : R k = R (σ b) + R (σ c) := by
    refine lin_inj (Weyl.coxMatrix (cart α αv)).toCoxeterSystem hc ?_
    have e' : R (σ k) = R b + R c := funext e
    rw [Datum.lin_add, hp.root b hb2, hp.root c hc2, ← Matrix.mulVec_add, ← Datum.lin_add, ← e', hp.root k hk, Matrix.mulVec_mulVec, smat_sq hc, Matrix.one_mulVec]
  rw [this]; rfl

theorem crossAct_ok {Θ : Matrix (Fin r) (Fin r) ℤ} {d : Data} (hd : IsData α N R Θ d) (hc : Θ *ᵥ α s ≠ α s ∧ Θ *ᵥ α s ≠ -α s) :
    ∃ d', d.crossAct pi = .ok d' ∧ IsData α N R (smat α αv s * Θ * smat α αv s) d' := by
  have hcart : IsCartan (cart α αv) (Weyl.coxMatrix (cart α αv)) := hs.cartan.isCartan
  have hsq := smat_sq hcart s
  have hP := hp.isPerm
  set S := smat α αv s with hS
  -- eigenvectors
  have hinjS : ∀ x y, S *ᵥ x = S *ᵥ y ↔ x = y := fun x y => ⟨fun h => by
    have := congrArg (S *ᵥ ·) h
    simpa only [Matrix.mulVec_mulVec, hsq, Matrix.one_mulVec] using this, fun h => by rw [h]⟩
  have heig : ∀ (c : ℤ), ∀ k < 2 * N, (S * Θ * S) *ᵥ lin α (R k) = c • lin α (R k) ↔ Θ *ᵥ lin α (R (σ k)) = c • lin α (R (σ k)) := by
    intro c k hk
    rw [hp.root k hk, ← hS, ← hinjS, ← Matrix.mulVec_smul S]
    simp only [Matrix.mulVec_mulVec, ← mul_assoc]
    rw [hsq, one_mul]
  have heig1 : ∀ k < 2 * N, (S * Θ * S) *ᵥ lin α (R k) = lin α (R k) ↔ Θ *ᵥ lin α (R (σ k)) = lin α (R (σ k)) := fun k hk => by
    have := heig 1 k hk
    simpa only [one_smul] using this
  have heig2 : ∀ k < 2 * N, (S * Θ * S) *ᵥ lin α (R k) = -lin α (R k) ↔ Θ *ᵥ lin α (R (σ k)) = -lin α (R (σ k)) := fun k hk => by
    have := heig (-1) k hk
    simpa only [neg_smul, one_smul] using this
  have hs2 : N + s.1 < 2 * N := by have := hs.base.numbering.simple.1; have := s.2; omega
  have hss : lin α (R (σ (N + s.1))) = -α s := by rw [hp.root _ hs2, (simple_lin hs.base s).1, smat_root hcart]
  -- the permutation
  obtain ⟨p1, q1, q2, q3⟩ := Perm.C26_renumber hP none d.perm (fun x hx _ => by
    obtain ⟨i, hi, e⟩ := List.getElem_of_mem hx
    obtain ⟨m, hm, e2, -⟩ := hd.perm i (by rw [hd.perm_length] at hi; exact hi)
    rw [List.getElem?_eq_getElem hi, e] at e2
    cases e2
    exact hm)
  rw [hd.perm_length] at q2
  obtain ⟨p2, q4, q5, q6⟩ := swapLoop_ok (fun a ha => ⟨hp.get a ha, hp.lt a ha, hp.invol a ha⟩) p1 q2 (2 * N) 0 p1 (by omega) q2 (fun a ha => by
    rw [if_neg (by omega)])
  -- the sets of bits
  have hset : ∀ {b : List Bool} {P Q : Nat → Prop}, Spec.Bits b (2 * N) P → (∀ k < 2 * N, (Q k ↔ P (σ k))) →
      ∃ b', Perm.renumberSet pi (Root.members b) = .ok b' ∧ Spec.Bits b' (2 * N) Q := by
    intro b P Q hb hQ
    obtain ⟨b', e1, e2, e3⟩ := Perm.C26_renumberSet hP (Root.members b) (fun x hx => ((bits_mem hb x).1 hx).1)
    refine ⟨b', e1, e2, fun k hk => ?_⟩
    rw [bit_iff, e3, hQ k hk]
    constructor
    · rintro ⟨x, hx, hx2⟩
      obtain ⟨hx3, hx4⟩ := (bits_mem hb x).1 hx
      rw [hp.get x hx3] at hx2
      rw [← Option.some.inj hx2, hp.invol x hx3]
      exact hx4
    · intro h
      exact ⟨σ k, (bits_mem hb _).2 ⟨hp.lt k hk, h⟩, by rw [hp.get _ (hp.lt k hk), hp.invol k hk]⟩
  obtain ⟨im, i1, i2⟩ := hset hd.im heig1
  obtain ⟨re, i3, i4⟩ := hset hd.re heig2
  obtain ⟨cx, i5, i6⟩ := hset (Q := fun k => (S * Θ * S) *ᵥ lin α (R k) ≠ lin α (R k) ∧ (S * Θ * S) *ᵥ lin α (R k) ≠ -lin α (R k)) hd.cx
    (fun k hk => and_congr (heig1 k hk).not (heig2 k hk).not)
  -- the simple roots
  have hsim : ∀ {l : List Nat} {P Q : Nat → Prop}, (l.Nodup ∧ ∀ k, k ∈ l ↔ Spec.IsSimpleIn N R (fun k => k < 2 * N ∧ P k) k) → (∀ k < 2 * N, (Q k ↔ P (σ k))) →
      ¬ P (N + s) → ¬ P (σ (N + s)) → ∃ l', Perm.renumbering pi l = .ok l' ∧ l'.Nodup ∧ ∀ k, k ∈ l' ↔ Spec.IsSimpleIn N R (fun k => k < 2 * N ∧ Q k) k := by
    intro l P Q hl hQ n1 n2
    have hlt : ∀ x ∈ l, x < 2 * N := fun x hx => ((hl.2 x).1 hx).1.1
    obtain ⟨l', e1, e2, e3⟩ := Perm.C26_renumbering hP l hlt
    have el : l' = l.map σ := by
      apply List.ext_getElem?
      intro i
      rw [e3, List.getElem?_map]
      cases hi : l[i]? with
      | none => rfl
      | some x => exact hp.get x (hlt x (List.mem_of_getElem? hi))
    refine ⟨l', e1, ?_, fun k => ?_⟩
    · rw [el]
      refine hl.1.map_on fun x hx y hy e => ?_
      rw [← hp.invol x (hlt x hx), e, hp.invol y (hlt y hy)]
    · rw [el, List.mem_map]
      have n3 : ¬ Q (N + s) := fun h => n2 ((hQ _ hs2).1 h)
      have hQ' : ∀ k < 2 * N, (P k ↔ Q (σ k)) := fun k hk => by rw [hQ _ (hp.lt k hk), hp.invol k hk]
      constructor
      · rintro ⟨x, hx, rfl⟩
        exact simpleIn_conj hs hp (S := fun k => k < 2 * N ∧ P k) (S' := fun k => k < 2 * N ∧ Q k) (fun k h => h.1)
          (fun k hk => by simp only [hk, hp.lt k hk, true_and]; exact hQ k hk) (fun k h => h.1) (fun h => n1 h.2) (fun h => n3 h.2) ((hl.2 x).1 hx)
      · intro h
        have hk : k < 2 * N := h.1.1
        refine ⟨σ k, (hl.2 _).2 ?_, hp.invol k hk⟩
        exact simpleIn_conj hs hp (S := fun k => k < 2 * N ∧ Q k) (S' := fun k => k < 2 * N ∧ P k) (fun k h => h.1)
          (fun k hk => by simp only [hk, hp.lt k hk, true_and]; exact hQ' k hk) (fun k h => h.1) (fun h => n3 h.2) (fun h => n1 h.2) h
  obtain ⟨l1, j1, j2⟩ := hsim hd.simpleIm heig1 (by rw [(simple_lin hs.base s).1]; exact hc.1) (by
    rw [hss, Matrix.mulVec_neg]; exact fun h => hc.1 (neg_inj.1 h))
  obtain ⟨l2, j3, j4⟩ := hsim hd.simpleRe heig2 (by rw [(simple_lin hs.base s).1]; exact hc.2) (by
    rw [hss, Matrix.mulVec_neg]; exact fun h => hc.2 (neg_inj.1 h))
  refine ⟨⟨p2, im, re, cx, l1, l2⟩, ?_, q5, fun k hk => ?_, i2, i4, i6, j2, j4⟩
  · rw [Data.crossAct, q1, Res.ok_bind, q2, List.range_eq_range', q4, Res.ok_bind, i1, Res.ok_bind, i3, Res.ok_bind, i5, Res.ok_bind, j1, Res.ok_bind, j3, Res.ok_bind]
  · obtain ⟨m, hm, e1, e2⟩ := hd.perm _ (hp.lt k hk)
    refine ⟨σ m, hp.lt m hm, ?_, ?_⟩
    · rw [q6 k hk, q3 _ _ e1, if_neg (by simp), hp.get m hm]
    · rw [← Matrix.mulVec_mulVec, ← hp.root k hk, ← Matrix.mulVec_mulVec, e2, ← hp.root m hm]

end

end Verif.Inv
