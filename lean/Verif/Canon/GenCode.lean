import Verif.Canon.GenMath
import Verif.Poset.Props
import Verif.BitMap.Props3
/-
The loops that generate the Cartan classes.
-/
set_option linter.unusedSectionVars false
namespace Verif.Canon
open Verif Verif.Root Verif.Mat Verif.Datum Verif.Weyl Verif.Inv Verif.Coxeter CoxeterSystem
open scoped Matrix

variable {n r : Nat} {Mx : CoxeterMatrix (Fin n)} {G : Type} [Group G]
variable {nd : Bool} {cs : CoxeterSystem Mx G} {α αv : Fin n → Fin r → ℤ} {comps : List Comp} {pc : Bool} {rd : RD} {N : Nat} {R R' : Nat → Fin n → ℤ}
  {T : TWG} {φ : G → List Nat} {f : Fin n → Fin n} {θ : G →* G} {δ : Matrix (Fin r) (Fin r) ℤ} {A : G →* Matrix (Fin r) (Fin r) ℤ} {fuel K : Nat}

/-- the classes found, in order: `cl`; `Q a k` tells whether `a` is recorded below `k` -/
structure AInv (cs : CoxeterSystem Mx G) (α αv : Fin n → Fin r → ℤ) (N : Nat) (R : Nat → Fin n → ℤ) (φ : G → List Nat) (θ : G →* G)
    (δ : Matrix (Fin r) (Fin r) ℤ) (A : G →* Matrix (Fin r) (Fin r) ℤ) (cl : List G) (L : List CInfo) (Q : Nat → Nat → Prop) : Prop where
  first : cl[0]? = some 1
  isTI : ∀ w ∈ cl, IsTI θ w
  canonical : ∀ w ∈ cl, IsCanonical α αv N R (fun _ => True) (invMat A δ w)
  different : cl.Pairwise fun w x => ¬ InClass θ w x
  sorted : cl.Pairwise fun w x => tr A δ x ≤ tr A δ w
  length : L.length = cl.length
  entry : ∀ k x, L[k]? = some x → x.tw = φ (cl.getD k 1) ∧ ∃ S, BitMap.Rep x.below k S ∧ ∀ a, a ∈ S ↔ Q a k
  bound : ∀ a k, Q a k → k < cl.length

theorem getD_mem {cl : List G} {k : Nat} (hk : k < cl.length) : cl.getD k 1 ∈ cl := by
  rw [List.getD_eq_getElem _ _ hk]; exact List.getElem_mem hk

theorem prefix_getD {cl cl' : List G} (h : cl <+: cl') {k : Nat} (hk : k < cl.length) : cl'.getD k 1 = cl.getD k 1 := by
  obtain ⟨t, rfl⟩ := h
  rw [List.getD_eq_getElem _ _ hk, List.getD_eq_getElem _ _ (by simp; omega), List.getElem_append_left hk]

theorem different_eq {cl : List G} (h : cl.Pairwise fun w x => ¬ InClass θ w x) {k l : Nat} (hk : k < cl.length) (hl : l < cl.length)
    (hc : InClass θ (cl.getD k 1) (cl.getD l 1)) : k = l := by
  rw [List.getD_eq_getElem _ _ hk, List.getD_eq_getElem _ _ hl] at hc
  rcases lt_trichotomy k l with hlt | e | hlt
  · exact absurd hc (List.pairwise_iff_getElem.1 h k l hk hl hlt)
  · exact e
  · exact absurd (inClass_symm hc) (List.pairwise_iff_getElem.1 h l k hl hk hlt)

theorem sorted_lt {cl : List G} (h : cl.Pairwise fun w x => tr A δ x ≤ tr A δ w) {k l : Nat} (hk : k < cl.length) (hl : l < cl.length)
    (hlt : tr A δ (cl.getD l 1) < tr A δ (cl.getD k 1)) : k < l := by
  rw [List.getD_eq_getElem _ _ hk, List.getD_eq_getElem _ _ hl] at hlt
  by_contra hle
  rcases Nat.eq_or_lt_of_le (Nat.not_lt.1 hle) with e | h2
  · subst e; omega
  · have := List.pairwise_iff_getElem.1 h l k hl hk h2
    omega

theorem bind_ok_inv {X Y : Type} {x : Res X} {g : X → Res Y} {y : Y} (h : (x >>= g) = .ok y) : ∃ a, x = .ok a ∧ g a = .ok y := by
  cases x <;> first | exact ⟨_, rfl, h⟩ | cases h

theorem put_length {X : Type} {l l' : List X} {i : Nat} {x : X} (h : Vec.put l i x = .ok l') : l'.length = l.length := by
  unfold Vec.put at h
  split at h
  · cases h; simp
  · cases h

/-- the list of classes only grows -/
theorem alphaStep_length {i a : Nat} {L L' : List CInfo} (h : alphaStep nd fuel rd T i a L = .ok L') : L.length ≤ L'.length := by
  unfold alphaStep at h
  obtain ⟨C, -, h⟩ := bind_ok_inv h
  obtain ⟨⟨tw, s⟩, -, h⟩ := bind_ok_inv h
  obtain ⟨⟨sigma, l⟩, -, h⟩ := bind_ok_inv h
  obtain ⟨⟨l, sigma⟩, -, h⟩ := bind_ok_inv h
  obtain ⟨ii, -, h⟩ := bind_ok_inv h
  obtain ⟨D, -, h⟩ := bind_ok_inv h
  obtain ⟨b, -, h⟩ := bind_ok_inv h
  have e := put_length h
  rw [e]
  split <;> simp

theorem alphaLoop_length {i : Nat} : ∀ {l : List Nat} {L L' : List CInfo}, alphaLoop nd fuel rd T i l L = .ok L' → L.length ≤ L'.length
  | [], L, L', h => by cases h; exact le_rfl
  | a :: l, L, L', h => by
    rw [alphaLoop] at h
    obtain ⟨L1, h1, h2⟩ := bind_ok_inv h
    exact (alphaStep_length h1).trans (alphaLoop_length h2)

theorem genLoop_length : ∀ (k i : Nat) {L : List CInfo} {P : List BitMap.BitMap} {x : List CInfo × List BitMap.BitMap}, genLoop nd fuel rd T k i L P = .ok x → i ≤ 65535 →
    L.length ≤ x.1.length ∧ x.1.length ≤ 65535
  | 0, i, L, P, x, h, _ => by cases h
  | k + 1, i, L, P, x, h, hi => by
    rw [genLoop] at h
    by_cases hlt : i < L.length
    · rw [if_pos hlt] at h
      obtain ⟨C, -, h⟩ := bind_ok_inv h
      obtain ⟨b, -, h⟩ := bind_ok_inv h
      obtain ⟨P', -, h⟩ := bind_ok_inv h
      obtain ⟨d, -, h⟩ := bind_ok_inv h
      obtain ⟨L1, h1, h⟩ := bind_ok_inv h
      have := genLoop_length k _ h (by omega)
      have := alphaLoop_length h1
      omega
    · rw [if_neg hlt] at h
      cases h
      exact ⟨le_rfl, by simp only []; omega⟩

section
variable (H : Input nd cs α αv comps pc rd N R R' T φ f θ δ A) (hf1 : N < fuel) (hf2 : ∀ w, cs.length w < fuel)
include H

theorem descLoop_ok : ∀ (fuel a : Nat) (w : G), N ≤ a → a < 2 * N → a - N < fuel → ∃ (g : G) (s : Fin n), R a = geom cs H.cartan g (Coxeter.root s) ∧
    descLoop nd rd T fuel a (φ w) = .ok (φ (g⁻¹ * w * (θ g⁻¹)⁻¹), s.1) := by
  have := H.finite
  have hN := H.datum.base.numbering
  have hA := H.datum.base.answers
  have hn : n ≤ 32 := H.datum.cartan.dynkin.rank_le
  intro fuel
  induction fuel with
  | zero => intro a w _ _ h; omega
  | succ fuel ih =>
    intro a w h1 h2 h3
    obtain ⟨i, d, g1, g2, g3⟩ := first_descent hN hA cs H.cartan hn h2 h1
    have hp : rd.rs.isPos a = true := (acc_isPos hA a).mpr h1
    rw [descLoop, RS.findDescent, RS.descentSet, if_pos hp, RS.rtAbs, if_pos hp, hA.numPos, g1, Res.ok_bind, Res.ok_bind, g2, hA.simpleNbr i, Res.ok_bind]
    by_cases hc : a = N + i
    · rw [if_neg (by simpa using hc)]
      refine ⟨1, i, ?_, by simp⟩
      rw [(simple_of_root hN h2 i).mpr hc, map_one]; rfl
    · rw [if_pos hc]
      obtain ⟨b, b1, b2, b3, b4, b5⟩ := lower_step cs H.cartan hN hA hn h2 h1 g3 hc
      rw [H.twisted.conjGen, Res.ok_bind]
      simp only []
      rw [b1, Res.ok_bind]
      obtain ⟨g, s, q1, q2⟩ := ih b (cs.simple i * w * θ (cs.simple i)) b2 (by omega) (by omega)
      refine ⟨cs.simple i * g, s, by rw [b4, q1, geom_mul], ?_⟩
      rw [q2]
      congr 3
      have e : (θ (cs.simple i))⁻¹ = θ (cs.simple i) := by rw [← map_inv, cs.inv_simple]
      simp only [mul_inv_rev, map_mul, map_inv, inv_inv, cs.inv_simple, mul_assoc, e]

/-- `y` is in the class found from `w` by root `a` -/
def Reach (H : Input nd cs α αv comps pc rd N R R' T φ f θ δ A) (a : Nat) (w y : G) : Prop := ∃ t, IsRoot cs H.cartan (R a) (R' a) t ∧ InClass θ y (t * w)

theorem reach_unique {a : Nat} {w y y' : G} (h : Reach H a w y) (h' : Reach H a w y') : InClass θ y y' := by
  obtain ⟨t, h1, h2⟩ := h
  obtain ⟨t', h1', h2'⟩ := h'
  rw [(h1.unique h1').2] at h2
  exact inClass_trans h2 (inClass_symm h2')

include hf1 hf2

theorem alphaStep_ok {cl : List G} {L : List CInfo} {Q : Nat → Nat → Prop} (h : AInv cs α αv N R φ θ δ A cl L Q) {i a : Nat} (hi : i < cl.length)
    (hlenK : cl.length ≤ 65535) (hlow : ∀ w ∈ cl, tr A δ (cl.getD i 1) - 2 ≤ tr A δ w) (ha : a < 2 * N) (hp : N ≤ a) (him : invMat A δ (cl.getD i 1) *ᵥ lin α (R a) = lin α (R a)) :
    ∃ cl' L' ii, alphaStep nd fuel rd T i a L = .ok L' ∧ cl <+: cl' ∧ ii < cl'.length ∧ Reach H a (cl.getD i 1) (cl'.getD ii 1) ∧
      AInv cs α αv N R φ θ δ A cl' L' (fun x k => Q x k ∨ x = i ∧ k = ii) ∧ ∀ w ∈ cl', tr A δ (cl.getD i 1) - 2 ≤ tr A δ w := by
  have hn : n ≤ 32 := H.datum.cartan.dynkin.rank_le
  have hiL : i < L.length := by rw [h.length]; exact hi
  obtain ⟨e1, -⟩ := h.entry i _ (List.getElem?_eq_getElem hiL)
  obtain ⟨g, s, hg, hd⟩ := descLoop_ok H fuel a (cl.getD i 1) hp ha (by omega)
  obtain ⟨t, ht⟩ := H.datum.base.numbering.isRoot cs H.cartan ha
  have et : t = g * cs.simple s * g⁻¹ := (ht.unique (β2 := geom cs H.cartan.dual g (Coxeter.root s)) ⟨g, s, hg, rfl, rfl⟩).2
  have hwTI := h.isTI _ (getD_mem hi)
  have hcl : InClass θ (t * cl.getD i 1) (cs.simple s * (g⁻¹ * cl.getD i 1 * (θ g⁻¹)⁻¹)) := ⟨g⁻¹, by rw [et, map_inv]; group⟩
  have hcay : Cay cs θ α A δ (cl.getD i 1) (cs.simple s * (g⁻¹ * cl.getD i 1 * (θ g⁻¹)⁻¹)) := (cay_iff H _ _).2 ⟨a, ha, hp, him, t, ht, inClass_symm hcl⟩
  have hσ := cay_isTI H hwTI hcay
  obtain ⟨x, l, k1, k2, k3, k4, k5⟩ := C73_canonicalize H (isGens_all hn) hf1 hf2 hσ
  have hxσ : InClass θ x (cs.simple s * (g⁻¹ * cl.getD i 1 * (θ g⁻¹)⁻¹)) := ⟨_, k3⟩
  have hxc : Cay cs θ α A δ (cl.getD i 1) x := cay_right (inClass_symm hxσ) hcay
  have hreach : Reach H a (cl.getD i 1) x := ⟨t, ht, inClass_trans hxσ (inClass_symm hcl)⟩
  have htr := tr_cay H hxc
  unfold alphaStep
  rw [Vec.get_ok hiL, Res.ok_bind, e1, hd, Res.ok_bind]
  simp only []
  rw [H.weyl.leftMultiplyGen, Res.ok_bind]
  simp only []
  rw [(all_gens H hf1 hf2).trans k1, Res.ok_bind]
  simp only []
  unfold search
  simp only []
  have hlook : ∀ k (hk : k < L.length), (L[k].tw == φ x) = true ↔ cl.getD k 1 = x := fun k hk => by
    rw [beq_iff_eq, (h.entry k _ (List.getElem?_eq_getElem hk)).1]
    exact ⟨fun e => H.weyl.injective e, fun e => by rw [e]⟩
  by_cases hex : ∃ k < L.length, cl.getD k 1 = x
  · obtain ⟨k, hk, ek⟩ := hex
    have hlt : L.findIdx (fun c => c.tw == φ x) < L.length := List.findIdx_lt_length_of_exists ⟨L[k], List.getElem_mem hk, (hlook k hk).2 ek⟩
    have hii := (hlook _ hlt).1 (List.findIdx_getElem (w := hlt))
    generalize L.findIdx (fun c => c.tw == φ x) = ii at hlt hii ⊢
    have hiic : ii < cl.length := by rw [← h.length]; exact hlt
    rw [if_neg (by omega), Res.ok_bind, if_neg (by omega)]
    rw [Vec.get_ok hlt, Res.ok_bind]
    obtain ⟨e2, S, s1, s2⟩ := h.entry ii _ (List.getElem?_eq_getElem hlt)
    have hlt2 : i < ii := sorted_lt h.sorted hi hiic (by rw [hii]; omega)
    obtain ⟨b, b1, b2⟩ := BitMap.C19_insert nd s1 hlt2
    rw [b1, Res.ok_bind, Vec.put_ok hlt]
    refine ⟨cl, _, ii, rfl, List.prefix_rfl, hiic, by rw [hii]; exact hreach, ⟨h.first, h.isTI, h.canonical, h.different, h.sorted, by simp [h.length], fun k y hy => ?_, ?_⟩, hlow⟩
    · rw [List.getElem?_set] at hy
      by_cases hkk : ii = k
      · subst hkk
        rw [if_pos rfl, if_pos hlt] at hy
        cases hy
        refine ⟨e2, _, b2, fun c => ?_⟩
        rw [Finset.mem_insert, s2]
        simp only []
        tauto
      · rw [if_neg hkk] at hy
        obtain ⟨e3, S', s3, s4⟩ := h.entry k y hy
        refine ⟨e3, S', s3, fun c => ?_⟩
        rw [s4]
        constructor
        · exact .inl
        · rintro (q | ⟨-, rfl⟩)
          · exact q
          · exact absurd rfl hkk
    · rintro c k (q | ⟨-, rfl⟩)
      · exact h.bound c k q
      · exact hiic
  · have hnot : L.findIdx (fun c => c.tw == φ x) = L.length := by
      rw [List.findIdx_eq_length]
      intro c hc
      obtain ⟨k, hk, rfl⟩ := List.getElem_of_mem hc
      rw [Bool.eq_false_iff]
      intro e
      exact hex ⟨k, hk, (hlook k hk).1 e⟩
    rw [hnot, if_neg (by rw [h.length]; omega), Res.ok_bind, if_pos rfl]
    have hlt : L.length < (L ++ [(⟨φ x, BitMap.make L.length⟩ : CInfo)]).length := by simp
    rw [Vec.get_ok hlt, Res.ok_bind]
    have hget : (L ++ [(⟨φ x, BitMap.make L.length⟩ : CInfo)])[L.length] = ⟨φ x, BitMap.make L.length⟩ := by simp
    rw [hget]
    simp only []
    have hmk : BitMap.Rep (BitMap.make L.length) L.length ∅ := BitMap.C19_make (by rw [h.length]; omega)
    obtain ⟨b, b1, b2⟩ := BitMap.C19_insert nd hmk hiL
    rw [b1, Res.ok_bind, Vec.put_ok hlt]
    have hxnew : ∀ w ∈ cl, ¬ InClass θ w x := fun w hw hc => by
      obtain ⟨k, hk, rfl⟩ := List.getElem_of_mem hw
      refine hex ⟨k, by rw [h.length]; exact hk, ?_⟩
      rw [List.getD_eq_getElem _ _ hk]
      exact C73_unique H (h.isTI _ (List.getElem_mem hk)) k4 ((conj_all cs θ _ _).2 hc) (h.canonical _ (List.getElem_mem hk)) k5
    have hgx : (cl ++ [x]).getD L.length 1 = x := by rw [h.length]; simp
    refine ⟨cl ++ [x], _, L.length, rfl, List.prefix_append _ _, by rw [h.length]; simp, by rw [hgx]; exact hreach,
      ⟨?_, ?_, ?_, ?_, ?_, by simp [h.length], fun k y hy => ?_, ?_⟩, ?_⟩
    · rw [List.getElem?_append_left (by omega)]; exact h.first
    · intro w hw
      rcases List.mem_append.1 hw with hw | hw
      · exact h.isTI w hw
      · rw [List.mem_singleton.1 hw]; exact k4
    · intro w hw
      rcases List.mem_append.1 hw with hw | hw
      · exact h.canonical w hw
      · rw [List.mem_singleton.1 hw]; exact k5
    · rw [List.pairwise_append]
      refine ⟨h.different, List.pairwise_singleton _ _, fun w hw y hy => ?_⟩
      rw [List.mem_singleton.1 hy]; exact hxnew w hw
    · rw [List.pairwise_append]
      refine ⟨h.sorted, List.pairwise_singleton _ _, fun w hw y hy => ?_⟩
      rw [List.mem_singleton.1 hy, htr]; exact hlow w hw
    · rw [List.getElem?_set] at hy
      by_cases hkk : L.length = k
      · subst hkk
        rw [if_pos rfl, if_pos hlt] at hy
        cases hy
        refine ⟨by rw [hgx], _, b2, fun c => ?_⟩
        rw [Finset.mem_insert]
        constructor
        · rintro (rfl | q)
          · exact .inr ⟨rfl, rfl⟩
          · exact absurd q (by simp)
        · rintro (q | ⟨rfl, -⟩)
          · have := h.bound _ _ q
            rw [h.length] at this; omega
          · exact .inl rfl
      · rw [if_neg hkk] at hy
        have hkl : k < L.length := by
          have := (List.getElem?_eq_some_iff.1 hy).1
          rw [List.length_append, List.length_singleton] at this
          omega
        rw [List.getElem?_append_left hkl] at hy
        obtain ⟨e3, S', s3, s4⟩ := h.entry k y hy
        refine ⟨by rw [e3, prefix_getD (List.prefix_append cl [x]) (by rw [← h.length]; exact hkl)], S', s3, fun c => ?_⟩
        rw [s4]
        constructor
        · exact .inl
        · rintro (q | ⟨-, rfl⟩)
          · exact q
          · exact absurd rfl hkk
    · rintro c k (q | ⟨-, rfl⟩)
      · have := h.bound c k q
        rw [List.length_append]; omega
      · rw [h.length]; simp
    · intro w hw
      rcases List.mem_append.1 hw with hw | hw
      · exact hlow w hw
      · rw [List.mem_singleton.1 hw, htr]

theorem ainv_congr {cl : List G} {L : List CInfo} {Q Q' : Nat → Nat → Prop} (h : AInv cs α αv N R φ θ δ A cl L Q) (e : ∀ a k, Q a k ↔ Q' a k) :
    AInv cs α αv N R φ θ δ A cl L Q' :=
  ⟨h.first, h.isTI, h.canonical, h.different, h.sorted, h.length, fun k x hx => by
    obtain ⟨h1, S, h2, h3⟩ := h.entry k x hx
    exact ⟨h1, S, h2, fun a => (h3 a).trans (e a k)⟩, fun a k hq => h.bound a k ((e a k).2 hq)⟩

theorem alphaLoop_ok {i : Nat} (l : List Nat) : ∀ {cl : List G} {L : List CInfo} {Q : Nat → Nat → Prop},
    AInv cs α αv N R φ θ δ A cl L Q → i < cl.length →
    (∀ w ∈ cl, tr A δ (cl.getD i 1) - 2 ≤ tr A δ w) → (∀ a ∈ l, a < 2 * N ∧ N ≤ a ∧ invMat A δ (cl.getD i 1) *ᵥ lin α (R a) = lin α (R a)) →
    (∃ cl' L', alphaLoop nd fuel rd T i l L = .ok L' ∧ cl <+: cl' ∧ (∀ a ∈ l, ∃ k < cl'.length, Reach H a (cl.getD i 1) (cl'.getD k 1)) ∧
      AInv cs α αv N R φ θ δ A cl' L' (fun x k => Q x k ∨ x = i ∧ k < cl'.length ∧ ∃ a ∈ l, Reach H a (cl.getD i 1) (cl'.getD k 1)) ∧
      ∀ w ∈ cl', tr A δ (cl.getD i 1) - 2 ≤ tr A δ w) ∨ (¬ FewClasses θ 65535 ∧ ∀ L', alphaLoop nd fuel rd T i l L = .ok L' → 65535 < L'.length) := by
  induction l with
  | nil => intro cl L Q h _ hlow _; exact .inl ⟨cl, L, rfl, List.prefix_rfl, by simp, ainv_congr H hf1 hf2 h (by simp), hlow⟩
  | cons a l ih =>
    intro cl L Q h hi hlow hl
    obtain ⟨p1, p2, p3⟩ := hl a (by simp)
    by_cases hlenK : 65535 < cl.length
    · refine .inr ⟨fun hfew => absurd (hfew cl h.isTI h.different) (by omega), fun L' e => ?_⟩
      have := alphaLoop_length e
      have := h.length
      omega
    obtain ⟨cl1, L1, ii, a1, a2, a3, a4, a5, a6⟩ := alphaStep_ok H hf1 hf2 h hi (by omega) hlow p1 p2 p3
    have hpi := prefix_getD a2 hi
    have hlen := a2.length_le
    rcases ih a5 (by omega) (by rw [hpi]; exact a6) (by rw [hpi]; exact fun c hc => hl c (by simp [hc])) with ⟨cl2, L2, b1, b2, b3, b4, b5⟩ | ⟨b1, b2⟩
    swap
    · exact .inr ⟨b1, fun L' e => b2 L' (by rwa [alphaLoop, a1, Res.ok_bind] at e)⟩
    rw [hpi] at b3 b4 b5
    have hlen2 := b2.length_le
    have hii := prefix_getD b2 a3
    refine .inl ⟨cl2, L2, by rw [alphaLoop, a1, Res.ok_bind, b1], a2.trans b2, fun c hc => ?_, ainv_congr H hf1 hf2 b4 fun x k => ?_, b5⟩
    · rcases List.mem_cons.1 hc with rfl | hc
      · exact ⟨ii, by omega, by rw [hii]; exact a4⟩
      · exact b3 c hc
    · simp only [List.mem_cons]
      constructor
      · rintro ((q | ⟨q1, rfl⟩) | ⟨q1, q2, c, q3, q4⟩)
        · exact .inl q
        · exact .inr ⟨q1, by omega, a, .inl rfl, by rw [hii]; exact a4⟩
        · exact .inr ⟨q1, q2, c, .inr q3, q4⟩
      · rintro (q | ⟨q1, q2, c, rfl | q3, q4⟩)
        · exact .inl (.inl q)
        · refine .inl (.inr ⟨q1, different_eq b4.different q2 (by omega) ?_⟩)
          refine reach_unique H q4 ?_
          rw [hii]; exact a4
        · exact .inr ⟨q1, q2, c, q3, q4⟩

end
end Verif.Canon
