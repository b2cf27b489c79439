import Verif.Canon.GenCode
import Verif.Canon.GenOne
/-
**C74**: the Cartan classes of an inner class, and their order.
-/
set_option linter.unusedSectionVars false
namespace Verif.Canon
open Verif Verif.Root Verif.Mat Verif.Datum Verif.Weyl Verif.Inv Verif.Coxeter CoxeterSystem
open scoped Matrix

variable {n r : Nat} {Mx : CoxeterMatrix (Fin n)} {G : Type} [Group G]
variable {nd : Bool} {cs : CoxeterSystem Mx G} {α αv : Fin n → Fin r → ℤ} {comps : List Comp} {pc : Bool} {rd : RD} {N : Nat} {R R' : Nat → Fin n → ℤ}
  {T : TWG} {φ : G → List Nat} {f : Fin n → Fin n} {θ : G →* G} {δ : Matrix (Fin r) (Fin r) ℤ} {A : G →* Matrix (Fin r) (Fin r) ℤ} {fuel K : Nat}

/-- links between the first `j` classes -/
def E (cs : CoxeterSystem Mx G) (θ : G →* G) (α : Fin n → Fin r → ℤ) (A : G →* Matrix (Fin r) (Fin r) ℤ) (δ : Matrix (Fin r) (Fin r) ℤ) (cl : List G) (j a b : Nat) : Prop :=
  a < b ∧ b < j ∧ Cay cs θ α A δ (cl.getD a 1) (cl.getD b 1)

theorem E_lower {cl : List G} {j a b : Nat} (hb : b < j) (h : Relation.ReflTransGen (E cs θ α A δ cl (j + 1)) a b) : Relation.ReflTransGen (E cs θ α A δ cl j) a b := by
  induction h with
  | refl => exact .refl
  | @tail x y _ hxy ih => exact (ih (by have := hxy.1; omega)).tail ⟨hxy.1, hb, hxy.2.2⟩

theorem E_mono {cl : List G} {j a b : Nat} (h : Relation.ReflTransGen (E cs θ α A δ cl j) a b) : Relation.ReflTransGen (E cs θ α A δ cl (j + 1)) a b := by
  induction h with
  | refl => exact .refl
  | tail _ hxy ih => exact ih.tail ⟨hxy.1, by have := hxy.2.1; omega, hxy.2.2⟩

theorem E_prefix {cl cl' : List G} (h : cl <+: cl') {j : Nat} (hj : j ≤ cl.length) : E cs θ α A δ cl' j = E cs θ α A δ cl j := by
  funext a b
  unfold E
  by_cases hab : a < b ∧ b < j
  · rw [prefix_getD h (by omega), prefix_getD h (by omega)]
  · simp only [eq_iff_iff]; tauto

/-- the state before pass `i` -/
structure GInv (cs : CoxeterSystem Mx G) (α αv : Fin n → Fin r → ℤ) (N : Nat) (R : Nat → Fin n → ℤ) (φ : G → List Nat) (θ : G →* G)
    (δ : Matrix (Fin r) (Fin r) ℤ) (A : G →* Matrix (Fin r) (Fin r) ℤ) (i : Nat) (cl : List G) (L : List CInfo) (P : List BitMap.BitMap) : Prop where
  a : AInv cs α αv N R φ θ δ A cl L fun a k => a < i ∧ k < cl.length ∧ Cay cs θ α A δ (cl.getD a 1) (cl.getD k 1)
  hi : i ≤ cl.length
  low : i < cl.length → ∀ w ∈ cl, tr A δ (cl.getD i 1) - 2 ≤ tr A δ w
  closed : ∀ a < i, ∀ y, Cay cs θ α A δ (cl.getD a 1) y → ∃ k < cl.length, InClass θ (cl.getD k 1) y
  good : Poset.Good P
  size : P.length = i
  order : ∀ a < i, ∀ b < i, (Poset.Le P a b ↔ Relation.ReflTransGen (E cs θ α A δ cl i) a b)

section
variable (H : Input nd cs α αv comps pc rd N R R' T φ f θ δ A) (hf1 : N < fuel) (hf2 : ∀ w, cs.length w < fuel)
include H hf1 hf2

theorem ginv_step {i : Nat} {cl : List G} {L : List CInfo} {P : List BitMap.BitMap} (h : GInv cs α αv N R φ θ δ A i cl L P) (hi : i < cl.length) (hi6 : i ≤ 65535) :
    (∃ cl' L' P', (∀ k, genLoop nd fuel rd T (k + 1) i L P = genLoop nd fuel rd T k (i + 1) L' P') ∧ i + 1 ≤ 65535 ∧ cl <+: cl' ∧ GInv cs α αv N R φ θ δ A (i + 1) cl' L' P') ∨
    (¬ FewClasses θ 65535 ∧ ∀ k x, genLoop nd fuel rd T k i L P ≠ .ok x) := by
  by_cases hlenK : 65535 < cl.length
  · refine .inr ⟨fun hfew => absurd (hfew cl h.a.isTI h.a.different) (by omega), fun k x e => ?_⟩
    have := genLoop_length k i e hi6
    have := h.a.length
    omega
  have hiL : i < L.length := by rw [h.a.length]; exact hi
  obtain ⟨e1, S, s1, s2⟩ := h.a.entry i _ (List.getElem?_eq_getElem hiL)
  obtain ⟨l, l1, -, l2⟩ := BitMap.C19_elements s1
  obtain ⟨P', p1, p2, p3, p4, p5⟩ := Poset.C30_newMax nd P h.good l (fun x hx => by rw [h.size]; exact s1.sub x ((l2 x).1 hx)) (by rw [h.size]; omega)
  have hw := h.a.isTI _ (getD_mem hi)
  obtain ⟨d, d1, d2⟩ := build_ok H hw
  have hp := H.datum.base.answers.posSet
  have hb : Spec.Bits (List.zipWith (· && ·) rd.rs.posSet d.im) (2 * N) fun k => N ≤ k ∧ invMat A δ (cl.getD i 1) *ᵥ lin α (R k) = lin α (R k) := by
    have hS := d2.im
    refine ⟨by rw [List.length_zipWith, hp.1, hS.1, min_self], fun k hk => ?_⟩
    have h1 := hp.2 k hk
    have h2 := hS.2 k hk
    simp only [] at h1 h2 ⊢
    rw [← root_pos H hk] at h1
    rw [← h1, ← h2]
    unfold RS.bit
    rw [List.getElem?_zipWith, List.getElem?_eq_getElem (by rw [hp.1]; exact hk), List.getElem?_eq_getElem (by rw [hS.1]; exact hk)]
    simp
  have hmem := bits_mem hb
  have hgen : ∀ k, genLoop nd fuel rd T (k + 1) i L P =
      (alphaLoop nd fuel rd T i (Root.members (List.zipWith (· && ·) rd.rs.posSet d.im)) L >>= fun L' => genLoop nd fuel rd T k (i + 1) L' P') := fun k => by
    rw [genLoop, if_pos hiL, Vec.get_ok hiL, Res.ok_bind, l1, Res.ok_bind, p1, Res.ok_bind, e1, d1, Res.ok_bind, Nat.mod_eq_of_lt (by omega)]
  rcases alphaLoop_ok H hf1 hf2 (Root.members (List.zipWith (· && ·) rd.rs.posSet d.im)) h.a hi (h.low hi)
    fun a ha => by have := (hmem a).1 ha; exact ⟨this.1, this.2.1, this.2.2⟩ with ⟨cl', L', a1, a2, a3, a4, a5⟩ | ⟨a1, a2⟩
  swap
  · refine .inr ⟨a1, fun k x e => ?_⟩
    cases k with
    | zero => cases e
    | succ k =>
      rw [hgen] at e
      obtain ⟨L', b1, b2⟩ := bind_ok_inv e
      have := a2 L' b1
      have := genLoop_length k (i + 1) b2 (by omega)
      omega
  have hlen := a2.length_le
  have hpi := prefix_getD a2 hi
  have hcay : ∀ y, Cay cs θ α A δ (cl.getD i 1) y ↔ ∃ a ∈ Root.members (List.zipWith (· && ·) rd.rs.posSet d.im), Reach H a (cl.getD i 1) y := fun y => by
    rw [cay_iff H]
    constructor
    · rintro ⟨a, q1, q2, q3, q4⟩
      exact ⟨a, (hmem a).2 ⟨q1, q2, q3⟩, q4⟩
    · rintro ⟨a, q1, q2⟩
      have := (hmem a).1 q1
      exact ⟨a, this.1, this.2.1, this.2.2, q2⟩
  refine .inl ⟨cl', L', P', ?_, by omega, a2, ⟨ainv_congr H hf1 hf2 a4 fun a k => ?_, by omega, fun hlt => ?_, fun a ha y hy => ?_, p3, by rw [p2, h.size], fun a ha b hb' => ?_⟩⟩
  · intro k; rw [hgen, a1, Res.ok_bind]
  · rw [← hcay]
    constructor
    · rintro (⟨q1, q2, q3⟩ | ⟨rfl, q2, q3⟩)
      · exact ⟨by omega, by omega, by rwa [prefix_getD a2 (by omega), prefix_getD a2 q2]⟩
      · exact ⟨by omega, q2, by rwa [hpi]⟩
    · rintro ⟨q1, q2, q3⟩
      by_cases hai : a = i
      · subst hai
        exact .inr ⟨rfl, q2, by rwa [hpi] at q3⟩
      · rw [prefix_getD a2 (by omega)] at q3
        refine .inl ⟨by omega, ?_⟩
        obtain ⟨k', hk', hc⟩ := h.closed a (by omega) _ q3
        have e : k' = k := different_eq a4.different (by omega) q2 (by rwa [prefix_getD a2 hk'])
        subst e
        exact ⟨hk', by rwa [prefix_getD a2 hk'] at q3⟩
  · intro w hw
    have h1 := a5 w hw
    have hs : tr A δ (cl'.getD (i + 1) 1) ≤ tr A δ (cl'.getD i 1) := by
      rw [List.getD_eq_getElem _ _ hlt, List.getD_eq_getElem _ _ (by omega)]
      exact List.pairwise_iff_getElem.1 a4.sorted i (i + 1) (by omega) hlt (by omega)
    rw [hpi] at hs
    omega
  · by_cases hai : a = i
    · subst hai
      rw [hpi] at hy
      obtain ⟨c, c1, c2⟩ := (hcay y).1 hy
      obtain ⟨k, k1, k2⟩ := a3 c c1
      exact ⟨k, k1, reach_unique H k2 c2⟩
    · rw [prefix_getD a2 (by omega)] at hy
      obtain ⟨k, hk, hc⟩ := h.closed a (by omega) y hy
      exact ⟨k, by omega, by rwa [prefix_getD a2 hk]⟩
  · rw [E_prefix a2 (by omega)]
    have hsz := h.size
    by_cases hbi : b = i
    · subst hbi
      by_cases hai : a = b
      · subst hai
        have : Poset.Le P' a a := ⟨by omega, by omega, by simp [Poset.lesseq]⟩
        exact ⟨fun _ => .refl, fun _ => this⟩
      · have q := p5 a (by omega)
        rw [hsz] at q
        rw [q]
        constructor
        · rintro ⟨x, x1, x2⟩
          have x3 := (s2 x).1 ((l2 x).1 x1)
          exact (E_mono ((h.order a (by omega) x x3.1).1 x2)).tail ⟨x3.1, by omega, x3.2.2⟩
        · intro hE
          rcases Relation.ReflTransGen.cases_tail hE with e | ⟨x, x1, x2⟩
          · exact absurd e.symm hai
          · have hx := x2.1
            refine ⟨x, (l2 x).2 ((s2 x).2 ⟨hx, hi, x2.2.2⟩), (h.order a (by omega) x hx).2 (E_lower hx x1)⟩
    · by_cases hai : a = i
      · subst hai
        constructor
        · rintro ⟨-, -, q⟩
          rw [Poset.lesseq, if_neg (by omega)] at q
          simp only [Res.ok.injEq, decide_eq_true_iff] at q
          exact absurd q.symm hbi
        · intro hE
          exfalso
          have : ∀ x, Relation.ReflTransGen (E cs θ α A δ cl (a + 1)) a x → a ≤ x := fun x hx => by
            induction hx with
            | refl => exact le_rfl
            | tail _ q ih => have := q.1; omega
          have := this b hE
          omega
      · rw [p4 a b (by omega) (by omega), h.order a (by omega) b (by omega)]
        exact ⟨E_mono, E_lower (by omega)⟩

theorem ginv_loop (hfew : FewClasses θ K) (hK : K ≤ 65535) : ∀ (k i : Nat) (cl : List G) (L : List CInfo) (P : List BitMap.BitMap), GInv cs α αv N R φ θ δ A i cl L P → K - i < k →
    ∃ cl' L' P', genLoop nd fuel rd T k i L P = .ok (L', P') ∧ GInv cs α αv N R φ θ δ A cl'.length cl' L' P' := by
  intro k
  induction k with
  | zero => intro i cl L P _ h; omega
  | succ k ih =>
    intro i cl L P h hk
    have hlenK := hfew cl h.a.isTI h.a.different
    by_cases hi : i < cl.length
    · rcases ginv_step H hf1 hf2 h hi (by omega) with ⟨cl1, L1, P1, b1, -, b2, b3⟩ | ⟨b1, -⟩
      · rw [b1]
        exact ih (i + 1) cl1 L1 P1 b3 (by omega)
      · exact absurd (fun l h1 h2 => (hfew l h1 h2).trans hK) b1
    · have e : i = cl.length := by have := h.hi; omega
      subst e
      exact ⟨cl, L, P, by rw [genLoop, if_neg (by rw [h.a.length]; exact hi)], h⟩

/-- if the loop ends then there are few classes -/
theorem ginv_few : ∀ (k i : Nat) (cl : List G) (L : List CInfo) (P : List BitMap.BitMap) (x : List CInfo × List BitMap.BitMap), GInv cs α αv N R φ θ δ A i cl L P → i ≤ 65535 →
    genLoop nd fuel rd T k i L P = .ok x → ∃ cl' : List G, cl'.length ≤ 65535 ∧ GInv cs α αv N R φ θ δ A cl'.length cl' x.1 x.2 := by
  intro k
  induction k with
  | zero => intro i cl L P x _ _ e; cases e
  | succ k ih =>
    intro i cl L P x h hi6 e
    by_cases hi : i < cl.length
    · rcases ginv_step H hf1 hf2 h hi hi6 with ⟨cl1, L1, P1, b1, b2, -, b3⟩ | ⟨-, b2⟩
      · rw [b1] at e
        exact ih (i + 1) cl1 L1 P1 x b3 b2 e
      · exact absurd e (b2 _ _)
    · rw [genLoop, if_neg (by rw [h.a.length]; exact hi)] at e
      have e' : i = cl.length := by have := h.hi; omega
      subst e'
      cases e
      exact ⟨cl, hi6, h⟩

theorem canonical_one : IsCanonical α αv N R (fun _ => True) (invMat A δ 1) := by
  have := H.finite
  exact (canonical_iff H 1).2 (can_one H.cartan H.twist H.cartf (isPos H))

theorem ginv_start : GInv cs α αv N R φ θ δ A 0 [1] [⟨Weyl.WG.one, BitMap.make 0⟩] [] := by
  refine ⟨⟨rfl, ?_, ?_, List.pairwise_singleton _ _, List.pairwise_singleton _ _, rfl, fun k x hx => ?_, fun a k h => h.2.1⟩, by simp, ?_, by simp, ?_, rfl, by simp⟩
  · intro w hw; rw [List.mem_singleton.1 hw]; exact isTI_one
  · intro w hw; rw [List.mem_singleton.1 hw]; exact canonical_one H hf1 hf2
  · match k, hx with
    | 0, hx =>
      cases hx
      exact ⟨H.weyl.one.symm, ∅, BitMap.C19_make (by omega), by simp⟩
  · intro _ w hw
    rw [List.mem_singleton.1 hw]
    simp
  · exact ⟨by simp, by simp, fun i j k h => absurd h.1 (by simp)⟩

theorem cartans_of {cl : List G} {L : List CInfo} {P : List BitMap.BitMap} (h : GInv cs α αv N R φ θ δ A cl.length cl L P) :
    IsCartans cs α αv N R φ θ δ A L P fun k => cl.getD k 1 := by
  have := H.finite
  have hlen := h.a.length
  have h0 : 0 < cl.length := (List.getElem?_eq_some_iff.1 h.a.first).1
  have hc0 : cl.getD 0 1 = 1 := by rw [List.getD_eq_getElem?_getD, h.a.first]; rfl
  have hall : ∀ w, IsTI θ w → ∃ k < cl.length, InClass θ (cl.getD k 1) w := fun w hw =>
    generated H (S := fun w => ∃ k < cl.length, InClass θ (cl.getD k 1) w) ⟨0, h0, by rw [hc0]; exact inClass_refl 1⟩
      (fun w x hwx ⟨k, hk, hc⟩ => ⟨k, hk, inClass_trans hc hwx⟩) (fun w y _ hy ⟨k, hk, hc⟩ => h.closed k hk y (cay_left (inClass_symm hc) hy)) _ w rfl hw
  have hlt : ∀ a < cl.length, ∀ b < cl.length, Cay cs θ α A δ (cl.getD a 1) (cl.getD b 1) → a < b := fun a ha b hb hc =>
    sorted_lt h.a.sorted ha hb (by rw [tr_cay H hc]; omega)
  have horder : ∀ i < cl.length, ∀ j < cl.length, (Poset.Le P i j ↔ Relation.ReflTransGen (Step cs θ α A δ) (cl.getD i 1) (cl.getD j 1)) := by
    intro i hi j hj
    rw [h.order i hi j hj]
    constructor
    · intro q
      clear hj
      induction q with
      | refl => exact .refl
      | tail _ q ih => exact ih.trans (steps_cay H q.2.2)
    · intro q
      have key : ∀ x, Relation.ReflTransGen (Step cs θ α A δ) (cl.getD i 1) x →
          ∃ k < cl.length, InClass θ (cl.getD k 1) x ∧ Relation.ReflTransGen (E cs θ α A δ cl cl.length) i k := fun x hx => by
        induction hx with
        | refl => exact ⟨i, hi, inClass_refl _, .refl⟩
        | @tail y z _ hyz ih =>
          obtain ⟨k, k1, k2, k3⟩ := ih
          rcases step_cases H hyz with q | q
          · exact ⟨k, k1, inClass_trans k2 q, k3⟩
          · have q' := cay_left (inClass_symm k2) q
            obtain ⟨l, l1, l2⟩ := h.closed k k1 _ q'
            have q'' := cay_right (inClass_symm l2) q'
            exact ⟨l, l1, l2, k3.tail ⟨hlt k k1 l l1 q'', l1, q''⟩⟩
      obtain ⟨k, k1, k2, k3⟩ := key _ q
      have e := different_eq h.a.different k1 hj k2
      subst e
      exact k3
  refine ⟨fun k x hx => (h.a.entry k x hx).1, fun k hk => h.a.isTI _ (getD_mem (by omega)), fun k hk => h.a.canonical _ (getD_mem (by omega)), fun w hw => ?_, ⟨by omega, hc0⟩,
    fun w0 hw0 => ?_, h.good, by rw [h.size, hlen], fun i hi j hj => horder i (by omega) j (by omega), fun k x hx => ?_⟩
  · obtain ⟨k, k1, k2⟩ := hall w hw
    refine ⟨k, ⟨by omega, k2⟩, fun l hl => ?_⟩
    exact different_eq h.a.different (by omega) k1 (inClass_trans hl.2 (inClass_symm k2))
  · have hmax : ∀ g, cs.length g ≤ cs.length w0 := fun g => by
      by_cases e : g = w0
      · rw [e]
      · exact (hw0 g e).le
    obtain ⟨k, k1, k2⟩ := hall w0 (longest_isTI H hmax)
    have hle : Poset.Le P (L.length - 1) k := (horder _ (by omega) k k1).2
      ((steps_top H hmax _ _ (h.a.isTI _ (getD_mem (by omega))) rfl).trans (steps_class H (inClass_symm k2)))
    have e : L.length - 1 = k := by
      obtain ⟨-, -, q⟩ := hle
      rw [Poset.lesseq, if_neg (by omega)] at q
      simpa using q
    rw [e]; exact k2
  · obtain ⟨-, S, s1, s2⟩ := h.a.entry k x hx
    have hk : k < L.length := (List.getElem?_eq_some_iff.1 hx).1
    refine ⟨S, s1, fun i => ?_⟩
    rw [s2, hlen]
    constructor
    · rintro ⟨q1, -, q2⟩; exact ⟨q1, q2⟩
    · rintro ⟨q1, q2⟩; exact ⟨q1, by omega, q2⟩

/-- **C74**: the generation of Cartan classes ends; it lists the classes of twisted involutions, each exactly once, and their order. -/
theorem C74_generate_partial (hfew : FewClasses θ K) (hK : K ≤ 65535) (hf3 : K < fuel) : ∃ L P c, generate nd fuel rd T = .ok (L, P) ∧ IsCartans cs α αv N R φ θ δ A L P c := by
  obtain ⟨cl, L, P, h1, h2⟩ := ginv_loop H hf1 hf2 hfew hK fuel 0 _ _ _ (ginv_start H hf1 hf2) (by omega)
  exact ⟨L, P, _, h1, cartans_of H hf1 hf2 h2⟩

/-- **C74**: with more than 65535 classes the generation does not end, as they are counted by numbers of 16 bits (F61). -/
theorem C74_generate_false (hmany : ¬ FewClasses θ 65535) (x : List CInfo × List BitMap.BitMap) : generate nd fuel rd T ≠ .ok x := by
  intro e
  obtain ⟨cl, h1, h2⟩ := ginv_few H hf1 hf2 fuel 0 _ _ _ x (ginv_start H hf1 hf2) (by omega) e
  have hc := (cartans_of H hf1 hf2 h2).classes
  have hl := h2.a.length
  refine hmany fun l q1 q2 => ?_
  choose! num n1 n2 using fun w (hw : IsTI θ w) => (hc w hw).exists
  have hn : (l.map num).Nodup := List.pairwise_map.2 (q2.imp_of_mem fun {a b} ha hb hab e => hab
    (inClass_trans (inClass_symm (n2 a (q1 a ha))) (by rw [e]; exact n2 b (q1 b hb))))
  have hs : l.map num ⊆ List.range cl.length := fun k hk => by
    obtain ⟨w, w1, rfl⟩ := List.mem_map.1 hk
    have := n1 w (q1 w w1)
    exact List.mem_range.2 (by omega)
  have := (List.subperm_of_subset hn hs).length_le
  rw [List.length_map, List.length_range] at this
  omega

/-- **C74**: the assertion that the last class is that of the longest element holds. -/
theorem C74_checkLast {L : List CInfo} {P : List BitMap.BitMap} {c : Nat → G} (h : IsCartans cs α αv N R φ θ δ A L P c) : checkLast nd fuel rd T L = .ok () := by
  have hn : n ≤ 32 := H.datum.cartan.dynkin.rank_le
  obtain ⟨w0, e1, -, e2, -⟩ := H.weyl.longest
  have hl := h.last w0 e2
  have hlt : L.length - 1 < L.length := by have := h.first.1; omega
  have hti := inClass_isTI H (h.isTI _ hlt) hl
  obtain ⟨x, l, k1, k2, k3, k4, k5⟩ := C73_canonicalize H (isGens_all hn) hf1 hf2 hti
  have ex : c (L.length - 1) = x := C73_unique H (h.isTI _ hlt) k4 ((conj_all cs θ _ _).2 (inClass_trans hl (inClass_symm ⟨_, k3⟩))) (h.canonical _ hlt) k5
  unfold checkLast
  rw [e1, Res.ok_bind, (all_gens H hf1 hf2).trans k1, Res.ok_bind]
  simp only []
  rw [Vec.get_ok hlt, Res.ok_bind, h.rep _ _ (List.getElem?_eq_getElem hlt), ex]
  cases nd <;> simp [Res.assertIn, Res.assert]

/-- **C74**: afterwards `class_number` finds the class of each twisted involution. -/
theorem C74_classNumber {L : List CInfo} {P : List BitMap.BitMap} {c : Nat → G} (h : IsCartans cs α αv N R φ θ δ A L P c) {w : G} (hw : IsTI θ w) :
    ∃ k < L.length, classNumber nd fuel rd T (L.map CInfo.tw) (φ w) = .ok k ∧ InClass θ (c k) w := by
  obtain ⟨k, ⟨k1, k2⟩, -⟩ := h.classes w hw
  have e : L.map CInfo.tw = (List.range L.length).map fun k => φ (c k) := by
    refine List.ext_getElem (by simp) fun i h1 h2 => ?_
    rw [List.getElem_map, List.getElem_map, List.getElem_range]
    exact h.rep i _ (List.getElem?_eq_getElem _)
  refine ⟨k, k1, ?_, k2⟩
  rw [e]
  refine (C73_classNumber H hf1 hf2 (fun k hk => ⟨h.isTI k hk, h.canonical k hk⟩) (fun i hi j hj hc => ?_) hw).1 k k1 k2
  obtain ⟨m, -, hm⟩ := h.classes (c j) (h.isTI j hj)
  rw [hm i ⟨hi, hc⟩, hm j ⟨hj, inClass_refl _⟩]

omit hf1 hf2

/-- **C74**: with the numbers of elements of the classes, the list meets what is assumed in C72. -/
theorem C74_isClasses {L : List CInfo} {P : List BitMap.BitMap} {c : Nat → G} (h : IsCartans cs α αv N R φ θ δ A L P c) {classes : List (List Nat × Nat)}
    (h1 : classes.map Prod.fst = L.map CInfo.tw) (h2 : ∀ k x, classes[k]? = some x → x.2 = Nat.card {w // InClass θ (c k) w}) : IsClasses φ θ classes c := by
  have hl : classes.length = L.length := by have := congrArg List.length h1; simpa using this
  refine ⟨fun k x hx => Prod.ext ?_ (h2 k x hx), fun k hk => h.isTI k (by omega), fun i hi j hj hc => ?_⟩
  · have hk := (List.getElem?_eq_some_iff.1 hx).1
    have e := congrArg (fun l => l[k]?) h1
    simp only [List.getElem?_map, hx, Option.map_some, List.getElem?_eq_getElem (show k < L.length by omega)] at e
    rw [Option.some.inj e]
    exact h.rep k _ (List.getElem?_eq_getElem _)
  · obtain ⟨m, -, hm⟩ := h.classes (c j) (h.isTI j (by omega))
    rw [hm i ⟨by omega, hc⟩, hm j ⟨by omega, inClass_refl _⟩]

end

/-- if there are at most `K` twisted involutions then there are at most `K` classes -/
theorem few_of_card {θ : G →* G} [Finite G] (h : Nat.card {w // IsTI θ w} ≤ K) : FewClasses θ K := by
  intro l h1 h2
  refine le_trans ?_ h
  have hn : l.Nodup := h2.imp fun hab e => hab (by rw [e]; exact inClass_refl _)
  have hi : Function.Injective fun i : Fin l.length => (⟨l[i], h1 _ (List.getElem_mem _)⟩ : {w // IsTI θ w}) := fun a b e => by
    have := Subtype.mk.inj e
    exact Fin.ext ((List.Nodup.getElem_inj_iff hn).1 this)
  have := Nat.card_le_card_of_injective _ hi
  rwa [Nat.card_eq_fintype_card, Fintype.card_fin] at this

/-- the hypotheses are met: GL(5) with an outer automorphism, where there is more than one class -/
example : ∃ (G : Type) (_ : Group G) (cs : CoxeterSystem (coxMatrix (cart Tits.exRoot Tits.exRoot)) G) (T : TWG) (φ : G → List Nat) (θ : G →* G) (rd : RD)
    (N : Nat) (R R' : Nat → Fin 4 → ℤ) (A : G →* Matrix (Fin 5) (Fin 5) ℤ) (fuel K : Nat) (L : List CInfo) (P : List BitMap.BitMap) (c : Nat → G),
    Input false cs Tits.exRoot Tits.exRoot exCompsA true rd N R R' T φ exTwist θ Tits.exDelta A ∧ N < fuel ∧ (∀ w, cs.length w < fuel) ∧ FewClasses θ K ∧ K ≤ 65535 ∧ K < fuel ∧
    IsCartans cs Tits.exRoot Tits.exRoot N R φ θ Tits.exDelta A L P c ∧ 2 ≤ L.length := by
  obtain ⟨G, _, cs, T, φ, θ, rd, N, R, R', A, classes, c, H, hc, hl, hf, hf2⟩ := exInput
  have := H.finite
  have hfew : FewClasses θ 199 := few_of_card (by omega)
  obtain ⟨L, P, c', h1, h2⟩ := C74_generate_partial H (fuel := max 200 (N + 1)) (by omega) (fun w => lt_of_lt_of_le (hf w) (by omega)) hfew (by omega) (by omega)
  refine ⟨G, _, cs, T, φ, θ, rd, N, R, R', A, max 200 (N + 1), 199, L, P, c', H, by omega, fun w => lt_of_lt_of_le (hf w) (by omega), hfew, by omega, by omega, h2, ?_⟩
  by_contra hlt
  obtain ⟨k, ⟨k1, k2⟩, -⟩ := h2.classes (c 0) (hc.isTI 0 (by omega))
  obtain ⟨l, ⟨l1, l2⟩, -⟩ := h2.classes (c 1) (hc.isTI 1 (by omega))
  have : k = l := by omega
  subst this
  exact absurd (hc.different 0 (by omega) 1 (by omega) (inClass_trans (inClass_symm k2) l2)) (by decide)

end Verif.Canon
