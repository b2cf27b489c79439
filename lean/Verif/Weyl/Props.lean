import Verif.Weyl.Impl4
/-
C40, C41: the class `WeylGroup` computes in the Coxeter group of its Cartan matrix.
-/
namespace Verif.Weyl
open Verif

/-- C40: the constructor, called for a Cartan matrix and the components of its Dynkin diagram, succeeds, and the object built
implements the Coxeter group of the matrix, whichever model `G` of that group one takes. -/
theorem C40_weylGroup (nd : Bool) {rank : Nat} {C : Fin rank → Fin rank → Int} {comps : List Comp} (h : IsDynkin rank C comps) {G : Type}
    [Group G] (cs : CoxeterSystem (coxMatrix C) G) : ∃ W φ, WG.make nd rank comps = .ok W ∧ Implements nd cs W φ := by
  obtain ⟨W, T, num, h1, hW, hM, -, hT⟩ := make_ok nd h
  have hoff := h.offs
  have hsm : ∀ i < (mkSys rank comps T).n, Size.Smooth ((mkSys rank comps T).T i).n := by
    intro i hi
    obtain ⟨c, hc, j, hj, rfl⟩ := hoff.cover (Nat.zero_le _) hi
    have := hoff.mem hc
    have := h.rank_le
    show Size.Smooth (T (c.offset + j)).n
    rw [hT c hc j hj]
    exact (smooth_states c.ty (by omega) (by omega)).2.2
  have hpv : ∀ p ∈ [2, 3, 5, 7, 11, 13, 17, 19, 23, 29, 31], padicValNat p ((mkSys rank comps T).radix (mkSys rank comps T).n) ≤ 64 := by
    intro p hp
    have hpp : p.Prime := by
      simp only [List.mem_cons, List.not_mem_nil, or_false] at hp
      rcases hp with rfl | rfl | rfl | rfl | rfl | rfl | rfl | rfl | rfl | rfl | rfl <;> norm_num
    have := radix_padic (rank := rank) (comps := comps) (T := T) hp hpp hoff h.rank_le hT (by simp [Sys.radix])
    rw [Sys.radix, padicValNat_one_right] at this
    have := h.rank_le
    show padicValNat p ((mkSys rank comps T).radix rank) ≤ 64
    omega
  obtain ⟨z, z1, z2, z3⟩ := orderLoop_val hW hsm hpv
  refine ⟨W, rep hW cs hM, h1, ?_⟩
  exact
    { injective := rep_inj hW cs hM
      bytes := rep_bytes hW cs hM
      rank_eq := hW.rank
      one := rep_one hW cs hM
      generator := rep_generator hW cs hM
      mult := rep_mult hW cs hM nd
      multGen := rep_multGen hW cs hM nd
      multWord := rep_multWord hW cs hM nd
      leftMultiply := fun g k => by rw [WG.leftMultiply]; exact rep_mult hW cs hM nd k g
      leftMultiplyGen := rep_leftMultiplyGen hW cs hM nd
      leftMultiplyWord := rep_leftMultiplyWord hW cs hM nd
      inverse := rep_inverse hW cs hM nd
      conjugate := rep_conjugate hW cs hM nd
      length := rep_length hW cs hM
      lengthChange := rep_lengthChange hW cs hM nd
      lengthChangeLeft := rep_lengthChangeLeft hW cs hM nd
      hasDescent := fun g s => ⟨_, rep_hasDescent hW cs hM nd g s, decide_eq_true_iff⟩
      leftDescent_one := rep_leftDescent_one hW cs hM
      leftDescent := rep_leftDescent hW cs hM
      word := fun g => by
        obtain ⟨l, e1, e2, e3, -⟩ := rep_word hW cs hM nd g
        exact ⟨l, e1, e2, e3⟩
      element := rep_element hW cs hM nd
      commutes := rep_commutes hW cs hM nd
      longest := by
        refine ⟨_, rep_longest hW cs hM, rep_maxLength hW cs hM, fun g hg => w0_unique hW cs hM hg, ?_, ?_⟩
        · exact rep_chevalleyDual hW cs hM nd
        · exact rep_chevalleyTwist hW cs hM nd
      translation := fun f θ hθ l hl g => rep_translation hW cs hM nd f θ hθ l hl g
      act := fun α _ f hf g a => ⟨rep_act hW cs hM nd hf g a, rep_coAct hW cs hM nd hf g a⟩
      conjugacyClass := rep_conjugacyClass hW cs hM nd
      order := ⟨z, z1, z2, by rw [z3, card_eq hW cs hM]⟩
      packed := rep_packed hW cs hM }

/-- C41: `to_big_int` numbers the elements from 0 to one less than the order of the group, without repetition, and
`to_WeylElt` recovers an element from its number. -/
theorem C41_numbering (nd : Bool) {rank : Nat} {C : Fin rank → Fin rank → Int} {comps : List Comp} (h : IsDynkin rank C comps) {G : Type}
    [Group G] (cs : CoxeterSystem (coxMatrix C) G) : ∃ W φ, WG.make nd rank comps = .ok W ∧ Implements nd cs W φ ∧
      ∃ N : G ≃ Fin (Nat.card G), (∀ g, ∃ d, W.toBigInt (φ g) = .ok d ∧ BigInt.Rep d (N g)) ∧
        ∀ g d, BigInt.Rep d (N g) → W.toWeylElt d = .ok (φ g) := by
  obtain ⟨W, φ, h1, h2⟩ := C40_weylGroup nd h cs
  exact ⟨W, φ, h1, h2, h2.packed⟩

/-! ### orders -/

/-- the letter of a type -/
def Ty.letter : Ty → Char
  | .A => 'A' | .B => 'B' | .C => 'C' | .D => 'D' | .E => 'E' | .F => 'F' | .G => 'G'

theorem statesProd_eq (ty : Ty) {r : Nat} (hr : r ≤ 32) (h : ty.RankOK r) : statesProd ty r = Size.weylOrder (ty.letter, r) := by
  have keyA : ∀ r < 33, statesProd .A r = Size.weylOrder ('A', r) := by decide +kernel
  have key : ∀ ty ∈ [Ty.B, .C, .D], ∀ r < 33, 2 ≤ r → statesProd ty r = Size.weylOrder (ty.letter, r) := by decide +kernel
  have keyE : ∀ r < 9, 6 ≤ r → statesProd .E r = Size.weylOrder ('E', r) := by decide +kernel
  cases ty <;> simp only [Ty.RankOK] at h
  · exact keyA r (by omega)
  · exact key .B (by simp) r (by omega) (by omega)
  · exact key .C (by simp) r (by omega) (by omega)
  · exact key .D (by simp) r (by omega) (by omega)
  · exact keyE r (by omega) (by omega)
  · subst h; decide
  · subst h; decide

/-- C40: the order of the group is the product of the orders of the Weyl groups of its components. -/
theorem C40_order {rank : Nat} {C : Fin rank → Fin rank → Int} {comps : List Comp} (h : IsDynkin rank C comps) {G : Type}
    [Group G] (cs : CoxeterSystem (coxMatrix C) G) : Nat.card G = (comps.map fun c => Size.weylOrder (c.ty.letter, c.rank)).prod := by
  obtain ⟨W, T, num, h1, hW, hM, -, hT⟩ := make_ok true h
  rw [card_eq hW cs hM]
  have hoff := h.offs
  have hr := h.rank_le
  have hok := h.ranks
  have key : ∀ o n cs, Offsets o cs n → n ≤ 32 → (∀ c ∈ cs, c.ty.RankOK c.rank) → (∀ c ∈ cs, ∀ j < c.rank, (T (c.offset + j)).n = c.ty.states j) →
      (mkSys rank comps T).radix n = (mkSys rank comps T).radix o * (cs.map fun c => Size.weylOrder (c.ty.letter, c.rank)).prod := by
    intro o n cs h
    induction h with
    | nil => intros; simp
    | @cons o n c cs e1 e2 e3 h ih =>
      intro hn h1 h2
      have hle := h.le
      have hc := radix_comp (rank := rank) (comps := comps) (fun j hj => h2 c List.mem_cons_self j hj) (Nat.le_refl _)
      rw [e1] at hc
      rw [ih hn (fun c hc => h1 c (List.mem_cons_of_mem _ hc)) (fun c hc => h2 c (List.mem_cons_of_mem _ hc)), hc,
        statesProd_eq c.ty (by omega) (h1 c List.mem_cons_self), List.map_cons, List.prod_cons, Nat.mul_assoc]
  have := key 0 rank comps hoff hr hok hT
  rw [Sys.radix, Nat.one_mul] at this
  exact this

/-! ### examples -/

/-- a finite test for `IsDynkin` -/
def dynkinTest (rank : Nat) (C : Fin rank → Fin rank → Int) (comps : List Comp) : Bool :=
  decide (rank ≤ 32) &&
  decide (∀ k (hk : k < comps.length), comps[k].offset = ((comps.take k).map Comp.rank).sum) &&
  decide ((comps.flatMap Comp.position).Perm (List.range rank)) &&
  decide (∀ c ∈ comps, ∀ i < c.position.length, ∀ j < c.position.length, ∀ s t : Fin rank, i ≠ j → c.position[i]? = some s.1 →
    c.position[j]? = some t.1 → C s t * C t s = bond c.ty c.rank i j) &&
  decide (∀ c ∈ comps, ∀ c' ∈ comps, c ≠ c' → ∀ s t : Fin rank, s.1 ∈ c.position → t.1 ∈ c'.position → C s t * C t s = 0)

theorem dynkin_of_test {rank : Nat} {C : Fin rank → Fin rank → Int} {comps : List Comp} (hr : ∀ c ∈ comps, c.ty.RankOK c.rank)
    (h : dynkinTest rank C comps = true) : IsDynkin rank C comps := by
  simp only [dynkinTest, Bool.and_eq_true, decide_eq_true_eq] at h
  obtain ⟨⟨⟨⟨h1, h2⟩, h3⟩, h4⟩, h5⟩ := h
  refine ⟨h1, hr, h2, h3, ?_, h5⟩
  intro c hc s t i j hij hi hj
  exact h4 c hc i (by by_contra hc; rw [List.getElem?_eq_none (by omega)] at hi; cases hi) j
    (by by_contra hc; rw [List.getElem?_eq_none (by omega)] at hj; cases hj) s t hij hi hj

/-- Cartan matrix of type `B3 × G2`, with the nodes shuffled -/
def exC : Fin 5 → Fin 5 → Int := fun i j =>
  ([[2, 0, -2, 0, -1], [0, 2, 0, -3, 0], [-1, 0, 2, 0, 0], [0, -1, 0, 2, 0], [-1, 0, 0, 0, 2]].getD i []).getD j 0

def exComps : List Comp := [⟨.B, 0, [4, 0, 2]⟩, ⟨.G, 3, [3, 1]⟩]

theorem exDynkin : IsDynkin 5 exC exComps := dynkin_of_test (by simp [exComps, Ty.RankOK, Comp.rank]) (by decide)

/-- the hypotheses are met, for the Coxeter group of Mathlib -/
example : ∃ W φ, WG.make false 5 exComps = .ok W ∧ Implements false (coxMatrix exC).toCoxeterSystem W φ := C40_weylGroup false exDynkin _

example : Nat.card (coxMatrix exC).Group = 48 * 12 := C40_order exDynkin (coxMatrix exC).toCoxeterSystem

end Verif.Weyl
