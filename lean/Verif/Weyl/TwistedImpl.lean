import Verif.Weyl.TwistedSpec
/-
Proofs for the class `TwistedWeylGroup`.
-/
namespace Verif.Weyl
open Verif Verif.Coxeter

section
variable {nd : Bool} {rank : Nat} {Mx : CoxeterMatrix (Fin rank)} {G : Type} [Group G] {cs : CoxeterSystem Mx G} {T : TWG} {φ : G → List Nat}
  (hI : Implements nd cs T.W φ) {f : Fin rank → Fin rank} {θ : G →* G} (hθ : IsTwist cs f θ) (hT : ∀ s : Fin rank, T.twist[s.1]? = some (f s).1)

include hT in
theorem tw_get (s : Fin rank) : Vec.get T.twist s = .ok (f s).1 := by simp [Vec.get, hT s]

include hI hθ hT

theorem tw_twisted (g : G) : T.twisted nd (φ g) = .ok (φ (θ g)) :=
  (hI.translation f θ hθ.simple T.twist hT g).1

theorem tw_conjGen (g : G) (s : Fin rank) : T.conjGen nd (φ g) s =
    .ok (φ (cs.simple s * g * θ (cs.simple s)), (cs.length (cs.simple s * g * θ (cs.simple s)) : Int) - cs.length g) := by
  rw [TWG.conjGen, hI.leftMultiplyGen]
  simp only [Res.ok_bind, tw_get hT, hI.multGen, Res.pure_eq]
  rw [hθ.simple]
  congr 2
  omega

theorem tw_inverseConjLoop (l : List (Fin rank)) (g : G) (d : Int) : T.inverseConjLoop nd (l.map Fin.val) (φ g) d =
    .ok (φ ((cs.wordProd l)⁻¹ * g * θ (cs.wordProd l)), d + ((cs.length ((cs.wordProd l)⁻¹ * g * θ (cs.wordProd l)) : Int) - cs.length g)) := by
  induction l generalizing g d with
  | nil => simp [TWG.inverseConjLoop]
  | cons s l ih =>
    rw [List.map_cons, TWG.inverseConjLoop, tw_conjGen hI hθ hT]
    simp only [Res.ok_bind]
    rw [ih]
    have e : (cs.wordProd l)⁻¹ * (cs.simple s * g * θ (cs.simple s)) * θ (cs.wordProd l) =
        (cs.wordProd (s :: l))⁻¹ * g * θ (cs.wordProd (s :: l)) := by
      rw [cs.wordProd_cons, mul_inv_rev, cs.inv_simple, map_mul]
      simp only [mul_assoc]
    rw [e]
    congr 2
    omega

theorem tw_conjWord (g : G) (l : List (Fin rank)) : T.conjWord nd (l.map Fin.val) (φ g) = .ok (φ (cs.wordProd l * g * (θ (cs.wordProd l))⁻¹),
    (cs.length (cs.wordProd l * g * (θ (cs.wordProd l))⁻¹) : Int) - cs.length g) := by
  rw [TWG.conjWord, ← List.map_reverse, tw_inverseConjLoop hI hθ hT, cs.wordProd_reverse, inv_inv, map_inv, zero_add]

theorem tw_conjElt (g h : G) : T.conjElt nd (φ g) (φ h) = .ok (φ (h * g * (θ h)⁻¹)) := by
  rw [TWG.conjElt, hI.mult, Res.ok_bind, (hI.translation f θ hθ.simple T.twist hT h).2, Res.ok_bind, hI.mult, map_inv]

theorem tw_commutation (g : G) (hg : IsTI θ g) (s : Fin rank) : ∃ b, T.hasTwistedCommutation nd s (φ g) = .ok b ∧
    (b = true ↔ cs.simple s * g = g * θ (cs.simple s)) := by
  obtain ⟨b, h1, h2⟩ := hI.hasDescent (g * cs.simple (f s)) s
  refine ⟨decide (cs.length g < cs.length (g * cs.simple (f s))) == b, ?_, ?_⟩
  · rw [TWG.hasTwistedCommutation, tw_get hT]
    simp only [Res.ok_bind, hI.multGen, h1, Res.pure_eq]
    congr 2
    rw [decide_eq_decide]
    omega
  · rw [← commutation_iff hθ hg s, hθ.simple, ← h2, beq_iff_eq]
    constructor
    · intro e; rw [← e]; simp
    · intro e
      rw [Bool.eq_iff_iff, ← e]; simp

/-! ### lengths and expressions -/

theorem undef_ne (s : Fin rank) (hr : rank ≤ 32) : s.1 ≠ undef := by
  have := s.2
  unfold undef
  omega

/-- The loop of `involutionLength` and that of `involution_expr` go the same way. -/
theorem tw_expr (hr : rank ≤ 32) (g : G) (hg : IsTI θ g) : ∃ l : List (Fin rank × Bool), RedExpr cs θ l g ∧
    (∀ fuel, cs.length g < fuel → ∀ r, T.involutionExprLoop nd fuel (φ g) r = .ok (r ++ l.map fun x => letter x.1 x.2)) ∧
    (∀ fuel, cs.length g < fuel → ∀ r, T.involutionLengthLoop nd fuel (φ g) r = .ok (r + l.length)) := by
  obtain ⟨n, hn⟩ : ∃ n, cs.length g = n := ⟨_, rfl⟩
  induction n using Nat.strong_induction_on generalizing g with
  | _ n ih =>
  by_cases h1 : g = 1
  · subst h1
    refine ⟨[], .nil, ?_, ?_⟩ <;>
    · intro fuel hf r
      obtain ⟨k, rfl⟩ : ∃ k, fuel = k + 1 := ⟨fuel - 1, by omega⟩
      simp [TWG.involutionExprLoop, TWG.involutionLengthLoop, hI.leftDescent_one]
  obtain ⟨s, hs1, hs2⟩ := hI.leftDescent g h1
  obtain ⟨b, hb1, hb2⟩ := tw_commutation hI hθ hT g hg s
  have hu := undef_ne hI hθ hT s hr
  by_cases hc : cs.simple s * g = g * θ (cs.simple s)
  · have hb : b = true := hb2.mpr hc
    subst hb
    obtain ⟨l, k1, k2, k3⟩ := ih _ (by rw [← hn]; exact hs2) _ (IsTI.commute hθ hg hc) rfl
    refine ⟨_, k1.of_mul hθ hs2 hc, ?_, ?_⟩
    · intro fuel hf r
      obtain ⟨k, rfl⟩ : ∃ k, fuel = k + 1 := ⟨fuel - 1, by omega⟩
      rw [TWG.involutionExprLoop, hs1, Res.ok_bind, if_neg hu, hb1]
      simp only [Res.ok_bind, if_true, hI.leftMultiplyGen]
      rw [k2 k (by omega)]
      simp [letter]
    · intro fuel hf r
      obtain ⟨k, rfl⟩ : ∃ k, fuel = k + 1 := ⟨fuel - 1, by omega⟩
      rw [TWG.involutionLengthLoop, hs1, Res.ok_bind, if_neg hu, hb1]
      simp only [Res.ok_bind, if_true, hI.leftMultiplyGen]
      rw [k3 k (by omega), List.length_cons]
      congr 1; omega
  · have hb : b = false := by rcases b with _ | _; rfl; exact absurd (hb2.mp rfl) hc
    subst hb
    have hl := hg.step hθ hs2 hc
    obtain ⟨l, k1, k2, k3⟩ := ih _ (by omega) _ (IsTI.conjSimple hθ hg s) rfl
    refine ⟨_, k1.of_conj hθ hg hs2 hc, ?_, ?_⟩
    · intro fuel hf r
      obtain ⟨k, rfl⟩ : ∃ k, fuel = k + 1 := ⟨fuel - 1, by omega⟩
      rw [TWG.involutionExprLoop, hs1, Res.ok_bind, if_neg hu, hb1]
      simp only [Res.ok_bind, Bool.false_eq_true, if_false, tw_conjGen hI hθ hT]
      rw [k2 k (by omega)]
      simp [letter]
    · intro fuel hf r
      obtain ⟨k, rfl⟩ : ∃ k, fuel = k + 1 := ⟨fuel - 1, by omega⟩
      rw [TWG.involutionLengthLoop, hs1, Res.ok_bind, if_neg hu, hb1]
      simp only [Res.ok_bind, Bool.false_eq_true, if_false, tw_conjGen hI hθ hT]
      rw [k3 k (by omega), List.length_cons]
      congr 1; omega

theorem tw_firstDescent (g : G) (hg : g ≠ 1) : ∃ s : Fin rank, T.firstDescent nd (φ g) (List.range rank) = .ok s.1 ∧
    cs.length (cs.simple s * g) < cs.length g ∧ ∀ t < s, ¬ cs.length (cs.simple t * g) < cs.length g := by
  have key : ∀ (n : Nat) (hn : n ≤ rank), (∀ t : Fin rank, t.1 < n → ¬ cs.length (cs.simple t * g) < cs.length g) →
      ∃ s : Fin rank, T.firstDescent nd (φ g) ((List.range rank).drop n) = .ok s.1 ∧
        cs.length (cs.simple s * g) < cs.length g ∧ ∀ t < s, ¬ cs.length (cs.simple t * g) < cs.length g := by
    intro n
    induction hd : rank - n generalizing n with
    | zero =>
      intro hn h
      obtain ⟨s, hs⟩ := cs.exists_leftDescent_of_ne_one hg
      exact absurd hs (h s (by have := s.2; omega))
    | succ d ih =>
      intro hn h
      have hlt : n < rank := by omega
      rw [List.drop_eq_getElem_cons (by simpa using hlt), List.getElem_range, TWG.firstDescent]
      obtain ⟨b, h1, h2⟩ := hI.hasDescent g ⟨n, hlt⟩
      rw [show ((⟨n, hlt⟩ : Fin rank) : Nat) = n from rfl] at h1
      rw [h1, Res.ok_bind]
      cases b with
      | true => exact ⟨⟨n, hlt⟩, by simp, h2.mp rfl, fun t ht => h t ht⟩
      | false =>
        simp only [Bool.false_eq_true, if_false]
        refine ih (n + 1) (by omega) (by omega) fun t ht => ?_
        by_cases e : t.1 < n
        · exact h t e
        · have : t = ⟨n, hlt⟩ := Fin.ext (show t.1 = n by omega)
          rw [this]
          exact fun hc => absurd (h2.mpr hc) (by simp)
  have := key 0 (by omega) (by intro t ht; omega)
  rwa [List.drop_zero] at this

omit hI hθ hT in
/-- the first letter of a reduced expression is a descent -/
theorem redExpr_head {s : Fin rank} {b : Bool} {l : List (Fin rank × Bool)} {g : G} (hθ : IsTwist cs f θ) (h : RedExpr cs θ ((s, b) :: l) g) :
    cs.length (cs.simple s * g) < cs.length g ∧
    ((b = false ∧ cs.simple s * g = g * θ (cs.simple s) ∧ RedExpr cs θ l (cs.simple s * g)) ∨
     (b = true ∧ cs.simple s * g ≠ g * θ (cs.simple s) ∧ RedExpr cs θ l (cs.simple s * g * θ (cs.simple s)))) := by
  cases h with
  | @mul _ w _ h1 h2 h3 =>
    rw [cs.simple_mul_simple_cancel_left]
    refine ⟨h3, .inl ⟨rfl, ?_, h1⟩⟩
    rw [h2, mul_assoc, hθ.simple, cs.simple_mul_simple_self, mul_one]
  | @conj _ w _ h1 h2 h3 =>
    have e1 : cs.simple s * (cs.simple s * w * θ (cs.simple s)) = w * θ (cs.simple s) := by rw [mul_assoc, cs.simple_mul_simple_cancel_left]
    have e2 : cs.simple s * w * θ (cs.simple s) * θ (cs.simple s) = cs.simple s * w := by rw [hθ.simple]; simp
    have hw := h1.isTI hθ
    rw [e1, e2]
    refine ⟨?_, .inr ⟨rfl, Ne.symm h2, ?_⟩⟩
    · have hd := hw.descent hθ s
      have n1 := cs.length_simple_mul w s
      have h4 := (commutation_iff hθ hw s).not.mpr h2
      rw [hd] at h4
      rw [mul_assoc, hd]
      have n2 := cs.length_simple_mul (w * θ (cs.simple s)) s
      rw [hd] at n2
      by_contra hcon
      apply h4
      constructor <;> omega
    · have : w * θ (cs.simple s) * θ (cs.simple s) = w := by rw [hθ.simple]; simp
      rw [this]
      exact h1

omit hI hT in
theorem cons_le {a b : Fin rank} {l m : List (Fin rank)} (h : a < b ∨ (a = b ∧ l ≤ m)) : a :: l ≤ b :: m := by
  rcases h with h | ⟨rfl, h⟩
  · exact le_of_lt (List.Lex.rel h)
  · rcases lt_or_eq_of_le h with h | rfl
    · exact le_of_lt (List.Lex.cons h)
    · exact le_refl _

theorem tw_canonical (g : G) (hg : IsTI θ g) : ∃ l : List (Fin rank × Bool), RedExpr cs θ l g ∧
    (∀ l', RedExpr cs θ l' g → l.map Prod.fst ≤ l'.map Prod.fst) ∧
    ∀ fuel, cs.length g < fuel → ∀ r, T.canonicalExprLoop nd fuel (φ g) r = .ok (r ++ l.map fun x => letter x.1 x.2) := by
  obtain ⟨n, hn⟩ : ∃ n, cs.length g = n := ⟨_, rfl⟩
  induction n using Nat.strong_induction_on generalizing g with
  | _ n ih =>
  by_cases h1 : g = 1
  · subst h1
    refine ⟨[], .nil, fun l' _ => ?_, ?_⟩
    · cases l' with
      | nil => exact le_refl _
      | cons a l' => exact le_of_lt List.Lex.nil
    intro fuel hf r
    obtain ⟨k, rfl⟩ : ∃ k, fuel = k + 1 := ⟨fuel - 1, by omega⟩
    simp [TWG.canonicalExprLoop, hI.one]
  have hne : φ g ≠ WG.one := by rw [← hI.one]; exact fun e => h1 (hI.injective e)
  obtain ⟨s, hs1, hs2, hs3⟩ := tw_firstDescent hI hθ hT g h1
  obtain ⟨b, hb1, hb2⟩ := tw_commutation hI hθ hT g hg s
  have hfirst : ∀ (l : List (Fin rank × Bool)) (b : Bool), (∀ l', RedExpr cs θ ((s, b) :: l') g → l.map Prod.fst ≤ l'.map Prod.fst) →
      (∀ l', RedExpr cs θ ((s, !b) :: l') g → False) → ∀ l', RedExpr cs θ l' g → ((s, b) :: l).map Prod.fst ≤ l'.map Prod.fst := by
    intro l b hl hno l' hl'
    cases l' with
    | nil => cases hl'; exact absurd rfl h1
    | cons x l' =>
      obtain ⟨t, b'⟩ := x
      have ht := (redExpr_head hθ hl').1
      refine cons_le hθ ?_
      by_cases hst : s = t
      · subst hst
        by_cases hbb : b' = b
        · subst hbb
          exact .inr ⟨rfl, hl l' hl'⟩
        · have : b' = !b := by cases b <;> cases b' <;> simp_all
          subst this
          exact (hno l' hl').elim
      · left
        have : ¬ t < s := fun h => hs3 t h ht
        show s < t
        omega
  by_cases hc : cs.simple s * g = g * θ (cs.simple s)
  · have hb : b = true := hb2.mpr hc
    subst hb
    obtain ⟨l, k1, k2, k3⟩ := ih _ (by rw [← hn]; exact hs2) _ (IsTI.commute hθ hg hc) rfl
    refine ⟨_, k1.of_mul hθ hs2 hc, ?_, ?_⟩
    · apply hfirst
      · intro l' hl'
        rcases (redExpr_head hθ hl').2 with ⟨_, _, h⟩ | ⟨h, _⟩
        · exact k2 l' h
        · exact absurd h (by simp)
      · intro l' hl'
        rcases (redExpr_head hθ hl').2 with ⟨h, _⟩ | ⟨_, h, _⟩
        · exact absurd h (by simp)
        · exact h hc
    · intro fuel hf r
      obtain ⟨k, rfl⟩ : ∃ k, fuel = k + 1 := ⟨fuel - 1, by omega⟩
      rw [TWG.canonicalExprLoop, if_pos hne, hI.rank_eq, hs1, Res.ok_bind, hb1]
      simp only [Res.ok_bind, if_true, hI.leftMultiplyGen]
      rw [k3 k (by omega)]
      simp [letter]
  · have hb : b = false := by rcases b with _ | _; rfl; exact absurd (hb2.mp rfl) hc
    subst hb
    have hl := hg.step hθ hs2 hc
    obtain ⟨l, k1, k2, k3⟩ := ih _ (by omega) _ (IsTI.conjSimple hθ hg s) rfl
    refine ⟨_, k1.of_conj hθ hg hs2 hc, ?_, ?_⟩
    · apply hfirst
      · intro l' hl'
        rcases (redExpr_head hθ hl').2 with ⟨h, _⟩ | ⟨_, _, h⟩
        · exact absurd h (by simp)
        · exact k2 l' h
      · intro l' hl'
        rcases (redExpr_head hθ hl').2 with ⟨_, h, _⟩ | ⟨h, _⟩
        · exact hc h
        · exact absurd h (by simp)
    · intro fuel hf r
      obtain ⟨k, rfl⟩ : ∃ k, fuel = k + 1 := ⟨fuel - 1, by omega⟩
      rw [TWG.canonicalExprLoop, if_pos hne, hI.rank_eq, hs1, Res.ok_bind, hb1]
      simp only [Res.ok_bind, Bool.false_eq_true, if_false, tw_conjGen hI hθ hT]
      rw [k3 k (by omega)]
      simp [letter]

/-! ### orbits -/

omit hI hθ hT in
/-- the loop that fills an array for the generators -/
theorem fill_spec {step : Nat → List Nat → Res (List Nat)} {v : Fin rank → Nat} {loop : List Nat → List Nat → Res (List Nat)}
    (hnil : ∀ d, loop [] d = .ok d) (hcons : ∀ s l d, loop (s :: l) d = (do let d ← step s d; loop l d))
    (hstep : ∀ (s : Fin rank) d, d.length = 32 → step s d = .ok (d.set s (v s))) :
    ∀ (l : List (Fin rank)) d, d.length = 32 → ∃ d', loop (l.map Fin.val) d = .ok d' ∧ d'.length = 32 ∧
      ∀ i, d'[i]? = if h : ∃ s ∈ l, s.1 = i then (if i < 32 then some (v (h.choose)) else none) else d[i]? := by
  intro l
  induction l with
  | nil => intro d hd; exact ⟨d, hnil d, hd, fun i => by simp⟩
  | cons s l ih =>
    intro d hd
    rw [List.map_cons, hcons, hstep s d hd, Res.ok_bind]
    obtain ⟨d', h1, h2, h3⟩ := ih (d.set s (v s)) (by simpa using hd)
    refine ⟨d', h1, h2, fun i => ?_⟩
    rw [h3 i]
    by_cases hl : ∃ t ∈ l, t.1 = i
    · have hl2 : ∃ t ∈ s :: l, t.1 = i := by obtain ⟨t, a, b⟩ := hl; exact ⟨t, List.mem_cons_of_mem _ a, b⟩
      rw [dif_pos hl, dif_pos hl2]
      have e : hl.choose = hl2.choose := Fin.ext (by rw [hl.choose_spec.2, hl2.choose_spec.2])
      rw [e]
    · rw [dif_neg hl]
      by_cases hs : s.1 = i
      · have hl2 : ∃ t ∈ s :: l, t.1 = i := ⟨s, List.mem_cons_self, hs⟩
        rw [dif_pos hl2]
        have e : s = hl2.choose := Fin.ext (by rw [hl2.choose_spec.2, hs])
        rw [← e, List.getElem?_set, if_pos hs]
        by_cases hi : i < 32
        · rw [if_pos (by omega), if_pos hi]
        · rw [if_neg (by omega), if_neg hi]
      · have hl2 : ¬ ∃ t ∈ s :: l, t.1 = i := by
          rintro ⟨t, a, b⟩
          rcases List.mem_cons.mp a with rfl | a
          · exact hs b
          · exact hl ⟨t, a, b⟩
        rw [dif_neg hl2, List.getElem?_set, if_neg hs]

theorem tw_dual (hr : rank ≤ 32) : ∃ (w0 : G) (f' : Fin rank → Fin rank) (d : List Nat), (∀ g, g ≠ w0 → cs.length g < cs.length w0) ∧
    (∀ s, cs.simple (f' s) = w0 * cs.simple (f s) * w0⁻¹) ∧ (∀ s : Fin rank, T.dualTwistedGen nd s = .ok (f' s).1) ∧
    T.dualTwist nd = .ok d ∧ d.length = 32 ∧ (∀ s : Fin rank, d[s.1]? = some (f' s).1) ∧ (∀ s, rank ≤ s → s < 32 → d[s]? = some undef) ∧
    T.dual nd = .ok ⟨T.W, d⟩ ∧ ∀ g, T.dualTwisted nd (φ g) = .ok (φ (w0 * θ g * w0⁻¹)) := by
  obtain ⟨w0, h1, h2, h3, h4, -⟩ := hI.longest
  choose t ht1 ht2 using h4
  have hgen : ∀ s : Fin rank, T.dualTwistedGen nd s = .ok (t (f s)).1 := by
    intro s
    rw [TWG.dualTwistedGen, tw_get hT, Res.ok_bind, ht1]
  have hloop := fill_spec (rank := rank) (step := fun s d => do
      let t ← Vec.get T.twist s
      let t ← T.W.chevalleyDual nd t
      Vec.put d s t) (v := fun s => (t (f s)).1) (loop := T.dualTwistLoop nd) (fun d => rfl) (fun s l d => by
        rw [TWG.dualTwistLoop]
        cases Vec.get T.twist s <;> try rfl
        rename_i a
        simp only [Res.ok_bind]
        cases T.W.chevalleyDual nd a <;> rfl) (fun s d hd => by
        rw [tw_get hT]
        simp only [Res.ok_bind, ht1]
        rw [Vec.put_ok (by have := s.2; omega)])
  obtain ⟨d, e1, e2, e3⟩ := hloop (List.finRange rank) (List.replicate rankMax undef) (by simp [rankMax])
  have hd : T.dualTwist nd = .ok d := by
    rw [TWG.dualTwist, hI.rank_eq, ← e1]
    congr 1
    simp
  have hd1 : ∀ s : Fin rank, d[s.1]? = some (t (f s)).1 := by
    intro s
    have hex : ∃ u ∈ List.finRange rank, u.1 = s.1 := ⟨s, by simp, rfl⟩
    rw [e3, dif_pos hex, if_pos (by have := s.2; omega)]
    have : hex.choose = s := Fin.ext hex.choose_spec.2
    rw [this]
  refine ⟨w0, fun s => t (f s), d, h3, fun s => ht2 (f s), hgen, hd, e2, hd1, ?_, ?_, ?_⟩
  · intro s hs1 hs2
    rw [e3, dif_neg (by rintro ⟨u, _, e⟩; have := u.2; omega), List.getElem?_replicate, if_pos (by simpa [rankMax] using hs2)]
  · rw [TWG.dual, hd]; rfl
  · intro g
    rw [TWG.dualTwisted, hd, Res.ok_bind]
    have := hI.translation (fun s => t (f s)) ((MulAut.conj w0).toMonoidHom.comp θ) (fun s => by
      rw [MonoidHom.comp_apply, hθ.simple, ht2]; rfl) d hd1 g
    exact this.1

/-- whether `s` commutes with its image -/
noncomputable def commB (cs : CoxeterSystem Mx G) (f : Fin rank → Fin rank) (s : Fin rank) : Bool :=
  @decide (cs.simple s * cs.simple (f s) = cs.simple (f s) * cs.simple s) (Classical.propDecidable _)

omit hI hθ hT in
theorem commB_iff (s : Fin rank) : commB cs f s = true ↔ cs.simple s * cs.simple (f s) = cs.simple (f s) * cs.simple s :=
  @decide_eq_true_iff _ (Classical.propDecidable _)

/-- the orbit that starts with `s`, if any -/
noncomputable def orbitOf (cs : CoxeterSystem Mx G) (f : Fin rank → Fin rank) (s : Fin rank) : Option ExtGen :=
  if f s = s then some (ExtGen.single s)
  else if s.1 < (f s).1 then some (ExtGen.pair (commB cs f s) s (f s))
  else none

omit hI hθ hT in
theorem orbitOf_one {s : Fin rank} (h : f s = s) : orbitOf cs f s = some (ExtGen.single s) := by rw [orbitOf, if_pos h]
omit hI hθ hT in
theorem orbitOf_pair {s : Fin rank} (h : f s ≠ s) (h2 : s.1 < (f s).1) : orbitOf cs f s = some (ExtGen.pair (commB cs f s) s (f s)) := by
  rw [orbitOf, if_neg h, if_pos h2]
omit hI hθ hT in
theorem orbitOf_none {s : Fin rank} (h : f s ≠ s) (h2 : ¬ s.1 < (f s).1) : orbitOf cs f s = none := by rw [orbitOf, if_neg h, if_neg h2]
omit hI hθ hT in
theorem pair_length (b : Bool) (s t : Nat) : (ExtGen.pair b s t).length ≠ 1 := by
  cases b <;> simp [ExtGen.pair, ExtGen.length]

theorem tw_orbitsLoop (l : List (Fin rank)) : T.orbitsLoop nd (l.map Fin.val) = .ok (l.filterMap (orbitOf cs f)) := by
  induction l with
  | nil => rfl
  | cons s l ih =>
    rw [List.map_cons, TWG.orbitsLoop, TWG.twistedGen, tw_get hT, Res.ok_bind, List.filterMap_cons]
    by_cases h1 : f s = s
    · rw [if_pos (by rw [h1]), orbitOf_one h1, ih]
      rfl
    · rw [if_neg (fun e => h1 (Fin.ext e))]
      by_cases h2 : s.1 < (f s).1
      · rw [if_pos h2, orbitOf_pair h1 h2]
        obtain ⟨b, hb1, hb2⟩ := hI.commutes s (f s)
        rw [hb1, Res.ok_bind, ih]
        have : b = commB cs f s := by rw [Bool.eq_iff_iff, hb2, commB_iff]
        rw [this]
        rfl
      · rw [if_neg h2, orbitOf_none h1 h2, ih]

omit hI hθ hT in
theorem orbitOf_s0 {s : Fin rank} {e : ExtGen} (h : orbitOf cs f s = some e) : e.s0 = s.1 := by
  unfold orbitOf at h
  by_cases h1 : f s = s
  · rw [if_pos h1] at h
    cases h; rfl
  · rw [if_neg h1] at h
    by_cases h2 : s.1 < (f s).1
    · rw [if_pos h2] at h
      cases h; rfl
    · rw [if_neg h2] at h
      cases h

omit hI hθ hT in
theorem orbits_sorted (l : List (Fin rank)) (hl : l.Pairwise (· < ·)) : ((l.filterMap (orbitOf cs f)).map ExtGen.s0).Pairwise (· < ·) := by
  rw [List.pairwise_map, List.pairwise_filterMap]
  refine hl.imp ?_
  intro s t hst e he e' he'
  rw [orbitOf_s0 he, orbitOf_s0 he']
  exact hst

omit hI hT in
/-- the twist reconstructed from its orbits -/
theorem twistOfLoop_spec (hr : rank ≤ 32) (l : List (Fin rank)) (d : List Nat) (hd : d.length = 32) :
    ∃ d', twistOfLoop (l.filterMap (orbitOf cs f)) d = .ok d' ∧ d'.length = 32 ∧
      ∀ i, d'[i]? = d[i]? ∨ ∃ s : Fin rank, s.1 = i ∧ d'[i]? = some (f s).1 := by
  induction l generalizing d with
  | nil => exact ⟨d, rfl, hd, fun i => .inl rfl⟩
  | cons s l ih =>
    rw [List.filterMap_cons]
    have hs := s.2
    have hfs := (f s).2
    by_cases h1 : f s = s
    · rw [orbitOf_one h1]
      show ∃ d', twistOfLoop (ExtGen.single s :: l.filterMap (orbitOf cs f)) d = _ ∧ _
      rw [twistOfLoop, if_pos (by rfl), show (ExtGen.single s).s0 = s.1 from rfl, Vec.put_ok (by omega), Res.ok_bind]
      obtain ⟨d', e1, e2, e3⟩ := ih (d.set s s) (by simpa using hd)
      refine ⟨d', e1, e2, fun i => ?_⟩
      rcases e3 i with h | h
      · rw [h, List.getElem?_set]
        by_cases hi : s.1 = i
        · right; exact ⟨s, hi, by rw [if_pos hi, if_pos (by omega), h1]⟩
        · left; rw [if_neg hi]
      · exact .inr h
    · by_cases h2 : s.1 < (f s).1
      · rw [orbitOf_pair h1 h2]
        show ∃ d', twistOfLoop (ExtGen.pair (commB cs f s) s (f s) :: l.filterMap (orbitOf cs f)) d = _ ∧ _
        rw [twistOfLoop, if_neg (pair_length _ _ _), show (ExtGen.pair _ s.1 (f s).1).s0 = s.1 from rfl,
          show (ExtGen.pair _ s.1 (f s).1).s1 = (f s).1 from rfl,
          Vec.put_ok (by omega), Res.ok_bind, Vec.put_ok (by rw [List.length_set]; omega), Res.ok_bind]
        obtain ⟨d', e1, e2, e3⟩ := ih ((d.set s (f s)).set (f s) s) (by simpa using hd)
        refine ⟨d', e1, e2, fun i => ?_⟩
        rcases e3 i with h | h
        · rw [h, List.getElem?_set, List.getElem?_set]
          by_cases hi : (f s).1 = i
          · right; exact ⟨f s, hi, by rw [if_pos hi, if_pos (by rw [List.length_set]; omega), hθ.invol]⟩
          · rw [if_neg hi]
            by_cases hi2 : s.1 = i
            · right; exact ⟨s, hi2, by rw [if_pos hi2, if_pos (by omega)]⟩
            · left; rw [if_neg hi2]
        · exact .inr h
      · rw [orbitOf_none h1 h2]
        exact ih d hd

omit hI hT in
/-- every generator that belongs to an orbit listed gets a value -/
theorem twistOfLoop_set (hr : rank ≤ 32) (l : List (Fin rank)) (d d' : List Nat) (hd : d.length = 32)
    (h : twistOfLoop (l.filterMap (orbitOf cs f)) d = .ok d') (i : Fin rank) (hi : d[i.1]? = some (f i).1 ∨ i ∈ l ∧ i.1 ≤ (f i).1 ∨ f i ∈ l ∧ (f i).1 ≤ i.1) :
    d'[i.1]? = some (f i).1 := by
  induction l generalizing d with
  | nil =>
    cases h
    rcases hi with h | ⟨h, _⟩ | ⟨h, _⟩
    · exact h
    · cases h
    · cases h
  | cons s l ih =>
    rw [List.filterMap_cons] at h
    have hs := s.2
    have hfs := (f s).2
    have hii := i.2
    by_cases h1 : f s = s
    · rw [orbitOf_one h1] at h
      change twistOfLoop (ExtGen.single s :: l.filterMap (orbitOf cs f)) d = _ at h
      rw [twistOfLoop, if_pos (by rfl), show (ExtGen.single s).s0 = s.1 from rfl, Vec.put_ok (by omega), Res.ok_bind] at h
      refine ih (d.set s s) (by simpa using hd) h ?_
      by_cases his : i = s
      · left; rw [his, List.getElem?_set, if_pos rfl, if_pos (by omega), h1]
      · rcases hi with hi | ⟨hi, h3⟩ | ⟨hi, h3⟩
        · left; rw [List.getElem?_set, if_neg (fun e => his (Fin.ext e.symm))]; exact hi
        · exact .inr (.inl ⟨(List.mem_cons.mp hi).resolve_left his, h3⟩)
        · refine .inr (.inr ⟨(List.mem_cons.mp hi).resolve_left ?_, h3⟩)
          intro e
          exact his (by rw [← hθ.invol i, e, h1])
    · by_cases h2 : s.1 < (f s).1
      · rw [orbitOf_pair h1 h2] at h
        change twistOfLoop (ExtGen.pair (commB cs f s) s (f s) :: l.filterMap (orbitOf cs f)) d = _ at h
        rw [twistOfLoop, if_neg (pair_length _ _ _), show (ExtGen.pair _ s.1 (f s).1).s0 = s.1 from rfl,
          show (ExtGen.pair _ s.1 (f s).1).s1 = (f s).1 from rfl,
          Vec.put_ok (by omega), Res.ok_bind, Vec.put_ok (by rw [List.length_set]; omega), Res.ok_bind] at h
        refine ih ((d.set s (f s)).set (f s) s) (by simpa using hd) h ?_
        by_cases hfi : i = f s
        · left; rw [hfi, List.getElem?_set, if_pos rfl, if_pos (by rw [List.length_set]; omega), hθ.invol]
        · by_cases his : i = s
          · left
            rw [his, List.getElem?_set, if_neg (fun e => h1 (Fin.ext e)), List.getElem?_set, if_pos rfl, if_pos (by omega)]
          · rcases hi with hi | ⟨hi, h3⟩ | ⟨hi, h3⟩
            · left
              rw [List.getElem?_set, if_neg (fun e => hfi (Fin.ext e.symm)), List.getElem?_set, if_neg (fun e => his (Fin.ext e.symm))]
              exact hi
            · exact .inr (.inl ⟨(List.mem_cons.mp hi).resolve_left his, h3⟩)
            · refine .inr (.inr ⟨(List.mem_cons.mp hi).resolve_left ?_, h3⟩)
              intro e
              exact hfi (by rw [← hθ.invol i, e])
      · rw [orbitOf_none h1 h2] at h
        refine ih d hd h ?_
        rcases hi with hi | ⟨hi, h3⟩ | ⟨hi, h3⟩
        · exact .inl hi
        · refine .inr (.inl ⟨(List.mem_cons.mp hi).resolve_left ?_, h3⟩)
          rintro rfl
          exact h1 (Fin.ext (by omega))
        · refine .inr (.inr ⟨(List.mem_cons.mp hi).resolve_left ?_, h3⟩)
          intro e
          have : f s = i := by rw [← e, hθ.invol]
          rw [e, ← this] at h3
          exact h1 (Fin.ext (by omega))

omit hI hθ hT in
theorem mem_orbits (e : ExtGen) : e ∈ (List.finRange rank).filterMap (orbitOf cs f) ↔
      (∃ s : Fin rank, f s = s ∧ e = ⟨.one, s, undef, [s.1]⟩) ∨
      ∃ s : Fin rank, s.1 < (f s).1 ∧ ((cs.simple s * cs.simple (f s) = cs.simple (f s) * cs.simple s ∧ e = ⟨.two, s, f s, [s.1, (f s).1]⟩) ∨
        (cs.simple s * cs.simple (f s) ≠ cs.simple (f s) * cs.simple s ∧ e = ⟨.three, s, f s, [s.1, (f s).1, s.1]⟩)) := by
  classical
  rw [List.mem_filterMap]
  constructor
  · rintro ⟨s, -, h⟩
    unfold orbitOf at h
    by_cases h1 : f s = s
    · rw [if_pos h1] at h
      cases h
      exact .inl ⟨s, h1, rfl⟩
    · rw [if_neg h1] at h
      by_cases h2 : s.1 < (f s).1
      · rw [if_pos h2] at h
        cases h
        refine .inr ⟨s, h2, ?_⟩
        by_cases h3 : cs.simple s * cs.simple (f s) = cs.simple (f s) * cs.simple s
        · left; refine ⟨h3, ?_⟩
          simp [ExtGen.pair, commB, h3]
        · right; refine ⟨h3, ?_⟩
          simp [ExtGen.pair, commB, h3]
      · rw [if_neg h2] at h
        cases h
  · rintro (⟨s, h1, rfl⟩ | ⟨s, h1, ⟨h2, rfl⟩ | ⟨h2, rfl⟩⟩)
    · exact ⟨s, by simp, by rw [orbitOf, if_pos h1]; rfl⟩
    · refine ⟨s, by simp, ?_⟩
      have : f s ≠ s := fun e => by rw [e] at h1; omega
      rw [orbitOf, if_neg this, if_pos h1]
      simp [ExtGen.pair, commB, h2]
    · refine ⟨s, by simp, ?_⟩
      have : f s ≠ s := fun e => by rw [e] at h1; omega
      rw [orbitOf, if_neg this, if_pos h1]
      simp [ExtGen.pair, commB, h2]

theorem tw_twistOrbits : T.twistOrbits nd = .ok ((List.finRange rank).filterMap (orbitOf cs f)) := by
  have := tw_orbitsLoop hI hθ hT (List.finRange rank)
  rw [← this, TWG.twistOrbits, hI.rank_eq]
  simp

theorem tw_orbits (hr : rank ≤ 32) : ∃ L d, T.twistOrbits nd = .ok L ∧ (L.map ExtGen.s0).Pairwise (· < ·) ∧
    (∀ e, e ∈ L ↔ (∃ s : Fin rank, f s = s ∧ e = ⟨.one, s, undef, [s.1]⟩) ∨
      ∃ s : Fin rank, s.1 < (f s).1 ∧ ((cs.simple s * cs.simple (f s) = cs.simple (f s) * cs.simple s ∧ e = ⟨.two, s, f s, [s.1, (f s).1]⟩) ∨
        (cs.simple s * cs.simple (f s) ≠ cs.simple (f s) * cs.simple s ∧ e = ⟨.three, s, f s, [s.1, (f s).1, s.1]⟩))) ∧
    twistOf L = .ok d ∧ d.length = 32 ∧ (∀ s : Fin rank, d[s.1]? = some (f s).1) ∧ ∀ s, rank ≤ s → s < 32 → d[s]? = some undef := by
  obtain ⟨d, e1, e2, e3⟩ := twistOfLoop_spec (cs := cs) hθ hr (List.finRange rank) (List.replicate rankMax undef) (by simp [rankMax])
  refine ⟨_, d, tw_twistOrbits hI hθ hT, orbits_sorted _ (List.pairwise_lt_finRange rank), mem_orbits, e1, e2, ?_, ?_⟩
  · intro s
    refine twistOfLoop_set (cs := cs) hθ hr _ _ _ (by simp [rankMax]) e1 s ?_
    by_cases h : s.1 ≤ (f s).1
    · exact .inr (.inl ⟨by simp, h⟩)
    · exact .inr (.inr ⟨by simp, by omega⟩)
  · intro s hs1 hs2
    rcases e3 s with h | ⟨t, ht, _⟩
    · rw [h, List.getElem?_replicate, if_pos (by simpa [rankMax] using hs2)]
    · have := t.2; omega

end
end Verif.Weyl
