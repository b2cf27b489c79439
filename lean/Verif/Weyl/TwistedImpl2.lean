import Verif.Weyl.TwistedImpl
import Mathlib.GroupTheory.OrderOfElement
import Mathlib.Data.List.Sections
/-
Proofs for the class `TwistedWeylGroup`: twisted conjugacy classes and expressions by orbits.
-/
namespace Verif.Weyl
open Verif Verif.Coxeter

/-! ### the order on arrays -/

theorem lexLe_iff (a b : List Nat) : TWG.lexLe a b = true ↔ a ≤ b := by
  induction a generalizing b with
  | nil =>
    simp only [TWG.lexLe, true_iff]
    cases b with
    | nil => exact le_refl _
    | cons b l => exact le_of_lt List.Lex.nil
  | cons x l ih =>
    cases b with
    | nil =>
      simp only [TWG.lexLe, Bool.false_eq_true, false_iff, not_le]
      exact List.Lex.nil
    | cons y m =>
      rw [TWG.lexLe]
      by_cases h : x = y
      · subst h
        rw [if_pos rfl, ih]
        constructor
        · intro h
          rcases lt_or_eq_of_le h with h | rfl
          · exact le_of_lt (List.Lex.cons h)
          · exact le_refl _
        · intro h
          rcases lt_or_eq_of_le h with h | h
          · cases h with
            | rel h => omega
            | cons h => exact le_of_lt h
          · cases h; exact le_refl _
      · rw [if_neg h, decide_eq_true_iff]
        constructor
        · intro h; exact le_of_lt (List.Lex.rel h)
        · intro hle
          rcases lt_or_eq_of_le hle with h' | h'
          · cases h' with
            | rel h => exact h
            | cons _ => exact absurd rfl h
          · cases h'; exact absurd rfl h

theorem sort_spec (l : List (List Nat)) (hl : l.Nodup) : (l.mergeSort TWG.lexLe).Pairwise (· < ·) ∧ ∀ x, x ∈ l.mergeSort TWG.lexLe ↔ x ∈ l := by
  have hp := List.mergeSort_perm l TWG.lexLe
  refine ⟨?_, fun x => hp.mem_iff⟩
  have h1 := List.pairwise_mergeSort (le := TWG.lexLe) (fun a b c h1 h2 => by
      rw [lexLe_iff] at h1 h2 ⊢; exact le_trans h1 h2) (fun a b => by
      rcases le_total a b with h | h
      · rw [(lexLe_iff a b).mpr h]; rfl
      · rw [(lexLe_iff b a).mpr h]; simp) l
  have h2 : (l.mergeSort TWG.lexLe).Nodup := hp.nodup_iff.mpr hl
  have h3 := h1.and h2
  refine h3.imp ?_
  rintro a b ⟨h, hne⟩
  exact lt_of_le_of_ne ((lexLe_iff a b).mp h) hne

section
variable {nd : Bool} {rank : Nat} {Mx : CoxeterMatrix (Fin rank)} {G : Type} [Group G] {cs : CoxeterSystem Mx G} {T : TWG} {φ : G → List Nat}
  (hI : Implements nd cs T.W φ) {f : Fin rank → Fin rank} {θ : G →* G} (hθ : IsTwist cs f θ) (hT : ∀ s : Fin rank, T.twist[s.1]? = some (f s).1)

/-- elements met by the inner loop -/
def visitedT (cs : CoxeterSystem Mx G) (θ : G →* G) : List (Fin rank) → G → List G
  | [], _ => []
  | s :: l, v => (cs.simple s * v * θ (cs.simple s)) :: visitedT cs θ l (cs.simple s * v * θ (cs.simple s))

/-- twisted conjugates -/
def TConj (θ : G →* G) (v x : G) : Prop := ∃ h, x = h * v * (θ h)⁻¹

theorem TConj.refl (θ : G →* G) (v : G) : TConj θ v v := ⟨1, by simp⟩
theorem TConj.trans {θ : G →* G} {u v w : G} (h1 : TConj θ u v) (h2 : TConj θ v w) : TConj θ u w := by
  obtain ⟨a, rfl⟩ := h1
  obtain ⟨b, rfl⟩ := h2
  exact ⟨b * a, by rw [map_mul, mul_inv_rev]; simp only [mul_assoc]⟩

include hI in
theorem tw_finite : Finite G := by
  have : Finite {l : List Nat // l ∈ (List.replicate 32 (List.range 256)).sections} := List.finite_toSet _
  have hm : ∀ g, φ g ∈ (List.replicate 32 (List.range 256)).sections := by
    intro g
    obtain ⟨h1, h2⟩ := hI.bytes g
    rw [List.mem_sections]
    have : ∀ (l : List Nat), (∀ x ∈ l, x < 256) → List.Forall₂ (· ∈ ·) l (List.replicate l.length (List.range 256)) := by
      intro l
      induction l with
      | nil => intro _; exact .nil
      | cons a l ih =>
        intro h
        exact .cons (by simpa using h a List.mem_cons_self) (ih fun x hx => h x (List.mem_cons_of_mem _ hx))
    have h3 := this (φ g) h2
    rwa [h1] at h3
  exact Finite.of_injective (fun g => (⟨φ g, hm g⟩ : {l : List Nat // l ∈ (List.replicate 32 (List.range 256)).sections}))
    (fun a b h => hI.injective (congrArg Subtype.val h))

include hθ in
theorem tconj_simple (v : G) (s : Fin rank) : TConj θ v (cs.simple s * v * θ (cs.simple s)) :=
  ⟨cs.simple s, by rw [hθ.simple, cs.inv_simple]⟩

include hθ in
theorem visitedT_mem (l : List (Fin rank)) (v : G) {k : Nat} (hk : k < l.length) :
    cs.wordProd (l.take (k + 1)).reverse * v * (θ (cs.wordProd (l.take (k + 1)).reverse))⁻¹ ∈ visitedT cs θ l v := by
  induction l generalizing v k with
  | nil => simp at hk
  | cons s l ih =>
    rw [visitedT]
    cases k with
    | zero => simp [hθ.simple]
    | succ k =>
      have := ih (cs.simple s * v * θ (cs.simple s)) (k := k) (by simpa using hk)
      refine List.mem_cons_of_mem _ ?_
      rw [List.take_succ_cons, List.reverse_cons, cs.wordProd_append, cs.wordProd_singleton, map_mul, mul_inv_rev, hθ.simple, cs.inv_simple]
      rw [hθ.simple] at this
      simpa only [mul_assoc] using this

include hI hθ hT

theorem tw_classInner (l : List (Fin rank)) (v : G) (F Q : List G) (hF : F.Nodup) :
    ∃ N : List G, T.classInner nd (l.map Fin.val) (φ v) (F.map φ) (Q.map φ) =
      .ok ((N.reverse ++ F).map φ, (Q ++ N).map φ) ∧ (N.reverse ++ F).Nodup ∧ (∀ x ∈ N, TConj θ v x) ∧
      ∀ x ∈ visitedT cs θ l v, x ∈ N.reverse ++ F := by
  induction l generalizing v F Q with
  | nil => exact ⟨[], by simp [TWG.classInner], by simpa using hF, by simp, by simp [visitedT]⟩
  | cons s l ih =>
    have hmem : ∀ x : G, φ x ∈ F.map φ ↔ x ∈ F := by
      intro x
      rw [List.mem_map]
      exact ⟨fun ⟨y, hy, e⟩ => hI.injective e ▸ hy, fun h => ⟨x, h, rfl⟩⟩
    have hcj := tconj_simple hθ v s
    rw [List.map_cons, TWG.classInner, tw_conjGen hI hθ hT, Res.ok_bind]
    simp only
    by_cases h : cs.simple s * v * θ (cs.simple s) ∈ F
    · rw [if_pos ((hmem _).2 h)]
      obtain ⟨N, h1, h2, h3, h4⟩ := ih (cs.simple s * v * θ (cs.simple s)) F Q hF
      refine ⟨N, h1, h2, fun x hx => hcj.trans (h3 x hx), ?_⟩
      intro x hx
      rcases List.mem_cons.1 hx with rfl | hx
      · exact List.mem_append_right _ h
      · exact h4 x hx
    · rw [if_neg fun hc => h ((hmem _).1 hc)]
      obtain ⟨N, h1, h2, h3, h4⟩ := ih (cs.simple s * v * θ (cs.simple s)) (cs.simple s * v * θ (cs.simple s) :: F)
        (Q ++ [cs.simple s * v * θ (cs.simple s)]) (List.nodup_cons.2 ⟨h, hF⟩)
      refine ⟨cs.simple s * v * θ (cs.simple s) :: N, ?_, ?_, ?_, ?_⟩
      · rw [List.map_cons, List.map_append, List.map_singleton] at h1
        rw [h1]
        simp
      · simpa using h2
      · intro x hx
        rcases List.mem_cons.1 hx with rfl | hx
        · exact hcj
        · exact hcj.trans (h3 x hx)
      · intro x hx
        rcases List.mem_cons.1 hx with rfl | hx
        · simp
        · simpa using h4 x hx

theorem tw_classLoop (g : G) (F Q P : List G) (hF : F.Nodup) (hperm : F.Perm (P ++ Q)) (hconj : ∀ x ∈ F, TConj θ g x) (hg : g ∈ F)
    (hP : ∀ x ∈ P, ∀ y ∈ visitedT cs θ (List.finRange rank) x, y ∈ F) :
    ∃ F' : List G, (∀ fuel, Nat.card G < fuel + P.length → T.classLoop nd fuel (F.map φ) (Q.map φ) =
      .ok (F'.map φ)) ∧ F'.Nodup ∧ (∀ x ∈ F', TConj θ g x) ∧ g ∈ F' ∧ ∀ x ∈ F', ∀ y ∈ visitedT cs θ (List.finRange rank) x, y ∈ F' := by
  have hfin := tw_finite hI
  have hft : Fintype G := Fintype.ofFinite G
  have hcard : ∀ l : List G, l.Nodup → l.length ≤ Nat.card G := by
    intro l hl
    rw [Nat.card_eq_fintype_card]
    exact List.Nodup.length_le_card hl
  induction hd : Nat.card G - P.length generalizing F Q P with
  | zero =>
    have h1 := hcard F hF
    have h2 := hperm.length_eq
    rw [List.length_append] at h2
    cases Q with
    | cons v Q => rw [List.length_cons] at h2; omega
    | nil =>
      refine ⟨F, fun fuel hf => ?_, hF, hconj, hg, ?_⟩
      · rw [List.length_nil] at h2
        obtain ⟨f, rfl⟩ : ∃ f, fuel = f + 1 := ⟨fuel - 1, by omega⟩
        rfl
      · intro x hx
        exact hP x (by simpa using hperm.subset hx)
  | succ d ih =>
    have h1 := hcard F hF
    have h2 := hperm.length_eq
    rw [List.length_append] at h2
    cases Q with
    | nil =>
      refine ⟨F, fun fuel hf => ?_, hF, hconj, hg, ?_⟩
      · rw [List.length_nil] at h2
        obtain ⟨f, rfl⟩ : ∃ f, fuel = f + 1 := ⟨fuel - 1, by omega⟩
        rfl
      · intro x hx
        exact hP x (by simpa using hperm.subset hx)
    | cons v Q =>
      have hv : v ∈ F := hperm.symm.subset (by simp)
      obtain ⟨N, e1, e2, e3, e4⟩ := tw_classInner hI hθ hT (List.finRange rank) v F Q hF
      have hr : (List.finRange rank).map Fin.val = List.range rank := by simp
      rw [hr] at e1
      obtain ⟨F', k1, k2⟩ := ih (N.reverse ++ F) (Q ++ N) (v :: P) e2 (by
          have p1 : (N.reverse ++ F).Perm (F ++ N) := (List.perm_append_comm).trans ((List.reverse_perm N).append_left F)
          have p2 : (F ++ N).Perm (P ++ v :: Q ++ N) := hperm.append_right N
          have p3 : (P ++ v :: Q).Perm (v :: P ++ Q) := by simpa using (List.perm_middle (a := v) (l₁ := P) (l₂ := Q))
          have := p1.trans (p2.trans (p3.append_right N))
          simpa using this) (by
          intro x hx
          rcases List.mem_append.1 hx with hx | hx
          · exact (hconj v hv).trans (e3 x (List.mem_reverse.1 hx))
          · exact hconj x hx) (List.mem_append_right _ hg) (by
          intro x hx y hy
          rcases List.mem_cons.1 hx with rfl | hx
          · exact e4 y hy
          · exact List.mem_append_right _ (hP x hx y hy)) (by rw [List.length_cons]; omega)
      refine ⟨F', fun fuel hf => ?_, k2⟩
      have h3 : P.length < Nat.card G := by rw [List.length_cons] at h2; omega
      obtain ⟨f, rfl⟩ : ∃ f, fuel = f + 1 := ⟨fuel - 1, by omega⟩
      rw [List.map_cons, TWG.classLoop, hI.rank_eq, e1, Res.ok_bind]
      exact k1 f (by rw [List.length_cons]; omega)

omit hT in
/-- a set closed under the maps of the inner loop is closed under twisted conjugation -/
theorem tw_closed {F : List G} (hF : ∀ x ∈ F, ∀ y ∈ visitedT cs θ (List.finRange rank) x, y ∈ F) (h : G) : ∀ x ∈ F, h * x * (θ h)⁻¹ ∈ F := by
  have hfin := tw_finite hI
  have mul : ∀ a b : G, (∀ x ∈ F, a * x * (θ a)⁻¹ ∈ F) → (∀ x ∈ F, b * x * (θ b)⁻¹ ∈ F) → ∀ x ∈ F, a * b * x * (θ (a * b))⁻¹ ∈ F := by
    intro a b ha hb x hx
    have := ha _ (hb x hx)
    simpa only [map_mul, mul_inv_rev, mul_assoc] using this
  have pow : ∀ a : G, (∀ x ∈ F, a * x * (θ a)⁻¹ ∈ F) → ∀ n : Nat, ∀ x ∈ F, a ^ n * x * (θ (a ^ n))⁻¹ ∈ F := by
    intro a ha n
    induction n with
    | zero => intro x hx; simpa using hx
    | succ n ih => rw [pow_succ]; exact mul _ _ ih ha
  have inv : ∀ a : G, (∀ x ∈ F, a * x * (θ a)⁻¹ ∈ F) → ∀ x ∈ F, a⁻¹ * x * (θ a⁻¹)⁻¹ ∈ F := by
    intro a ha
    obtain ⟨n, hn, he⟩ := isOfFinOrder_iff_pow_eq_one.1 (isOfFinOrder_of_finite a)
    have : a⁻¹ = a ^ (n - 1) := by
      rw [inv_eq_iff_mul_eq_one, ← pow_succ', show n - 1 + 1 = n by omega, he]
    rw [this]
    exact pow a ha _
  have hp : ∀ k ≤ rank, ∀ x ∈ F, cs.wordProd ((List.finRange rank).take k).reverse * x *
      (θ (cs.wordProd ((List.finRange rank).take k).reverse))⁻¹ ∈ F := by
    intro k hk x hx
    cases k with
    | zero => simpa using hx
    | succ k => exact hF x hx _ (visitedT_mem hθ _ x (by simpa using hk))
  have hs : ∀ s : Fin rank, ∀ x ∈ F, cs.simple s * x * (θ (cs.simple s))⁻¹ ∈ F := by
    intro s
    have h1 := hp (s + 1) s.2
    have h2 := inv _ (hp s (by omega))
    have e : cs.simple s = cs.wordProd ((List.finRange rank).take (s + 1)).reverse * (cs.wordProd ((List.finRange rank).take s).reverse)⁻¹ := by
      rw [List.take_succ_eq_append_getElem (by simp), List.reverse_append, cs.wordProd_append, List.reverse_singleton, cs.wordProd_singleton]
      simp
    rw [e]
    exact mul _ _ h1 h2
  obtain ⟨l, rfl⟩ := cs.wordProd_surjective h
  induction l with
  | nil => intro x hx; simpa using hx
  | cons s l ih => rw [cs.wordProd_cons]; exact mul _ _ (hs s) ih

theorem tw_class (g : G) : ∃ l, (∀ fuel, Nat.card G < fuel → T.twistedClass nd fuel (φ g) = .ok l) ∧ l.Pairwise (· < ·) ∧
    ∀ x, x ∈ l ↔ ∃ h, x = φ (h * g * (θ h)⁻¹) := by
  obtain ⟨F, h1, h2, h3, h4, h5⟩ := tw_classLoop hI hθ hT g [g] [g] [] (by simp) (by simp) (by simp [TConj.refl]) (by simp) (by simp)
  obtain ⟨k1, k2⟩ := sort_spec (F.map φ) (h2.map hI.injective)
  refine ⟨_, fun fuel hf => ?_, k1, fun x => ?_⟩
  · have := h1 fuel (by simpa using hf)
    rw [List.map_singleton] at this
    rw [TWG.twistedClass, this]
    rfl
  · rw [k2, List.mem_map]
    constructor
    · rintro ⟨y, hy, rfl⟩
      obtain ⟨h, rfl⟩ := h3 y hy
      exact ⟨h, rfl⟩
    · rintro ⟨h, rfl⟩
      exact ⟨_, tw_closed hI hθ h5 h g h4, rfl⟩

/-! ### expressions by orbits -/

theorem tw_firstOrbit (g : G) (hg : IsTI θ g) (hfix : θ g = g) (h1 : g ≠ 1) : ∃ (s : Fin rank) (e : ExtGen), orbitOf cs f s = some e ∧
    cs.length (cs.simple s * g) < cs.length g ∧
    T.firstOrbit nd (φ g) 0 ((List.finRange rank).filterMap (orbitOf cs f)) =
      .ok ((((List.finRange rank).filterMap (orbitOf cs f)).map ExtGen.s0).idxOf s.1, e) := by
  have key : ∀ (l : List (Fin rank)) (i : Nat), (∃ s ∈ l, ∃ e, orbitOf cs f s = some e ∧ cs.length (cs.simple s * g) < cs.length g) →
      ∃ (s : Fin rank) (e : ExtGen), orbitOf cs f s = some e ∧ cs.length (cs.simple s * g) < cs.length g ∧
      T.firstOrbit nd (φ g) i (l.filterMap (orbitOf cs f)) = .ok (i + ((l.filterMap (orbitOf cs f)).map ExtGen.s0).idxOf s.1, e) := by
    intro l
    induction l with
    | nil => rintro i ⟨s, hs, _⟩; cases hs
    | cons t l ih =>
      rintro i ⟨s, hs, e, he, hd⟩
      rw [List.filterMap_cons]
      cases ht : orbitOf cs f t with
      | none =>
        refine ih i ⟨s, (List.mem_cons.mp hs).resolve_left ?_, e, he, hd⟩
        rintro rfl
        rw [ht] at he
        cases he
      | some e' =>
        simp only
        have h0 := orbitOf_s0 ht
        obtain ⟨b, hb1, hb2⟩ := hI.hasDescent g t
        rw [TWG.firstOrbit, h0, hb1, Res.ok_bind]
        cases b with
        | true =>
          refine ⟨t, e', ht, hb2.mp rfl, ?_⟩
          rw [List.map_cons, h0, List.idxOf_cons_self]
          rfl
        | false =>
          simp only [Bool.false_eq_true, if_false]
          obtain ⟨u, e2, h3, h4, h5⟩ := ih (i + 1) ⟨s, (List.mem_cons.mp hs).resolve_left (by
            rintro rfl
            exact absurd (hb2.mpr hd) (by simp)), e, he, hd⟩
          refine ⟨u, e2, h3, h4, ?_⟩
          have hne : t.1 ≠ u.1 := by
            intro e
            have : t = u := Fin.ext e
            subst this
            exact absurd (hb2.mpr h4) (by simp)
          rw [h5, List.map_cons, h0, List.idxOf_cons_ne _ hne]
          congr 2
          omega
  have ex : ∃ s ∈ List.finRange rank, ∃ e, orbitOf cs f s = some e ∧ cs.length (cs.simple s * g) < cs.length g := by
    obtain ⟨s, hs⟩ := cs.exists_leftDescent_of_ne_one h1
    by_cases h2 : f s = s
    · exact ⟨s, by simp, _, orbitOf_one h2, hs⟩
    · by_cases h3 : s.1 < (f s).1
      · exact ⟨s, by simp, _, orbitOf_pair h2 h3, hs⟩
      · refine ⟨f s, by simp, _, orbitOf_pair (by rw [hθ.invol]; exact Ne.symm h2) (by rw [hθ.invol]; have : (f s).1 ≠ s.1 := fun e => h2 (Fin.ext e); omega),
          fix_descent hθ hfix hs⟩
  obtain ⟨s, e, a, b, c⟩ := key _ 0 ex
  refine ⟨s, e, a, b, ?_⟩
  rw [c, zero_add]

omit [Group G] hI hθ hT in
theorem extStep_one (T : TWG) (tw : List Nat) (i s : Nat) : T.extStep nd tw i (ExtGen.single s) = (do
    if ← T.hasTwistedCommutation nd s tw then do
      let (x, _) ← T.W.leftMultiplyGen nd tw s
      pure (x, (i : Int))
    else do
      let (x, _) ← T.conjGen nd tw s
      pure (x, -1 - (i : Int))) := rfl

omit [Group G] hI hθ hT in
theorem extStep_two (T : TWG) (tw : List Nat) (i s t : Nat) : T.extStep nd tw i (ExtGen.pair true s t) = (do
    if ← T.hasTwistedCommutation nd s tw then do
      let (x, _) ← T.W.leftMultiplyGen nd tw s
      let (x, _) ← T.W.leftMultiplyGen nd x t
      pure (x, (i : Int))
    else do
      let (x, _) ← T.conjGen nd tw s
      if ← T.W.hasDescent nd t x then do
        let (x, _) ← T.conjGen nd x t
        pure (x, -1 - (i : Int))
      else pure (x, (i : Int))) := rfl

omit [Group G] hI hθ hT in
theorem extStep_three (T : TWG) (tw : List Nat) (i s t : Nat) : T.extStep nd tw i (ExtGen.pair false s t) = (do
    if ← T.hasTwistedCommutation nd s tw then do
      let (x, _) ← T.W.leftMultiplyGen nd tw s
      let (x, _) ← T.conjGen nd x t
      pure (x, (i : Int))
    else do
      let (x, _) ← T.conjGen nd tw s
      if ← T.hasTwistedCommutation nd t x then do
        let (x, _) ← T.W.leftMultiplyGen nd x t
        pure (x, (i : Int))
      else do
        let (x, _) ← T.conjGen nd x t
        let (x, _) ← T.conjGen nd x s
        pure (x, (i : Int))) := rfl

theorem tw_extStep (hinj : ∀ s t : Fin rank, cs.simple s = cs.simple t → s = t)
    (hbr : ∀ s, f s ≠ s → cs.simple s * cs.simple (f s) = cs.simple (f s) * cs.simple s ∨
      cs.simple s * cs.simple (f s) * cs.simple s = cs.simple (f s) * cs.simple s * cs.simple (f s))
    (g : G) (hg : IsTI θ g) (hfix : θ g = g) (s : Fin rank) (e : ExtGen) (he : orbitOf cs f s = some e)
    (hs : cs.length (cs.simple s * g) < cs.length g) (i : Nat) : ∃ v b, T.extStep nd (φ g) i e = .ok (φ v, letter i b) ∧
    IsTI θ v ∧ θ v = v ∧ cs.length v < cs.length g ∧ cs.length v < cs.length (cs.simple s * v) ∧ starWord cs θ (kappa cs f s) v = g ∧
    (b = true ↔ (kappa cs f s).length ≠ 3 ∧ cs.length g = cs.length v + 2 * (kappa cs f s).length) := by
  obtain ⟨b, hb1, hb2⟩ := tw_commutation hI hθ hT g hg s
  have n1 := cs.length_simple_mul g s
  by_cases h1 : f s = s
  · rw [orbitOf_one h1] at he
    cases he
    have hk : kappa cs f s = [s] := by rw [kappa, if_pos h1]
    have hsfix : θ (cs.simple s) = cs.simple s := by rw [hθ.simple, h1]
    rw [hk]
    rw [extStep_one]
    rw [hb1, Res.ok_bind]
    by_cases hc : cs.simple s * g = g * θ (cs.simple s)
    · have hb : b = true := hb2.mpr hc
      subst hb
      refine ⟨cs.simple s * g, false, ?_, IsTI.commute hθ hg hc, by rw [map_mul, hsfix, hfix], hs, by rw [cs.simple_mul_simple_cancel_left]; exact hs,
        star_mul hθ hs hc, ?_⟩
      · rw [if_pos rfl, hI.leftMultiplyGen]
        rfl
      · simp only [List.length_singleton, Bool.false_eq_true, false_iff]
        omega
    · have hb : b = false := by rcases b with _ | _; rfl; exact absurd (hb2.mp rfl) hc
      subst hb
      have hl := hg.step hθ hs hc
      refine ⟨cs.simple s * g * θ (cs.simple s), true, ?_, IsTI.conjSimple hθ hg s, by rw [map_mul, map_mul, hsfix, hsfix, hfix], by omega, ?_,
        star_conj hθ hg hs hc, ?_⟩
      · rw [if_neg (by simp), tw_conjGen hI hθ hT]
        rfl
      · have e : cs.simple s * (cs.simple s * g * θ (cs.simple s)) = g * θ (cs.simple s) := by rw [mul_assoc, cs.simple_mul_simple_cancel_left]
        rw [e, hg.descent hθ]
        omega
      · simp only [List.length_singleton, true_iff]
        exact ⟨by omega, by omega⟩
  · have h2 : s.1 < (f s).1 := by
      by_contra h2
      rw [orbitOf_none h1 h2] at he
      cases he
    rw [orbitOf_pair h1 h2] at he
    cases he
    have hne : cs.simple s ≠ cs.simple (f s) := fun e => h1 (hinj _ _ e).symm
    by_cases hst : cs.simple s * cs.simple (f s) = cs.simple (f s) * cs.simple s
    · have hk : kappa cs f s = [s, f s] := by rw [kappa, if_neg h1, if_pos hst]
      rw [hk, (commB_iff s).mpr hst]
      rw [extStep_two]
      rw [hb1, Res.ok_bind]
      by_cases hc : cs.simple s * g = g * θ (cs.simple s)
      · have hb : b = true := hb2.mpr hc
        subst hb
        obtain ⟨a1, a2, a3, a4, a5⟩ := two_real hθ hg hfix hs hst hne hc
        refine ⟨_, false, ?_, a1, a2, by omega, a4, a5, ?_⟩
        · rw [if_pos rfl, hI.leftMultiplyGen]
          simp only [Res.ok_bind]
          rw [hI.leftMultiplyGen]
          rfl
        · simp only [List.length_cons, List.length_nil, Bool.false_eq_true, false_iff]
          omega
      · have hb : b = false := by rcases b with _ | _; rfl; exact absurd (hb2.mp rfl) hc
        subst hb
        obtain ⟨a, a'⟩ := two_complex hθ hg hfix hs hst hne hc
        obtain ⟨b', hb1', hb2'⟩ := hI.hasDescent (cs.simple s * g * θ (cs.simple s)) (f s)
        have n2 := cs.length_simple_mul (cs.simple s * g * θ (cs.simple s)) (f s)
        rw [if_neg (by simp), tw_conjGen hI hθ hT]
        simp only [Res.ok_bind]
        rw [hb1', Res.ok_bind]
        cases b' with
        | true =>
          obtain ⟨a1, a2, a3, a4, a5⟩ := a' (hb2'.mp rfl)
          refine ⟨_, true, ?_, a1, a2, by omega, a4, a5, ?_⟩
          · rw [if_pos rfl, tw_conjGen hI hθ hT]
            rfl
          · simp only [List.length_cons, List.length_nil, true_iff]
            exact ⟨by omega, by omega⟩
        | false =>
          have hnd : cs.length (cs.simple s * g * θ (cs.simple s)) < cs.length (cs.simple (f s) * (cs.simple s * g * θ (cs.simple s))) := by
            by_contra hcon
            exact absurd (hb2'.mpr (by omega)) (by simp)
          obtain ⟨a1, a2, a3, a4, a5⟩ := a hnd
          refine ⟨_, false, ?_, a1, a2, by omega, a4, a5, ?_⟩
          · rw [if_neg (by simp)]
            rfl
          · simp only [List.length_cons, List.length_nil, Bool.false_eq_true, false_iff]
            omega
    · have hst3 := (hbr s h1).resolve_left hst
      have hk : kappa cs f s = [s, f s, s] := by rw [kappa, if_neg h1, if_neg hst]
      have hcb : commB cs f s = false := by
        rw [Bool.eq_false_iff]; exact fun h => hst ((commB_iff s).mp h)
      rw [hk, hcb]
      rw [extStep_three]
      rw [hb1, Res.ok_bind]
      by_cases hc : cs.simple s * g = g * θ (cs.simple s)
      · have hb : b = true := hb2.mpr hc
        subst hb
        obtain ⟨a1, a2, a3, a4, a5⟩ := three_real hθ hg hfix hs hst3 hne hc
        refine ⟨_, false, ?_, a1, a2, by omega, a4, a5, ?_⟩
        · rw [if_pos rfl, hI.leftMultiplyGen]
          simp only [Res.ok_bind]
          rw [tw_conjGen hI hθ hT]
          rfl
        · simp
      · have hb : b = false := by rcases b with _ | _; rfl; exact absurd (hb2.mp rfl) hc
        subst hb
        obtain ⟨a0, a, a'⟩ := three_complex hθ hg hfix hs hst3 hne hc
        obtain ⟨b', hb1', hb2'⟩ := tw_commutation hI hθ hT _ a0 (f s)
        rw [if_neg (by simp), tw_conjGen hI hθ hT]
        simp only [Res.ok_bind]
        rw [hb1', Res.ok_bind]
        cases b' with
        | true =>
          obtain ⟨a1, a2, a3, a4, a5⟩ := a (hb2'.mp rfl)
          refine ⟨_, false, ?_, a1, a2, by omega, a4, a5, ?_⟩
          · rw [if_pos rfl, hI.leftMultiplyGen]
            rfl
          · simp
        | false =>
          obtain ⟨a1, a2, a3, a4, a5⟩ := a' (fun h => absurd (hb2'.mpr h) (by simp))
          refine ⟨_, false, ?_, a1, a2, by omega, a4, a5, ?_⟩
          · rw [if_neg (by simp), tw_conjGen hI hθ hT]
            simp only [Res.ok_bind]
            rw [tw_conjGen hI hθ hT]
            rfl
          · simp

theorem tw_extended (hinj : ∀ s t : Fin rank, cs.simple s = cs.simple t → s = t)
    (hbr : ∀ s, f s ≠ s → cs.simple s * cs.simple (f s) = cs.simple (f s) * cs.simple s ∨
      cs.simple s * cs.simple (f s) * cs.simple s = cs.simple (f s) * cs.simple s * cs.simple (f s))
    (g : G) (hg : IsTI θ g) (hfix : θ g = g) : ∃ l : List (Fin rank × Bool), ExtExpr cs θ f l g ∧
    (∀ x ∈ l, x.1.1 ∈ ((List.finRange rank).filterMap (orbitOf cs f)).map ExtGen.s0) ∧
    ∀ fuel, cs.length g < fuel → ∀ r, T.extendedExprLoop nd ((List.finRange rank).filterMap (orbitOf cs f)) fuel (φ g) r =
      .ok (r ++ l.map fun x => letter ((((List.finRange rank).filterMap (orbitOf cs f)).map ExtGen.s0).idxOf x.1.1) x.2) := by
  obtain ⟨n, hn⟩ : ∃ n, cs.length g = n := ⟨_, rfl⟩
  induction n using Nat.strong_induction_on generalizing g with
  | _ n ih =>
  by_cases h1 : g = 1
  · subst h1
    refine ⟨[], .nil, by simp, ?_⟩
    intro fuel hf r
    obtain ⟨k, rfl⟩ : ∃ k, fuel = k + 1 := ⟨fuel - 1, by omega⟩
    simp [TWG.extendedExprLoop, hI.one]
  have hne : φ g ≠ WG.one := by rw [← hI.one]; exact fun e => h1 (hI.injective e)
  obtain ⟨s, e, he, hs, hfo⟩ := tw_firstOrbit hI hθ hT g hg hfix h1
  obtain ⟨v, b, e1, e2, e3, e4, e5, e6, e7⟩ := tw_extStep hI hθ hT hinj hbr g hg hfix s e he hs
    ((((List.finRange rank).filterMap (orbitOf cs f)).map ExtGen.s0).idxOf s.1)
  obtain ⟨l, k1, k2, k3⟩ := ih _ (by omega) v e2 e3 rfl
  refine ⟨(s, b) :: l, ?_, ?_, ?_⟩
  · have := ExtExpr.cons k1 e5 (b := b) (by rw [e6]; exact e7)
    rwa [e6] at this
  · intro x hx
    rcases List.mem_cons.mp hx with rfl | hx
    · rw [List.mem_map]
      exact ⟨e, List.mem_filterMap.mpr ⟨s, by simp, he⟩, orbitOf_s0 he⟩
    · exact k2 x hx
  · intro fuel hf r
    obtain ⟨k, rfl⟩ : ∃ k, fuel = k + 1 := ⟨fuel - 1, by omega⟩
    rw [TWG.extendedExprLoop, if_pos hne, hfo]
    simp only [Res.ok_bind]
    rw [e1]
    simp only [Res.ok_bind]
    rw [tw_twisted hI hθ hT, Res.ok_bind, e3, Res.assertIn_bind nd (decide_eq_true rfl), k3 k (by omega)]
    simp

end
end Verif.Weyl
