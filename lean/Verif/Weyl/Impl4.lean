import Verif.Weyl.Impl3
import Mathlib.GroupTheory.OrderOfElement
import Mathlib.Algebra.Group.Conj
/-
Conjugacy classes.
-/
namespace Verif.Weyl
open Verif

section
variable {W : WG} {S : Sys} {num : Fin S.n ≃ Fin S.n} (hW : WGood W S num) {Mx : CoxeterMatrix (Fin S.n)} {G : Type} [Group G]
  (cs : CoxeterSystem Mx G) (hM : ∀ s t : Fin S.n, S.cox (num s) (num t) = Mx s t)

/-- the elements met by the inner loop -/
def visited (cs : CoxeterSystem Mx G) : List (Fin S.n) → G → List G
  | [], _ => []
  | s :: l, v => (cs.simple s * v * cs.simple s) :: visited cs l (cs.simple s * v * cs.simple s)

theorem visited_conj (l : List (Fin S.n)) (v : G) : ∀ x ∈ visited cs l v, IsConj v x := by
  induction l generalizing v with
  | nil => intro x hx; simp [visited] at hx
  | cons s l ih =>
    have h : IsConj v (cs.simple s * v * cs.simple s) := isConj_iff.2 ⟨cs.simple s, by rw [cs.inv_simple]⟩
    intro x hx
    rcases List.mem_cons.1 hx with rfl | hx
    · exact h
    · exact h.trans (ih _ x hx)

/-- products of initial segments of the sequence of generators -/
theorem visited_mem (l : List (Fin S.n)) (v : G) {k : Nat} (hk : k < l.length) :
    cs.wordProd (l.take (k + 1)).reverse * v * (cs.wordProd (l.take (k + 1)).reverse)⁻¹ ∈ visited cs l v := by
  induction l generalizing v k with
  | nil => simp at hk
  | cons s l ih =>
    rw [visited]
    cases k with
    | zero => simp
    | succ k =>
      have := ih (cs.simple s * v * cs.simple s) (k := k) (by simpa using hk)
      refine List.mem_cons_of_mem _ ?_
      rw [List.take_succ_cons, List.reverse_cons, cs.wordProd_append, cs.wordProd_singleton, mul_inv_rev, cs.inv_simple]
      simpa only [mul_assoc] using this

include hW cs hM

theorem classInner_ok (nd : Bool) (l : List (Fin S.n)) (v : G) (F Q : List G) (hF : F.Nodup) :
    ∃ N : List G, classInner nd W (l.map Fin.val) (rep hW cs hM v) (F.map (rep hW cs hM)) (Q.map (rep hW cs hM)) =
      .ok ((N.reverse ++ F).map (rep hW cs hM), (Q ++ N).map (rep hW cs hM)) ∧ (N.reverse ++ F).Nodup ∧ (∀ x ∈ N, IsConj v x) ∧
      ∀ x ∈ visited cs l v, x ∈ N.reverse ++ F := by
  induction l generalizing v F Q with
  | nil => exact ⟨[], by simp [classInner], by simpa using hF, by simp, by simp [visited]⟩
  | cons s l ih =>
    have hmem : ∀ x : G, rep hW cs hM x ∈ F.map (rep hW cs hM) ↔ x ∈ F := by
      intro x
      rw [List.mem_map]
      exact ⟨fun ⟨y, hy, e⟩ => rep_inj hW cs hM e ▸ hy, fun h => ⟨x, h, rfl⟩⟩
    have hcj : IsConj v (cs.simple s * v * cs.simple s) := isConj_iff.2 ⟨cs.simple s, by rw [cs.inv_simple]⟩
    rw [List.map_cons, classInner, rep_conjugate, Res.ok_bind]
    by_cases h : cs.simple s * v * cs.simple s ∈ F
    · rw [if_pos ((hmem _).2 h)]
      obtain ⟨N, h1, h2, h3, h4⟩ := ih (cs.simple s * v * cs.simple s) F Q hF
      refine ⟨N, h1, h2, fun x hx => hcj.trans (h3 x hx), ?_⟩
      intro x hx
      rcases List.mem_cons.1 hx with rfl | hx
      · exact List.mem_append_right _ h
      · exact h4 x hx
    · rw [if_neg fun hc => h ((hmem _).1 hc)]
      obtain ⟨N, h1, h2, h3, h4⟩ := ih (cs.simple s * v * cs.simple s) (cs.simple s * v * cs.simple s :: F) (Q ++ [cs.simple s * v * cs.simple s])
        (List.nodup_cons.2 ⟨h, hF⟩)
      refine ⟨cs.simple s * v * cs.simple s :: N, ?_, ?_, ?_, ?_⟩
      · rw [List.map_cons, List.map_append, List.map_singleton] at h1
        rw [h1]
        simp
      · simpa using h2
      · intro x hx
        rcases List.mem_cons.1 hx with rfl | hx
        · exact hcj
        · exact hcj.trans (h3 x hx)
      · intro x hx
        rcases List.mem_cons.1 hx with rfl | hx
        · simp
        · simpa using h4 x hx

theorem classLoop_ok (nd : Bool) (g : G) (F Q P : List G) (hF : F.Nodup) (hperm : F.Perm (P ++ Q)) (hconj : ∀ x ∈ F, IsConj g x) (hg : g ∈ F)
    (hP : ∀ x ∈ P, ∀ y ∈ visited cs (List.finRange S.n) x, y ∈ F) :
    ∃ F' : List G, (∀ fuel, Nat.card G < fuel + P.length → classLoop nd W fuel (F.map (rep hW cs hM)) (Q.map (rep hW cs hM)) =
      .ok (F'.map (rep hW cs hM))) ∧ F'.Nodup ∧ (∀ x ∈ F', IsConj g x) ∧ g ∈ F' ∧ ∀ x ∈ F', ∀ y ∈ visited cs (List.finRange S.n) x, y ∈ F' := by
  have hfin := finite_group hW cs hM
  have hft : Fintype G := Fintype.ofFinite G
  have hcard : ∀ l : List G, l.Nodup → l.length ≤ Nat.card G := by
    intro l hl
    rw [Nat.card_eq_fintype_card]
    exact List.Nodup.length_le_card hl
  induction hd : Nat.card G - P.length generalizing F Q P with
  | zero =>
    have h1 := hcard F hF
    have h2 := hperm.length_eq
    rw [List.length_append] at h2
    cases Q with
    | cons v Q => rw [List.length_cons] at h2; omega
    | nil =>
      refine ⟨F, fun fuel hf => ?_, hF, hconj, hg, ?_⟩
      · rw [List.length_nil] at h2
        obtain ⟨f, rfl⟩ : ∃ f, fuel = f + 1 := ⟨fuel - 1, by omega⟩
        rfl
      · intro x hx
        exact hP x (by simpa using hperm.subset hx)
  | succ d ih =>
    have h1 := hcard F hF
    have h2 := hperm.length_eq
    rw [List.length_append] at h2
    cases Q with
    | nil =>
      refine ⟨F, fun fuel hf => ?_, hF, hconj, hg, ?_⟩
      · rw [List.length_nil] at h2
        obtain ⟨f, rfl⟩ : ∃ f, fuel = f + 1 := ⟨fuel - 1, by omega⟩
        rfl
      · intro x hx
        exact hP x (by simpa using hperm.subset hx)
    | cons v Q =>
      have hv : v ∈ F := hperm.symm.subset (by simp)
      obtain ⟨N, e1, e2, e3, e4⟩ := classInner_ok hW cs hM nd (List.finRange S.n) v F Q hF
      have hr : (List.finRange S.n).map Fin.val = List.range S.n := by simp
      rw [hr] at e1
      obtain ⟨F', k1, k2⟩ := ih (N.reverse ++ F) (Q ++ N) (v :: P) e2 (by
          have p1 : (N.reverse ++ F).Perm (F ++ N) := (List.perm_append_comm).trans ((List.reverse_perm N).append_left F)
          have p2 : (F ++ N).Perm (P ++ v :: Q ++ N) := hperm.append_right N
          have p3 : (P ++ v :: Q).Perm (v :: P ++ Q) := by simpa using (List.perm_middle (a := v) (l₁ := P) (l₂ := Q))
          have := p1.trans (p2.trans (p3.append_right N))
          simpa using this) (by
          intro x hx
          rcases List.mem_append.1 hx with hx | hx
          · exact (hconj v hv).trans (e3 x (List.mem_reverse.1 hx))
          · exact hconj x hx) (List.mem_append_right _ hg) (by
          intro x hx y hy
          rcases List.mem_cons.1 hx with rfl | hx
          · exact e4 y hy
          · exact List.mem_append_right _ (hP x hx y hy)) (by rw [List.length_cons]; omega)
      refine ⟨F', fun fuel hf => ?_, k2⟩
      have h3 : P.length < Nat.card G := by rw [List.length_cons] at h2; omega
      obtain ⟨f, rfl⟩ : ∃ f, fuel = f + 1 := ⟨fuel - 1, by omega⟩
      rw [List.map_cons, classLoop, hW.rank, e1, Res.ok_bind]
      exact k1 f (by rw [List.length_cons]; omega)

/-- a set closed under the maps of the inner loop is closed under conjugation -/
theorem closed_conj {F : List G} (hF : ∀ x ∈ F, ∀ y ∈ visited cs (List.finRange S.n) x, y ∈ F) (h : G) : ∀ x ∈ F, h * x * h⁻¹ ∈ F := by
  have hfin := finite_group hW cs hM
  have mul : ∀ a b : G, (∀ x ∈ F, a * x * a⁻¹ ∈ F) → (∀ x ∈ F, b * x * b⁻¹ ∈ F) → ∀ x ∈ F, a * b * x * (a * b)⁻¹ ∈ F := by
    intro a b ha hb x hx
    have := ha _ (hb x hx)
    simpa only [mul_inv_rev, mul_assoc] using this
  have pow : ∀ a : G, (∀ x ∈ F, a * x * a⁻¹ ∈ F) → ∀ n : Nat, ∀ x ∈ F, a ^ n * x * (a ^ n)⁻¹ ∈ F := by
    intro a ha n
    induction n with
    | zero => intro x hx; simpa using hx
    | succ n ih => rw [pow_succ]; exact mul _ _ ih ha
  have inv : ∀ a : G, (∀ x ∈ F, a * x * a⁻¹ ∈ F) → ∀ x ∈ F, a⁻¹ * x * a⁻¹⁻¹ ∈ F := by
    intro a ha
    obtain ⟨n, hn, he⟩ := isOfFinOrder_iff_pow_eq_one.1 (isOfFinOrder_of_finite a)
    have : a⁻¹ = a ^ (n - 1) := by
      rw [inv_eq_iff_mul_eq_one, ← pow_succ', show n - 1 + 1 = n by omega, he]
    rw [this]
    exact pow a ha _
  have hp : ∀ k ≤ S.n, ∀ x ∈ F, cs.wordProd ((List.finRange S.n).take k).reverse * x *
      (cs.wordProd ((List.finRange S.n).take k).reverse)⁻¹ ∈ F := by
    intro k hk x hx
    cases k with
    | zero => simpa using hx
    | succ k => exact hF x hx _ (visited_mem cs _ x (by simpa using hk))
  have hs : ∀ s : Fin S.n, ∀ x ∈ F, cs.simple s * x * (cs.simple s)⁻¹ ∈ F := by
    intro s
    have h1 := hp (s + 1) s.2
    have h2 := inv _ (hp s (by omega))
    have e : cs.simple s = cs.wordProd ((List.finRange S.n).take (s + 1)).reverse * (cs.wordProd ((List.finRange S.n).take s).reverse)⁻¹ := by
      rw [List.take_succ_eq_append_getElem (by simp), List.reverse_append, cs.wordProd_append, List.reverse_singleton, cs.wordProd_singleton]
      simp
    rw [e]
    exact mul _ _ h1 h2
  induction h using cs.simple_induction_right with
  | one => intro x hx; simpa using hx
  | mul_simple_right w s ih => exact mul _ _ ih (hs s)

theorem rep_conjugacyClass (nd : Bool) (g : G) : ∃ l, (∀ fuel, Nat.card G < fuel → conjugacyClass nd W fuel (rep hW cs hM g) = .ok l) ∧
    l.Nodup ∧ ∀ x, x ∈ l ↔ ∃ h, IsConj g h ∧ x = rep hW cs hM h := by
  obtain ⟨F, h1, h2, h3, h4, h5⟩ := classLoop_ok hW cs hM nd g [g] [g] [] (by simp) (by simp)
    (fun x hx => by rw [List.mem_singleton.1 hx]) (by simp) (by simp)
  refine ⟨F.map (rep hW cs hM), fun fuel hf => h1 fuel (by simpa using hf), h2.map (rep_inj hW cs hM), fun x => ?_⟩
  rw [List.mem_map]
  constructor
  · rintro ⟨h, hh, rfl⟩
    exact ⟨h, h3 h hh, rfl⟩
  · rintro ⟨h, hh, rfl⟩
    obtain ⟨c, rfl⟩ := isConj_iff.1 hh
    exact ⟨_, closed_conj hW cs hM h5 c g h4, rfl⟩

theorem rep_element (nd : Bool) (l : List (Fin S.n)) : W.element nd (l.map Fin.val) = .ok (rep hW cs hM (cs.wordProd l)) := by
  rw [WG.element, ← rep_one hW cs hM, rep_multWord hW cs hM nd 1 l, one_mul]

theorem rep_lengthChange (nd : Bool) (g : G) (s : Fin S.n) :
    W.lengthChange nd (rep hW cs hM g) s = .ok ((cs.length (g * cs.simple s) : Int) - cs.length g) := by
  rw [WG.lengthChange, rep_multGen hW cs hM nd g s]
  rfl

end

end Verif.Weyl
