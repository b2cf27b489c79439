import Verif.Root.Gen2
import Verif.Weyl.Props
/-
The number of positive roots is at most the length of the longest element.
-/
namespace Verif.Root
open Verif.Coxeter CoxeterSystem

section
variable {rk : Nat} {M : CoxeterMatrix (Fin rk)} {W : Type} [Group W] {cs : CoxeterSystem M W} {C : Fin rk → Fin rk → ℤ} {h : IsCartan C M}

/-- distinct positive roots made negative by an element are no more than its length -/
theorem inversions_le : ∀ (l : List (Fin rk)) (L : List (Fin rk → ℤ)), L.Nodup → (∀ v ∈ L, PosRoot cs h v ∧ ∀ i, geom cs h (cs.wordProd l) v i ≤ 0) → L.length ≤ l.length
  | [], L, _, hL => by
    cases L with
    | nil => simp
    | cons v L =>
      obtain ⟨⟨⟨v', t, hr⟩, hp⟩, hn⟩ := hL v (by simp)
      exfalso
      apply hr.ne_zero
      funext i
      have := hn i
      rw [wordProd_nil, map_one] at this
      have := hp i
      change v i ≤ 0 at *
      exact le_antisymm ‹_› ‹_›
  | s :: l, L, hnd, hL => by
    -- move the simple reflection past the other word
    have key := inversions_inner s l L hnd hL
    exact key
where
  inversions_inner (s : Fin rk) (l : List (Fin rk)) (L : List (Fin rk → ℤ)) (hnd : L.Nodup)
      (hL : ∀ v ∈ L, PosRoot cs h v ∧ ∀ i, geom cs h (cs.wordProd (s :: l)) v i ≤ 0) : L.length ≤ (s :: l).length := by
    classical
    -- at most one root is sent by the shorter word to the simple root
    let P : (Fin rk → ℤ) → Bool := fun v => decide (geom cs h (cs.wordProd l) v = root s)
    have h1 : (L.filter P).length ≤ 1 := by
      have hnd1 := hnd.filter P
      rcases hf : L.filter P with _ | ⟨a, _ | ⟨b, m⟩⟩
      · simp
      · simp
      · exfalso
        rw [hf] at hnd1
        have ha : a ∈ L.filter P := by rw [hf]; simp
        have hb : b ∈ L.filter P := by rw [hf]; simp
        have ea := of_decide_eq_true (List.mem_filter.mp ha).2
        have eb := of_decide_eq_true (List.mem_filter.mp hb).2
        have : a = b := geom_injective cs h _ (ea.trans eb.symm)
        rw [this] at hnd1
        simp at hnd1
    have h2 : (L.filter fun v => !P v).length ≤ l.length := by
      refine inversions_le l _ (hnd.filter _) fun v hv => ?_
      obtain ⟨hv1, hv2⟩ := List.mem_filter.mp hv
      obtain ⟨q1, q2⟩ := hL v hv1
      refine ⟨q1, ?_⟩
      have hne : geom cs h (cs.wordProd l) v ≠ root s := by
        intro e
        simp [P, e] at hv2
      obtain ⟨⟨v', t, hr⟩, hp⟩ := q1
      have hr' := hr.act (cs.wordProd l)
      rcases hr'.sign with hs | hs
      · exfalso
        have hr2 := hr'.simple_pos hs.1 hne
        have hr3 : IsRoot cs h _ _ _ := hr.act (cs.wordProd (s :: l))
        apply hr3.ne_zero
        funext i
        refine le_antisymm (q2 i) ?_
        rw [wordProd_cons, geom_mul, geom_simple]
        exact hr2 i
      · exact hs.1
    have h3 := List.length_eq_length_filter_add (l := L) P
    rw [List.length_cons]
    omega

theorem count_le {w0 : W} (hw : ∀ g, g ≠ w0 → cs.length g < cs.length w0) {L : List (Fin rk → ℤ)} (hnd : L.Nodup) (hL : ∀ v ∈ L, PosRoot cs h v) : L.length ≤ cs.length w0 := by
  obtain ⟨l, h1, h2⟩ := cs.exists_isReduced w0
  subst h2
  rw [h1]
  refine inversions_le l L hnd fun v hv => ⟨hL v hv, fun i => ?_⟩
  have hneg : ∀ s i, geom cs h (cs.wordProd l) (root s) i ≤ 0 := by
    intro s
    apply geom_neg
    have : cs.wordProd l * cs.simple s ≠ cs.wordProd l := by
      intro e
      have e1 : cs.simple s = 1 := mul_left_cancel (e.trans (mul_one _).symm)
      have e2 := cs.length_simple s
      rw [e1, cs.length_one] at e2
      omega
    exact hw _ this
  have hv2 := (hL v hv).2
  have : v = ∑ s, v s • (root s : Fin rk → ℤ) := by
    funext j
    simp [root_apply]
  rw [this, map_sum, Finset.sum_apply]
  apply Finset.sum_nonpos
  intro s _
  rw [map_smul, Pi.smul_apply, smul_eq_mul]
  exact mul_nonpos_of_nonneg_of_nonpos (hv2 s) (hneg s i)

end

/-- the longest element has length at most 63 times the rank -/
theorem exists_longest {rank : Nat} {C : Fin rank → Fin rank → Int} {comps : List Weyl.Comp} (hD : Weyl.IsDynkin rank C comps) {G : Type}
    [Group G] (cs : CoxeterSystem (Weyl.coxMatrix C) G) : ∃ w0, (∀ g, g ≠ w0 → cs.length g < cs.length w0) ∧ cs.length w0 ≤ 63 * rank := by
  obtain ⟨W, T, num, h1, hW, hM, -, hT⟩ := Weyl.make_ok true hD
  refine ⟨_, fun g hg => Weyl.w0_unique hW cs hM hg, ?_⟩
  refine le_trans (le_of_eq (Weyl.length_toG cs num hM hW.ok (Weyl.top0_valid hW))) ?_
  have : ∀ k ≤ (Weyl.mkSys rank comps T).n, (Weyl.mkSys rank comps T).preLen k (Weyl.mkSys rank comps T).top0 ≤ 63 * k := by
    intro k
    induction k with
    | zero => intro _; simp [Weyl.Sys.preLen]
    | succ k ih =>
      intro hk
      rw [Weyl.Sys.preLen]
      have h2 := ih (by omega)
      have h3 := (hW.ok.good k (by omega)).len_le
      have h4 : (Weyl.mkSys rank comps T).top0 k = ((Weyl.mkSys rank comps T).T k).n - 1 := by rw [Weyl.Sys.top0, if_pos (by omega)]
      rw [h4]
      omega
  exact this _ (le_refl _)

end Verif.Root
