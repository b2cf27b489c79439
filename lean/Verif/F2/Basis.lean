import Verif.F2.Lemmas
import Mathlib.LinearAlgebra.LinearIndependent.Defs
/-
Independence and uniqueness of reduced lists, their orthogonal complements.
-/
namespace Verif.F2
open Verif

theorem z2 (c : ZMod 2) : c = 0 ∨ c = 1 := by revert c; decide

theorem sp_zero {l : List (Nat × Nat)} {p : Nat} (h : ∀ x ∈ l, x.1.testBit p = false) {u : Nat → ZMod 2} (hu : u ∈ sp l) : u p = 0 := by
  unfold sp at hu
  induction hu using Submodule.span_induction with
  | mem u hu => obtain ⟨x, hx, rfl⟩ := hu; exact vec_eq_zero.2 (h x hx)
  | zero => rfl
  | add u v _ _ h1 h2 => rw [Pi.add_apply, h1, h2, add_zero]
  | smul c u _ h1 => rw [Pi.smul_apply, h1, smul_zero]

theorem sp_cons {x : Nat × Nat} {l : List (Nat × Nat)} {u : Nat → ZMod 2} (hu : u ∈ sp (x :: l)) :
    ∃ c : ZMod 2, ∃ v ∈ sp l, u = c • vec x.1 + v := by
  have : sp (x :: l) = Submodule.span (ZMod 2) (insert (vec x.1) {u | ∃ x ∈ l, vec x.1 = u}) := by
    unfold sp; congr 1; ext u; simp [eq_comm]
  rw [this] at hu
  exact Submodule.mem_span_insert.1 hu

theorem Tri.tail {n : Nat} {x : Nat × Nat} {l : List (Nat × Nat)} (h : Tri n (x :: l)) : Tri n l :=
  ⟨fun y hy => h.lt y (List.mem_cons_of_mem _ hy), fun y hy => h.lead y (List.mem_cons_of_mem _ hy), (List.pairwise_cons.1 h.tri).2⟩

theorem Tri.coef {n : Nat} {x : Nat × Nat} {l : List (Nat × Nat)} (h : Tri n (x :: l)) {c : ZMod 2} {u v : Nat → ZMod 2}
    (hv : v ∈ sp l) (hu : u = c • vec x.1 + v) : c = u x.2 := by
  have h0 := sp_zero (List.pairwise_cons.1 h.tri).1 hv
  have h1 : vec x.1 x.2 = 1 := vec_eq_one.2 (h.lead x List.mem_cons_self).1
  rw [hu, Pi.add_apply, h0, Pi.smul_apply, h1]; simp

theorem Tri.zero {n : Nat} {l : List (Nat × Nat)} (h : Tri n l) {u : Nat → ZMod 2} (hu : u ∈ sp l) (h0 : ∀ x ∈ l, u x.2 = 0) : u = 0 := by
  induction l with
  | nil =>
    have : sp [] = ⊥ := by unfold sp; simp
    rw [this] at hu
    exact (Submodule.mem_bot _).1 hu
  | cons x l ih =>
    obtain ⟨c, v, hv, e⟩ := sp_cons hu
    have hc := h.coef hv e
    rw [h0 x List.mem_cons_self] at hc
    rw [hc, zero_smul, zero_add] at e
    subst e
    exact ih h.tail hv fun y hy => h0 y (List.mem_cons_of_mem _ hy)

/-- the leading position of an element of the span is a pivot -/
theorem Tri.lead_mem {n : Nat} {l : List (Nat × Nat)} (h : Tri n l) {u : Nat → ZMod 2} (hu : u ∈ sp l) {q : Nat} (h0 : ∀ j < q, u j = 0)
    (h1 : u q = 1) : q ∈ piv l := by
  induction l generalizing u with
  | nil =>
    have : sp [] = ⊥ := by unfold sp; simp
    rw [this] at hu
    rw [(Submodule.mem_bot _).1 hu, Pi.zero_apply] at h1
    exact absurd h1 (show (0 : ZMod 2) ≠ 1 by decide)
  | cons x l ih =>
    obtain ⟨c, v, hv, e⟩ := sp_cons hu
    have hc := h.coef hv e
    by_cases hq : q = x.2
    · rw [hq]; exact List.mem_map_of_mem List.mem_cons_self
    · refine List.mem_cons_of_mem _ ?_
      rcases z2 c with hc0 | hc1
      · rw [hc0, zero_smul, zero_add] at e
        subst e
        exact ih h.tail hv h0 h1
      · have hlt : q < x.2 := by
          by_contra hn
          have := h0 x.2 (by omega)
          rw [← hc, hc1] at this
          exact absurd this (by decide)
        have hx : ∀ j ≤ q, v j = u j := by
          intro j hj
          have : vec x.1 j = 0 := vec_eq_zero.2 ((h.lead x List.mem_cons_self).2 j (by omega))
          rw [e, Pi.add_apply, Pi.smul_apply, this, smul_zero, zero_add]
        exact ih h.tail hv (fun j hj => by rw [hx j (by omega)]; exact h0 j hj) (by rw [hx q (le_refl _)]; exact h1)

/-- independence -/
theorem Tri.independent {n : Nat} {l : List (Nat × Nat)} (h : Tri n l) : Independent (bvs n l) := by
  unfold Independent
  rw [Fintype.linearIndependent_iff]
  intro g hg
  have key : ∀ k, ∀ i : Fin (bvs n l).length, i.val < k → g i = 0 := by
    intro k
    induction k with
    | zero => intro i hi; omega
    | succ k ih =>
      intro i hi
      have hil : i.val < l.length := by simpa using i.2
      have hg' := congrFun hg (l[i.val]).2
      rw [Finset.sum_apply, Finset.sum_eq_single i] at hg'
      · have hl := (h.lead _ (List.getElem_mem hil)).1
        rw [Pi.smul_apply] at hg'
        have : vec (bvs n l)[i].data (l[i.val]).2 = 1 := by
          rw [vec_eq_one]; simpa using hl
        rw [this] at hg'
        simpa using hg'
      · intro j _ hji
        have hjl : j.val < l.length := by simpa using j.2
        rcases Nat.lt_trichotomy j.val i.val with c | c | c
        · rw [ih j (by omega), zero_smul]; rfl
        · exact absurd (Fin.ext c) hji
        · have := List.pairwise_iff_getElem.1 h.tri i.val j.val hil hjl c
          rw [Pi.smul_apply]
          have hz : vec (bvs n l)[j].data (l[i.val]).2 = 0 := by
            rw [vec_eq_zero]; simpa using this
          rw [hz, smul_zero]
      · intro hc; exact absurd (Finset.mem_univ _) hc
  intro i
  exact key (i.val + 1) i (Nat.lt_succ_self _)

theorem Red.bit {n : Nat} {l : List (Nat × Nat)} (h : Red n l) {x y : Nat × Nat} (hx : x ∈ l) (hy : y ∈ l) :
    x.1.testBit y.2 = decide (x.2 = y.2) := by
  by_cases he : x = y
  · subst he; simp [(h.lead x hx).1]
  · have hb : y.1.testBit x.2 = false ∧ x.1.testBit y.2 = false := by
      have : Std.Symm fun x y : Nat × Nat => y.1.testBit x.2 = false ∧ x.1.testBit y.2 = false := ⟨fun a b hab => ⟨hab.2, hab.1⟩⟩
      exact h.red.forall hx hy he
    have : x.2 ≠ y.2 := by
      intro e
      have h1 := (h.lead y hy).1
      rw [← e, hb.1] at h1; cases h1
    simp [hb.2, this]

/-- a sorted reduced list is determined by its span -/
theorem Red.unique {n : Nat} {l l' : List (Nat × Nat)} (h : Red n l) (h' : Red n l') (hs : l.Pairwise fun x y => x.2 < y.2)
    (hs' : l'.Pairwise fun x y => x.2 < y.2) (he : sp l = sp l') : l = l' := by
  have piv_sub : ∀ {l l' : List (Nat × Nat)}, Red n l → Red n l' → sp l = sp l' → ∀ x ∈ l, ∃ y ∈ l', y.2 = x.2 := by
    intro l l' h h' he x hx
    have := h'.tri.lead_mem (u := vec x.1) (q := x.2) (he ▸ mem_sp hx) (fun j hj => vec_eq_zero.2 ((h.lead x hx).2 j hj))
      (vec_eq_one.2 (h.lead x hx).1)
    obtain ⟨y, hy, e⟩ := List.mem_map.1 this
    exact ⟨y, hy, e⟩
  have sub : ∀ {l l' : List (Nat × Nat)}, Red n l → Red n l' → sp l = sp l' → ∀ x ∈ l, x ∈ l' := by
    intro l l' h h' he x hx
    obtain ⟨y, hy, e⟩ := piv_sub h h' he x hx
    have hz : vec x.1 + vec y.1 = 0 := by
      refine h'.tri.zero (Submodule.add_mem _ (he ▸ mem_sp hx) (mem_sp hy)) ?_
      intro z hz
      obtain ⟨w, hw, ew⟩ := piv_sub h' h he.symm z hz
      have h1 : x.1.testBit z.2 = y.1.testBit z.2 := by
        rw [h'.bit hy hz, ← ew, h.bit hx hw, e]
      rw [Pi.add_apply, vec_apply, vec_apply, h1]
      split <;> decide
    have : vec x.1 = vec y.1 := by
      have := congrArg (· + vec y.1) hz
      simpa [add_assoc, add_self] using this
    have hxy : x = y := Prod.ext (vec_inj this) e.symm
    rw [hxy]; exact hy
  have hm : ∀ x, x ∈ l ↔ x ∈ l' := fun x => ⟨sub h h' he x, sub h' h he.symm x⟩
  have nd : ∀ {l : List (Nat × Nat)}, (l.Pairwise fun x y => x.2 < y.2) → l.Nodup := by
    intro l hs
    exact hs.imp fun {a b} hab e => by rw [e] at hab; omega
  exact List.Perm.eq_of_pairwise (le := fun x y : Nat × Nat => x.2 < y.2)
    (fun a b _ _ hab hba => absurd (lt_trans hab hba) (lt_irrefl _)) hs hs' ((List.perm_ext_iff_of_nodup (nd hs) (nd hs')).2 hm)

theorem Red.isReduced {n t : Nat} {l : List (Nat × Nat)} (h : Red n l) (hs : l.Pairwise fun x y => x.2 < y.2)
    (ht : ∀ p, t.testBit p = true ↔ p ∈ piv l) : IsReduced n t (bvs n l) := by
  refine ⟨?_, ?_, ?_⟩
  · intro v hv
    obtain ⟨x, hx, rfl⟩ := List.mem_map.1 hv
    exact ⟨rfl, h.lt x hx⟩
  · intro i v hi
    rw [List.getElem?_map, Option.map_eq_some_iff] at hi
    obtain ⟨x, hx, rfl⟩ := hi
    obtain ⟨hil, ex⟩ := List.getElem?_eq_some_iff.1 hx
    have hxm := List.mem_of_getElem? hx
    refine ⟨x.2, h.lead x hxm, (ht _).2 (List.mem_map_of_mem hxm), ?_, ?_⟩
    · intro j w hj hji
      rw [List.getElem?_map, Option.map_eq_some_iff] at hj
      obtain ⟨y, hy, rfl⟩ := hj
      obtain ⟨hjl, ey⟩ := List.getElem?_eq_some_iff.1 hy
      rcases Nat.lt_trichotomy j i with c | c | c
      · have := List.pairwise_iff_getElem.1 h.red j i hjl hil c
        rw [ex, ey] at this; exact this.2
      · exact absurd c hji
      · have := List.pairwise_iff_getElem.1 h.red i j hil hjl c
        rw [ex, ey] at this; exact this.1
    · intro j w q hj hij hq
      rw [List.getElem?_map, Option.map_eq_some_iff] at hj
      obtain ⟨y, hy, rfl⟩ := hj
      obtain ⟨hjl, ey⟩ := List.getElem?_eq_some_iff.1 hy
      have := List.pairwise_iff_getElem.1 hs i j hil hjl hij
      rw [ex, ey] at this
      rw [hq.unique (h.lead y (List.mem_of_getElem? hy))]; exact this
  · intro p hp
    obtain ⟨x, hx, rfl⟩ := List.mem_map.1 ((ht p).1 hp)
    exact ⟨_, List.mem_map_of_mem hx, h.lead x hx⟩

theorem spanAdd_spec (nd : Bool) {dim n : Nat} (hn : n ≤ dim) (hd : dim ≤ 64) {l : List (Nat × Nat)} (h : Tri n l) {v : Nat} (hv : v < 2 ^ n) :
    ∃ l', spanAdd nd dim (bvs n l) (piv l) ⟨v, n⟩ = .ok (bvs n l', piv l') ∧ Tri n l' ∧
      sp l' = sp l ⊔ Submodule.span (ZMod 2) {vec v} := by
  unfold spanAdd
  rw [Res.assertIn_bind nd (sizeOk_bvs l v), Res.assertIn_bind nd (by simp)]
  by_cases h0 : v = 0
  · subst h0
    rw [if_pos (by simp [BV.isZero])]
    exact ⟨l, rfl, h, sup_of_mem (by rw [vec_zero]; exact Submodule.zero_mem _)⟩
  · rw [if_neg (by simpa [BV.isZero] using h0)]
    obtain ⟨w, h1, h2, h3, h4, h5⟩ := reduceLoop_spec nd hn l h v hv
    rw [h1, Res.ok_bind]
    by_cases hw : w = 0
    · subst hw
      rw [if_pos (by simp [BV.isZero])]
      exact ⟨l, rfl, h, sup_of_mem (by simpa using h5)⟩
    · rw [if_neg (by simpa [BV.isZero] using hw)]
      have hl := lead_firstBit h2 (hn.trans hd) hw
      refine ⟨l ++ [(w, Bits.firstBit w)], by rw [Res.pure_eq]; simp [BV.firstBit], ⟨?_, ?_, ?_⟩, ?_⟩
      · intro x hx
        rcases List.mem_append.1 hx with hx | hx
        · exact h.lt x hx
        · rw [List.mem_singleton.1 hx]; exact h2
      · intro x hx
        rcases List.mem_append.1 hx with hx | hx
        · exact h.lead x hx
        · rw [List.mem_singleton.1 hx]; exact hl
      · rw [List.pairwise_append]
        refine ⟨h.tri, List.pairwise_singleton _ _, fun x hx y hy => ?_⟩
        rw [List.mem_singleton.1 hy]; exact h3 x hx
      · apply le_antisymm
        · apply sp_le
          intro x hx
          rcases List.mem_append.1 hx with hx | hx
          · exact Submodule.mem_sup_left (mem_sp hx)
          · rw [List.mem_singleton.1 hx]
            have e : vec w = (vec w + vec v) + vec v := by rw [add_assoc, add_self, add_zero]
            simp only
            rw [e]
            exact Submodule.add_mem _ (Submodule.mem_sup_left h5) (Submodule.mem_sup_right (Submodule.mem_span_singleton_self _))
        · refine sup_le (sp_mono fun x hx => List.mem_append_left _ hx) ?_
          rw [Submodule.span_singleton_le_iff_mem]
          have e : vec v = vec w + (vec w + vec v) := by rw [← add_assoc, add_self, zero_add]
          rw [e]
          exact Submodule.add_mem _ (mem_sp (x := (w, Bits.firstBit w)) (List.mem_append_right _ (List.mem_singleton_self _)))
            (sp_mono (fun x hx => List.mem_append_left _ hx) h5)

/-! ### Kernels -/

/-- sum of products of coordinates below `n` -/
def dotN (n : Nat) (u v : Nat → ZMod 2) : ZMod 2 := ∑ i ∈ Finset.range n, u i * v i

theorem dotN_add_left (n : Nat) (u v w : Nat → ZMod 2) : dotN n (u + v) w = dotN n u w + dotN n v w := by
  unfold dotN; rw [← Finset.sum_add_distrib]; exact Finset.sum_congr rfl fun i _ => add_mul _ _ _

theorem dotN_add_right (n : Nat) (u v w : Nat → ZMod 2) : dotN n u (v + w) = dotN n u v + dotN n u w := by
  unfold dotN; rw [← Finset.sum_add_distrib]; exact Finset.sum_congr rfl fun i _ => mul_add _ _ _

theorem dotN_smul_left (n : Nat) (c : ZMod 2) (u w : Nat → ZMod 2) : dotN n (c • u) w = c * dotN n u w := by
  unfold dotN; rw [Finset.mul_sum]; exact Finset.sum_congr rfl fun i _ => by rw [Pi.smul_apply, smul_eq_mul, mul_assoc]

theorem dotN_smul_right (n : Nat) (c : ZMod 2) (u w : Nat → ZMod 2) : dotN n u (c • w) = c * dotN n u w := by
  unfold dotN; rw [Finset.mul_sum]; exact Finset.sum_congr rfl fun i _ => by rw [Pi.smul_apply, smul_eq_mul]; ring

theorem dotN_span {n : Nat} {S : Set (Nat → ZMod 2)} {w : Nat → ZMod 2} :
    (∀ u ∈ Submodule.span (ZMod 2) S, dotN n u w = 0) ↔ ∀ u ∈ S, dotN n u w = 0 := by
  constructor
  · exact fun h u hu => h u (Submodule.subset_span hu)
  · intro h u hu
    induction hu using Submodule.span_induction with
    | mem u hu => exact h u hu
    | zero => unfold dotN; simp
    | add u v _ _ h1 h2 => rw [dotN_add_left, h1, h2, add_zero]
    | smul c u _ h1 => rw [dotN_smul_left, h1, mul_zero]

/-- `k` is the vector of the complement attached to the free position `j` -/
structure KV (n : Nat) (l : List (Nat × Nat)) (j k : Nat) : Prop where
  lt : k < 2 ^ n
  at_piv : ∀ x ∈ l, k.testBit x.2 = x.1.testBit j
  free : ∀ i, i ∉ piv l → k.testBit i = decide (i = j)

theorem KV.dot {n : Nat} {l : List (Nat × Nat)} (h : Red n l) {j k : Nat} (hk : KV n l j k) (hj : j ∉ Verif.F2.piv l) (hjn : j < n)
    {x : Nat × Nat} (hx : x ∈ l) : dotN n (vec x.1) (vec k) = 0 := by
  unfold dotN
  have hne : x.2 ≠ j := fun e => hj (e ▸ List.mem_map_of_mem hx)
  rw [Finset.sum_eq_add_of_mem x.2 j (Finset.mem_range.2 (h.pos hx)) (Finset.mem_range.2 hjn) hne]
  · have h1 : vec x.1 x.2 = 1 := vec_eq_one.2 (h.lead x hx).1
    have h2 : vec k j = 1 := vec_eq_one.2 (by rw [hk.free j hj]; simp)
    have h3 : vec k x.2 = vec x.1 j := by rw [vec_apply, vec_apply, hk.at_piv x hx]
    rw [h1, h2, h3, one_mul, mul_one]
    exact congrFun (add_self (vec x.1)) j
  · rintro i _ ⟨hi1, hi2⟩
    by_cases hi : i ∈ Verif.F2.piv l
    · obtain ⟨y, hy, rfl⟩ := List.mem_map.1 hi
      have : vec x.1 y.2 = 0 := vec_eq_zero.2 (by rw [h.bit hx hy]; simp [Ne.symm hi1])
      rw [this, zero_mul]
    · have : vec k i = 0 := vec_eq_zero.2 (by rw [hk.free i hi]; simp [hi2])
      rw [this, mul_zero]

/-- the complement is spanned by the vectors attached to free positions -/
theorem KV.span {n : Nat} {l : List (Nat × Nat)} (h : Red n l) {k : Nat → Nat} (hk : ∀ j < n, j ∉ Verif.F2.piv l → KV n l j (k j))
    (u : Nat → ZMod 2) : u ∈ Submodule.span (ZMod 2) {w | ∃ j < n, j ∉ Verif.F2.piv l ∧ vec (k j) = w} ↔
      (∀ i, n ≤ i → u i = 0) ∧ ∀ x ∈ l, dotN n (vec x.1) u = 0 := by
  constructor
  · intro hu
    induction hu using Submodule.span_induction with
    | mem u hu =>
      obtain ⟨j, hj, hjl, rfl⟩ := hu
      refine ⟨fun i hi => ?_, fun x hx => (hk j hj hjl).dot h hjl hj hx⟩
      rw [vec_eq_zero]
      exact Nat.testBit_lt_two_pow ((hk j hj hjl).lt.trans_le (Nat.pow_le_pow_right (by omega) hi))
    | zero => exact ⟨fun _ _ => rfl, fun x _ => by unfold dotN; simp⟩
    | add u v _ _ h1 h2 =>
      exact ⟨fun i hi => by rw [Pi.add_apply, h1.1 i hi, h2.1 i hi, add_zero],
        fun x hx => by rw [dotN_add_right, h1.2 x hx, h2.2 x hx, add_zero]⟩
    | smul c u _ h1 =>
      exact ⟨fun i hi => by rw [Pi.smul_apply, h1.1 i hi, smul_zero], fun x hx => by rw [dotN_smul_right, h1.2 x hx, mul_zero]⟩
  · rintro ⟨h1, h2⟩
    let J := (Finset.range n).filter fun j => j ∉ Verif.F2.piv l
    let s : Nat → ZMod 2 := ∑ j ∈ J, u j • vec (k j)
    have hJ : ∀ j ∈ J, j < n ∧ j ∉ Verif.F2.piv l := fun j hj => ⟨Finset.mem_range.1 (Finset.mem_filter.1 hj).1, (Finset.mem_filter.1 hj).2⟩
    have hs : s ∈ Submodule.span (ZMod 2) {w | ∃ j < n, j ∉ Verif.F2.piv l ∧ vec (k j) = w} := by
      refine Submodule.sum_mem _ fun j hj => Submodule.smul_mem _ _ (Submodule.subset_span ?_)
      exact ⟨j, (hJ j hj).1, (hJ j hj).2, rfl⟩
    have hfree : ∀ i, i ∉ Verif.F2.piv l → i < n → s i = u i := by
      intro i hi hin
      change (∑ j ∈ J, u j • vec (k j)) i = u i
      rw [Finset.sum_apply, Finset.sum_eq_single i]
      · have : vec (k i) i = 1 := vec_eq_one.2 (by rw [(hk i hin hi).free i hi]; simp)
        rw [Pi.smul_apply, this]; simp
      · intro j hj hji
        have : vec (k j) i = 0 := vec_eq_zero.2 (by rw [(hk j (hJ j hj).1 (hJ j hj).2).free i hi]; simp [Ne.symm hji])
        rw [Pi.smul_apply, this, smul_zero]
      · intro hc
        exact absurd (Finset.mem_filter.2 ⟨Finset.mem_range.2 hin, hi⟩) hc
    have hsdot : ∀ x ∈ l, dotN n (vec x.1) s = 0 := by
      intro x hx
      have : ∀ J' ⊆ J, dotN n (vec x.1) (∑ j ∈ J', u j • vec (k j)) = 0 := by
        intro J'
        induction J' using Finset.induction_on with
        | empty => intro _; unfold dotN; simp
        | insert a J' ha ih =>
          intro hs
          have haJ := hJ a (hs (Finset.mem_insert_self _ _))
          rw [Finset.sum_insert ha, dotN_add_right, dotN_smul_right, (hk a haJ.1 haJ.2).dot h haJ.2 haJ.1 hx, mul_zero, zero_add,
            ih fun b hb => hs (Finset.mem_insert_of_mem hb)]
      exact this J (Finset.Subset.refl _)
    have hslt : ∀ i, n ≤ i → s i = 0 := by
      intro i hi
      change (∑ j ∈ J, u j • vec (k j)) i = 0
      rw [Finset.sum_apply]
      refine Finset.sum_eq_zero fun j hj => ?_
      have : vec (k j) i = 0 := by
        rw [vec_eq_zero]
        exact Nat.testBit_lt_two_pow ((hk j (hJ j hj).1 (hJ j hj).2).lt.trans_le (Nat.pow_le_pow_right (by omega) hi))
      rw [Pi.smul_apply, this, smul_zero]
    have hd : u + s = 0 := by
      have hoff : ∀ i, i ∉ Verif.F2.piv l → (u + s) i = 0 := by
        intro i hi
        by_cases hin : i < n
        · rw [Pi.add_apply, hfree i hi hin]; exact congrFun (add_self u) i
        · rw [Pi.add_apply, h1 i (by omega), hslt i (by omega), add_zero]
      funext i
      by_cases hi : i ∈ Verif.F2.piv l
      · obtain ⟨x, hx, rfl⟩ := List.mem_map.1 hi
        have h0 : dotN n (vec x.1) (u + s) = 0 := by rw [dotN_add_right, h2 x hx, hsdot x hx, add_zero]
        unfold dotN at h0
        rw [Finset.sum_eq_single x.2] at h0
        · rwa [vec_eq_one.2 (h.lead x hx).1, one_mul] at h0
        · intro i _ hne
          by_cases hi : i ∈ Verif.F2.piv l
          · obtain ⟨y, hy, rfl⟩ := List.mem_map.1 hi
            have : vec x.1 y.2 = 0 := vec_eq_zero.2 (by rw [h.bit hx hy]; simp [Ne.symm hne])
            rw [this, zero_mul]
          · rw [hoff i hi, mul_zero]
        · intro hc; exact absurd (Finset.mem_range.2 (h.pos hx)) hc
      · exact hoff i hi
    have : u = s := by
      have := congrArg (· + s) hd
      simpa [add_assoc, add_self] using this
    rw [this]; exact hs

theorem BV.set_ok (nd : Bool) {dim n i : Nat} (w : Nat) {b : Bool} (hi : i < n) (hn : n ≤ dim) : BV.set nd dim ⟨w, n⟩ i b = .ok ⟨putBit w i b, n⟩ := by
  unfold BV.set
  rw [Res.assertIn_bind nd (by simpa using hi), bsSet_ok (by omega)]; rfl

theorem copyLoop_spec (nd : Bool) {dim n j : Nat} (hn : n ≤ dim) (hj : j < n) : ∀ (l : List (Nat × Nat)), (∀ x ∈ l, x.2 < n) →
    (l.Pairwise fun a b => a.2 ≠ b.2) → ∀ k, k < 2 ^ n → ∃ k', copyLoop nd dim j (piv l) (bvs n l) ⟨k, n⟩ = .ok ⟨k', n⟩ ∧ k' < 2 ^ n ∧
      (∀ x ∈ l, k'.testBit x.2 = x.1.testBit j) ∧ ∀ i, i ∉ piv l → k'.testBit i = k.testBit i := by
  intro l
  induction l with
  | nil => intro _ _ k hk; exact ⟨k, rfl, hk, by simp, fun _ _ => rfl⟩
  | cons x l ih =>
    intro hl hd k hk
    have hx := hl x List.mem_cons_self
    have hdc := List.pairwise_cons.1 hd
    obtain ⟨k', h1, h2, h3, h4⟩ := ih (fun y hy => hl y (List.mem_cons_of_mem _ hy)) hdc.2 (putBit k x.2 (x.1.testBit j)) (putBit_lt hk hx)
    have hnot : x.2 ∉ piv l := by
      intro hc
      obtain ⟨y, hy, e⟩ := List.mem_map.1 hc
      exact hdc.1 y hy e.symm
    refine ⟨k', ?_, h2, ?_, ?_⟩
    · rw [piv, bvs, List.map_cons, List.map_cons, copyLoop, get_ok' nd x.1 hj hn, Res.ok_bind, BV.set_ok nd k hx hn, Res.ok_bind]
      exact h1
    · intro y hy
      rcases List.mem_cons.1 hy with rfl | hy
      · rw [h4 _ hnot, testBit_putBit, if_pos rfl]
      · exact h3 y hy
    · intro i hi
      rw [piv, List.map_cons, List.mem_cons, not_or] at hi
      rw [h4 i hi.2, testBit_putBit, if_neg hi.1]

/-- the vectors attached to the free positions from `j` on, in a list -/
theorem kernelLoop_spec (nd : Bool) {dim n t : Nat} (hn : n ≤ dim) {l : List (Nat × Nat)} (hr : Red n l)
    (hm : members t = piv l) (ht : ∀ p, t.testBit p = true ↔ p ∈ piv l) : ∃ k : Nat → Nat, (∀ j < n, j ∉ piv l → KV n l j (k j)) ∧
      ∀ m j, j + m = n → kernelLoop nd dim n t (bvs n l) m j =
        .ok ((((List.range' j m).filter fun i => i ∉ piv l)).map fun i => ⟨k i, n⟩) := by
  have hex : ∀ j : Nat, ∃ k, j < n → (copyLoop nd dim j (piv l) (bvs n l) ⟨putBit 0 j true, n⟩ = .ok ⟨k, n⟩ ∧ (j ∉ piv l → KV n l j k)) := by
    intro j
    by_cases hj : j < n
    · obtain ⟨k, h1, h2, h3, h4⟩ := copyLoop_spec nd hn hj l (fun x hx => hr.pos hx) hr.distinct (putBit 0 j true)
        (putBit_lt (Nat.pow_pos (by omega)) hj)
      refine ⟨k, fun _ => ⟨h1, fun hjl => ⟨h2, h3, fun i hi => ?_⟩⟩⟩
      rw [h4 i hi, testBit_putBit, Nat.zero_testBit]
      by_cases he : i = j <;> simp [he]
    · exact ⟨0, fun h => absurd h hj⟩
  choose k hk using hex
  refine ⟨k, fun j hj hjl => (hk j hj).2 hjl, ?_⟩
  intro m
  induction m with
  | zero => intro j _; rfl
  | succ m ih =>
    intro j hjm
    have hj : j < n := by omega
    rw [kernelLoop, bsTest_ok (by omega), Res.ok_bind, List.range'_succ]
    by_cases hb : t.testBit j = true
    · rw [if_pos hb, ih (j + 1) (by omega), List.filter_cons_of_neg (by simpa using (ht j).1 hb)]
    · have hjl : j ∉ piv l := fun h => hb ((ht j).2 h)
      rw [if_neg hb, BV.unit, BV.zero, BV.set_ok nd 0 hj hn, Res.ok_bind, hm, (hk j hj).1, Res.ok_bind, ih (j + 1) (by omega), Res.ok_bind,
        List.filter_cons_of_pos (by simpa using hjl)]
      rfl

end Verif.F2
