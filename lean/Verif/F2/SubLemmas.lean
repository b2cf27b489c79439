import Verif.F2.SubSpec
import Verif.F2.Section
/-
Lemmas for C34: projection to a space with a reduced basis.
-/
namespace Verif.F2
open Verif

/-- the internal description of a subspace -/
structure Rep (n : Nat) (s : Sub) (l : List (Nat × Nat)) : Prop where
  rank : s.rank = n
  basis : s.basis = bvs n l
  red : Red n l
  sorted : l.Pairwise fun x y => x.2 < y.2
  supp : ∀ p, s.support.testBit p = true ↔ p ∈ piv l

theorem Rep.isSub {n : Nat} {s : Sub} {l : List (Nat × Nat)} (h : Rep n s l) : IsSub n s (sp l) :=
  ⟨h.rank, by rw [h.basis]; exact h.red.isReduced h.sorted h.supp, by rw [h.basis, span_bvs]⟩

theorem IsSub.rep {n : Nat} (hn : n ≤ 64) {s : Sub} {V : Submodule (ZMod 2) (Nat → ZMod 2)} (h : IsSub n s V) :
    ∃ l, Rep n s l ∧ sp l = V := by
  obtain ⟨b, t, r⟩ := s
  obtain ⟨rfl, hr, hV⟩ := h
  simp only at hr hV hn
  have hb : b = bvs r (b.map fun v => (v.data, Bits.firstBit v.data)) := by
    rw [bvs, List.map_map]
    conv => lhs; rw [← List.map_id b]
    apply List.map_congr_left
    intro v hv
    obtain ⟨d, k⟩ := v
    have := (hr.fits _ hv).1
    simp only at this
    subst this; rfl
  have hlead : ∀ v ∈ b, Lead v.data (Bits.firstBit v.data) := by
    intro v hv
    obtain ⟨i, hi⟩ := List.mem_iff_getElem?.1 hv
    obtain ⟨p, hp, _⟩ := hr.lead i v hi
    rw [hp.firstBit (hr.fits v hv).2 hn]; exact hp
  have hget : ∀ (i : Nat) (v : BV), b[i]? = some v → t.testBit (Bits.firstBit v.data) = true ∧
      (∀ (j : Nat) (w : BV), b[j]? = some w → j ≠ i → w.data.testBit (Bits.firstBit v.data) = false) ∧
      ∀ (j : Nat) (w : BV), b[j]? = some w → i < j → Bits.firstBit v.data < Bits.firstBit w.data := by
    intro i v hi
    have hv := List.mem_of_getElem? hi
    obtain ⟨p, hp, h1, h2, h3⟩ := hr.lead i v hi
    rw [hp.firstBit (hr.fits v hv).2 hn]
    exact ⟨h1, h2, fun j w hj hij => h3 j w _ hj hij (hlead w (List.mem_of_getElem? hj))⟩
  refine ⟨b.map fun v => (v.data, Bits.firstBit v.data), ⟨rfl, hb, ⟨?_, ?_, ?_⟩, ?_, ?_⟩, ?_⟩
  · intro x hx
    obtain ⟨v, hv, rfl⟩ := List.mem_map.1 hx
    exact (hr.fits v hv).2
  · intro x hx
    obtain ⟨v, hv, rfl⟩ := List.mem_map.1 hx
    exact hlead v hv
  · rw [List.pairwise_map, List.pairwise_iff_getElem]
    intro i j hi hj hij
    have ei := List.getElem?_eq_getElem hi
    have ej := List.getElem?_eq_getElem hj
    exact ⟨(hget i _ ei).2.1 j _ ej (by omega), (hget j _ ej).2.1 i _ ei (by omega)⟩
  · rw [List.pairwise_map, List.pairwise_iff_getElem]
    intro i j hi hj hij
    exact (hget i _ (List.getElem?_eq_getElem hi)).2.2 j _ (List.getElem?_eq_getElem hj) hij
  · intro p
    rw [piv, List.map_map, List.mem_map]
    constructor
    · intro hp
      obtain ⟨v, hv, hl⟩ := hr.support p hp
      exact ⟨v, hv, hl.firstBit (hr.fits v hv).2 hn⟩
    · rintro ⟨v, hv, rfl⟩
      obtain ⟨i, hi⟩ := List.mem_iff_getElem?.1 hv
      exact (hget i v hi).1
  · rw [← span_bvs (n := r), ← hb, hV]

theorem Rep.unique {n : Nat} {s s' : Sub} {l l' : List (Nat × Nat)} (h : Rep n s l) (h' : Rep n s' l') (he : sp l = sp l') : s = s' := by
  have : l = l' := h.red.unique h'.red h.sorted h'.sorted he
  subst this
  obtain ⟨b, t, r⟩ := s
  obtain ⟨b', t', r'⟩ := s'
  obtain ⟨e1, e2, _, _, h1⟩ := h
  obtain ⟨e3, e4, _, _, h2⟩ := h'
  simp only at e1 e2 e3 e4 h1 h2
  subst e1 e2 e3 e4
  congr 1
  apply Nat.eq_of_testBit_eq
  intro i
  have := (h1 i).trans (h2 i).symm
  simpa using this

theorem Rep.filter {n : Nat} {s : Sub} {l : List (Nat × Nat)} (h : Rep n s l) : (List.range n).filter (fun i => s.support.testBit i) = piv l := by
  have hs : (piv l).Pairwise (· < ·) := List.pairwise_map.2 h.sorted
  have h1 : ((List.range n).filter fun i => s.support.testBit i).Pairwise (· < ·) := List.Pairwise.filter _ List.pairwise_lt_range
  refine List.Perm.eq_of_pairwise (le := (· < ·)) (fun a b _ _ hab hba => absurd hab (Nat.lt_asymm hba)) h1 hs ?_
  rw [List.perm_ext_iff_of_nodup (h1.imp fun h => Nat.ne_of_lt h) (hs.imp fun h => Nat.ne_of_lt h)]
  intro p
  rw [List.mem_filter, List.mem_range, h.supp]
  constructor
  · exact fun h => h.2
  · intro hp
    obtain ⟨x, hx, rfl⟩ := List.mem_map.1 hp
    exact ⟨h.red.pos hx, hp⟩

theorem Rep.members {n : Nat} (hn : n ≤ 64) {s : Sub} {l : List (Nat × Nat)} (h : Rep n s l) : members s.support = piv l := by
  apply members_spec (List.pairwise_map.2 h.sorted) h.supp
  intro p hp
  obtain ⟨x, hx, rfl⟩ := List.mem_map.1 hp
  have := h.red.pos hx; omega

/-! ### Projection -/

/-- the combination of basis vectors that agrees with `u` at the pivots -/
def prj (l : List (Nat × Nat)) (u : Nat → ZMod 2) : Nat → ZMod 2 := (l.map fun x => u x.2 • vec x.1).sum

theorem prj_nil (u : Nat → ZMod 2) : prj [] u = 0 := rfl
theorem prj_cons (x : Nat × Nat) (l : List (Nat × Nat)) (u : Nat → ZMod 2) : prj (x :: l) u = u x.2 • vec x.1 + prj l u := by
  unfold prj; rw [List.map_cons, List.sum_cons]

theorem prj_mem (l : List (Nat × Nat)) (u : Nat → ZMod 2) : prj l u ∈ sp l := by
  induction l with
  | nil => exact Submodule.zero_mem _
  | cons x l ih =>
    rw [prj_cons]
    exact Submodule.add_mem _ (Submodule.smul_mem _ _ (mem_sp List.mem_cons_self)) (sp_mono (fun y hy => List.mem_cons_of_mem _ hy) ih)

theorem prj_add (l : List (Nat × Nat)) (u v : Nat → ZMod 2) : prj l (u + v) = prj l u + prj l v := by
  induction l with
  | nil => simp [prj_nil]
  | cons x l ih =>
    rw [prj_cons, prj_cons, prj_cons, ih, Pi.add_apply, add_smul]
    exact add_add_add_comm _ _ _ _

theorem prj_smul (l : List (Nat × Nat)) (c : ZMod 2) (u : Nat → ZMod 2) : prj l (c • u) = c • prj l u := by
  induction l with
  | nil => simp [prj_nil]
  | cons x l ih =>
    rw [prj_cons, prj_cons, ih, Pi.smul_apply, smul_add, smul_eq_mul, mul_smul]

theorem Red.tail {n : Nat} {x : Nat × Nat} {l : List (Nat × Nat)} (h : Red n (x :: l)) : Red n l :=
  ⟨fun y hy => h.lt y (List.mem_cons_of_mem _ hy), fun y hy => h.lead y (List.mem_cons_of_mem _ hy), (List.pairwise_cons.1 h.red).2⟩

theorem Red.prj_apply {n : Nat} {l : List (Nat × Nat)} (h : Red n l) (u : Nat → ZMod 2) {x : Nat × Nat} (hx : x ∈ l) : prj l u x.2 = u x.2 := by
  induction l with
  | nil => cases hx
  | cons y l ih =>
    have hc := List.pairwise_cons.1 h.red
    rw [prj_cons, Pi.add_apply, Pi.smul_apply]
    rcases List.mem_cons.1 hx with rfl | hx
    · rw [sp_zero (fun z hz => (hc.1 z hz).1) (prj_mem l u), add_zero, vec_eq_one.2 (h.lead x List.mem_cons_self).1, smul_eq_mul, mul_one]
    · rw [ih h.tail hx, vec_eq_zero.2 (hc.1 x hx).2, smul_zero, zero_add]

theorem Red.prj_eq {n : Nat} {l : List (Nat × Nat)} (h : Red n l) {u : Nat → ZMod 2} (hu : u ∈ sp l) : prj l u = u := by
  have : prj l u + u = 0 := by
    apply h.tri.zero (Submodule.add_mem _ (prj_mem l u) hu)
    intro x hx
    rw [Pi.add_apply, h.prj_apply u hx]
    have := congrFun (add_self u) x.2
    exact this
  calc prj l u = prj l u + (u + u) := by rw [add_self, add_zero]
    _ = u := by rw [← add_assoc, this, zero_add]

/-- elements of the span are determined by their coordinates at the pivots -/
theorem Red.ext {n : Nat} {l : List (Nat × Nat)} (h : Red n l) {u v : Nat → ZMod 2} (hu : u ∈ sp l) (hv : v ∈ sp l)
    (he : ∀ x ∈ l, u x.2 = v x.2) : u = v := by
  rw [← h.prj_eq hu, ← h.prj_eq hv]
  unfold prj
  congr 1
  exact List.map_congr_left fun x hx => by rw [he x hx]

theorem lin_mem (l : List (Nat × Nat)) (c : Nat → ZMod 2) : lin (l.map Prod.fst) c ∈ sp l := by
  rw [← span_bvs (n := 0), mem_Span]
  exact ⟨c, by rw [bvs, List.map_map]; rfl⟩

theorem Red.lin_apply {n : Nat} {l : List (Nat × Nat)} (h : Red n l) (c : Nat → ZMod 2) {i : Nat} {x : Nat × Nat} (hx : l[i]? = some x) :
    lin (l.map Prod.fst) c x.2 = c i := by
  induction l generalizing i c with
  | nil => simp at hx
  | cons y l ih =>
    have hc := List.pairwise_cons.1 h.red
    rw [List.map_cons, lin_cons, Pi.add_apply, Pi.smul_apply]
    cases i with
    | zero =>
      rw [List.getElem?_cons_zero, Option.some.injEq] at hx
      subst hx
      rw [sp_zero (fun z hz => (hc.1 z hz).1) (lin_mem l _), add_zero, vec_eq_one.2 (h.lead y List.mem_cons_self).1, smul_eq_mul, mul_one]
    | succ i =>
      rw [List.getElem?_cons_succ] at hx
      rw [ih h.tail _ hx, vec_eq_zero.2 (hc.1 x (List.mem_of_getElem? hx)).2, smul_zero, zero_add]

/-- a combination with the coordinates at the pivots as coefficients -/
theorem Red.lin_eq {n : Nat} {l : List (Nat × Nat)} (h : Red n l) {c u : Nat → ZMod 2} (hc : ∀ (i : Nat) (x : Nat × Nat), l[i]? = some x → c i = u x.2) :
    lin (l.map Prod.fst) c = prj l u := by
  apply h.ext (lin_mem l c) (prj_mem l u)
  intro x hx
  obtain ⟨i, hi⟩ := List.mem_iff_getElem?.1 hx
  rw [h.lin_apply c hi, h.prj_apply u hx, hc i x hi]

theorem bvs_data (n : Nat) (l : List (Nat × Nat)) : (bvs n l).map (·.data) = l.map Prod.fst := by
  rw [bvs, List.map_map]; rfl

theorem Red.fits {n : Nat} {l : List (Nat × Nat)} (h : Red n l) : ∀ v ∈ bvs n l, Fits n v := by
  intro v hv
  obtain ⟨x, hx, rfl⟩ := List.mem_map.1 hv
  exact ⟨rfl, h.lt x hx⟩

theorem combination_spec (nd : Bool) {dim n : Nat} (hn : n ≤ dim) {l : List (Nat × Nat)} (h : Red n l) (e : Nat) :
    ∃ w, combination nd dim (bvs n l) n e = .ok ⟨w, n⟩ ∧ w < 2 ^ n ∧ vec w = lin (l.map Prod.fst) (vec e) := by
  obtain ⟨r, h1, h2, h3⟩ := combLoop_spec nd (dim := dim) e (bvs n l) h.fits 0 0 (by have := h.length_le; simp; omega) (Nat.pow_pos (by omega))
  refine ⟨r, h1, h2, ?_⟩
  rw [h3, vec_zero, zero_add, bvs_data]
  congr 1; funext j; rw [Nat.zero_add]

theorem Rep.slice {dim n : Nat} (hn : n ≤ dim) (hd : dim ≤ 64) {s : Sub} {l : List (Nat × Nat)} (h : Rep n s l) (v : Nat) :
    ∃ d, BV.slice dim ⟨v, n⟩ s.support = .ok ⟨d, l.length⟩ ∧ d < 2 ^ l.length ∧
      ∀ (i : Nat) (x : Nat × Nat), l[i]? = some x → d.testBit i = v.testBit x.2 := by
  obtain ⟨d, h1, h2, h3⟩ := slice_spec hn hd v s.support
  rw [h.filter, List.length_map] at h1 h2
  rw [h.filter] at h3
  refine ⟨d, h1, h2, fun i x hx => h3 i x.2 ?_⟩
  rw [List.getElem?_map, hx]; rfl

/-- `representative` subtracts the projection -/
theorem Rep.representative (nd : Bool) {dim n : Nat} (hn : n ≤ dim) (hd : dim ≤ 64) {s : Sub} {l : List (Nat × Nat)} (h : Rep n s l)
    {v : Nat} (hv : v < 2 ^ n) : ∃ r, s.representative nd dim ⟨v, n⟩ = .ok ⟨r, n⟩ ∧ r < 2 ^ n ∧ vec r = vec v + prj l (vec v) := by
  obtain ⟨d, h1, h2, h3⟩ := h.slice hn hd v
  obtain ⟨w, h4, h5, h6⟩ := combination_spec nd hn h.red d
  unfold Sub.representative
  rw [Res.assertIn_bind nd (by simp [h.rank]), h1, Res.ok_bind, Res.assertIn_bind nd (by simp [Sub.dimension, h.basis]), h.basis, h.rank]
  simp only
  rw [h4, Res.ok_bind, Res.assertIn_bind nd (by simp), add_ok']
  refine ⟨_, rfl, xor_lt hv h5, ?_⟩
  rw [vec_xor, h6, h.red.lin_eq (u := vec v)]
  intro i x hx
  rw [vec_apply, vec_apply, h3 i x hx]

end Verif.F2
