import Verif.F2.SubProps
/-
C34 for subquotients.
-/
namespace Verif.F2
open Verif

theorem bsSliceLoop_spec {dim val : Nat} : ∀ (L : List Nat), (∀ i ∈ L, i < dim) → ∀ c r, c + L.length ≤ dim →
    ∃ r', bsSliceLoop dim val L c r = .ok r' ∧ (∀ i < c, r'.testBit i = r.testBit i) ∧
      (∀ (i p : Nat), L[i]? = some p → r'.testBit (c + i) = (val.testBit p || r.testBit (c + i))) ∧
      ∀ i, c + L.length ≤ i → r'.testBit i = r.testBit i := by
  intro L
  induction L with
  | nil => intro _ c r _; exact ⟨r, rfl, fun _ _ => rfl, by simp, fun _ _ => rfl⟩
  | cons q L ih =>
    intro hL c r hc
    rw [List.length_cons] at hc
    rw [bsSliceLoop, bsTest_ok (hL q List.mem_cons_self), Res.ok_bind]
    have hL' : ∀ i ∈ L, i < dim := fun i hi => hL i (List.mem_cons_of_mem _ hi)
    by_cases hb : val.testBit q = true
    · rw [if_pos hb, bsSet_ok (by omega), Res.ok_bind]
      obtain ⟨r', h1, h2, h3, h4⟩ := ih hL' (c + 1) (putBit r c true) (by omega)
      refine ⟨r', h1, ?_, ?_, ?_⟩
      · intro i hi
        rw [h2 i (by omega), testBit_putBit, if_neg (by omega)]
      · intro i p hp
        cases i with
        | zero =>
          rw [List.getElem?_cons_zero, Option.some.injEq] at hp
          subst hp
          rw [Nat.add_zero, h2 c (by omega), testBit_putBit, if_pos rfl, hb, Bool.true_or]
        | succ i =>
          rw [List.getElem?_cons_succ] at hp
          have := h3 i p hp
          rw [show c + (i + 1) = c + 1 + i by omega, this, testBit_putBit, if_neg (by omega)]
      · intro i hi
        rw [List.length_cons] at hi
        rw [h4 i (by omega), testBit_putBit, if_neg (by omega)]
    · rw [if_neg hb]
      obtain ⟨r', h1, h2, h3, h4⟩ := ih hL' (c + 1) r (by omega)
      refine ⟨r', h1, fun i hi => h2 i (by omega), ?_, fun i hi => h4 i (by rw [List.length_cons] at hi; omega)⟩
      intro i p hp
      cases i with
      | zero =>
        rw [List.getElem?_cons_zero, Option.some.injEq] at hp
        subst hp
        rw [Nat.add_zero, h2 c (by omega)]
        simp [hb]
      | succ i =>
        rw [List.getElem?_cons_succ] at hp
        rw [show c + (i + 1) = c + 1 + i by omega, h3 i p hp]

theorem testBit_bsDiff (a b i : Nat) : (bsDiff a b).testBit i = (a.testBit i && !b.testBit i) := by
  unfold bsDiff
  rw [Nat.testBit_xor, Nat.testBit_and]
  cases a.testBit i <;> cases b.testBit i <;> rfl

/-- the vectors in the basis of the space whose pivots are not pivots for the subspace -/
def dif (l m : List (Nat × Nat)) : List (Nat × Nat) := l.filter fun x => decide (x.2 ∉ piv m)

theorem relSupport_spec {dim n : Nat} (hn : n ≤ dim) (hd : dim ≤ 64) {s w : Sub} {l m : List (Nat × Nat)} (hs : Rep n s l) (hw : Rep n w m) :
    ∃ r, relSupport dim s w = .ok r ∧ ∀ i, r.testBit i = true ↔ ∃ x, l[i]? = some x ∧ x.2 ∉ piv m := by
  have hpos : ∀ i ∈ piv l, i < n := by
    intro i hi
    obtain ⟨x, hx, rfl⟩ := List.mem_map.1 hi
    exact hs.red.pos hx
  have hlen := hs.red.length_le
  obtain ⟨r, h1, _, h3, h4⟩ := bsSliceLoop_spec (dim := dim) (val := bsDiff s.support w.support)
    (piv l) (fun i hi => by have := hpos i hi; omega) 0 0 (by rw [List.length_map]; omega)
  refine ⟨r, by unfold relSupport bsSlice; rw [hs.members (hn.trans hd)]; exact h1, ?_⟩
  intro i
  by_cases hi : i < l.length
  · have hx := List.getElem?_eq_getElem hi
    have hp : (piv l)[i]? = some l[i].2 := by rw [List.getElem?_map, hx]; rfl
    have := h3 i _ hp
    rw [Nat.zero_add, Nat.zero_testBit, Bool.or_false, testBit_bsDiff,
      (hs.supp _).2 (List.mem_map_of_mem (List.getElem_mem hi)), Bool.true_and] at this
    rw [this]
    have hm : (!w.support.testBit l[i].2) = true ↔ l[i].2 ∉ piv m := by
      rw [← hw.supp]; simp
    rw [hm]
    constructor
    · exact fun h => ⟨l[i], hx, h⟩
    · rintro ⟨x, hx', h⟩
      rw [hx, Option.some.injEq] at hx'
      rw [hx']; exact h
  · rw [h4 i (by rw [List.length_map]; omega), Nat.zero_testBit]
    constructor
    · intro h; cases h
    · rintro ⟨x, hx, _⟩
      exact absurd (List.getElem?_eq_some_iff.1 hx).1 hi

theorem filter_eq_map {α : Type} (p : α → Bool) (d : α) (l : List α) :
    l.filter p = ((List.range l.length).filter fun i => p (l.getD i d)).map fun i => l.getD i d := by
  have h : l = (List.range l.length).map fun i => l.getD i d := by
    apply List.ext_getElem
    · simp
    · intro i h1 h2
      simp [h1]
  conv => lhs; rw [h, List.filter_map]
  rfl

theorem sp_mem_zero {n : Nat} {l m : List (Nat × Nat)} (hl : Red n l) (hm : Red n m) (hle : sp m ≤ sp l) : ∀ p ∈ piv m, p ∈ piv l := by
  intro p hp
  obtain ⟨x, hx, rfl⟩ := List.mem_map.1 hp
  exact hl.tri.lead_mem (u := vec x.1) (q := x.2) (hle (mem_sp hx)) (fun j hj => vec_eq_zero.2 ((hm.lead x hx).2 j hj))
    (vec_eq_one.2 (hm.lead x hx).1)

/-- the internal description of a subquotient -/
structure QRep (n : Nat) (q : Subq) (l m : List (Nat × Nat)) : Prop where
  space : Rep n q.space l
  sub : Rep n q.sub m
  le : sp m ≤ sp l
  rel : ∀ i, q.rel.testBit i = true ↔ ∃ x, l[i]? = some x ∧ x.2 ∉ piv m

theorem IsSubq.rep {n : Nat} (hn : n ≤ 64) {q : Subq} {V W : Submodule (ZMod 2) (Nat → ZMod 2)} (h : IsSubq n q V W) :
    ∃ l m, QRep n q l m ∧ sp l = V ∧ sp m = W := by
  obtain ⟨l, hl, rfl⟩ := h.space.rep hn
  obtain ⟨m, hm, rfl⟩ := h.sub.rep hn
  refine ⟨l, m, ⟨hl, hm, h.le, ?_⟩, rfl, rfl⟩
  intro i
  rw [h.rel, hl.basis]
  constructor
  · rintro ⟨v, p, hv, hp, hs⟩
    rw [List.getElem?_map, Option.map_eq_some_iff] at hv
    obtain ⟨x, hx, rfl⟩ := hv
    have := (hl.red.lead x (List.mem_of_getElem? hx)).unique hp
    subst this
    refine ⟨x, hx, ?_⟩
    rw [← hm.supp, hs]; simp
  · rintro ⟨x, hx, hp⟩
    refine ⟨⟨x.1, n⟩, x.2, by rw [List.getElem?_map, hx]; rfl, hl.red.lead x (List.mem_of_getElem? hx), ?_⟩
    rw [← hm.supp] at hp
    simpa using hp

theorem QRep.isSubq {n : Nat} {q : Subq} {l m : List (Nat × Nat)} (h : QRep n q l m) : IsSubq n q (sp l) (sp m) := by
  refine ⟨h.space.isSub, h.sub.isSub, h.le, ?_⟩
  intro i
  rw [h.rel, h.space.basis]
  constructor
  · rintro ⟨x, hx, hp⟩
    refine ⟨⟨x.1, n⟩, x.2, by rw [List.getElem?_map, hx]; rfl, h.space.red.lead x (List.mem_of_getElem? hx), ?_⟩
    rw [← h.sub.supp] at hp
    simpa using hp
  · rintro ⟨v, p, hv, hp, hs⟩
    rw [List.getElem?_map, Option.map_eq_some_iff] at hv
    obtain ⟨x, hx, rfl⟩ := hv
    have := (h.space.red.lead x (List.mem_of_getElem? hx)).unique hp
    subst this
    refine ⟨x, hx, ?_⟩
    rw [← h.sub.supp, hs]; simp

/-- the indices in the basis of the space of the basis of the subquotient -/
def QRep.idx (q : Subq) (k : Nat) : List Nat := (List.range k).filter fun i => q.rel.testBit i

theorem QRep.dif_eq {n : Nat} {q : Subq} {l m : List (Nat × Nat)} (h : QRep n q l m) :
    dif l m = (QRep.idx q l.length).map fun i => l.getD i (0, 0) := by
  unfold dif QRep.idx
  rw [filter_eq_map _ (0, 0)]
  congr 1
  apply List.filter_congr
  intro i hi
  rw [List.mem_range] at hi
  rw [Bool.eq_iff_iff, decide_eq_true_iff, h.rel]
  simp [hi]

theorem QRep.rel_lt {n : Nat} {q : Subq} {l m : List (Nat × Nat)} (h : QRep n q l m) : q.rel < 2 ^ l.length := by
  apply lt_of_bits
  intro i hi
  by_contra hc
  obtain ⟨x, hx, _⟩ := (h.rel i).1 (by simpa using hc)
  have := (List.getElem?_eq_some_iff.1 hx).1
  omega

theorem QRep.dif_red {n : Nat} {q : Subq} {l m : List (Nat × Nat)} (h : QRep n q l m) : Red n (dif l m) :=
  ⟨fun x hx => h.space.red.lt x (List.mem_of_mem_filter hx), fun x hx => h.space.red.lead x (List.mem_of_mem_filter hx),
    List.Pairwise.filter _ h.space.red.red⟩

theorem QRep.dif_sp {l m : List (Nat × Nat)} : sp (dif l m) ≤ sp l := sp_mono fun _ hx => List.mem_of_mem_filter hx

/-- the combinations of the selected basis vectors vanish at the pivots of the subspace -/
theorem QRep.dif_zero {n : Nat} {q : Subq} {l m : List (Nat × Nat)} (h : QRep n q l m) {u : Nat → ZMod 2} (hu : u ∈ sp (dif l m)) :
    ∀ y ∈ m, u y.2 = 0 := by
  intro y hy
  apply sp_zero _ hu
  intro x hx
  have hp : y.2 ∈ piv m := List.mem_map_of_mem hy
  obtain ⟨z, hz, e⟩ := List.mem_map.1 (sp_mem_zero h.space.red h.sub.red h.le _ hp)
  rw [dif, List.mem_filter, decide_eq_true_iff] at hx
  rw [← e, h.space.red.bit hx.1 hz]
  simp only [decide_eq_false_iff_not]
  intro e'
  rw [e', e] at hx
  exact hx.2 hp

/-- conversely -/
theorem QRep.mem_dif {n : Nat} {q : Subq} {l m : List (Nat × Nat)} (h : QRep n q l m) {u : Nat → ZMod 2} (hu : u ∈ sp l)
    (h0 : ∀ y ∈ m, u y.2 = 0) : u ∈ sp (dif l m) := by
  rw [← h.space.red.prj_eq hu]
  have : prj l u = prj (dif l m) u := by
    clear hu
    have : ∀ l' : List (Nat × Nat), prj l' u = prj (dif l' m) u := by
      intro l'
      induction l' with
      | nil => rfl
      | cons x l' ih =>
        rw [prj_cons, ih]
        unfold dif
        by_cases hx : x.2 ∈ piv m
        · rw [List.filter_cons_of_neg (by simpa using hx)]
          obtain ⟨y, hy, e⟩ := List.mem_map.1 hx
          rw [← e, h0 y hy, zero_smul, zero_add]
        · rw [List.filter_cons_of_pos (by simpa using hx), prj_cons]
    exact this l
  rw [this]
  exact prj_mem _ _

theorem QRep.dimension {n : Nat} {q : Subq} {l m : List (Nat × Nat)} (h : QRep n q l m) : q.dimension = (dif l m).length := by
  unfold Subq.dimension
  rw [h.space.dimension, h.sub.dimension]
  have h1 : l.length = (l.filter fun x => decide (x.2 ∈ piv m)).length + (dif l m).length := by
    rw [List.length_eq_length_filter_add (fun x : Nat × Nat => decide (x.2 ∈ piv m))]
    unfold dif
    congr 3
    funext x
    simp
  have h2 : (l.filter fun x => decide (x.2 ∈ piv m)).length = m.length := by
    have : (piv (l.filter fun x => decide (x.2 ∈ piv m))).Perm (piv m) := by
      rw [List.perm_ext_iff_of_nodup]
      · intro p
        constructor
        · intro hp
          obtain ⟨x, hx, rfl⟩ := List.mem_map.1 hp
          simpa using (List.mem_filter.1 hx).2
        · intro hp
          obtain ⟨x, hx, rfl⟩ := List.mem_map.1 (sp_mem_zero h.space.red h.sub.red h.le _ hp)
          exact List.mem_map.2 ⟨x, List.mem_filter.2 ⟨hx, by simpa using hp⟩, rfl⟩
      · exact List.pairwise_map.2 (List.Pairwise.filter _ (h.space.sorted.imp fun h => Nat.ne_of_lt h))
      · exact List.pairwise_map.2 (h.sub.sorted.imp fun h => Nat.ne_of_lt h)
    have := this.length_eq
    simpa using this
  omega

/-- the representative of `u` modulo the subspace -/
def rdc (m : List (Nat × Nat)) (u : Nat → ZMod 2) : Nat → ZMod 2 := u + prj m u

theorem QRep.toBasis (nd : Bool) {dim n : Nat} (hn : n ≤ dim) (hd : dim ≤ 64) {q : Subq} {l m : List (Nat × Nat)} (h : QRep n q l m)
    {v : Nat} (hv : v < 2 ^ n) (hm : vec v ∈ sp l) : ∃ c, q.toBasis nd dim ⟨v, n⟩ = .ok ⟨c, (dif l m).length⟩ ∧ c < 2 ^ (dif l m).length ∧
      ∀ (i : Nat) (x : Nat × Nat), (dif l m)[i]? = some x → vec c i = rdc m (vec v) x.2 := by
  obtain ⟨r, h1, h2, h3⟩ := h.sub.representative nd hn hd hv
  have hmem : vec r ∈ sp l := by
    rw [h3]; exact Submodule.add_mem _ hm (h.le (prj_mem _ _))
  obtain ⟨c, g1, g2, g3⟩ := h.space.toBasis nd hn hd h2 hmem
  have hl := h.space.red.length_le
  obtain ⟨d, k1, k2, k3⟩ := slice_spec (hl.trans hn) hd c q.rel
  have hlen : ((List.range l.length).filter fun i => q.rel.testBit i).length = (dif l m).length := by
    rw [h.dif_eq, List.length_map]; rfl
  rw [hlen] at k1 k2
  refine ⟨d, ?_, k2, ?_⟩
  · unfold Subq.toBasis
    rw [h1, Res.ok_bind, g1, Res.ok_bind, Res.assertIn_bind nd (by simp [h.space.dimension]), k1, Res.ok_bind,
      Res.assertIn_bind nd (by simp [h.dimension])]
    rfl
  · intro i x hx
    rw [h.dif_eq, List.getElem?_map, Option.map_eq_some_iff] at hx
    obtain ⟨j, hj, e⟩ := hx
    have hjl : j < l.length := by
      have := List.mem_of_getElem? hj
      unfold QRep.idx at this
      rw [List.mem_filter, List.mem_range] at this
      exact this.1
    have hjx : l[j]? = some x := by
      rw [← e, List.getD_eq_getElem?_getD, List.getElem?_eq_getElem hjl]; rfl
    have : d.testBit i = r.testBit x.2 := by rw [k3 i j hj, g3 j x hjx]
    rw [vec_apply, this, ← vec_apply, h3]
    rfl

theorem QRep.fromBasis (nd : Bool) {dim n : Nat} (hn : n ≤ dim) (hd : dim ≤ 64) {q : Subq} {l m : List (Nat × Nat)} (h : QRep n q l m)
    (c : Nat) : ∃ v, q.fromBasis nd dim ⟨c, (dif l m).length⟩ = .ok ⟨v, n⟩ ∧ v < 2 ^ n ∧
      vec v = lin ((dif l m).map Prod.fst) (vec c) := by
  have hl := h.space.red.length_le
  obtain ⟨s, h1, h2, h3, h4⟩ := C33_unslice (hl.trans hn) hd h.rel_lt ⟨c, (dif l m).length⟩
  obtain ⟨s, k⟩ := s
  obtain ⟨rfl, h2⟩ := h2
  simp only at h1 h2 h3 h4
  obtain ⟨v, g1, g2, g3⟩ := h.space.fromBasis nd hn (c := s)
  refine ⟨v, ?_, g2, ?_⟩
  · unfold Subq.fromBasis
    rw [Res.assertIn_bind nd (by simp [h.dimension]), h.space.dimension, h1, Res.ok_bind, g1]
  · rw [g3]
    apply h.space.red.ext (lin_mem _ _) (QRep.dif_sp (lin_mem _ _))
    intro x hx
    obtain ⟨i, hi⟩ := List.mem_iff_getElem?.1 hx
    have hil := (List.getElem?_eq_some_iff.1 hi).1
    rw [h.space.red.lin_apply _ hi]
    by_cases hp : x.2 ∈ piv m
    · obtain ⟨y, hy, e⟩ := List.mem_map.1 hp
      rw [← e, h.dif_zero (lin_mem _ _) y hy]
      apply h4
      by_contra hc
      obtain ⟨x', hx', hp'⟩ := (h.rel i).1 (by simpa using hc)
      rw [hi, Option.some.injEq] at hx'
      subst hx'
      exact hp' hp
    · have hr : q.rel.testBit i = true := (h.rel i).2 ⟨x, hi, hp⟩
      have : i ∈ QRep.idx q l.length := by
        unfold QRep.idx; rw [List.mem_filter, List.mem_range]; exact ⟨hil, hr⟩
      obtain ⟨j, hj⟩ := List.mem_iff_getElem?.1 this
      have hjx : (dif l m)[j]? = some x := by
        rw [h.dif_eq, List.getElem?_map, hj]
        simp [hi]
      rw [h.dif_red.lin_apply _ hjx]
      exact h3 j i hj

/-! ### The theorems -/

/-- C34: the constructor of a subquotient succeeds exactly if the second space is contained in the first; otherwise this is
detected when assertions are active. -/
theorem C34_subquotient (nd : Bool) {dim n : Nat} (hn : n ≤ dim) (hd : dim ≤ 64) (bsp bsub : List BV) (h1 : ∀ v ∈ bsp, Fits n v)
    (h2 : ∀ v ∈ bsub, Fits n v) : (Span bsub ≤ Span bsp → ∃ q, Subq.make nd dim bsp bsub n = .ok q ∧ IsSubq n q (Span bsp) (Span bsub)) ∧
      (¬ Span bsub ≤ Span bsp → Subq.make false dim bsp bsub n = .assertFail) := by
  constructor
  · intro hle
    obtain ⟨s, s1, s2⟩ := C34_ofVectors nd hn hd bsp h1
    obtain ⟨w, w1, w2⟩ := C34_ofVectors nd hn hd bsub h2
    obtain ⟨l, hl, el⟩ := s2.rep (hn.trans hd)
    obtain ⟨m, hm, em⟩ := w2.rep (hn.trans hd)
    rw [← el, ← em] at hle
    obtain ⟨r, r1, r2⟩ := relSupport_spec hn hd hl hm
    have hc : (if nd then pure true else s.containsAll nd dim bsub : Res Bool) = .ok true := by
      cases nd with
      | true => rfl
      | false =>
        obtain ⟨b, g1, g2⟩ := C34_containsAll false hn hd s2 bsub h2
        rw [if_neg (by simp), g1, g2.2 (by rw [← el, ← em]; exact hle)]
    have hz : bsDiff w.support s.support = 0 := by
      apply Nat.eq_of_testBit_eq
      intro i
      rw [testBit_bsDiff, Nat.zero_testBit]
      by_cases hi : w.support.testBit i = true
      · rw [(hl.supp i).2 (sp_mem_zero hl.red hm.red hle i ((hm.supp i).1 hi))]; simp
      · simp [hi]
    refine ⟨⟨s, w, r⟩, ?_, ?_⟩
    · unfold Subq.make
      rw [s1, Res.ok_bind, w1, Res.ok_bind, hc, Res.ok_bind, Res.assertIn_bind nd rfl, Res.assertIn_bind nd (by simp [hz]), r1]; rfl
    · rw [← el, ← em]
      exact QRep.isSubq ⟨hl, hm, hle, r2⟩
  · intro hle
    obtain ⟨s, s1, s2⟩ := C34_ofVectors false hn hd bsp h1
    obtain ⟨w, w1, w2⟩ := C34_ofVectors false hn hd bsub h2
    obtain ⟨b, g1, g2⟩ := C34_containsAll false hn hd s2 bsub h2
    have hb : b = false := by
      cases b with
      | false => rfl
      | true => exact absurd (g2.1 rfl) hle
    unfold Subq.make
    rw [s1, Res.ok_bind, w1, Res.ok_bind, if_neg (by simp), g1, hb]
    rfl

example : Subq.make false 32 [⟨0b0101, 4⟩, ⟨0b0110, 4⟩, ⟨0b1000, 4⟩] [⟨0b1110, 4⟩] 4 =
      .ok ⟨⟨[⟨0b0101, 4⟩, ⟨0b0110, 4⟩, ⟨0b1000, 4⟩], 0b1011, 4⟩, ⟨[⟨0b1110, 4⟩], 0b0010, 4⟩, 0b101⟩ ∧
    Subq.make false 32 [⟨0b0101, 4⟩, ⟨0b0110, 4⟩] [⟨0b1110, 4⟩] 4 = .assertFail := by decide +kernel

/-- C34: the dimension of a subquotient is the difference of the dimensions. -/
theorem C34_subquotient_dimension {n : Nat} (hn : n ≤ 64) {q : Subq} {V W : Submodule (ZMod 2) (Nat → ZMod 2)} (h : IsSubq n q V W) :
    q.sub.dimension ≤ q.space.dimension ∧ q.dimension = q.space.dimension - q.sub.dimension := by
  refine ⟨?_, rfl⟩
  obtain ⟨l, m, hq, rfl, rfl⟩ := h.rep hn
  rw [hq.space.dimension, hq.sub.dimension]
  have h1 : (piv m).Nodup := List.pairwise_map.2 (hq.sub.sorted.imp fun h => Nat.ne_of_lt h)
  have h2 := (h1.subperm (sp_mem_zero hq.space.red hq.sub.red hq.le)).length_le
  simpa using h2

theorem rdc_add (m : List (Nat × Nat)) (u v : Nat → ZMod 2) : rdc m (u + v) = rdc m u + rdc m v := by
  unfold rdc; rw [prj_add]; exact add_add_add_comm _ _ _ _

theorem rdc_zero {n : Nat} {m : List (Nat × Nat)} (h : Red n m) {u : Nat → ZMod 2} (hu : u ∈ sp m) : rdc m u = 0 := by
  unfold rdc; rw [h.prj_eq hu, add_self]

theorem rdc_self {m : List (Nat × Nat)} {u : Nat → ZMod 2} (h : ∀ y ∈ m, u y.2 = 0) : rdc m u = u := by
  unfold rdc
  have : prj m u = 0 := by
    induction m with
    | nil => rfl
    | cons x m ih =>
      rw [prj_cons, h x List.mem_cons_self, zero_smul, zero_add, ih fun y hy => h y (List.mem_cons_of_mem _ hy)]
  rw [this, add_zero]

theorem Red.rdc_apply {n : Nat} {m : List (Nat × Nat)} (h : Red n m) (u : Nat → ZMod 2) : ∀ y ∈ m, rdc m u y.2 = 0 := by
  intro y hy
  unfold rdc
  rw [Pi.add_apply, h.prj_apply u hy]
  exact congrFun (add_self u) y.2

theorem rdc_mem (m : List (Nat × Nat)) (u : Nat → ZMod 2) : u + rdc m u ∈ sp m := by
  unfold rdc
  rw [← add_assoc, add_self, zero_add]
  exact prj_mem m u

/-- C34: for an element of the space, `toBasis` gives coordinates for its class in the subquotient: `fromBasis` recovers
the class, and two elements have the same coordinates exactly if they are in the same class. -/
theorem C34_subquotient_toBasis (nd : Bool) {dim n : Nat} (hn : n ≤ dim) (hd : dim ≤ 64) {q : Subq}
    {V W : Submodule (ZMod 2) (Nat → ZMod 2)} (h : IsSubq n q V W) {v : BV} (hv : Fits n v) (hm : vec v.data ∈ V) :
    ∃ c, q.toBasis nd dim v = .ok c ∧ Fits q.dimension c ∧
      (∃ r, q.fromBasis nd dim c = .ok r ∧ Fits n r ∧ vec v.data + vec r.data ∈ W) ∧
      ∀ w, Fits n w → vec w.data ∈ V → (q.toBasis nd dim w = .ok c ↔ vec v.data + vec w.data ∈ W) := by
  obtain ⟨l, m, hq, rfl, rfl⟩ := h.rep (hn.trans hd)
  obtain ⟨v, k⟩ := v
  obtain ⟨rfl, hv⟩ := hv
  simp only at hm hv hn hd hq
  obtain ⟨c, g1, g2, g3⟩ := hq.toBasis nd hn hd hv hm
  obtain ⟨r, f1, f2, f3⟩ := hq.fromBasis nd hn hd c
  have hdif : ∀ u, u ∈ sp l → rdc m u ∈ sp (dif l m) := fun u hu =>
    hq.mem_dif (Submodule.add_mem _ hu (hq.le (prj_mem _ _))) (hq.sub.red.rdc_apply u)
  refine ⟨_, g1, ⟨hq.dimension.symm, by rw [hq.dimension]; exact g2⟩, ⟨_, f1, ⟨rfl, f2⟩, ?_⟩, ?_⟩
  · have : vec r = rdc m (vec v) := by
      rw [f3, hq.dif_red.lin_eq g3, hq.dif_red.prj_eq (hdif _ hm)]
    simp only
    rw [this]
    exact rdc_mem _ _
  · intro w hw hwm
    obtain ⟨w, k'⟩ := w
    obtain ⟨rfl, hw⟩ := hw
    simp only at hwm hw hn hd hq
    obtain ⟨c', k1, k2, k3⟩ := hq.toBasis nd hn hd hw hwm
    rw [k1]
    simp only
    constructor
    · intro he
      have : c' = c := by injection he with he; injection he
      subst this
      have e : rdc m (vec v) = rdc m (vec w) := by
        apply hq.dif_red.ext (hdif _ hm) (hdif _ hwm)
        intro x hx
        obtain ⟨i, hi⟩ := List.mem_iff_getElem?.1 hx
        rw [← g3 i x hi, ← k3 i x hi]
      have h0 : rdc m (vec v + vec w) = 0 := by rw [rdc_add, e, add_self]
      have := rdc_mem m (vec v + vec w)
      rwa [h0, add_zero] at this
    · intro hs
      have h0 := rdc_zero hq.sub.red hs
      rw [rdc_add] at h0
      have e : rdc m (vec v) = rdc m (vec w) := by
        have := congrArg (· + rdc m (vec w)) h0
        simpa [add_assoc, add_self] using this
      congr 2
      apply Nat.eq_of_testBit_eq
      intro i
      by_cases hi : i < (dif l m).length
      · have hx := List.getElem?_eq_getElem hi
        rw [Bool.eq_iff_iff, ← vec_eq_one, ← vec_eq_one, k3 i _ hx, g3 i _ hx, e]
      · rw [testBit_ge k2 (by omega), testBit_ge g2 (by omega)]

/-- C34: `fromBasis` gives an element of the space with given coordinates: `toBasis` recovers them. -/
theorem C34_subquotient_fromBasis (nd : Bool) {dim n : Nat} (hn : n ≤ dim) (hd : dim ≤ 64) {q : Subq}
    {V W : Submodule (ZMod 2) (Nat → ZMod 2)} (h : IsSubq n q V W) {c : BV} (hc : Fits q.dimension c) :
    ∃ v, q.fromBasis nd dim c = .ok v ∧ Fits n v ∧ vec v.data ∈ V ∧ q.toBasis nd dim v = .ok c := by
  obtain ⟨l, m, hq, rfl, rfl⟩ := h.rep (hn.trans hd)
  obtain ⟨c, k⟩ := c
  obtain ⟨e, hc⟩ := hc
  rw [hq.dimension] at hc e
  simp only at hc e
  subst e
  obtain ⟨r, f1, f2, f3⟩ := hq.fromBasis nd hn hd c
  have hmd : vec r ∈ sp (dif l m) := by rw [f3]; exact lin_mem _ _
  have hml : vec r ∈ sp l := QRep.dif_sp hmd
  obtain ⟨c', g1, g2, g3⟩ := hq.toBasis nd hn hd f2 hml
  refine ⟨_, f1, ⟨rfl, f2⟩, hml, ?_⟩
  rw [g1]
  congr 2
  apply Nat.eq_of_testBit_eq
  intro i
  by_cases hi : i < (dif l m).length
  · have hx := List.getElem?_eq_getElem hi
    rw [Bool.eq_iff_iff, ← vec_eq_one, ← vec_eq_one, g3 i _ hx, rdc_self (hq.dif_zero hmd), f3, hq.dif_red.lin_apply _ hx]
  · rw [testBit_ge g2 (by omega), testBit_ge hc (by omega)]

example : let q : Subq := ⟨⟨[⟨0b0101, 4⟩, ⟨0b0110, 4⟩, ⟨0b1000, 4⟩], 0b1011, 4⟩, ⟨[⟨0b1110, 4⟩], 0b0010, 4⟩, 0b101⟩
    q.toBasis false 32 ⟨0b0110, 4⟩ = .ok ⟨0b10, 2⟩ ∧ q.fromBasis false 32 ⟨0b10, 2⟩ = .ok ⟨0b1000, 4⟩ ∧
      q.toBasis false 32 ⟨0b1000, 4⟩ = .ok ⟨0b10, 2⟩ := by decide +kernel

theorem subqBasisLoop_spec (nd : Bool) {n : Nat} {s : Sub} {l : List (Nat × Nat)} (h : Rep n s l) :
    ∀ J : List Nat, (∀ j ∈ J, j < l.length) → subqBasisLoop nd s J = .ok (J.map fun j => ⟨(l.getD j (0, 0)).1, n⟩) := by
  intro J
  induction J with
  | nil => intro _; rfl
  | cons j J ih =>
    intro hJ
    have hj := hJ j List.mem_cons_self
    have hlen := h.red.length_le
    rw [subqBasisLoop]
    have : s.basisAt nd j = .ok ⟨(l.getD j (0, 0)).1, n⟩ := by
      unfold Sub.basisAt
      rw [Res.assertIn_bind nd (by rw [h.rank]; simp; omega), h.basis]
      rw [Vec.get_ok (by rw [List.length_map]; exact hj), List.getElem_map, List.getD_eq_getElem?_getD, List.getElem?_eq_getElem hj]
      rfl
    rw [this, Res.ok_bind, ih fun i hi => hJ i (List.mem_cons_of_mem _ hi)]
    rfl

theorem QRep.members {n : Nat} (hn : n ≤ 64) {q : Subq} {l m : List (Nat × Nat)} (h : QRep n q l m) : members q.rel = QRep.idx q l.length := by
  apply members_spec (List.Pairwise.filter _ List.pairwise_lt_range)
  · intro p
    rw [List.mem_filter, List.mem_range]
    exact ⟨fun hp => ⟨testBit_lt h.rel_lt hp, hp⟩, fun hp => hp.2⟩
  · intro p hp
    rw [List.mem_filter, List.mem_range] at hp
    have := h.space.red.length_le; omega

/-- C34: the basis of a subquotient: its classes are the elements with a single coordinate 1. -/
theorem C34_subquotient_basis (nd : Bool) {dim n : Nat} (hn : n ≤ dim) (hd : dim ≤ 64) {q : Subq}
    {V W : Submodule (ZMod 2) (Nat → ZMod 2)} (h : IsSubq n q V W) : ∃ b, q.basis nd = .ok b ∧ b.length = q.dimension ∧
      ∀ (j : Nat) (v : BV), b[j]? = some v → Fits n v ∧ vec v.data ∈ V ∧ q.fromBasis nd dim ⟨1 <<< j, q.dimension⟩ = .ok v := by
  obtain ⟨l, m, hq, rfl, rfl⟩ := h.rep (hn.trans hd)
  refine ⟨bvs n (dif l m), ?_, by rw [List.length_map, hq.dimension], ?_⟩
  · unfold Subq.basis
    rw [hq.members (hn.trans hd), subqBasisLoop_spec nd hq.space, hq.dif_eq, bvs, List.map_map]
    · rfl
    · intro j hj
      unfold QRep.idx at hj
      rw [List.mem_filter, List.mem_range] at hj
      exact hj.1
  · intro j v hj
    rw [List.getElem?_map, Option.map_eq_some_iff] at hj
    obtain ⟨x, hx, rfl⟩ := hj
    have hxm := List.mem_of_getElem? hx
    have hm : vec x.1 ∈ sp (dif l m) := mem_sp hxm
    refine ⟨⟨rfl, hq.dif_red.lt x hxm⟩, QRep.dif_sp hm, ?_⟩
    rw [hq.dimension]
    obtain ⟨r, f1, f2, f3⟩ := hq.fromBasis nd hn hd (1 <<< j)
    rw [f1]
    have : vec r = vec x.1 := by
      apply hq.dif_red.ext (by rw [f3]; exact lin_mem _ _) hm
      intro y hy
      obtain ⟨i, hi⟩ := List.mem_iff_getElem?.1 hy
      rw [f3, hq.dif_red.lin_apply _ hi, vec_apply, vec_apply, hq.dif_red.bit hxm hy, Nat.shiftLeft_eq, Nat.one_mul, Nat.testBit_two_pow]
      congr 1
      rw [decide_eq_true_iff, decide_eq_true_iff]
      have hd' := List.pairwise_iff_getElem.1 hq.dif_red.distinct
      obtain ⟨hil, rfl⟩ := List.getElem?_eq_some_iff.1 hi
      obtain ⟨hjl, rfl⟩ := List.getElem?_eq_some_iff.1 hx
      simp only [eq_iff_iff]
      constructor
      · rintro rfl; rfl
      · intro e
        rcases Nat.lt_trichotomy i j with c | c | c
        · exact absurd e.symm (hd' i j hil hjl c)
        · exact c.symm
        · exact absurd e (hd' j i hjl hil c)
    rw [vec_inj this]

example : (⟨⟨[⟨0b0101, 4⟩, ⟨0b0110, 4⟩, ⟨0b1000, 4⟩], 0b1011, 4⟩, ⟨[⟨0b1110, 4⟩], 0b0010, 4⟩, 0b101⟩ : Subq).basis false =
    .ok [⟨0b0101, 4⟩, ⟨0b1000, 4⟩] := by decide +kernel

/-- C34: applying a linear map to a subquotient. -/
theorem C34_subquotient_apply (nd : Bool) {dim n r : Nat} (hn : n ≤ dim) (hr : r ≤ dim) (hd : dim ≤ 64) {q : Subq}
    {V W : Submodule (ZMod 2) (Nat → ZMod 2)} (h : IsSubq n q V W) {A : BM} (hA : IsMatrix r n A) :
    ∃ q', q.apply nd dim A = .ok q' ∧ IsSubq r q' (V.map (actL A n)) (W.map (actL A n)) := by
  obtain ⟨s, s1, s2⟩ := C34_apply nd hn hr hd h.space hA
  obtain ⟨w, w1, w2⟩ := C34_apply nd hn hr hd h.sub hA
  obtain ⟨l, hl, el⟩ := s2.rep (hr.trans hd)
  obtain ⟨m, hm, em⟩ := w2.rep (hr.trans hd)
  obtain ⟨t, r1, r2⟩ := relSupport_spec hr hd hl hm
  refine ⟨⟨s, w, t⟩, ?_, ?_⟩
  · unfold Subq.apply
    rw [s1, Res.ok_bind, w1, Res.ok_bind, r1]; rfl
  · rw [← el, ← em]
    exact QRep.isSubq ⟨hl, hm, by rw [el, em]; exact Submodule.map_mono h.le, r2⟩

theorem subqMapLoop_spec (nd : Bool) {dim n r : Nat} (hn : n ≤ dim) (hr : r ≤ dim) (hd : dim ≤ 64) {q q' : Subq} {l m l' m' : List (Nat × Nat)}
    (hq : QRep n q l m) (hq' : QRep r q' l' m') {A : BM} (hA : IsMatrix r n A) (hV : ∀ u ∈ sp l, act A n u ∈ sp l') :
    ∀ (J : List Nat), (∀ j ∈ J, j < l.length) → ∀ B c, IsMatrix q'.dimension c B → ∃ R, subqMapLoop nd dim q q' A J B = .ok R ∧
      ∃ C : List Nat, R.cols = B.cols ++ C ∧ IsMatrix q'.dimension (c + J.length) R ∧ C.length = J.length ∧
        ∀ (i j k : Nat) (x : Nat × Nat), J[i]? = some j → (dif l' m')[k]? = some x →
          vec (C.getD i 0) k = rdc m' (act A n (vec (l.getD j (0, 0)).1)) x.2 := by
  intro J
  induction J with
  | nil => intro _ B c hB; exact ⟨B, rfl, [], by simp, hB, rfl, by simp⟩
  | cons j J ih =>
    intro hJ B c hB
    have hj := hJ j List.mem_cons_self
    have hlen := hq.space.red.length_le
    have hb : q.space.basisAt nd j = .ok ⟨(l.getD j (0, 0)).1, n⟩ := by
      unfold Sub.basisAt
      rw [Res.assertIn_bind nd (by rw [hq.space.rank]; simp; omega), hq.space.basis]
      rw [Vec.get_ok (by rw [List.length_map]; exact hj), List.getElem_map, List.getD_eq_getElem?_getD, List.getElem?_eq_getElem hj]
      rfl
    have hx : l.getD j (0, 0) ∈ l := by
      rw [List.getD_eq_getElem?_getD, List.getElem?_eq_getElem hj]
      exact List.getElem_mem hj
    obtain ⟨w, g1, g2, g3⟩ := C33_mulVec nd hn hA (v := ⟨(l.getD j (0, 0)).1, n⟩) ⟨rfl, hq.space.red.lt _ hx⟩
    obtain ⟨w, k⟩ := w
    obtain ⟨rfl, g2⟩ := g2
    simp only at g2 g3 hr hA hq'
    obtain ⟨d, t1, t2, t3⟩ := hq'.toBasis nd hr hd g2 (by rw [g3]; exact hV _ (mem_sp hx))
    have hB' : IsMatrix q'.dimension (c + 1) ⟨B.cols ++ [d], B.rows, B.columns + 1⟩ := by
      refine ⟨hB.rows, by simp [hB.columns], by simp [hB.length], ?_⟩
      intro y hy
      rcases List.mem_append.1 hy with hy | hy
      · exact hB.fits y hy
      · rw [List.mem_singleton.1 hy, hq'.dimension]; exact t2
    obtain ⟨R, r1, C, r2, r3, r4, r5⟩ := ih (fun i hi => hJ i (List.mem_cons_of_mem _ hi)) _ _ hB'
    refine ⟨R, ?_, d :: C, by rw [r2]; simp, by rw [List.length_cons, Nat.add_comm J.length, ← Nat.add_assoc]; exact r3,
      by rw [List.length_cons, List.length_cons, r4], ?_⟩
    · rw [subqMapLoop, hb, Res.ok_bind, g1, Res.ok_bind, Res.assertIn_bind nd (by simp [hq'.space.rank]), t1, Res.ok_bind,
        Res.assertIn_bind nd (by simp [hq'.dimension]), BM.addColumn, Res.assertIn_bind nd (by simp [hB.rows, hq'.dimension]), Res.pure_eq,
        Res.ok_bind, r1]
    · intro i j' k x hi hk
      cases i with
      | zero =>
        rw [List.getElem?_cons_zero, Option.some.injEq] at hi
        subst hi
        rw [List.getD_cons_zero, t3 k x hk, g3]
      | succ i =>
        rw [List.getElem?_cons_succ] at hi
        rw [List.getD_cons_succ]
        exact r5 i j' k x hi hk

theorem rdc_smul (m : List (Nat × Nat)) (c : ZMod 2) (u : Nat → ZMod 2) : rdc m (c • u) = c • rdc m u := by
  unfold rdc; rw [prj_smul, smul_add]

/-- `rdc` as a linear map -/
def rdcL (m : List (Nat × Nat)) : (Nat → ZMod 2) →ₗ[ZMod 2] (Nat → ZMod 2) where
  toFun := rdc m
  map_add' := rdc_add m
  map_smul' := rdc_smul m

/-- C34: if a linear map sends the space and the subspace of one subquotient to those of another, then `subquotientMap`
computes the matrix of the induced map: it sends the coordinates of any element to the coordinates of its image. -/
theorem C34_subquotientMap (nd : Bool) {dim n r : Nat} (hn : n ≤ dim) (hr : r ≤ dim) (hd : dim ≤ 64) {q q' : Subq}
    {V W V' W' : Submodule (ZMod 2) (Nat → ZMod 2)} (h : IsSubq n q V W) (h' : IsSubq r q' V' W') {A : BM} (hA : IsMatrix r n A)
    (hV : ∀ u ∈ V, act A n u ∈ V') (hW : ∀ u ∈ W, act A n u ∈ W') :
    ∃ M, subquotientMap nd dim q q' A = .ok M ∧ IsMatrix q'.dimension q.dimension M ∧
      ∀ v, Fits n v → vec v.data ∈ V → ∃ c w d, q.toBasis nd dim v = .ok c ∧ A.mulVec nd dim v = .ok w ∧
        q'.toBasis nd dim w = .ok d ∧ vec d.data = act M q.dimension (vec c.data) := by
  obtain ⟨l, m, hq, rfl, rfl⟩ := h.rep (hn.trans hd)
  obtain ⟨l', m', hq', rfl, rfl⟩ := h'.rep (hr.trans hd)
  have hJ : ∀ j ∈ QRep.idx q l.length, j < l.length := by
    intro j hj
    unfold QRep.idx at hj
    rw [List.mem_filter, List.mem_range] at hj
    exact hj.1
  have hJl : (QRep.idx q l.length).length = (dif l m).length := by rw [hq.dif_eq, List.length_map]
  have hdl : q'.dimension ≤ dim := by
    rw [hq'.dimension]
    exact (List.length_filter_le _ _).trans (hq'.space.red.length_le.trans hr)
  obtain ⟨M, m1, C, m2, m3, m4, m5⟩ := subqMapLoop_spec nd hn hr hd hq hq' hA hV (QRep.idx q l.length) hJ ⟨[], q'.dimension, 0⟩ 0
    ⟨rfl, rfl, rfl, by simp⟩
  rw [Nat.zero_add, hJl, ← hq.dimension] at m3
  simp only [List.nil_append] at m2
  refine ⟨M, ?_, m3, ?_⟩
  · unfold subquotientMap
    rw [Res.assertIn_bind nd (by simp [hA.columns, hq.space.rank]), Res.assertIn_bind nd (by simp [hA.rows, hq'.space.rank]), BM.zero,
      Res.assertIn_bind nd (by simpa using hdl), Res.pure_eq, Res.ok_bind, hq.members (hn.trans hd)]
    exact m1
  · intro v hv hm
    obtain ⟨v, k⟩ := v
    obtain ⟨rfl, hv⟩ := hv
    simp only at hv hm hn hq hA hV hW m5
    obtain ⟨c, c1, c2, c3⟩ := hq.toBasis nd hn hd hv hm
    obtain ⟨w, w1, w2, w3⟩ := C33_mulVec nd hn hA (v := ⟨v, _⟩) ⟨rfl, hv⟩
    obtain ⟨w, k'⟩ := w
    obtain ⟨rfl, w2⟩ := w2
    simp only at w2 w3 hr hA hq' m5
    obtain ⟨d, d1, d2, d3⟩ := hq'.toBasis nd hr hd w2 (by rw [w3]; exact hV _ hm)
    refine ⟨_, _, _, c1, w1, d1, ?_⟩
    simp only
    -- the coordinates express the class
    have hdm : rdc m (vec v) = lin ((dif l m).map Prod.fst) (vec c) := by
      rw [hq.dif_red.lin_eq c3, hq.dif_red.prj_eq]
      exact hq.mem_dif (Submodule.add_mem _ hm (hq.le (prj_mem _ _))) (hq.sub.red.rdc_apply _)
    have hw0 : rdc m' (vec w) = rdc m' (act A k (lin ((dif l m).map Prod.fst) (vec c))) := by
      have e : act A k (vec v) + act A k (rdc m (vec v)) = act A k (vec v + rdc m (vec v)) := ((actL A k).map_add _ _).symm
      have e0 := rdc_zero hq'.sub.red (hW _ (rdc_mem m (vec v)))
      rw [← e, rdc_add, ← w3, hdm] at e0
      have := congrArg (· + rdc m' (act A k (lin ((dif l m).map Prod.fst) (vec c)))) e0
      simpa [add_assoc, add_self] using this
    funext i
    by_cases hi : i < (dif l' m').length
    · have hx := List.getElem?_eq_getElem hi
      rw [d3 i _ hx, hw0]
      have e1 : act A k (lin ((dif l m).map Prod.fst) (vec c)) = actL A k (lin ((dif l m).map Prod.fst) (vec c)) := rfl
      have e2 : ∀ u, rdc m' u = rdcL m' u := fun _ => rfl
      rw [e1, e2, lin, map_sum, map_sum, Finset.sum_apply, List.length_map, act, hq.dimension]
      apply Finset.sum_congr rfl
      intro j hj
      rw [Finset.mem_range] at hj
      rw [map_smul, map_smul, Pi.smul_apply, smul_eq_mul, mul_comm, entry, m2]
      congr 1
      have hjl : j < (QRep.idx q l.length).length := by omega
      have hjx := List.getElem?_eq_getElem hjl
      rw [m5 j _ i _ hjx hx]
      have : ((dif l m).map Prod.fst).getD j 0 = (l.getD (QRep.idx q l.length)[j] (0, 0)).1 := by
        rw [hq.dif_eq, List.map_map, List.getD_eq_getElem?_getD, List.getElem?_map, hjx]
        rfl
      rw [this]
      rfl
    · rw [vec_eq_zero.2 (testBit_ge d2 (by omega))]
      symm
      unfold act
      apply Finset.sum_eq_zero
      intro j _
      unfold entry
      rw [vec_eq_zero.2 (testBit_ge (m3.col_lt j) (by rw [hq'.dimension]; omega)), zero_mul]

example : let q : Subq := ⟨⟨[⟨0b0101, 4⟩, ⟨0b0110, 4⟩, ⟨0b1000, 4⟩], 0b1011, 4⟩, ⟨[⟨0b1110, 4⟩], 0b0010, 4⟩, 0b101⟩
    subquotientMap false 32 q q ⟨[1, 2, 4, 8], 4, 4⟩ = .ok ⟨[1, 2], 2, 2⟩ := by decide +kernel

end Verif.F2
