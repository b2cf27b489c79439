import Verif.F2.SubLemmas
/-
C34 for subspaces.
-/
namespace Verif.F2
open Verif

/-- C34: the subspace constructed from vectors of size `n` stands for their span. -/
theorem C34_ofVectors (nd : Bool) {dim n : Nat} (hn : n ≤ dim) (hd : dim ≤ 64) (b : List BV) (hb : ∀ v ∈ b, Fits n v) :
    ∃ s, Sub.ofVectors nd dim b n = .ok s ∧ IsSub n s (Span b) := by
  obtain ⟨l, t, h1, h2, h3, h4, _, _, h7⟩ := gaussJordan_spec nd hn hd b hb
  unfold Sub.ofVectors
  have hsz : firstSize b n = true := by
    cases b with
    | nil => rfl
    | cons v b => simpa [firstSize] using (hb v List.mem_cons_self).1
  rw [Res.assertIn_bind nd hsz, h1]
  refine ⟨⟨bvs n l, t, n⟩, rfl, ?_⟩
  rw [← h7]
  exact (Rep.isSub ⟨rfl, rfl, h2, h3, h4⟩)

example : Sub.ofVectors false 32 [⟨0b0101, 4⟩, ⟨0b0110, 4⟩, ⟨0b0011, 4⟩] 4 = .ok ⟨[⟨0b0101, 4⟩, ⟨0b0110, 4⟩], 0b0011, 4⟩ := by decide +kernel

/-- C34: a vector of the wrong size is detected when assertions are active (for the first vector). -/
theorem C34_ofVectors_size {dim n : Nat} (v : BV) (b : List BV) (hv : v.size ≠ n) : Sub.ofVectors false dim (v :: b) n = .assertFail := by
  unfold Sub.ofVectors Res.assertIn firstSize
  simp [hv, Res.assert]

example : (⟨1, 3⟩ : BV).size ≠ 4 := by decide

/-- C34: the subspace constructed from a matrix stands for its image. -/
theorem C34_ofMatrix (nd : Bool) {dim r c : Nat} (hr : r ≤ dim) (hd : dim ≤ 64) {A : BM} (hA : IsMatrix r c A) :
    ∃ s V, Sub.ofMatrix nd dim A = .ok s ∧ IsSub r s V ∧ ∀ u, u ∈ V ↔ ∃ x, act A c x = u := by
  obtain ⟨b, h1, h2, _, h4⟩ := C33_image nd hr hd hA
  obtain ⟨l, t, g1, g2, g3, g4, _, _, g7⟩ := gaussJordan_spec nd hr hd b h2
  unfold Sub.ofMatrix
  rw [h1, Res.ok_bind, g1]
  refine ⟨⟨bvs r l, t, r⟩, sp l, by rw [← hA.rows]; rfl, Rep.isSub ⟨rfl, rfl, g2, g3, g4⟩, ?_⟩
  rw [g7]; exact h4

example : Sub.ofMatrix false 32 ⟨[0b011, 0b101, 0b110], 3, 3⟩ = .ok ⟨[⟨0b101, 3⟩, ⟨0b110, 3⟩], 0b011, 3⟩ := by decide +kernel

theorem C34_zero (n : Nat) : IsSub n (Sub.zero n) ⊥ := by
  refine ⟨rfl, ⟨by simp [Sub.zero], by simp [Sub.zero], by simp [Sub.zero]⟩, ?_⟩
  unfold Span Sub.zero; simp

/-- C34: objects standing for the same subspace are equal, so that comparing them compares the subspaces. -/
theorem C34_unique {n : Nat} (hn : n ≤ 64) {s s' : Sub} {V V' : Submodule (ZMod 2) (Nat → ZMod 2)} (h : IsSub n s V) (h' : IsSub n s' V') :
    s = s' ↔ V = V' := by
  constructor
  · rintro rfl
    rw [← h.span, ← h'.span]
  · rintro rfl
    obtain ⟨l, h1, h2⟩ := h.rep hn
    obtain ⟨l', h1', h2'⟩ := h'.rep hn
    exact h1.unique h1' (h2.trans h2'.symm)

/-- C34: the dimension is that of the subspace, the basis being independent. -/
theorem C34_dimension {n : Nat} (hn : n ≤ 64) {s : Sub} {V : Submodule (ZMod 2) (Nat → ZMod 2)} (h : IsSub n s V) :
    Independent s.basis ∧ s.dimension = s.basis.length ∧ s.dimension ≤ n ∧ ∀ nd j (v : BV), s.basis[j]? = some v → s.basisAt nd j = .ok v := by
  obtain ⟨l, h1, rfl⟩ := h.rep hn
  have hl : s.dimension ≤ n := by rw [Sub.dimension, h1.basis]; simpa using h1.red.length_le
  refine ⟨by rw [h1.basis]; exact h1.red.tri.independent, rfl, hl, ?_⟩
  intro nd j v hj
  have hjl := (List.getElem?_eq_some_iff.1 hj).1
  unfold Sub.basisAt
  rw [Res.assertIn_bind nd (by rw [h1.rank]; unfold Sub.dimension at hl; simp; omega)]
  unfold Vec.get
  rw [hj]

/-- C34, finding: the assertion in `basis(j)` compares with the rank of the ambient space, so that an index beyond the
dimension of the subspace is undefined behaviour even when assertions are active. -/
theorem C34_basis_bound_false : ∃ (s : Sub) (j : Nat), Sub.ofVectors false 32 [⟨0b011, 3⟩] 3 = .ok s ∧ s.dimension ≤ j ∧
    s.basisAt false j = .undefined := ⟨⟨[⟨0b011, 3⟩], 1, 3⟩, 1, by decide +kernel, by decide, by decide⟩

/-- C34: `representative` (also `mod_image`, `mod_reduce`) changes a vector by an element of the subspace and makes its
coordinates at the support 0; only one vector has these properties, and two vectors get the same representative exactly
if their difference (or sum) is in the subspace. -/
theorem C34_representative (nd : Bool) {dim n : Nat} (hn : n ≤ dim) (hd : dim ≤ 64) {s : Sub} {V : Submodule (ZMod 2) (Nat → ZMod 2)}
    (h : IsSub n s V) {v : BV} (hv : Fits n v) : ∃ r, s.representative nd dim v = .ok r ∧ Fits n r ∧ vec v.data + vec r.data ∈ V ∧
      (∀ p, s.support.testBit p = true → vec r.data p = 0) ∧
      (∀ r', Fits n r' → vec v.data + vec r'.data ∈ V → (∀ p, s.support.testBit p = true → vec r'.data p = 0) → r' = r) ∧
      ∀ w, Fits n w → (s.representative nd dim w = .ok r ↔ vec v.data + vec w.data ∈ V) := by
  obtain ⟨l, h1, rfl⟩ := h.rep (hn.trans hd)
  have key : ∀ w, Fits n w → ∃ r, s.representative nd dim w = .ok r ∧ Fits n r ∧ vec w.data + vec r.data ∈ sp l ∧
      (∀ p, s.support.testBit p = true → vec r.data p = 0) := by
    intro w hw
    obtain ⟨w, k⟩ := w
    obtain ⟨rfl, hw⟩ := hw
    obtain ⟨r, g1, g2, g3⟩ := h1.representative nd hn hd hw
    refine ⟨⟨r, _⟩, g1, ⟨rfl, g2⟩, ?_, ?_⟩
    · simp only
      rw [g3, ← add_assoc, add_self, zero_add]
      exact prj_mem _ _
    · intro p hp
      obtain ⟨x, hx, rfl⟩ := List.mem_map.1 ((h1.supp p).1 hp)
      simp only
      rw [g3, Pi.add_apply, h1.red.prj_apply _ hx]
      exact congrFun (add_self (vec w)) x.2
  have uniq : ∀ a b, Fits n a → Fits n b → vec a.data + vec b.data ∈ sp l → (∀ p, s.support.testBit p = true → vec a.data p = 0) →
      (∀ p, s.support.testBit p = true → vec b.data p = 0) → a = b := by
    intro a b ha hb hab h0 h0'
    have : vec a.data + vec b.data = 0 := by
      apply h1.red.tri.zero hab
      intro x hx
      have hp := (h1.supp x.2).2 (List.mem_map_of_mem hx)
      rw [Pi.add_apply, h0 _ hp, h0' _ hp, add_zero]
    have he : vec a.data = vec b.data := by
      have := congrArg (· + vec b.data) this
      simpa [add_assoc, add_self] using this
    obtain ⟨a, k⟩ := a
    obtain ⟨b, k'⟩ := b
    obtain ⟨rfl, _⟩ := ha
    obtain ⟨e, _⟩ := hb
    simp only at e he
    rw [e, vec_inj he]
  have tri : ∀ {a b c : Nat → ZMod 2}, a + b ∈ sp l → a + c ∈ sp l → b + c ∈ sp l := by
    intro a b c hab hac
    have := Submodule.add_mem _ hab hac
    rwa [add_comm a b, add_assoc, ← add_assoc a a c, add_self, zero_add] at this
  obtain ⟨r, g1, g2, g3, g4⟩ := key v hv
  refine ⟨r, g1, g2, g3, g4, ?_, ?_⟩
  · intro r' hr' hm h0
    exact uniq r' r hr' g2 (tri hm g3) h0 g4
  · intro w hw
    obtain ⟨r', k1, k2, k3, k4⟩ := key w hw
    rw [k1]
    constructor
    · intro he
      have : r' = r := by injection he
      subst this
      rw [add_comm] at g3 k3
      exact tri g3 k3
    · intro hm
      rw [uniq r' r k2 g2 ?_ k4 g4]
      have e1 : vec w.data + vec r.data ∈ sp l := tri hm g3
      exact tri k3 e1

example : Fits 4 ⟨0b0111, 4⟩ ∧ (⟨[⟨0b0101, 4⟩, ⟨0b0110, 4⟩], 0b0011, 4⟩ : Sub).representative false 32 ⟨0b0111, 4⟩ = .ok ⟨0b0100, 4⟩ :=
  ⟨⟨rfl, by decide⟩, by decide +kernel⟩

/-- C34: `contains` decides membership. -/
theorem C34_contains (nd : Bool) {dim n : Nat} (hn : n ≤ dim) (hd : dim ≤ 64) {s : Sub} {V : Submodule (ZMod 2) (Nat → ZMod 2)}
    (h : IsSub n s V) {v : BV} (hv : Fits n v) : ∃ b, s.contains nd dim v = .ok b ∧ (b = true ↔ vec v.data ∈ V) := by
  obtain ⟨r, h1, h2, h3, h4, h5, _⟩ := C34_representative nd hn hd h hv
  unfold Sub.contains
  rw [h1]
  refine ⟨r.isZero, rfl, ?_⟩
  unfold BV.isZero
  rw [decide_eq_true_iff]
  constructor
  · intro h0
    rwa [h0, vec_zero, add_zero] at h3
  · intro hm
    rw [← h5 ⟨0, n⟩ ⟨rfl, Nat.pow_pos (by omega)⟩ (by rw [vec_zero, add_zero]; exact hm) (by rw [vec_zero]; intros; rfl)]

/-- C34: `contains` for a list decides whether all are members. -/
theorem C34_containsAll (nd : Bool) {dim n : Nat} (hn : n ≤ dim) (hd : dim ≤ 64) {s : Sub} {V : Submodule (ZMod 2) (Nat → ZMod 2)}
    (h : IsSub n s V) (l : List BV) (hl : ∀ v ∈ l, Fits n v) : ∃ b, s.containsAll nd dim l = .ok b ∧ (b = true ↔ Span l ≤ V) := by
  have hS : Span l ≤ V ↔ ∀ v ∈ l, vec v.data ∈ V := by
    unfold Span
    rw [Submodule.span_le]
    exact ⟨fun h v hv => h ⟨v, hv, rfl⟩, fun h u ⟨v, hv, e⟩ => e ▸ h v hv⟩
  rw [hS]
  clear hS
  induction l with
  | nil => exact ⟨true, rfl, by simp⟩
  | cons v l ih =>
    obtain ⟨b, h1, h2⟩ := C34_contains nd hn hd h (hl v List.mem_cons_self)
    obtain ⟨c, h3, h4⟩ := ih fun w hw => hl w (List.mem_cons_of_mem _ hw)
    rw [Sub.containsAll, h1, Res.ok_bind]
    by_cases hb : b = true
    · rw [if_pos hb, h3]
      refine ⟨c, rfl, ?_⟩
      rw [h4]
      simp [h2.1 hb]
    · rw [if_neg hb]
      refine ⟨false, rfl, ?_⟩
      have : vec v.data ∉ V := fun hm => hb (h2.2 hm)
      simp [this]

example : (⟨[⟨0b0101, 4⟩, ⟨0b0110, 4⟩], 0b0011, 4⟩ : Sub).containsAll false 32 [⟨0b0011, 4⟩, ⟨0b0110, 4⟩] = .ok true ∧
    (⟨[⟨0b0101, 4⟩, ⟨0b0110, 4⟩], 0b0011, 4⟩ : Sub).containsAll false 32 [⟨0b0011, 4⟩, ⟨0b0111, 4⟩] = .ok false := by decide +kernel

theorem Rep.toBasis (nd : Bool) {dim n : Nat} (hn : n ≤ dim) (hd : dim ≤ 64) {s : Sub} {l : List (Nat × Nat)} (h : Rep n s l)
    {v : Nat} (hv : v < 2 ^ n) (hm : vec v ∈ sp l) : ∃ c, s.toBasis nd dim ⟨v, n⟩ = .ok ⟨c, l.length⟩ ∧ c < 2 ^ l.length ∧
      ∀ (i : Nat) (x : Nat × Nat), l[i]? = some x → c.testBit i = v.testBit x.2 := by
  obtain ⟨c, h1, h2, h3⟩ := h.slice hn hd v
  refine ⟨c, ?_, h2, h3⟩
  unfold Sub.toBasis
  have : (if nd then pure true else s.contains nd dim ⟨v, n⟩ : Res Bool) = .ok true := by
    cases nd with
    | true => rfl
    | false =>
      obtain ⟨b, g1, g2⟩ := C34_contains false hn hd h.isSub (v := ⟨v, n⟩) ⟨rfl, hv⟩
      rw [if_neg (by simp), g1, g2.2 hm]
  rw [this, Res.ok_bind, Res.assertIn_bind nd rfl, h1, Res.ok_bind, Res.assertIn_bind nd (by simp [Sub.dimension, h.basis])]
  rfl

theorem Rep.fromBasis (nd : Bool) {dim n : Nat} (hn : n ≤ dim) {s : Sub} {l : List (Nat × Nat)} (h : Rep n s l)
    {c : Nat} : ∃ v, s.fromBasis nd dim ⟨c, l.length⟩ = .ok ⟨v, n⟩ ∧ v < 2 ^ n ∧ vec v = lin (l.map Prod.fst) (vec c) := by
  unfold Sub.fromBasis
  rw [Res.assertIn_bind nd (by simp [Sub.dimension, h.basis]), h.basis, h.rank]
  exact combination_spec nd hn h.red c

theorem Rep.dimension {n : Nat} {s : Sub} {l : List (Nat × Nat)} (h : Rep n s l) : s.dimension = l.length := by
  rw [Sub.dimension, h.basis, List.length_map]

theorem testBit_ge {x n i : Nat} (hx : x < 2 ^ n) (hi : n ≤ i) : x.testBit i = false := by
  cases h : x.testBit i with
  | false => rfl
  | true => have := testBit_lt hx h; omega

/-- C34: for elements of the subspace `toBasis` gives coordinates on the basis, and `fromBasis` recovers the element. -/
theorem C34_toBasis (nd : Bool) {dim n : Nat} (hn : n ≤ dim) (hd : dim ≤ 64) {s : Sub} {V : Submodule (ZMod 2) (Nat → ZMod 2)}
    (h : IsSub n s V) {v : BV} (hv : Fits n v) (hm : vec v.data ∈ V) : ∃ c, s.toBasis nd dim v = .ok c ∧ Fits s.dimension c ∧
      s.fromBasis nd dim c = .ok v := by
  obtain ⟨l, h1, rfl⟩ := h.rep (hn.trans hd)
  obtain ⟨v, k⟩ := v
  obtain ⟨rfl, hv⟩ := hv
  obtain ⟨c, g1, g2, g3⟩ := h1.toBasis nd hn hd hv hm
  obtain ⟨w, k1, k2, k3⟩ := h1.fromBasis nd hn (c := c)
  refine ⟨_, g1, ⟨h1.dimension.symm, by rw [h1.dimension]; exact g2⟩, ?_⟩
  rw [k1]
  have : vec w = vec v := by
    rw [k3, h1.red.lin_eq (u := vec v), h1.red.prj_eq hm]
    intro i x hx
    rw [vec_apply, vec_apply, g3 i x hx]
  rw [vec_inj this]

/-- C34: `toBasis` of a vector that is not in the subspace is detected when assertions are active. -/
theorem C34_toBasis_outside {dim n : Nat} (hn : n ≤ dim) (hd : dim ≤ 64) {s : Sub} {V : Submodule (ZMod 2) (Nat → ZMod 2)}
    (h : IsSub n s V) {v : BV} (hv : Fits n v) (hm : vec v.data ∉ V) : s.toBasis false dim v = .assertFail := by
  obtain ⟨b, g1, g2⟩ := C34_contains false hn hd h hv
  unfold Sub.toBasis
  have hb : b = false := by
    cases b with
    | false => rfl
    | true => exact absurd (g2.1 rfl) hm
  rw [if_neg (by simp), g1, hb]
  rfl

/-- C34: `fromBasis` gives the element of the subspace with given coordinates, and `toBasis` recovers these. -/
theorem C34_fromBasis (nd : Bool) {dim n : Nat} (hn : n ≤ dim) (hd : dim ≤ 64) {s : Sub} {V : Submodule (ZMod 2) (Nat → ZMod 2)}
    (h : IsSub n s V) {c : BV} (hc : Fits s.dimension c) : ∃ v, s.fromBasis nd dim c = .ok v ∧ Fits n v ∧ vec v.data ∈ V ∧
      vec v.data = ∑ j ∈ Finset.range s.dimension, vec c.data j • vec (s.basis.getD j ⟨0, n⟩).data ∧ s.toBasis nd dim v = .ok c := by
  obtain ⟨l, h1, rfl⟩ := h.rep (hn.trans hd)
  obtain ⟨c, k⟩ := c
  obtain ⟨e, hc⟩ := hc
  simp only at e hc
  obtain ⟨v0, q1, _, q3⟩ := C33_combination nd (dim := dim) (n := n) c s.basis (by rw [h1.basis]; exact h1.red.fits)
    (by have := h1.red.length_le; rw [h1.basis]; simp; omega)
  rw [h1.dimension] at e hc
  subst e
  obtain ⟨v, g1, g2, g3⟩ := h1.fromBasis nd hn (c := c)
  have hmem : vec v ∈ sp l := by rw [g3]; exact lin_mem _ _
  obtain ⟨c', k1, k2, k3⟩ := h1.toBasis nd hn hd g2 hmem
  refine ⟨_, g1, ⟨rfl, g2⟩, hmem, ?_, ?_⟩
  · have : v0 = ⟨v, n⟩ := by
      unfold Sub.fromBasis at g1
      rw [Res.assertIn_bind nd (by simp [h1.dimension]), h1.rank] at g1
      simp only at g1
      rw [q1] at g1
      injection g1
    rw [this] at q3
    exact q3
  · rw [k1]
    congr 2
    apply Nat.eq_of_testBit_eq
    intro i
    by_cases hi : i < l.length
    · have hx := List.getElem?_eq_getElem hi
      rw [k3 i _ hx]
      have := h1.red.lin_apply (vec c) hx
      rw [← g3] at this
      rw [Bool.eq_iff_iff, ← vec_eq_one, ← vec_eq_one, this]
    · rw [testBit_ge k2 (by omega), testBit_ge hc (by omega)]

example : let s : Sub := ⟨[⟨0b0101, 4⟩, ⟨0b0110, 4⟩], 0b0011, 4⟩
    Fits s.dimension ⟨0b11, 2⟩ ∧ s.fromBasis false 32 ⟨0b11, 2⟩ = .ok ⟨0b0011, 4⟩ ∧ s.toBasis false 32 ⟨0b0011, 4⟩ = .ok ⟨0b11, 2⟩ ∧
      s.toBasis false 32 ⟨0b0111, 4⟩ = .assertFail := ⟨⟨rfl, by decide⟩, by decide +kernel⟩

/-- C34: the linear map of a matrix applied to a subspace gives its image. -/
theorem C34_apply (nd : Bool) {dim n r : Nat} (hn : n ≤ dim) (hr : r ≤ dim) (hd : dim ≤ 64) {s : Sub}
    {V : Submodule (ZMod 2) (Nat → ZMod 2)} (h : IsSub n s V) {A : BM} (hA : IsMatrix r n A) :
    ∃ s', s.apply nd dim A = .ok s' ∧ IsSub r s' (V.map (actL A n)) := by
  have hloop : ∀ b : List BV, (∀ v ∈ b, Fits n v) → ∃ b', applyLoop nd dim A b = .ok b' ∧ (∀ v ∈ b', Fits r v) ∧
      Span b' = (Span b).map (actL A n) := by
    intro b
    induction b with
    | nil =>
      intro _
      refine ⟨[], rfl, by simp, ?_⟩
      have : Span [] = ⊥ := by unfold Span; simp
      rw [this, Submodule.map_bot]
    | cons v b ih =>
      intro hb
      have hc : ∀ (w : BV) l, Span (w :: l) = Submodule.span (ZMod 2) {vec w.data} ⊔ Span l := by
        intro w l
        unfold Span
        rw [← Submodule.span_union]
        congr 1
        ext u; simp [eq_comm]
      obtain ⟨w, h1, h2, h3⟩ := C33_mulVec nd hn hA (hb v List.mem_cons_self)
      obtain ⟨b', h4, h5, h6⟩ := ih fun w hw => hb w (List.mem_cons_of_mem _ hw)
      refine ⟨w :: b', ?_, ?_, ?_⟩
      · rw [applyLoop, h1, Res.ok_bind, Res.assertIn_bind nd (by simp [h2.1, hA.rows]), h4]; rfl
      · intro x hx
        rcases List.mem_cons.1 hx with rfl | hx
        · exact h2
        · exact h5 x hx
      · rw [hc, hc, h6, Submodule.map_sup, Submodule.map_span, Set.image_singleton, h3]; rfl
  obtain ⟨b', h1, h2, h3⟩ := hloop s.basis h.reduced.fits
  unfold Sub.apply
  rw [Res.assertIn_bind nd (by simp [hA.columns, h.rank]), h1, Res.ok_bind, hA.rows]
  obtain ⟨s', g1, g2⟩ := C34_ofVectors nd hr hd b' h2
  refine ⟨s', g1, ?_⟩
  rw [h3, h.span] at g2
  exact g2

example : IsMatrix 3 4 ⟨[0b011, 0b101, 0b110, 0b111], 3, 4⟩ ∧
    (⟨[⟨0b0101, 4⟩, ⟨0b0110, 4⟩], 0b0011, 4⟩ : Sub).apply false 32 ⟨[0b011, 0b101, 0b110, 0b111], 3, 4⟩ = .ok ⟨[⟨0b101, 3⟩, ⟨0b110, 3⟩], 0b011, 3⟩ :=
  ⟨⟨rfl, rfl, rfl, by decide⟩, by decide +kernel⟩

theorem perpLoop_spec (nd : Bool) {dim n : Nat} (hn : n ≤ dim) (hd : dim ≤ 64) {s : Sub} {l : List (Nat × Nat)} (h : Rep n s l) :
    ∃ k : Nat → Nat, (∀ j < n, j ∉ piv l → KV n l j (k j)) ∧
      ∀ J : List Nat, (∀ j ∈ J, j < n) → perpLoop nd dim s J = .ok (J.map fun i => ⟨k i, n⟩) := by
  have hex : ∀ j : Nat, ∃ k, j < n → (copyLoop nd dim j (piv l) (bvs n l) ⟨putBit 0 j true, n⟩ = .ok ⟨k, n⟩ ∧ (j ∉ piv l → KV n l j k)) := by
    intro j
    by_cases hj : j < n
    · obtain ⟨k, h1, h2, h3, h4⟩ := copyLoop_spec nd hn hj l (fun x hx => h.red.pos hx) h.red.distinct (putBit 0 j true)
        (putBit_lt (Nat.pow_pos (by omega)) hj)
      refine ⟨k, fun _ => ⟨h1, fun hjl => ⟨h2, h3, fun i hi => ?_⟩⟩⟩
      rw [h4 i hi, testBit_putBit, Nat.zero_testBit]
      by_cases he : i = j <;> simp [he]
    · exact ⟨0, fun h => absurd h hj⟩
  choose k hk using hex
  refine ⟨k, fun j hj hjl => (hk j hj).2 hjl, ?_⟩
  intro J
  induction J with
  | nil => intro _; rfl
  | cons j J ih =>
    intro hJ
    have hj := hJ j List.mem_cons_self
    rw [perpLoop, BV.unit, BV.zero, h.rank, BV.set_ok nd 0 hj hn, Res.ok_bind, h.members (hn.trans hd), h.basis, (hk j hj).1, Res.ok_bind,
      ih (fun i hi => hJ i (List.mem_cons_of_mem _ hi)), Res.ok_bind]
    rfl

/-- C34: `basis_perp` returns a basis of the orthogonal complement. -/
theorem C34_basisPerp (nd : Bool) {dim n : Nat} (hn : n ≤ dim) (hd : dim ≤ 64) {s : Sub} {V : Submodule (ZMod 2) (Nat → ZMod 2)}
    (h : IsSub n s V) : ∃ b, s.basisPerp nd dim = .ok b ∧ (∀ v ∈ b, Fits n v) ∧ Independent b ∧ b.length = n - s.dimension ∧
      ∀ u, u ∈ Span b ↔ (∀ i, n ≤ i → u i = 0) ∧ ∀ w ∈ V, ∑ i ∈ Finset.range n, w i * u i = 0 := by
  obtain ⟨l, h1, rfl⟩ := h.rep (hn.trans hd)
  obtain ⟨k, k1, k2⟩ := perpLoop_spec nd hn hd h1
  have hlt : s.support < 2 ^ n := by
    apply lt_of_bits
    intro i hi
    by_contra hc
    obtain ⟨x, hx, rfl⟩ := List.mem_map.1 ((h1.supp i).1 (by simpa using hc))
    have := h1.red.pos hx; omega
  have hbit : ∀ i, (s.support ^^^ Bits.ltMask n).testBit i = decide (i < n ∧ i ∉ piv l) := by
    intro i
    rw [Nat.testBit_xor, (Bits.C18_masks n i).2.1]
    by_cases hi : i ∈ piv l
    · obtain ⟨x, hx, rfl⟩ := List.mem_map.1 hi
      rw [(h1.supp _).2 hi]
      simp [h1.red.pos hx, hi]
    · have : s.support.testBit i = false := by
        have := mt (h1.supp i).1 hi
        simpa using this
      rw [this]
      simp [hi]
  have hmem : members (s.support ^^^ Bits.ltMask n) = (List.range n).filter fun i => i ∉ piv l := by
    apply members_spec (List.Pairwise.filter _ List.pairwise_lt_range)
    · intro p
      rw [hbit, List.mem_filter, List.mem_range]
      simp
    · intro p hp
      rw [List.mem_filter, List.mem_range] at hp
      omega
  have hJ : ∀ j ∈ (List.range n).filter (fun i => i ∉ piv l), j < n ∧ j ∉ piv l := by
    intro j hj
    rw [List.mem_filter, List.mem_range] at hj
    exact ⟨hj.1, by simpa using hj.2⟩
  have hcnt : ((List.range n).filter fun i => i ∉ piv l).length = n - l.length := by
    have e := h1.filter
    have e2 : ((List.range n).filter fun i => i ∉ piv l) = (List.range n).filter fun i => !(s.support.testBit i) := by
      apply List.filter_congr
      intro i _
      rw [Bool.eq_iff_iff]
      simp [← h1.supp i]
    have e3 : (List.filter (fun i => s.support.testBit i) (List.range n)).length +
        (List.filter (fun i => !(s.support.testBit i)) (List.range n)).length = (List.range n).length :=
      (List.length_eq_length_filter_add _).symm
    rw [e, List.length_map, List.length_range] at e3
    rw [e2]; omega
  refine ⟨((List.range n).filter fun i => i ∉ piv l).map fun i => ⟨k i, n⟩, ?_, ?_, ?_, ?_, ?_⟩
  · unfold Sub.basisPerp Sub.supportPerp
    rw [h1.rank, BitSet.ltM_ok (hn.trans hd), Res.ok_bind, Res.pure_eq, Res.ok_bind, hmem, k2 _ fun j hj => (hJ j hj).1]
  · intro v hv
    obtain ⟨j, hj, rfl⟩ := List.mem_map.1 hv
    exact ⟨rfl, (k1 j (hJ j hj).1 (hJ j hj).2).lt⟩
  · exact KV.independent (List.Nodup.filter _ List.nodup_range) fun j hj => ⟨(hJ j hj).2, k1 j (hJ j hj).1 (hJ j hj).2⟩
  · rw [List.length_map, hcnt, h1.dimension]
  · intro u
    have hS : Span (((List.range n).filter fun i => i ∉ piv l).map fun i => ⟨k i, n⟩) =
        Submodule.span (ZMod 2) {w | ∃ j < n, j ∉ piv l ∧ vec (k j) = w} := by
      unfold Span
      congr 1
      ext w
      constructor
      · rintro ⟨b, hb, rfl⟩
        obtain ⟨j, hj, rfl⟩ := List.mem_map.1 hb
        exact ⟨j, (hJ j hj).1, (hJ j hj).2, rfl⟩
      · rintro ⟨j, hj1, hj2, rfl⟩
        refine ⟨_, List.mem_map.2 ⟨j, ?_, rfl⟩, rfl⟩
        rw [List.mem_filter, List.mem_range]
        exact ⟨by omega, by simpa using hj2⟩
    rw [hS, KV.span h1.red k1]
    refine and_congr_right fun _ => ?_
    have e1 : (∀ x ∈ l, dotN n (vec x.1) u = 0) ↔ ∀ w ∈ sp l, dotN n w u = 0 := by
      unfold sp
      rw [dotN_span]
      exact ⟨fun h w ⟨x, hx, e⟩ => e ▸ h x hx, fun h x hx => h _ ⟨x, hx, rfl⟩⟩
    rw [e1]; rfl

example : (⟨[⟨0b0101, 4⟩, ⟨0b0110, 4⟩], 0b0011, 4⟩ : Sub).basisPerp false 32 = .ok [⟨0b0111, 4⟩, ⟨0b1000, 4⟩] := by decide +kernel

end Verif.F2
