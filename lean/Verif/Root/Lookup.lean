import Verif.Root.Long
/-
Looking up roots by their coefficients, sums of roots, and additive closure.
-/
namespace Verif.Root
open Verif.Coxeter CoxeterSystem

section
variable {rk : Nat} {nd : Bool} {N : Nat} {X : Nat → Fin rk → ℤ} {rs : RS}

theorem firstNonzero_none {v : BV} : RS.firstNonzero v = none ↔ ∀ x ∈ v, x = 0 := by
  induction v with
  | nil => simp [RS.firstNonzero]
  | cons x v ih =>
    rw [RS.firstNonzero]
    by_cases hx : x = 0
    · rw [if_neg (by simpa using hx), ih]
      simp [hx]
    · rw [if_pos hx]
      simp [hx]

theorem firstNonzero_some {v : BV} {x : ℤ} (hx : RS.firstNonzero v = some x) : x ∈ v ∧ x ≠ 0 := by
  induction v with
  | nil => simp [RS.firstNonzero] at hx
  | cons y v ih =>
    rw [RS.firstNonzero] at hx
    by_cases hy : y = 0
    · rw [if_neg (by simpa using hy)] at hx
      exact ⟨by simp [(ih hx).1], (ih hx).2⟩
    · rw [if_pos hy] at hx
      injection hx with hx
      exact ⟨by simp [hx], hx ▸ hy⟩

theorem mem_enc {v : Fin rk → ℤ} {x : ℤ} : x ∈ enc v ↔ ∃ i, v i = x := by
  rw [enc, List.mem_ofFn]

/-- half a list of vectors `X k`, negative for `k < N` and positive for `N ≤ k` -/
structure Half (N : Nat) (X : Nat → Fin rk → ℤ) : Prop where
  inj : ∀ k < 2 * N, ∀ l < 2 * N, X k = X l → k = l
  pos : ∀ k < 2 * N, N ≤ k → ∀ i, 0 ≤ X k i
  neg : ∀ k < 2 * N, X (2 * N - 1 - k) = -X k
  ne : ∀ k < 2 * N, X k ≠ 0
  dbl : ∀ k < 2 * N, ∀ m < 2 * N, X m ≠ X k + X k

theorem Half.lookupPos (H : Half N X) {vecs : List BV} (hv : vecs = (List.range N).map fun a => enc (X (N + a))) :
    (∀ a < N, lookupPos (enc (X (N + a))) vecs 0 = a) ∧ ∀ v, (∀ k < 2 * N, X k ≠ v) → lookupPos (enc v) vecs 0 = N := by
  constructor
  · intro a ha
    rw [lookupPos_eq, Nat.zero_add, hv]
    have hmem : enc (X (N + a)) ∈ (List.range N).map fun a => enc (X (N + a)) := List.mem_map.mpr ⟨a, List.mem_range.mpr ha, rfl⟩
    have hlt := List.idxOf_lt_length_iff.mpr hmem
    have hget := List.getElem_idxOf hlt
    rw [List.length_map, List.length_range] at hlt
    rw [List.getElem_map, List.getElem_range] at hget
    have := H.inj _ (by omega) _ (by omega) (enc_inj.mp hget)
    omega
  · intro v hx
    rw [lookupPos_eq, Nat.zero_add, hv, List.idxOf_eq_length]
    · simp
    · intro hc
      obtain ⟨a, ha, e⟩ := List.mem_map.mp hc
      have := List.mem_range.mp ha
      exact hx (N + a) (by omega) (enc_inj.mp e)

/-- what the lookup functions return: the number of the negative of the root they were asked for -/
theorem Half.lookupIn (H : Half N X) {vecs : List BV} (hv : vecs = (List.range N).map fun a => enc (X (N + a))) (hn : rs.numPos = N) (nd : Bool) :
    (∀ k < 2 * N, rs.lookupIn nd vecs (enc (X k)) = .ok (2 * N - 1 - k)) ∧ ∀ v, (∀ k < 2 * N, X k ≠ v) → rs.lookupIn nd vecs (enc v) = .ok (2 * N) := by
  obtain ⟨h1, h2⟩ := H.lookupPos hv
  have hneg : ∀ v : Fin rk → ℤ, (enc v).map (-·) = enc (-v) := fun v => map_enc v _
  constructor
  · intro k hk
    rw [RS.lookupIn]
    cases hf : RS.firstNonzero (enc (X k)) with
    | none =>
      rw [firstNonzero_none] at hf
      exact absurd (funext fun i => hf _ (mem_enc.mpr ⟨i, rfl⟩)) (H.ne k hk)
    | some x =>
      obtain ⟨f1, f2⟩ := firstNonzero_some hf
      obtain ⟨i, hi⟩ := mem_enc.mp f1
      dsimp only
      by_cases hkN : N ≤ k
      · have := H.pos k hk hkN i
        obtain ⟨a, rfl⟩ := Nat.exists_eq_add_of_le hkN
        have hx : ¬ x < 0 := by omega
        rw [decide_eq_false hx, show ((if false = true then (enc (X (N + a))).map (-·) else enc (X (N + a))) = enc (X (N + a))) from rfl, h1 a (by omega), hn, if_neg (by omega), if_neg (by simp), RS.negNbr, Res.assertIn_bind nd (decide_eq_true (by omega)), hn]
        congr 1
        omega
      · have h3 := H.pos (2 * N - 1 - k) (by omega) (by omega) i
        have h4 := H.neg k hk
        rw [h4, Pi.neg_apply] at h3
        have hx : x < 0 := by omega
        obtain ⟨a, ha⟩ : ∃ a, 2 * N - 1 - k = N + a := ⟨N - 1 - k, by omega⟩
        rw [decide_eq_true hx, if_pos rfl, hneg, ← h4, ha, h1 a (by omega), hn, if_neg (by omega), if_pos rfl, RS.posNbr, Res.assertIn_bind nd (decide_eq_true (by omega)), hn]
  · intro v hvx
    rw [RS.lookupIn]
    have hr : rs.numRoots = 2 * N := by rw [RS.numRoots, hn]
    cases hf : RS.firstNonzero (enc v) with
    | none => exact congrArg Res.ok hr
    | some x =>
      dsimp only
      have hvx' : ∀ k < 2 * N, X k ≠ -v := by
        intro k hk e
        refine hvx (2 * N - 1 - k) (by omega) ?_
        rw [H.neg k hk, e, neg_neg]
      have : Root.lookupPos (if decide (x < 0) = true then (enc v).map (-·) else enc v) vecs 0 = N := by
        by_cases hx : decide (x < 0) = true
        · rw [if_pos hx, hneg, h2 _ hvx']
        · rw [if_neg hx, h2 _ hvx]
      rw [this, hn, if_pos rfl, hr]

theorem Half.any (H : Half N X) {vecs : List BV} (hv : vecs = (List.range N).map fun a => enc (X (N + a))) (hn : rs.numPos = N) {k : Nat} (hk : k < 2 * N) :
    (if rs.isPos k then Vec.get vecs (k - rs.numPos) else do .ok ((← Vec.get vecs (rs.numPos - 1 - k)).map (-·)) : Res BV) = .ok (enc (X k)) := by
  rw [RS.isPos, hn]
  by_cases hkN : N ≤ k
  · rw [if_pos (decide_eq_true hkN), hv, row_get _ (by omega), show N + (k - N) = k by omega]
  · have h4 := H.neg k hk
    rw [if_neg (by simpa using hkN), hv, row_get _ (by omega), Res.ok_bind, map_enc, show N + (N - 1 - k) = 2 * N - 1 - k by omega, h4]
    simp

theorem addV_enc (v w : Fin rk → ℤ) : RS.addV (enc v) (enc w) = enc (v + w) := by
  apply List.ext_getElem
  · simp [RS.addV, enc]
  · intro i h1 h2
    simp [RS.addV, enc]

end

section
variable {rk : Nat} {M : CoxeterMatrix (Fin rk)} {W : Type} [Group W] {cs : CoxeterSystem M W} {C : Fin rk → Fin rk → ℤ} {h : IsCartan C M}
variable {nd pc : Bool} {N : Nat} {R R' : Nat → Fin rk → ℤ} {rs : RS}

theorem Spec.Numbering.half (hN : Spec.Numbering C pc N R R') (cs : CoxeterSystem M W) (h : IsCartan C M) : Half N R ∧ Half N R' := by
  refine ⟨⟨hN.inj, fun k hk hn i => (hN.pos k hk hn i).1, fun k hk => (hN.minus hk).1, fun k hk => ?_, fun k hk m hm e => ?_⟩,
    ⟨fun k hk l hl e => ?_, fun k hk hn i => (hN.pos k hk hn i).2, fun k hk => (hN.minus hk).2, fun k hk => ?_, fun k hk m hm e => ?_⟩⟩
  · obtain ⟨t, ht⟩ := hN.isRoot cs h hk
    exact ht.ne_zero
  · obtain ⟨t, ht⟩ := hN.isRoot cs h hm
    rw [← two_zsmul] at e
    have := ht.primitive e
    omega
  · obtain ⟨t, ht⟩ := hN.isRoot cs h hk
    obtain ⟨u, hu⟩ := hN.isRoot cs h hl
    rw [e] at ht
    exact hN.inj k hk l hl (ht.unique_dual hu).1
  · obtain ⟨t, ht⟩ := hN.isRoot cs h hk
    exact ht.dual.ne_zero
  · obtain ⟨t, ht⟩ := hN.isRoot cs h hm
    rw [← two_zsmul] at e
    have := ht.dual.primitive e
    omega

/-- the lists stored -/
theorem Spec.Answers.stored (hA : Spec.Answers nd C pc N R R' rs) (hl : rs.coroots.length = rs.roots.length) :
    rs.roots = ((List.range N).map fun a => enc (R (N + a))) ∧ rs.coroots = (List.range N).map fun a => enc (R' (N + a)) := by
  have hn := hA.numPos
  rw [RS.numPos] at hn
  have hab : ∀ a, rs.rtAbs (N + a) = a := by
    intro a
    rw [RS.rtAbs, if_pos ((acc_isPos hA _).mpr (by omega)), hA.numPos]
    omega
  have hng : ∀ a, rs.isNeg (N + a) = false := by
    intro a
    rw [RS.isNeg, hA.numPos]
    simp
  constructor
  · apply List.ext_getElem
    · simp [hn]
    · intro a h1 h2
      have := hA.rootExpr (N + a) (by omega)
      rw [RS.rootExpr, hab, hng, Vec.get_ok h1, Res.ok_bind] at this
      simpa [enc] using this
  · apply List.ext_getElem
    · simp [hl, hn]
    · intro a h1 h2
      have := hA.corootExpr (N + a) (by omega)
      rw [RS.corootExpr, hab, hng, Vec.get_ok h1, Res.ok_bind] at this
      simpa [enc] using this

/-- `root_add` and `coroot_add` -/
theorem add_ok (hN : Spec.Numbering C pc N R R') (hA : Spec.Answers nd C pc N R R' rs) (hl : rs.coroots.length = rs.roots.length) (cs : CoxeterSystem M W) (h : IsCartan C M)
    {a b : Nat} (ha : a < 2 * N) (hb : b < 2 * N) :
    ((∀ m < 2 * N, R m = R a + R b → rs.rootAdd nd a b = .ok (2 * N - 1 - m)) ∧ ((∀ m < 2 * N, R m ≠ R a + R b) → rs.rootAdd nd a b = .ok (2 * N))) ∧
    ((∀ m < 2 * N, R' m = R' a + R' b → rs.corootAdd nd a b = .ok (2 * N - 1 - m)) ∧ ((∀ m < 2 * N, R' m ≠ R' a + R' b) → rs.corootAdd nd a b = .ok (2 * N))) := by
  obtain ⟨H, H'⟩ := hN.half cs h
  obtain ⟨s1, s2⟩ := hA.stored hl
  obtain ⟨l1, l2⟩ := H.lookupIn s1 hA.numPos nd
  obtain ⟨l1', l2'⟩ := H'.lookupIn s2 hA.numPos nd
  have e1 : rs.rootAdd nd a b = rs.lookupIn nd rs.roots (enc (R a + R b)) := by
    have a1 : rs.rootAny a = .ok (enc (R a)) := H.any s1 hA.numPos ha
    have a2 : rs.rootAny b = .ok (enc (R b)) := H.any s1 hA.numPos hb
    rw [RS.rootAdd, a1, Res.ok_bind, a2, Res.ok_bind, addV_enc]
  have e2 : rs.corootAdd nd a b = rs.lookupIn nd rs.coroots (enc (R' a + R' b)) := by
    have a1 : rs.corootAny a = .ok (enc (R' a)) := H'.any s2 hA.numPos ha
    have a2 : rs.corootAny b = .ok (enc (R' b)) := H'.any s2 hA.numPos hb
    rw [RS.corootAdd, a1, Res.ok_bind, a2, Res.ok_bind, addV_enc]
  rw [e1, e2]
  exact ⟨⟨fun m hm e => by rw [← e]; exact l1 m hm, l2 _⟩, ⟨fun m hm e => by rw [← e]; exact l1' m hm, l2' _⟩⟩

/-! ### additive closure -/

/-- numbers of the smallest set of vectors among the `X k` that contains the set `P`, the negatives of its elements, and the sums of two of its elements -/
inductive Spec.Closure {rk : Nat} (N : Nat) (X : Nat → Fin rk → ℤ) (P : Nat → Prop) : Nat → Prop
  | base {k : Nat} : k < 2 * N → P k → Closure N X P k
  | neg {k l : Nat} : l < 2 * N → Closure N X P k → (∀ i, X l i = -X k i) → Closure N X P l
  | add {k l m : Nat} : m < 2 * N → Closure N X P k → Closure N X P l → (∀ i, X m i = X k i + X l i) → Closure N X P m

section
variable {X : Nat → Fin rk → ℤ} {P : Nat → Prop}

theorem closure_lt {k : Nat} (hk : Spec.Closure N X P k) : k < 2 * N := by
  cases hk <;> assumption

/-- what the inner loops insert -/
def SumOk (nd co : Bool) (rs : RS) (N : Nat) (X : Nat → Fin rk → ℤ) : Prop :=
  ∀ a < 2 * N, ∀ b < 2 * N, ∃ x, (if co then rs.sumIsCoroot a b else rs.sumIsRoot a b : Res Bool) = .ok x ∧ (x = true ↔ ∃ m < 2 * N, X m = X a + X b) ∧
    ∀ m < 2 * N, X m = X a + X b → (if co then rs.corootAdd nd a b else rs.rootAdd nd a b : Res Nat) = .ok (2 * N - 1 - m)

/-- `s'` is obtained from `s` by inserting elements of `Q` -/
def Grows (Q : Nat → Prop) (s s' : List Bool) : Prop := s'.length = s.length ∧ (∀ k, RS.bit s k = true → RS.bit s' k = true) ∧ ∀ k, RS.bit s' k = true → RS.bit s k = true ∨ Q k

theorem Grows.refl {Q : Nat → Prop} (s : List Bool) : Grows Q s s := ⟨rfl, fun _ => id, fun _ => .inl⟩

theorem Grows.trans {Q : Nat → Prop} {s t u : List Bool} (h1 : Grows Q s t) (h2 : Grows Q t u) : Grows Q s u :=
  ⟨h2.1.trans h1.1, fun k hk => h2.2.1 k (h1.2.1 k hk), fun k hk => (h2.2.2 k hk).elim (h1.2.2 k) .inr⟩

theorem bitSet_grows {Q : Nat → Prop} {s : List Bool} {m : Nat} (hm : m < s.length) (hq : Q m) : ∃ s', bitSet s m = .ok s' ∧ Grows Q s s' ∧ RS.bit s' m = true := by
  obtain ⟨s', h1, h2⟩ := bits_put (b := s) (P := fun k => RS.bit s k = true) ⟨rfl, fun k _ => Iff.rfl⟩ hm true
  have h3 : ∀ k < s.length, RS.bit s' k = true ↔ if k = m then True else RS.bit s k = true := by
    intro k hk
    rw [h2.2 k hk]
    by_cases hkm : k = m <;> simp [hkm]
  refine ⟨s', h1, ⟨h2.1, fun k hk => ?_, fun k hk => ?_⟩, ?_⟩
  · rw [h3 k (bit_lt hk)]
    by_cases hkm : k = m
    · rw [if_pos hkm]
      trivial
    · rwa [if_neg hkm]
  · rw [h3 k (by rw [← h2.1]; exact bit_lt hk)] at hk
    by_cases hkm : k = m
    · exact .inr (hkm ▸ hq)
    · rw [if_neg hkm] at hk
      exact .inl hk
  · rw [h3 m hm, if_pos rfl]
    trivial

theorem count_le_of_grows {Q : Nat → Prop} : ∀ {s s' : List Bool}, Grows Q s s' → s.count true ≤ s'.count true ∧ (s'.count true ≤ s.count true → s' = s)
  | [], s', hg => by
    have : s' = [] := List.length_eq_zero_iff.mp hg.1
    subst this
    simp
  | a :: s, s', hg => by
    cases s' with
    | nil => exact absurd hg.1 (by simp)
    | cons b s' =>
      have hg' : Grows (fun k => Q (k + 1)) s s' := by
        refine ⟨by simpa using hg.1, fun k hk => ?_, fun k hk => ?_⟩
        · have := hg.2.1 (k + 1)
          simpa [RS.bit] using this (by simpa [RS.bit] using hk)
        · have := hg.2.2 (k + 1) (by simpa [RS.bit] using hk)
          simpa [RS.bit] using this
      have hab : a = true → b = true := by
        have := hg.2.1 0
        simpa [RS.bit] using this
      obtain ⟨i1, i2⟩ := count_le_of_grows hg'
      cases a <;> cases b <;> simp_all [List.count_cons]
      omega

variable (hX : Half N X) (hsum : SumOk nd co rs N X)

/-- the numbers that are inserted -/
inductive Ins (N : Nat) (X : Nat → Fin rk → ℤ) (P : Nat → Prop) : Nat → Prop
  | base {k : Nat} : k < 2 * N → P k → Ins N X P k
  | neg {k : Nat} : k < 2 * N → P k → Ins N X P (2 * N - 1 - k)
  | add {k l m : Nat} : m < 2 * N → Ins N X P k → Ins N X P l → X m = X k + X l → Ins N X P (2 * N - 1 - m)

theorem ins_lt {k : Nat} (hk : Ins N X P k) : k < 2 * N := by
  cases hk <;> omega

include hX in
theorem ins_neg {k : Nat} (hk : Ins N X P k) : Ins N X P (2 * N - 1 - k) := by
  induction hk with
  | base h1 h2 => exact .neg h1 h2
  | @neg k h1 h2 =>
    rw [show 2 * N - 1 - (2 * N - 1 - k) = k by omega]
    exact .base h1 h2
  | @add k l m h1 h2 h3 e ih1 ih2 =>
    refine .add (by omega) ih1 ih2 ?_
    rw [hX.neg k (ins_lt h2), hX.neg l (ins_lt h3), hX.neg m h1, e]
    abel

include hX in
theorem ins_closure {k : Nat} : Ins N X P k ↔ Spec.Closure N X P k := by
  have hn : ∀ {k}, Spec.Closure N X P k → Spec.Closure N X P (2 * N - 1 - k) := fun {k} hk =>
    .neg (by have := closure_lt hk; omega) hk (congrFun (hX.neg k (closure_lt hk)))
  constructor
  · intro hk
    induction hk with
    | base h1 h2 => exact .base h1 h2
    | neg h1 h2 => exact hn (.base h1 h2)
    | add h1 _ _ e ih1 ih2 => exact hn (.add h1 ih1 ih2 (congrFun e))
  · intro hk
    induction hk with
    | base h1 h2 => exact .base h1 h2
    | @neg k l h1 h2 e ih =>
      have := hX.inj l h1 (2 * N - 1 - k) (by omega) (by rw [hX.neg k (closure_lt h2)]; exact funext e)
      rw [this]
      exact ins_neg hX ih
    | @add k l m h1 h2 h3 e ih1 ih2 =>
      have := Ins.add h1 ih1 ih2 (funext e)
      have := ins_neg hX this
      rwa [show 2 * N - 1 - (2 * N - 1 - m) = m by omega] at this

include hX in
theorem negClose_ok {g : List Bool} (hg : Spec.Bits g (2 * N) P) (hn : rs.numPos = N) : ∀ (d p : Nat), p + d = 2 * N → ∀ (s : List Bool), Grows (Ins N X P) g s →
    (∀ k < p, P k → RS.bit s (2 * N - 1 - k) = true) →
    ∃ s', rs.negClose (List.range' p d) s = .ok s' ∧ Grows (Ins N X P) g s' ∧ ∀ k < 2 * N, P k → RS.bit s' (2 * N - 1 - k) = true
  | 0, p, hp, s, hs, hc => ⟨s, by rw [List.range'_zero, RS.negClose], hs, fun k hk => hc k (by omega)⟩
  | d + 1, p, hp, s, hs, hc => by
    rw [List.range'_succ, RS.negClose]
    by_cases hb : RS.bit s p = true
    · have hi : Ins N X P p := (hs.2.2 p hb).elim (fun hgp => .base (by omega) ((hg.2 p (by omega)).mp hgp)) id
      obtain ⟨s1, e1, g1, b1⟩ := bitSet_grows (s := s) (m := 2 * N - 1 - p) (by rw [hs.1, hg.1]; omega) (ins_neg hX hi)
      have hm : rs.minus p = 2 * N - 1 - p := by rw [RS.minus, RS.numRoots, hn]
      rw [if_pos hb, hm, e1, Res.ok_bind]
      refine negClose_ok hg hn d (p + 1) (by omega) s1 (hs.trans g1) fun k hk hpk => ?_
      by_cases hkp : k = p
      · rw [hkp]
        exact b1
      · exact g1.2.1 _ (hc k (by omega) hpk)
    · rw [if_neg hb]
      refine negClose_ok hg hn d (p + 1) (by omega) s hs fun k hk hpk => ?_
      by_cases hkp : k = p
      · exact absurd (hs.2.1 p ((hg.2 p (by omega)).mpr (hkp ▸ hpk))) hb
      · exact hc k (by omega) hpk

include hsum in
theorem sumInner_ok {i : Nat} (hi : Ins N X P i) : ∀ (js : List Nat) (s : List Bool), s.length = 2 * N → (∀ k, RS.bit s k = true → Ins N X P k) →
    ∃ s', RS.sumInner nd co rs i js s = .ok s' ∧ Grows (Ins N X P) s s' ∧ ∀ j ∈ js, RS.bit s j = true → ∀ m < 2 * N, X m = X i + X j → RS.bit s' (2 * N - 1 - m) = true
  | [], s, hl, hs => ⟨s, by rw [RS.sumInner], .refl s, by simp⟩
  | j :: js, s, hl, hs => by
    rw [RS.sumInner]
    by_cases hb : RS.bit s j = true
    · have hj := hs j hb
      obtain ⟨x, x1, x2, x3⟩ := hsum i (ins_lt hi) j (ins_lt hj)
      rw [if_pos hb, x1, Res.ok_bind]
      by_cases hx : x = true
      · obtain ⟨m, hm, em⟩ := x2.mp hx
        have hq : Ins N X P (2 * N - 1 - m) := .add hm hi hj em
        obtain ⟨s1, e1, g1, b1⟩ := bitSet_grows (s := s) (m := 2 * N - 1 - m) (by omega) hq
        have hs1 : ∀ k, RS.bit s1 k = true → Ins N X P k := fun k hk => (g1.2.2 k hk).elim (hs k) id
        obtain ⟨s', e2, g2, c2⟩ := sumInner_ok hi js s1 (g1.1.trans hl) hs1
        rw [if_pos hx, x3 m hm em, Res.ok_bind, e1, Res.ok_bind, e2]
        refine ⟨s', rfl, g1.trans g2, fun k hk hbk m' hm' em' => ?_⟩
        rcases List.mem_cons.mp hk with e | hk
        · have hmm : m' < 2 * N ∧ X m' = X m := ⟨hm', by rw [em', em, e]⟩
          by_cases hne : 2 * N - 1 - m' = 2 * N - 1 - m
          · rw [hne]
            exact g2.2.1 _ b1
          · have x4 := x3 m' hm' (by rw [em', e])
            rw [x3 m hm em] at x4
            injection x4 with x4
            omega
        · exact c2 k hk (g1.2.1 k hbk) m' hm' em'
      · obtain ⟨s', e2, g2, c2⟩ := sumInner_ok hi js s hl hs
        rw [if_neg hx, e2]
        refine ⟨s', rfl, g2, fun k hk hbk m' hm' em' => ?_⟩
        rcases List.mem_cons.mp hk with e | hk
        · exact absurd (x2.mpr ⟨m', hm', by rw [em', e]⟩) hx
        · exact c2 k hk hbk m' hm' em'
    · obtain ⟨s', e2, g2, c2⟩ := sumInner_ok hi js s hl hs
      rw [if_neg hb, e2]
      refine ⟨s', rfl, g2, fun k hk hbk m' hm' em' => ?_⟩
      rcases List.mem_cons.mp hk with e | hk
      · exact absurd (e ▸ hbk) hb
      · exact c2 k hk hbk m' hm' em'

include hsum in
theorem sumPass_ok : ∀ (is : List Nat) (s : List Bool), s.length = 2 * N → (∀ k, RS.bit s k = true → Ins N X P k) →
    ∃ s', RS.sumPass nd co rs (2 * N) is s = .ok s' ∧ Grows (Ins N X P) s s' ∧
      ∀ i ∈ is, ∀ j, i < j → RS.bit s i = true → RS.bit s j = true → ∀ m < 2 * N, X m = X i + X j → RS.bit s' (2 * N - 1 - m) = true
  | [], s, hl, hs => ⟨s, by rw [RS.sumPass], .refl s, by simp⟩
  | i :: is, s, hl, hs => by
    rw [RS.sumPass]
    by_cases hb : RS.bit s i = true
    · obtain ⟨s1, e1, g1, c1⟩ := sumInner_ok hsum (hs i hb) (List.range' (i + 1) (2 * N - (i + 1))) s hl hs
      have hs1 : ∀ k, RS.bit s1 k = true → Ins N X P k := fun k hk => (g1.2.2 k hk).elim (hs k) id
      obtain ⟨s', e2, g2, c2⟩ := sumPass_ok is s1 (g1.1.trans hl) hs1
      rw [if_pos hb, e1, Res.ok_bind, e2]
      refine ⟨s', rfl, g1.trans g2, fun k hk j hkj hbk hbj m hm em => ?_⟩
      rcases List.mem_cons.mp hk with e | hk
      · refine g2.2.1 _ (c1 j ?_ hbj m hm (by rw [em, e]))
        have := bit_lt hbj
        rw [List.mem_range'_1]
        omega
      · exact c2 k hk j hkj (g1.2.1 k hbk) (g1.2.1 j hbj) m hm em
    · obtain ⟨s', e2, g2, c2⟩ := sumPass_ok is s hl hs
      rw [if_neg hb, e2]
      refine ⟨s', rfl, g2, fun k hk j hkj hbk hbj m hm em => ?_⟩
      rcases List.mem_cons.mp hk with e | hk
      · exact absurd (e ▸ hbk) hb
      · exact c2 k hk j hkj hbk hbj m hm em

include hX hsum in
theorem sumLoop_ok : ∀ (f : Nat) (s : List Bool), s.length = 2 * N → (∀ k, RS.bit s k = true → Ins N X P k) →
    (∀ k < 2 * N, P k → RS.bit s k = true ∧ RS.bit s (2 * N - 1 - k) = true) → s.length < f + s.count true →
    ∃ s', RS.sumLoop' nd co rs f (s.count true) s = .ok s' ∧ Spec.Bits s' (2 * N) (Ins N X P)
  | 0, s, hl, hs, hp, hf => by
    have : s.count true ≤ s.length := List.count_le_length
    omega
  | f + 1, s, hl, hs, hp, hf => by
    obtain ⟨s1, e1, g1, c1⟩ := sumPass_ok (P := P) hsum (List.range s.length) s hl hs
    have hs1 : ∀ k, RS.bit s1 k = true → Ins N X P k := fun k hk => (g1.2.2 k hk).elim (hs k) id
    rw [RS.sumLoop', hl]
    rw [hl] at e1
    rw [e1, Res.ok_bind]
    obtain ⟨k1, k2⟩ := count_le_of_grows g1
    by_cases hlt : s.count true < s1.count true
    · rw [if_pos hlt]
      exact sumLoop_ok f s1 (g1.1.trans hl) hs1 (fun k hk hpk => ⟨g1.2.1 _ (hp k hk hpk).1, g1.2.1 _ (hp k hk hpk).2⟩) (by rw [g1.1]; omega)
    · rw [if_neg hlt]
      have hse := k2 (by omega)
      subst hse
      refine ⟨s1, rfl, hl, fun k hk => ⟨hs k, fun hi => ?_⟩⟩
      clear hk
      induction hi with
      | base h1 h2 => exact (hp _ h1 h2).1
      | neg h1 h2 => exact (hp _ h1 h2).2
      | @add k l m h1 h2 h3 e ih1 ih2 =>
        rcases Nat.lt_trichotomy k l with hkl | hkl | hkl
        · exact c1 k (by rw [List.mem_range, hl]; exact ins_lt h2) l hkl ih1 ih2 m h1 e
        · rw [hkl] at e
          exact absurd e (hX.dbl l (ins_lt h3) m h1)
        · exact c1 l (by rw [List.mem_range, hl]; exact ins_lt h3) k hkl ih2 ih1 m h1 (by rw [e, add_comm])

include hX hsum in
theorem additive_ok {g : List Bool} (hg : Spec.Bits g (2 * N) P) (hn : rs.numPos = N) :
    ∃ s, RS.additiveClosure nd co rs g = .ok s ∧ Spec.Bits s (2 * N) (Spec.Closure N X P) := by
  obtain ⟨s, e1, g1, c1⟩ := negClose_ok (X := X) hX hg hn (2 * N) 0 (by omega) g (.refl g) (by simp)
  have hs : ∀ k, RS.bit s k = true → Ins N X P k := fun k hk => (g1.2.2 k hk).elim (fun hgk => .base (hg.1 ▸ bit_lt hgk) ((hg.2 k (hg.1 ▸ bit_lt hgk)).mp hgk)) id
  have hp : ∀ k < 2 * N, P k → RS.bit s k = true ∧ RS.bit s (2 * N - 1 - k) = true := fun k hk hpk => ⟨g1.2.1 k ((hg.2 k hk).mpr hpk), c1 k hk hpk⟩
  obtain ⟨s', e2, b2⟩ := sumLoop_ok (nd := nd) (co := co) (rs := rs) hX hsum (s.length + 1) s (g1.1.trans hg.1) hs hp (by omega)
  refine ⟨s', ?_, bits_congr b2 fun k hk => ins_closure hX⟩
  rw [RS.additiveClosure, hg.1, List.range_eq_range', e1, Res.ok_bind, e2]

end

theorem closure_ok (hN : Spec.Numbering C pc N R R') (hA : Spec.Answers nd C pc N R R' rs) (hl : rs.coroots.length = rs.roots.length) (cs : CoxeterSystem M W) (h : IsCartan C M)
    {P : Nat → Prop} {g : List Bool} (hg : Spec.Bits g (2 * N) P) :
    (∃ s, rs.additiveClosure nd false g = .ok s ∧ Spec.Bits s (2 * N) (Spec.Closure N R P)) ∧ ∃ s, rs.additiveClosure nd true g = .ok s ∧ Spec.Bits s (2 * N) (Spec.Closure N R' P) := by
  obtain ⟨H, H'⟩ := hN.half cs h
  constructor
  · refine additive_ok H (fun a ha b hb => ?_) hg hA.numPos
    obtain ⟨x, x1, x2⟩ := hA.sumIsRoot a ha b hb
    refine ⟨x, by rw [if_neg (by simp), x1], ?_, fun m hm em => by rw [if_neg (by simp)]; exact (add_ok hN hA hl cs h ha hb).1.1 m hm em⟩
    rw [x2]
    exact ⟨fun ⟨m, hm, e⟩ => ⟨m, hm, funext e⟩, fun ⟨m, hm, e⟩ => ⟨m, hm, congrFun e⟩⟩
  · refine additive_ok H' (fun a ha b hb => ?_) hg hA.numPos
    obtain ⟨x, x1, x2⟩ := hA.sumIsCoroot a ha b hb
    refine ⟨x, by rw [if_pos rfl, x1], ?_, fun m hm em => by rw [if_pos rfl]; exact (add_ok hN hA hl cs h ha hb).2.1 m hm em⟩
    rw [x2]
    exact ⟨fun ⟨m, hm, e⟩ => ⟨m, hm, funext e⟩, fun ⟨m, hm, e⟩ => ⟨m, hm, congrFun e⟩⟩

end
end Verif.Root
