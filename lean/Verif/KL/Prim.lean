import Verif.KL.Rep

/-! Primitive elements, their records, and access to the polynomials of a column. -/

set_option linter.unusedSectionVars false

namespace Verif.KL

open Polynomial

variable {B : Type} [Fintype B] [DecidableEq B]
variable {bt : Block} {b : Blk B} {D : Mod B → Mod B} {P : B → B → ℕ[X]} {el : ℕ → B} {M : ℕ}

/-! ### Values at numbers -/

/-- the polynomial for a number or `UndefBlock` -/
noncomputable def polO (P : B → B → ℕ[X]) (el : ℕ → B) (o : Option ℕ) (y : B) : ℕ[X] :=
  match o with
  | some x => P (el x) y
  | none => 0

theorem Ctx.names (hc : Ctx bt b D P el M) {o : Option ℕ} {z : B} {y : ℕ} (hy : y < bt.size)
    (h : Names bt.size el o z) : polO P el o (el y) = P z (el y) := by
  cases o with
  | some j => rw [polO, h.2]
  | none =>
    rw [polO]
    by_contra hne
    obtain ⟨j, hj, e⟩ := hc.closed y hy z (Ne.symm hne)
    exact h j hj e

/-- elements that are not shorter have polynomial zero -/
theorem Ctx.pol_zero (hc : Ctx bt b D P el M) {x y : ℕ} (hx : x < bt.size) (hy : y < bt.size)
    (hne : x ≠ y) (hl : bt.length y ≤ bt.length x) : P (el x) (el y) = 0 := by
  ext i
  rw [coeff_zero]
  by_contra h
  have := hc.data.klv.deg (el x) (el y) (fun e => hne (hc.rep.inj x y hx hy e)) i h
  rw [hc.rep.len x hx, hc.rep.len y hy] at hl
  omega

theorem Ctx.st (hc : Ctx bt b D P el M) {s x : ℕ} (hs : s < b.rank) (hx : x < bt.size) :
    bt.status s x = b.st s (el x) := hc.rep.st s x (by rw [hc.rep.rank]; exact hs) hx

theorem Ctx.cross (hc : Ctx bt b D P el M) {s x : ℕ} (hs : s < b.rank) (hx : x < bt.size) :
    Names bt.size el (bt.crossImage s x) (b.cross s (el x)) :=
  hc.rep.cross s x (by rw [hc.rep.rank]; exact hs) hx

theorem Ctx.cay1 (hc : Ctx bt b D P el M) {s x : ℕ} (hs : s < b.rank) (hx : x < bt.size)
    (h : b.st s (el x) = .imaginaryTypeI ∨ b.st s (el x) = .imaginaryTypeII ∨
      b.st s (el x) = .realTypeI ∨ b.st s (el x) = .realTypeII) :
    Names bt.size el (bt.cayleyImage s x).1 (b.cay s (el x)).1 :=
  hc.rep.cay1 s x (by rw [hc.rep.rank]; exact hs) hx (by rw [hc.st hs hx]; simpa using h)

theorem Ctx.cay2 (hc : Ctx bt b D P el M) {s x : ℕ} (hs : s < b.rank) (hx : x < bt.size)
    (h : b.st s (el x) = .imaginaryTypeII ∨ b.st s (el x) = .realTypeI) :
    Names bt.size el (bt.cayleyImage s x).2 (b.cay s (el x)).2 :=
  hc.rep.cay2 s x (by rw [hc.rep.rank]; exact hs) hx (by rw [hc.st hs hx]; simpa using h)

/-- a number for something longer than `x` is larger than `x` -/
theorem Ctx.gt (hc : Ctx bt b D P el M) {x j : ℕ} (hx : x < bt.size) (hj : j < bt.size)
    (h : b.len (el x) < b.len (el j)) : x < j := by
  rw [← hc.rep.len x hx, ← hc.rep.len j hj] at h
  exact lt_of_len hc.rep hx h

/-! ### Counting primitive elements -/

/-- the number of primitive elements below `m` -/
def pcount (bt : Block) (A : List ℕ) (m : ℕ) : ℕ :=
  ((List.range m).filter (fun x => bt.isPrimitive x A)).length

theorem pcount_zero (A : List ℕ) : pcount bt A 0 = 0 := rfl

theorem pcount_succ (A : List ℕ) (m : ℕ) :
    pcount bt A (m + 1) = pcount bt A m + if bt.isPrimitive m A then 1 else 0 := by
  unfold pcount
  rw [List.range_succ, List.filter_append, List.length_append]
  congr 1
  by_cases h : bt.isPrimitive m A = true <;> simp [h]

theorem pcount_mono (A : List ℕ) {m n : ℕ} (h : m ≤ n) : pcount bt A m ≤ pcount bt A n := by
  induction n, h using Nat.le_induction with
  | base => exact le_refl _
  | succ n _ ih => rw [pcount_succ]; omega

theorem pcount_lt {A : List ℕ} {m n : ℕ} (hm : bt.isPrimitive m A = true) (h : m < n) :
    pcount bt A m < pcount bt A n := by
  have h1 := pcount_mono (bt := bt) A (show m + 1 ≤ n from h)
  rw [pcount_succ, if_pos hm] at h1
  omega

theorem pcount_inj {A : List ℕ} {m n : ℕ} (hm : bt.isPrimitive m A = true)
    (hn : bt.isPrimitive n A = true) (h : pcount bt A m = pcount bt A n) : m = n := by
  rcases Nat.lt_trichotomy m n with h1 | h1 | h1
  · have := pcount_lt hm h1; omega
  · exact h1
  · have := pcount_lt hn h1; omega

/-! ### The records -/

/-- what the slot of `x` must refer to: itself if primitive, otherwise nothing, with the
polynomials then zero, or a larger primitive element with the same polynomials -/
def Target (bt : Block) (P : B → B → ℕ[X]) (el : ℕ → B) (A : List ℕ) (x : ℕ) (o : Option ℕ) : Prop :=
  (bt.isPrimitive x A = true → o = some x) ∧
  (∀ x', o = some x' → x ≤ x' ∧ x' < bt.size ∧ bt.isPrimitive x' A = true) ∧
  ∀ y, y < bt.size → bt.descentSet y = A → P (el x) (el y) = polO P el o (el y)

theorem primLoop_ok (hc : Ctx bt b D P el M) (nd : Bool) (A : List ℕ) :
    ∀ (m : ℕ) (idx : List (Option ℕ)) (count : ℕ), m ≤ bt.size → idx.length = bt.size →
      count = pcount bt A bt.size - pcount bt A m →
      (∀ x, m ≤ x → x < bt.size → ∃ o, Target bt P el A x o ∧
        idx[x]? = some (o.map fun x' => pcount bt A bt.size - 1 - pcount bt A x')) →
      ∃ r, primLoop nd bt A m idx count = .ok (r, pcount bt A bt.size) ∧ r.length = bt.size ∧
        ∀ x, x < bt.size → ∃ o, Target bt P el A x o ∧
          r[x]? = some (o.map fun x' => pcount bt A bt.size - 1 - pcount bt A x') := by
  intro m
  induction m with
  | zero =>
    intro idx count _ hl hcount h
    refine ⟨idx, ?_, hl, fun x hx => h x (by omega) hx⟩
    rw [primLoop, hcount, pcount_zero, Nat.sub_zero]
  | succ m ih =>
    intro idx count hm hl hcount h
    have hms : m < bt.size := hm
    have key : ∀ (v : Option ℕ) (o : Option ℕ) (c : ℕ), Target bt P el A m o →
        v = (o.map fun x' => pcount bt A bt.size - 1 - pcount bt A x') →
        c = pcount bt A bt.size - pcount bt A m →
        ∃ r, primLoop nd bt A m (idx.set m v) c = .ok (r, pcount bt A bt.size) ∧
          r.length = bt.size ∧ ∀ x, x < bt.size → ∃ o, Target bt P el A x o ∧
          r[x]? = some (o.map fun x' => pcount bt A bt.size - 1 - pcount bt A x') := by
      intro v o c ho hv hcc
      apply ih _ _ (by omega) (by rw [List.length_set]; exact hl) hcc
      intro x hmx hx
      by_cases e : x = m
      · subst e
        refine ⟨o, ho, ?_⟩
        rw [List.getElem?_set_self (by omega), hv]
      · obtain ⟨o', h1, h2⟩ := h x (by omega) hx
        exact ⟨o', h1, by rw [List.getElem?_set_ne (Ne.symm e)]; exact h2⟩
    rw [primLoop]
    rw [pcount_succ] at hcount
    have hprim : bt.isPrimitive m A =
        ((bt.goodAscentSet m).filter (fun s => decide (s ∈ A))).isEmpty := rfl
    cases hf : (bt.goodAscentSet m).filter (fun s => decide (s ∈ A)) with
    | nil =>
      rw [hf] at hprim
      have hprim' : bt.isPrimitive m A = true := by rw [hprim]; rfl
      rw [if_pos hprim'] at hcount
      have hlt := pcount_lt hprim' hms
      refine key _ (some m) _ ⟨fun _ => rfl, ?_, ?_⟩ ?_ (by omega)
      · intro x' e; cases e; exact ⟨le_refl _, hms, hprim'⟩
      · intro y _ _; rfl
      · rw [Option.map_some, hcount]; congr 1; omega
    | cons s l =>
      have hnp : ¬ bt.isPrimitive m A = true := by rw [hprim, hf]; simp
      rw [if_neg hnp, Nat.add_zero] at hcount
      have hmem : s ∈ (bt.goodAscentSet m).filter (fun s => decide (s ∈ A)) := by rw [hf]; simp
      obtain ⟨hs1, hs2⟩ := List.mem_filter.1 hmem
      have hsA : s ∈ A := by simpa using hs2
      obtain ⟨hs, hd, hi2⟩ := (mem_goodAscentSet hc.rep hms).1 hs1
      have hst := hc.st hs hms
      have hdy : ∀ y, y < bt.size → bt.descentSet y = A → (b.st s (el y)).isDescent = true := by
        intro y hy e
        rw [← e] at hsA
        exact ((mem_descentSet hc.rep hy).1 hsA).2
      dsimp only
      by_cases hrn : bt.status s m = .realNonparity
      · rw [if_pos hrn]
        refine key _ none _ ⟨fun h => absurd h hnp, by simp, ?_⟩ rfl hcount
        intro y hy e
        exact hc.data.easy_rn hs (hdy y hy e) (by rw [← hst]; exact hrn)
      · rw [if_neg hrn]
        have hrel := hc.data.wf s hs (el m)
        -- the unique ascent
        have hua : ∃ oz z, bt.uniqueAscent nd s m = .ok oz ∧ Names bt.size el oz z ∧
            b.len z = b.len (el m) + 1 ∧
            ∀ y, y < bt.size → bt.descentSet y = A → P (el m) (el y) = P z (el y) := by
          rw [hst] at hrn
          cases hv : b.st s (el m) <;> rw [hv] at hd hi2 hrn <;>
            simp only [Status.isDescent, Bool.true_eq_false, ne_eq, not_true_eq_false] at hd hi2 hrn
          · simp only [Blk.Rel, hv] at hrel
            refine ⟨bt.crossImage s m, b.cross s (el m), ?_, hc.cross hs hms, hrel.2.2, ?_⟩
            · rw [Block.uniqueAscent, if_pos (by rw [hst, hv])]
            · intro y hy e; exact hc.data.easy_complex hs (hdy y hy e) hv
          · simp only [Blk.Rel, hv] at hrel
            refine ⟨(bt.cayleyImage s m).1, (b.cay s (el m)).1, ?_, hc.cay1 hs hms (Or.inl hv),
              hrel.2.2.2.2.2.1, ?_⟩
            · rw [Block.uniqueAscent, if_neg (by rw [hst, hv]; decide),
                Res.assertIn_bind nd (by rw [hst, hv]; decide)]
            · intro y hy e; exact hc.data.easy_i1 hs (hdy y hy e) hv
        obtain ⟨oz, z, e1, e2, e3, e4⟩ := hua
        rw [e1, Res.ok_bind]
        cases oz with
        | none =>
          dsimp only
          refine key _ none _ ⟨fun h => absurd h hnp, by simp, ?_⟩ rfl hcount
          intro y hy e
          rw [e4 y hy e, ← hc.names hy e2]
        | some z' =>
          dsimp only
          obtain ⟨hz1, hz2⟩ := e2
          have hgt : m < z' := hc.gt hms hz1 (by rw [hz2, e3]; omega)
          obtain ⟨o, ho1, ho2⟩ := h z' (by omega) hz1
          rw [ho2]
          dsimp only
          refine key _ o _ ⟨fun h => absurd h hnp, ?_, ?_⟩ rfl hcount
          · intro x' e
            have := ho1.2.1 x' e
            exact ⟨by omega, this.2⟩
          · intro y hy e
            rw [e4 y hy e, ← hz2]
            exact ho1.2.2 y hy e

/-- a record is correct -/
def RecOK (bt : Block) (P : B → B → ℕ[X]) (el : ℕ → B) (A : List ℕ) (r : PrimRec) : Prop :=
  r.index.length = bt.size ∧ r.range = pcount bt A bt.size ∧
  ∀ x, x < bt.size → ∃ o, Target bt P el A x o ∧
    r.index[x]? = some (match o with | none => pcount bt A bt.size | some x' => pcount bt A x')

theorem fillPrimIndex_ok (hc : Ctx bt b D P el M) (nd : Bool) (A : List ℕ) :
    ∃ r, fillPrimIndex nd bt A = .ok r ∧ RecOK bt P el A r := by
  obtain ⟨r, h1, h2, h3⟩ := primLoop_ok hc nd A bt.size (List.replicate bt.size (some 0)) 0
    (le_refl _) (by simp) (by omega) (by intro x _ _; omega)
  rw [fillPrimIndex, h1, Res.ok_bind]
  refine ⟨_, rfl, by simpa using h2, rfl, fun x hx => ?_⟩
  obtain ⟨o, ho1, ho2⟩ := h3 x hx
  refine ⟨o, ho1, ?_⟩
  simp only [List.getElem?_map, ho2, Option.map_some]
  cases o with
  | none => rfl
  | some x' =>
    obtain ⟨_, hx', hp⟩ := ho1.2.1 x' rfl
    have := pcount_lt hp hx'
    simp only [Option.map_some, Option.some.injEq]
    omega

/-- all records are correct -/
def RecsOK (bt : Block) (P : B → B → ℕ[X]) (el : ℕ → B) (t : Table) : Prop :=
  ∀ A r, t.prim.lookup A = some r → RecOK bt P el A r

theorem preparePrimIndex_ok (hc : Ctx bt b D P el M) (nd : Bool) {t : Table} (A : List ℕ)
    (ht : RecsOK bt P el t) :
    ∃ t', preparePrimIndex nd bt t A = .ok t' ∧ RecsOK bt P el t' ∧ t'.kl = t.kl ∧ t'.mu = t.mu ∧
      t'.holes = t.holes ∧ (∃ r, t'.prim.lookup A = some r) ∧
      ∀ A' r, t.prim.lookup A' = some r → t'.prim.lookup A' = some r := by
  rw [preparePrimIndex]
  cases e : t.prim.lookup A with
  | some r => exact ⟨t, rfl, ht, rfl, rfl, rfl, ⟨r, e⟩, fun _ _ h => h⟩
  | none =>
    obtain ⟨r, h1, h2⟩ := fillPrimIndex_ok hc nd A
    dsimp only
    rw [h1, Res.ok_bind]
    refine ⟨_, rfl, ?_, rfl, rfl, rfl, ⟨r, by simp⟩, ?_⟩
    · intro A' r' h
      by_cases hA : A' = A
      · subst hA
        simp at h
        rw [← h]; exact h2
      · rw [List.lookup_cons, beq_false_of_ne hA] at h
        exact ht A' r' h
    · intro A' r' h
      by_cases hA : A' = A
      · subst hA; rw [e] at h; cases h
      · rw [List.lookup_cons, beq_false_of_ne hA]; exact h

/-- `prim_index` -/
theorem primIndex_ok (nd : Bool) {t : Table} {A : List ℕ} {r : PrimRec}
    (hr : t.prim.lookup A = some r) (h : RecOK bt P el A r) (x : Option ℕ)
    (hx : ∀ j, x = some j → j < bt.size) :
    ∃ o, primIndex nd t x A =
        .ok (match o with | none => pcount bt A bt.size | some x' => pcount bt A x') ∧
      (∀ x', o = some x' → x' < bt.size ∧ bt.isPrimitive x' A = true ∧ ∃ j, x = some j ∧ j ≤ x') ∧
      (∀ y, y < bt.size → bt.descentSet y = A → polO P el x (el y) = polO P el o (el y)) ∧
      (∀ j, x = some j → bt.isPrimitive j A = true → o = some j) := by
  rw [primIndex, record, hr]
  cases x with
  | none =>
    exact ⟨none, by simp [h.2.1], by simp, fun _ _ _ => rfl, by simp⟩
  | some j =>
    obtain ⟨o, h1, h2⟩ := h.2.2 j (hx j rfl)
    refine ⟨o, ?_, ?_, ?_, ?_⟩
    · dsimp only [Res.ok_bind]; rw [h2]
    · intro x' e
      obtain ⟨h3, h4, h5⟩ := h1.2.1 x' e
      exact ⟨h4, h5, j, rfl, h3⟩
    · intro y hy e; exact h1.2.2 y hy e
    · intro j' e hp; cases e; exact h1.1 hp

theorem selfIndex_ok (hc : Ctx bt b D P el M) (nd : Bool) {t : Table} {y : ℕ} {r : PrimRec}
    (hr : t.prim.lookup (bt.descentSet y) = some r) (h : RecOK bt P el (bt.descentSet y) r)
    (hy : y < bt.size) : selfIndex nd bt t y = .ok (pcount bt (bt.descentSet y) y) := by
  obtain ⟨o, h1, h2, h3, h4⟩ := primIndex_ok nd hr h (some y) (by intro j e; cases e; exact hy)
  rw [selfIndex, h1, h4 y rfl (primitive_self hc.rep hy)]

theorem primBackUp_spec (A : List ℕ) : ∀ f : ℕ,
    (bt.primBackUp A f = none ∧ pcount bt A f = 0) ∨
    ∃ x, bt.primBackUp A f = some x ∧ x < f ∧ bt.isPrimitive x A = true ∧
      pcount bt A f = pcount bt A x + 1 := by
  intro f
  induction f with
  | zero => exact Or.inl ⟨rfl, rfl⟩
  | succ f ih =>
    rw [Block.primBackUp, pcount_succ]
    by_cases h : bt.isPrimitive f A = true
    · rw [if_pos h, if_pos h]
      exact Or.inr ⟨f, rfl, by omega, h, rfl⟩
    · rw [if_neg h, if_neg h]
      rcases ih with ⟨h1, h2⟩ | ⟨x, h1, h2, h3, h4⟩
      · exact Or.inl ⟨h1, h2⟩
      · exact Or.inr ⟨x, h1, by omega, h3, h4⟩

theorem colSize_ok (hc : Ctx bt b D P el M) (nd : Bool) {t : Table} {y f : ℕ} {r : PrimRec}
    (hr : t.prim.lookup (bt.descentSet y) = some r) (h : RecOK bt P el (bt.descentSet y) r)
    (hf : bt.lengthFloor y = .ok f) (hfl : Floor bt y f) :
    colSize nd bt t y = .ok (pcount bt (bt.descentSet y) f) := by
  rw [colSize, hf, Res.ok_bind]
  rcases primBackUp_spec (bt := bt) (bt.descentSet y) f with ⟨h1, h2⟩ | ⟨x, h1, h2, h3, h4⟩
  · rw [h1, h2]
  · rw [h1]
    obtain ⟨o, h5, _, _, h6⟩ := primIndex_ok nd hr h (some x)
      (by intro j e; cases e; have := hfl.1; omega)
    dsimp only
    rw [h5, h6 x rfl h3, Res.ok_bind, h4]

/-! ### Columns -/

/-- the column of `y` has its size, and its slots for primitive elements from `m` on hold the
polynomials -/
def ColFrom (bt : Block) (P : B → B → ℕ[X]) (el : ℕ → B) (M : ℕ) (t : Table) (y m : ℕ) : Prop :=
  ∃ f col, bt.lengthFloor y = .ok f ∧ Floor bt y f ∧ t.kl[y]? = some col ∧
    col.length = pcount bt (bt.descentSet y) f ∧
    ∀ x, m ≤ x → x < f → bt.isPrimitive x (bt.descentSet y) = true →
      ∃ p, col[pcount bt (bt.descentSet y) x]? = some p ∧ Is M p (P (el x) (el y))

theorem klPol_ok (hc : Ctx bt b D P el M) (nd : Bool) {t : Table} {y m : ℕ} {r : PrimRec}
    (hr : t.prim.lookup (bt.descentSet y) = some r) (h : RecOK bt P el (bt.descentSet y) r)
    (hy : y < bt.size) (hcol : ColFrom bt P el M t y m) (x : Option ℕ)
    (hx : ∀ j, x = some j → j < bt.size ∧ m ≤ j) :
    ∃ p, klPol nd bt t x y = .ok p ∧ Is M p (polO P el x (el y)) := by
  obtain ⟨f, col, hf, hfl, hk, hlen, hent⟩ := hcol
  obtain ⟨o, h1, h2, h3, h4⟩ := primIndex_ok nd hr h x (fun j e => (hx j e).1)
  have hself := selfIndex_ok hc nd hr h hy
  rw [klPol, hk]
  dsimp only
  rw [h1, Res.ok_bind, h3 y hy rfl]
  cases o with
  | none =>
    dsimp only
    have hle := pcount_mono (bt := bt) (bt.descentSet y) hfl.1
    rw [List.getElem?_eq_none (by omega)]
    dsimp only
    rw [hself, Res.ok_bind, if_neg (by
      have := pcount_lt (primitive_self hc.rep hy) hy; omega)]
    exact ⟨[], rfl, Is.nil⟩
  | some x' =>
    obtain ⟨hx', hp, j, e, hj⟩ := h2 x' rfl
    dsimp only
    by_cases hlt : x' < f
    · obtain ⟨p, hp1, hp2⟩ := hent x' (by have := (hx j e).2; omega) hlt hp
      rw [hp1]
      exact ⟨p, rfl, hp2⟩
    · have hle := pcount_mono (bt := bt) (bt.descentSet y) (show f ≤ x' by omega)
      rw [List.getElem?_eq_none (by omega)]
      dsimp only
      rw [hself, Res.ok_bind]
      by_cases hxy : x' = y
      · subst hxy
        rw [if_pos rfl]
        refine ⟨[1], rfl, ?_⟩
        rw [polO, hc.data.klv.one]
        exact Is.one hc.two
      · rw [if_neg (fun e => hxy (pcount_inj hp (primitive_self hc.rep hy) e))]
        refine ⟨[], rfl, ?_⟩
        rw [polO, hc.pol_zero hx' hy hxy (by
          have := (hfl.2 x' hx').not.1 hlt; omega)]
        exact Is.nil

end Verif.KL
