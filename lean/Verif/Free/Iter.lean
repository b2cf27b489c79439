import Verif.Free.Lemmas
/-
Traversal: the stack of triples meets all positions in order of increasing exponent.
-/
set_option linter.unusedSectionVars false
set_option linter.unnecessarySimpa false

namespace Verif.Free

open Verif

variable {T C : Type} [LinearOrder T]

/-- exponent at `p` is at most that at `q` -/
def KLe (K : List (List T)) (p q : Pos) : Prop := ∀ a b, keyAt K p = some a → keyAt K q = some b → a ≤ b

/-- exponent at `p` is less than that at `q` -/
def KLt (K : List (List T)) (p q : Pos) : Prop := ∀ a b, keyAt K p = some a → keyAt K q = some b → a < b

omit [LinearOrder T] in
theorem keyAt_some {K : List (List T)} {p : Pos} (h : p.2 < len K p.1) : ∃ a, keyAt K p = some a := by
  unfold len at h
  unfold keyAt
  rw [List.getD_eq_getElem?_getD] at h
  cases e : K[p.1]? with
  | none => rw [e] at h; simp at h
  | some b => rw [e] at h; exact ⟨b[p.2], by simpa using h⟩

theorem less_ok {K : List (List T)} {p q : Pos} (hp : p.2 < len K p.1) (hq : q.2 < len K q.1) :
    ∃ c, less K p q = .ok c ∧ (c = true → KLe K p q) ∧ (c = false → KLe K q p) := by
  obtain ⟨a, ha⟩ := keyAt_some hp
  obtain ⟨b, hb⟩ := keyAt_some hq
  refine ⟨decide (a < b), by rw [less, ha, hb], ?_, ?_⟩
  · intro h x y hx hy
    rw [ha] at hx; rw [hb] at hy; cases hx; cases hy
    exact le_of_lt (by simpa using h)
  · intro h x y hx hy
    rw [hb] at hx; rw [ha] at hy; cases hx; cases hy
    exact not_lt.1 (by simpa using h)

theorem KLe.trans {K : List (List T)} {p q r : Pos} (hq : q.2 < len K q.1) (h1 : KLe K p q) (h2 : KLe K q r) :
    KLe K p r := by
  intro a c ha hc
  obtain ⟨b, hb⟩ := keyAt_some hq
  exact le_trans (h1 a b ha hb) (h2 b c hb hc)

theorem KLe.refl (K : List (List T)) (p : Pos) : KLe K p p := by
  intro a b ha hb; rw [ha] at hb; cases hb; exact le_refl _

/-- later terms in a block are larger -/
theorem kle_block {K : List (List T)} (hK : KInv K) {b i j : Nat} (h : i ≤ j) : KLe K (b, i) (b, j) := by
  intro x y hx hy
  unfold keyAt at hx hy
  cases e : K[b]? with
  | none => rw [e] at hx; cases hx
  | some blk =>
    rw [e] at hx hy
    simp only [Option.bind_some] at hx hy
    have hs := (hK.1 blk (List.mem_of_getElem? e)).2
    obtain ⟨hi, rfl⟩ := List.getElem?_eq_some_iff.1 hx
    obtain ⟨hj, rfl⟩ := List.getElem?_eq_some_iff.1 hy
    rcases Nat.lt_or_eq_of_le h with h | h
    · exact le_of_lt (List.pairwise_iff_getElem.1 hs i j hi hj h)
    · subst h; exact le_refl _

/-- stack condition: each triple is within its block and `min` is the position of least
exponent in this and the further triples -/
def SOk (K : List (List T)) : List Tr → Prop
  | [] => True
  | t :: s => t.cur < len K t.blk ∧ SOk K s ∧
      (t.min = (t.blk, t.cur) ∨ ∃ u r, s = u :: r ∧ t.min = u.min) ∧
      ∀ x ∈ t :: s, KLe K t.min (x.blk, x.cur)

/-- positions still to be visited -/
def remPos (K : List (List T)) (s : List Tr) : List Pos :=
  s.flatMap (fun t => (List.range' t.cur (len K t.blk - t.cur)).map (fun i => (t.blk, i)))

theorem SOk.min_valid {K : List (List T)} : ∀ {t : Tr} {s : List Tr}, SOk K (t :: s) → t.min.2 < len K t.min.1
  | t, [], h => by
    rcases h.2.2.1 with e | ⟨u, r, e, _⟩
    · rw [e]; exact h.1
    · cases e
  | t, v :: s, h => by
    rcases h.2.2.1 with e | ⟨u, r, e, e'⟩
    · rw [e]; exact h.1
    · cases e
      rw [e']; exact SOk.min_valid h.2.1

omit [LinearOrder T] in
theorem remPos_cons (K : List (List T)) (t : Tr) (s : List Tr) : remPos K (t :: s) =
    (List.range' t.cur (len K t.blk - t.cur)).map (fun i => (t.blk, i)) ++ remPos K s := rfl

omit [LinearOrder T] in
theorem range_split {K : List (List T)} {b c : Nat} (h : c < len K b) :
    (List.range' c (len K b - c)).map (fun i => (b, i)) =
      (b, c) :: (List.range' (c+1) (len K b - (c+1))).map (fun i => (b, i)) := by
  obtain ⟨n, hn⟩ : ∃ n, len K b - c = n + 1 := ⟨len K b - c - 1, by omega⟩
  rw [hn, List.range'_succ, show len K b - (c+1) = n by omega, List.map_cons]

theorem pop_spec {K : List (List T)} (hK : KInv K) : ∀ (s : List Tr) (t : Tr), SOk K (t :: s) →
    ((t :: s).map Tr.blk).Nodup →
    ∃ e s', pop K (t :: s) = .ok (e, s') ∧ (e = true ↔ s' = []) ∧ SOk K s' ∧ (s'.map Tr.blk).Sublist ((t :: s).map Tr.blk) ∧
      (remPos K (t :: s)).Perm (t.min :: remPos K s')
  | [], t, hS, hN => by
    obtain ⟨h1, -, h3, h4⟩ := hS
    have hm : t.min = (t.blk, t.cur) := by
      rcases h3 with e | ⟨u, r, e, _⟩
      · exact e
      · cases e
    rw [remPos_cons, range_split h1, hm, pop]
    by_cases he : t.cur + 1 ≠ len K t.blk
    · rw [if_pos he]
      refine ⟨false, _, rfl, by simp, ?_, by simp, ?_⟩
      · refine ⟨by simp only; omega, trivial, Or.inl rfl, ?_⟩
        intro x hx
        rw [List.mem_singleton] at hx
        subst hx; exact KLe.refl K _
      · simp [remPos]
    · rw [if_neg he]
      refine ⟨true, [], rfl, by simp, trivial, by simp, ?_⟩
      rw [show len K t.blk - (t.cur + 1) = 0 by omega]; simp [remPos]
  | u :: s, t, hS, hN => by
    have hS' := hS
    obtain ⟨h1, h2, h3, h4⟩ := hS
    have hN2 : ((u :: s).map Tr.blk).Nodup := by
      rw [List.map_cons, List.nodup_cons] at hN; exact hN.2
    have hu := h2
    obtain ⟨u1, u2, u3, u4⟩ := h2
    have humin : ∀ x ∈ u :: s, KLe K u.min (x.blk, x.cur) := u4
    rw [pop]
    by_cases hm : t.min = (t.blk, t.cur)
    · rw [if_pos hm]
      rw [remPos_cons, range_split h1, hm]
      by_cases he : t.cur + 1 = len K t.blk
      · rw [if_pos he]
        refine ⟨false, _, rfl, by simp, hu, by simp, ?_⟩
        rw [show len K t.blk - (t.cur + 1) = 0 by omega]; simp
      · rw [if_neg he]
        obtain ⟨c, hc, hc1, hc2⟩ := less_ok (K := K) (p := (t.blk, t.cur + 1)) (q := u.min) (by simp only; omega)
          (SOk.min_valid hu)
        rw [hc, Res.ok_bind]
        refine ⟨false, _, rfl, by simp, ⟨by simp only; omega, hu, ?_, ?_⟩, by simp, ?_⟩
        · cases c with
          | true => exact Or.inl rfl
          | false => exact Or.inr ⟨u, s, rfl, rfl⟩
        · intro x hx
          cases c with
          | true =>
            rcases List.mem_cons.1 hx with rfl | hx
            · exact KLe.refl K _
            · exact KLe.trans (SOk.min_valid hu) (hc1 rfl) (humin x hx)
          | false =>
            rcases List.mem_cons.1 hx with rfl | hx
            · exact hc2 rfl
            · exact humin x hx
        · exact List.Perm.refl _
    · rw [if_neg hm]
      have hmu : t.min = u.min := by
        rcases h3 with e | ⟨u', r, e, e'⟩
        · exact absurd e hm
        · cases e; exact e'
      obtain ⟨e, s', p1, p2, p3, p4, p5⟩ := pop_spec hK s u hu hN2
      rw [p1, Res.ok_bind]
      have hperm : (remPos K (t :: u :: s)).Perm
          (t.min :: ((List.range' t.cur (len K t.blk - t.cur)).map (fun i => (t.blk, i)) ++ remPos K s')) := by
        rw [remPos_cons K t (u :: s), hmu]
        exact (List.Perm.append_left _ p5).trans List.perm_middle
      cases e with
      | true =>
        simp only [if_true]
        have hs' := p2.1 rfl
        refine ⟨false, _, rfl, by simp, ⟨h1, trivial, Or.inl rfl, ?_⟩, by simp, ?_⟩
        · intro x hx
          rw [List.mem_singleton] at hx
          subst hx; exact KLe.refl K _
        · rw [hs'] at hperm
          rw [remPos_cons]; exact hperm
      | false =>
        simp only [Bool.false_eq_true, if_false]
        cases s' with
        | nil => exact absurd (p2.2 rfl) (by simp)
        | cons u' r =>
          obtain ⟨c, hc, hc1, hc2⟩ := less_ok (K := K) (p := (t.blk, t.cur)) (q := u'.min) h1 (SOk.min_valid p3)
          simp only
          rw [hc, Res.ok_bind]
          refine ⟨false, _, rfl, by simp, ⟨h1, p3, ?_, ?_⟩, ?_, ?_⟩
          · cases c with
            | true => exact Or.inl rfl
            | false => exact Or.inr ⟨u', r, rfl, rfl⟩
          · intro x hx
            cases c with
            | true =>
              rcases List.mem_cons.1 hx with rfl | hx
              · exact KLe.refl K _
              · exact KLe.trans (SOk.min_valid p3) (hc1 rfl) (p3.2.2.2 x hx)
            | false =>
              rcases List.mem_cons.1 hx with rfl | hx
              · exact hc2 rfl
              · exact p3.2.2.2 x hx
          · simp only [List.map_cons]
            exact List.Sublist.cons_cons _ p4
          · rw [remPos_cons]; exact hperm

/-- the minimum is at most everything still to be visited -/
theorem min_le_rem {K : List (List T)} (hK : KInv K) {t : Tr} {s : List Tr} (h : SOk K (t :: s)) :
    ∀ p ∈ remPos K (t :: s), KLe K t.min p := by
  intro p hp
  unfold remPos at hp
  obtain ⟨x, hx, hp⟩ := List.mem_flatMap.1 hp
  obtain ⟨i, hi, rfl⟩ := List.mem_map.1 hp
  have hall : ∀ (s : List Tr), SOk K s → ∀ x ∈ s, x.cur < len K x.blk := by
    intro s
    induction s with
    | nil => intro _ x hx; cases hx
    | cons y s ih =>
      intro hs x hx
      rcases List.mem_cons.1 hx with rfl | hx
      · exact hs.1
      · exact ih hs.2.1 x hx
  have hv := hall _ h x hx
  rw [List.mem_range'] at hi
  obtain ⟨j, hj, rfl⟩ := hi
  exact KLe.trans (q := (x.blk, x.cur)) hv (h.2.2.2 x hx) (kle_block hK (by omega))

omit [LinearOrder T] in
theorem remPos_nodup {K : List (List T)} {s : List Tr} (h : (s.map Tr.blk).Nodup) : (remPos K s).Nodup := by
  induction s with
  | nil => simp [remPos]
  | cons t s ih =>
    rw [List.map_cons, List.nodup_cons] at h
    rw [remPos_cons, List.nodup_append]
    refine ⟨?_, ih h.2, ?_⟩
    · exact List.Nodup.map (fun a b e => (Prod.mk.inj e).2) List.nodup_range'
    · intro a ha b hb e
      subst e
      obtain ⟨i, _, rfl⟩ := List.mem_map.1 ha
      obtain ⟨x, hx, hb⟩ := List.mem_flatMap.1 hb
      obtain ⟨j, _, e⟩ := List.mem_map.1 hb
      apply h.1
      rw [← (Prod.mk.inj e).1]
      exact List.mem_map_of_mem hx

/-- the sequence of positions met by repeated calls of `pop` -/
inductive Trav (K : List (List T)) : List Tr → List Pos → Prop
  | nil : Trav K [] []
  | cons {t : Tr} {s s' : List Tr} {e : Bool} {ps : List Pos} (h : pop K (t :: s) = .ok (e, s'))
      (he : e = true ↔ s' = []) (hs : Trav K s' ps) : Trav K (t :: s) (t.min :: ps)

theorem trav_exists {K : List (List T)} (hK : KInv K) (n : Nat) (s : List Tr) (hs : SOk K s)
    (hN : (s.map Tr.blk).Nodup) (hn : (remPos K s).length = n) :
    ∃ ps, Trav K s ps ∧ ps.Perm (remPos K s) ∧ ps.Pairwise (KLt K) := by
  induction n generalizing s with
  | zero =>
    cases s with
    | nil => exact ⟨[], .nil, by simp [remPos], List.Pairwise.nil⟩
    | cons t s =>
      rw [remPos_cons, range_split hs.1] at hn; simp at hn
  | succ n ih =>
    cases s with
    | nil => simp [remPos] at hn
    | cons t s =>
      obtain ⟨e, s', h1, h2, h3, h4, h5⟩ := pop_spec hK s t hs hN
      have hN' : (s'.map Tr.blk).Nodup := hN.sublist h4
      obtain ⟨ps, p1, p2, p3⟩ := ih s' h3 hN' (by
        have := h5.length_eq
        rw [List.length_cons] at this; omega)
      refine ⟨t.min :: ps, .cons h1 h2 p1, (List.Perm.cons _ p2).trans h5.symm, List.pairwise_cons.2 ⟨?_, p3⟩⟩
      intro q hq a b ha hb
      have hqr : q ∈ remPos K s' := p2.subset hq
      have hle := min_le_rem hK hs q (h5.symm.subset (List.mem_cons_of_mem _ hqr)) a b ha hb
      refine lt_of_le_of_ne hle fun eab => ?_
      subst eab
      have : t.min = q := keyAt_inj hK.2 ha hb
      have hnd := (h5.nodup_iff).1 (remPos_nodup hN)
      rw [List.nodup_cons] at hnd
      exact hnd.1 (this ▸ hqr)

theorem initStack_spec {K : List (List T)} (_hK : KInv K) (k : Nat) (bs : List (List T)) (hbs : K.drop k = bs)
    (hne : ∀ b ∈ bs, b ≠ []) :
    ∃ s, initStack K k bs = .ok s ∧ SOk K s ∧ s.map Tr.blk = List.range' k bs.length ∧ ∀ t ∈ s, t.cur = 0 := by
  induction bs generalizing k with
  | nil => exact ⟨[], rfl, trivial, by simp, by simp⟩
  | cons b bs ih =>
    have hlt : k < K.length := by
      by_contra h
      rw [List.drop_eq_nil_of_le (by omega)] at hbs; cases hbs
    have hb : K[k]? = some b := by
      have := List.getElem?_drop (xs := K) (i := k) (j := 0)
      rw [hbs] at this; simpa using this.symm
    obtain ⟨s, h1, h2, h3, h4⟩ := ih (k+1) (by
      rw [← List.drop_drop, hbs]; rfl) (fun b hb => hne b (List.mem_cons_of_mem _ hb))
    have hlen : 0 < len K k := by
      have := hne b List.mem_cons_self
      unfold len
      rw [List.getD_eq_getElem?_getD, hb]
      exact List.length_pos_of_ne_nil this
    rw [initStack, h1, Res.ok_bind, Res.assert_bind (by simpa using hne b List.mem_cons_self)]
    cases s with
    | nil =>
      refine ⟨_, rfl, ⟨hlen, trivial, Or.inl rfl, ?_⟩, ?_, by simp⟩
      · intro x hx
        rw [List.mem_singleton] at hx
        subst hx; exact KLe.refl K _
      · have hz : bs.length = 0 := by
          have := congrArg List.length h3
          simpa using this.symm
        simp [hz]
    | cons u s' =>
      obtain ⟨c, hc, hc1, hc2⟩ := less_ok (K := K) (p := (k, 0)) (q := u.min) hlen (SOk.min_valid h2)
      simp only
      rw [hc, Res.ok_bind]
      refine ⟨_, rfl, ⟨hlen, h2, ?_, ?_⟩, ?_, ?_⟩
      · cases c with
        | true => exact Or.inl rfl
        | false => exact Or.inr ⟨u, s', rfl, rfl⟩
      · intro x hx
        cases c with
        | true =>
          rcases List.mem_cons.1 hx with rfl | hx
          · exact KLe.refl K _
          · exact KLe.trans (SOk.min_valid h2) (hc1 rfl) (h2.2.2.2 x hx)
        | false =>
          rcases List.mem_cons.1 hx with rfl | hx
          · exact hc2 rfl
          · exact h2.2.2.2 x hx
      · rw [List.map_cons, h3, List.length_cons, List.range'_succ]
      · intro t ht
        rcases List.mem_cons.1 ht with rfl | ht
        · rfl
        · exact h4 t ht

/-! ### loops over an element -/

variable [CommRing C] [DecidableEq C]

/-- one visit of a loop over an element: terms with zero coefficient are passed over -/
def visit {S : Type} (getL : S → List (List (T × C))) (body : Pos → S → Res S) (x : S) (p : Pos) : Res S := do
  let z ← zeroAt (getL x) p
  (if z then .ok x else body p x)

/-- the visits one after another -/
def visits {S : Type} (getL : S → List (List (T × C))) (body : Pos → S → Res S) : S → List Pos → Res S
  | x, [] => .ok x
  | x, p :: ps => do visits getL body (← visit getL body x p) ps

/-- the positions from the first one with nonzero coefficient on -/
def dropZ (L : List (List (T × C))) : List Pos → List Pos
  | [] => []
  | p :: ps => if zeroAt L p = .ok true then dropZ L ps else p :: ps

theorem dropZ_length (L : List (List (T × C))) (ps : List Pos) : (dropZ L ps).length ≤ ps.length := by
  induction ps with
  | nil => simp [dropZ]
  | cons p ps ih =>
    rw [dropZ]
    by_cases h : zeroAt L p = .ok true
    · rw [if_pos h]; simp; omega
    · rw [if_neg h]

theorem dropZ_sub (L : List (List (T × C))) (ps : List Pos) : ∀ p ∈ dropZ L ps, p ∈ ps := by
  induction ps with
  | nil => simp [dropZ]
  | cons p ps ih =>
    intro q hq
    rw [dropZ] at hq
    by_cases h : zeroAt L p = .ok true
    · rw [if_pos h] at hq; exact List.mem_cons_of_mem _ (ih q hq)
    · rw [if_neg h] at hq; exact hq

theorem dropZ_head {L : List (List (T × C))} {ps : List Pos} {p : Pos} {r : List Pos} (h : dropZ L ps = p :: r) :
    ¬ zeroAt L p = .ok true := by
  induction ps with
  | nil => simp [dropZ] at h
  | cons q ps ih =>
    rw [dropZ] at h
    by_cases hz : zeroAt L q = .ok true
    · rw [if_pos hz] at h; exact ih h
    · rw [if_neg hz] at h; cases h; exact hz

theorem zeroAt_ok {L : List (List (T × C))} {p : Pos} {t : T × C} (h : entryAt L p = some t) :
    zeroAt L p = .ok (decide (t.2 = 0)) := by rw [zeroAt, h]

theorem visits_dropZ {S : Type} (getL : S → List (List (T × C))) (body : Pos → S → Res S) (x : S) (ps : List Pos) :
    visits getL body x ps = visits getL body x (dropZ (getL x) ps) := by
  induction ps with
  | nil => rfl
  | cons p ps ih =>
    rw [dropZ]
    by_cases h : zeroAt (getL x) p = .ok true
    · rw [if_pos h, visits, visit, h, Res.ok_bind, if_pos rfl, Res.ok_bind, ih]
    · rw [if_neg h]

/-- positions within the blocks -/
def ValidPos (L : List (List (T × C))) (ps : List Pos) : Prop := ∀ p ∈ ps, ∃ t, entryAt L p = some t

theorem skipZeros_spec {L : List (List (T × C))} {s : List Tr} {ps : List Pos} (h : Trav (shape L) s ps)
    (hv : ValidPos L ps) (f : Nat) (hf : ps.length < f) :
    ∃ s', skipZeros L f s = .ok s' ∧ Trav (shape L) s' (dropZ L ps) := by
  induction h generalizing f with
  | nil =>
    obtain ⟨g, rfl⟩ : ∃ g, f = g + 1 := ⟨f - 1, by simp at hf; omega⟩
    exact ⟨[], rfl, .nil⟩
  | @cons t s s' e ps h1 h2 h3 ih =>
    obtain ⟨g, rfl⟩ : ∃ g, f = g + 1 := ⟨f - 1, by simp at hf; omega⟩
    obtain ⟨x, hx⟩ := hv _ List.mem_cons_self
    rw [skipZeros, zeroAt_ok hx, Res.ok_bind, dropZ, zeroAt_ok hx]
    by_cases hz : x.2 = 0
    · rw [decide_eq_true hz, if_pos rfl, if_pos rfl, h1, Res.ok_bind]
      exact ih (fun p hp => hv p (List.mem_cons_of_mem _ hp)) g (by simp at hf; omega)
    · rw [decide_eq_false hz]
      exact ⟨t :: s, rfl, .cons h1 h2 h3⟩

theorem incr_spec {L : List (List (T × C))} {t : Tr} {s : List Tr} {p : Pos} {ps : List Pos}
    (h : Trav (shape L) (t :: s) (p :: ps))
    (hv : ValidPos L ps) (f : Nat) (hf : ps.length < f) :
    ∃ s', incr L f (t :: s) = .ok s' ∧ Trav (shape L) s' (dropZ L ps) := by
  induction f generalizing t s p ps with
  | zero => omega
  | succ f ih =>
    rw [incr]
    cases h with
    | @cons _ _ s' e _ h1 h2 h3 =>
      rw [h1, Res.ok_bind]
      cases e with
      | true =>
        have hs' := h2.1 rfl
        subst hs'
        cases h3
        exact ⟨[], rfl, .nil⟩
      | false =>
        simp only [Bool.false_eq_true, if_false]
        cases h3 with
        | nil => exact absurd (h2.2 rfl) (by simp)
        | @cons t' s' s'' e' ps' k1 k2 k3 =>
          obtain ⟨x, hx⟩ := hv _ List.mem_cons_self
          simp only
          rw [zeroAt_ok hx, Res.ok_bind, dropZ, zeroAt_ok hx]
          by_cases hz : x.2 = 0
          · rw [decide_eq_true hz, if_pos rfl, if_pos rfl]
            exact ih (.cons k1 k2 k3) (fun p hp => hv p (List.mem_cons_of_mem _ hp)) (by simp at hf; omega)
          · rw [decide_eq_false hz]
            exact ⟨_, rfl, .cons k1 k2 k3⟩

/-- positions correspond to exponents -/
theorem valid_shape {L L' : List (List (T × C))} (h : shape L = shape L') {ps : List Pos} (hv : ValidPos L ps) :
    ValidPos L' ps := by
  intro p hp
  obtain ⟨t, ht⟩ := hv p hp
  have h1 := keyAt_shape L p
  have h2 := keyAt_shape L' p
  rw [h, h2, ht] at h1
  cases e : entryAt L' p with
  | none => rw [e] at h1; cases h1
  | some u => exact ⟨u, rfl⟩

omit [LinearOrder T] [CommRing C] [DecidableEq C] in
theorem size_shape (L : List (List (T × C))) : size L = ((shape L).map List.length).sum := by
  unfold size shape
  rw [List.map_map]
  congr 1
  refine List.map_congr_left fun b _ => ?_
  simp

/-- a loop whose body does not change exponents performs the visits -/
theorem loop_spec {S : Type} {getL : S → List (List (T × C))} {body : Pos → S → Res S} {K : List (List T)}
    (I : S → Prop) (hI : ∀ x, I x → shape (getL x) = K)
    (hbody : ∀ p x, I x → (∃ t, entryAt (getL x) p = some t) → ∃ x', body p x = .ok x' ∧ I x')
    (f : Nat) (s : List Tr) (ps : List Pos) (x : S) (hx : I x) (h : Trav K s ps)
    (hv : ValidPos (getL x) ps) (hf : ps.length < f) (hsz : ps.length ≤ size (getL x))
    (hz : dropZ (getL x) ps = ps) :
    ∃ x', loop getL body f s x = .ok x' ∧ visits getL body x ps = .ok x' ∧ I x' := by
  induction f generalizing s ps x with
  | zero => omega
  | succ f ih =>
    cases h with
    | nil => exact ⟨x, rfl, rfl, hx⟩
    | @cons t s s' e ps' h1 h2 h3 =>
      obtain ⟨u, hu⟩ := hv _ List.mem_cons_self
      obtain ⟨x', b1, b2⟩ := hbody t.min x hx ⟨u, hu⟩
      have hshape : shape (getL x') = shape (getL x) := by rw [hI x' b2, hI x hx]
      have hv' : ValidPos (getL x') ps' := valid_shape hshape.symm fun p hp => hv p (List.mem_cons_of_mem _ hp)
      have hszeq : size (getL x') = size (getL x) := by rw [size_shape, size_shape, hshape]
      have htr : Trav (shape (getL x')) (t :: s) (t.min :: ps') := by
        rw [hI x' b2]; exact .cons h1 h2 h3
      obtain ⟨s2, i1, i2⟩ := incr_spec htr hv' (size (getL x') + 1) (by simp at hsz; omega)
      have hl := dropZ_length (getL x') ps'
      obtain ⟨x2, r1, r2, r3⟩ := ih s2 (dropZ (getL x') ps') x' b2 (by rw [← hI x' b2]; exact i2)
        (fun p hp => hv' p (dropZ_sub _ _ p hp)) (by simp at hf; omega) (by simp at hsz; omega) (by
          -- dropping zeros twice
          cases e : dropZ (getL x') ps' with
          | nil => rfl
          | cons q r => rw [dropZ, if_neg (dropZ_head e)])
      refine ⟨x2, ?_, ?_, r3⟩
      · rw [loop, b1, Res.ok_bind, i1, Res.ok_bind, r1]
      · have hnz : ¬ zeroAt (getL x) t.min = .ok true := dropZ_head hz
        rw [visits, visit]
        rw [zeroAt_ok hu] at hnz ⊢
        rw [Res.ok_bind]
        have : decide (u.2 = 0) = false := by
          cases hd : decide (u.2 = 0) with
          | false => rfl
          | true => rw [hd] at hnz; exact absurd rfl hnz
        rw [this]
        simp only [Bool.false_eq_true, if_false]
        rw [b1, Res.ok_bind, visits_dropZ, r2]

/-- all positions of an element, in increasing order of exponent -/
theorem positions {L : List (List (T × C))} (h : Inv L) : ∃ (s : List Tr) (ps : List Pos),
    initStack (shape L) 0 (shape L) = .ok s ∧ Trav (shape L) s ps ∧ ValidPos L ps ∧ ps.length = size L ∧
    ps.Pairwise (KLt (shape L)) ∧ (∀ p t, entryAt L p = some t → p ∈ ps) ∧ ps.Nodup := by
  have hK := (inv_iff L).1 h
  obtain ⟨s, h1, h2, h3, h4⟩ := initStack_spec hK 0 (shape L) (by simp) fun b hb => (hK.1 b hb).1
  have hN : (s.map Tr.blk).Nodup := by rw [h3]; exact List.nodup_range'
  obtain ⟨ps, p1, p2, p3⟩ := trav_exists hK _ s h2 hN rfl
  have hmem : ∀ p : Pos, p ∈ remPos (shape L) s ↔ p.1 < (shape L).length ∧ p.2 < len (shape L) p.1 := by
    intro p
    unfold remPos
    rw [List.mem_flatMap]
    constructor
    · rintro ⟨t, ht, hp⟩
      obtain ⟨i, hi, rfl⟩ := List.mem_map.1 hp
      have : t.blk ∈ s.map Tr.blk := List.mem_map_of_mem ht
      rw [h3, List.mem_range'_1] at this
      rw [h4 t ht, List.mem_range'_1] at hi
      exact ⟨by simp only; omega, by simp only; omega⟩
    · rintro ⟨hp1, hp2⟩
      have : p.1 ∈ s.map Tr.blk := by rw [h3, List.mem_range'_1]; omega
      obtain ⟨t, ht, e⟩ := List.mem_map.1 this
      refine ⟨t, ht, List.mem_map.2 ⟨p.2, ?_, Prod.ext e rfl⟩⟩
      rw [h4 t ht, List.mem_range'_1, e]; omega
  refine ⟨s, ps, h1, p1, ?_, ?_, p3, ?_, (p2.nodup_iff).2 (remPos_nodup hN)⟩
  · intro p hp
    have := (hmem p).1 (p2.subset hp)
    obtain ⟨a, ha⟩ := keyAt_some this.2
    rw [keyAt_shape] at ha
    cases e : entryAt L p with
    | none => rw [e] at ha; cases ha
    | some t => exact ⟨t, rfl⟩
  · rw [p2.length_eq]
    have : ∀ (s : List Tr) (k : Nat) (bs : List (List T)), (shape L).drop k = bs →
        s.map Tr.blk = List.range' k bs.length → (∀ t ∈ s, t.cur = 0) →
        (remPos (shape L) s).length = (bs.map List.length).sum := by
      intro s
      induction s with
      | nil =>
        intro k bs _ hr _
        have : bs = [] := by
          have := congrArg List.length hr
          simp at this; exact List.length_eq_zero_iff.1 this.symm
        subst this; rfl
      | cons t s ih =>
        intro k bs hbs hr h0
        cases bs with
        | nil => simp at hr
        | cons b bs =>
          rw [List.map_cons, List.length_cons, List.range'_succ] at hr
          obtain ⟨e1, e2⟩ := List.cons.inj hr
          have hb : (shape L)[k]? = some b := by
            have := List.getElem?_drop (xs := shape L) (i := k) (j := 0)
            rw [hbs] at this; simpa using this.symm
          rw [remPos_cons, List.length_append, ih (k+1) bs (by rw [← List.drop_drop, hbs]; rfl) e2
            (fun t ht => h0 t (List.mem_cons_of_mem _ ht)), h0 t List.mem_cons_self, e1]
          simp [len, List.getD_eq_getElem?_getD, hb]
    rw [this s 0 (shape L) (by simp) h3 h4, size_shape]
  · intro p t hp
    refine p2.symm.subset ((hmem p).2 ?_)
    have hk : keyAt (shape L) p = some t.1 := by rw [keyAt_shape, hp]; rfl
    unfold keyAt at hk
    unfold len
    rw [List.getD_eq_getElem?_getD]
    cases e : (shape L)[p.1]? with
    | none => rw [e] at hk; cases hk
    | some b =>
      rw [e] at hk
      simp only [Option.bind_some] at hk
      obtain ⟨hlt, _⟩ := List.getElem?_eq_some_iff.1 e
      obtain ⟨hlt2, _⟩ := List.getElem?_eq_some_iff.1 hk
      exact ⟨hlt, hlt2⟩

/-- A loop over an element whose body leaves the exponents alone performs visits at all positions,
in order. -/
theorem forEach_spec {S : Type} {getL : S → List (List (T × C))} {body : Pos → S → Res S} (x : S)
    (h : Inv (getL x)) (I : S → Prop) (hx : I x) (hI : ∀ y, I y → shape (getL y) = shape (getL x))
    (hbody : ∀ p y, I y → (∃ t, entryAt (getL y) p = some t) → ∃ y', body p y = .ok y' ∧ I y') :
    ∃ ps : List Pos, ps.Pairwise (KLt (shape (getL x))) ∧ ps.Nodup ∧ ValidPos (getL x) ps ∧
      (∀ p t, entryAt (getL x) p = some t → p ∈ ps) ∧
      ∃ x', forEach getL body x = .ok x' ∧ visits getL body x ps = .ok x' ∧ I x' := by
  obtain ⟨s, ps, h1, h2, h3, h4, h5, h6, h7⟩ := positions h
  refine ⟨ps, h5, h7, h3, h6, ?_⟩
  obtain ⟨s', k1, k2⟩ := skipZeros_spec h2 h3 (size (getL x) + 1) (by omega)
  have hl := dropZ_length (getL x) ps
  obtain ⟨x', r1, r2, r3⟩ := loop_spec I hI hbody (size (getL x) + 1) s' (dropZ (getL x) ps) x hx k2
    (fun p hp => h3 p (dropZ_sub _ _ p hp)) (by omega) (by omega) (by
      cases e : dropZ (getL x) ps with
      | nil => rfl
      | cons q r => rw [dropZ, if_neg (dropZ_head e)])
  refine ⟨x', ?_, by rw [visits_dropZ, r2], r3⟩
  rw [forEach, begin', h1, Res.ok_bind, k1, Res.ok_bind, r1]

end Verif.Free
