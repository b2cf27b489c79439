import Verif.F2.Props
/-
C33: linear combinations and solving of linear systems over `Z/2`.
-/
namespace Verif.F2
open Verif

/-- the linear combination of the vectors with bits those of the numbers in `l`, with coefficients `c` -/
def lin (l : List Nat) (c : Nat → ZMod 2) : Nat → ZMod 2 := ∑ j ∈ Finset.range l.length, c j • vec (l.getD j 0)

theorem lin_cons (x : Nat) (l : List Nat) (c : Nat → ZMod 2) : lin (x :: l) c = c 0 • vec x + lin l fun j => c (j + 1) := by
  unfold lin
  rw [List.length_cons, Finset.sum_range_succ', add_comm]
  rfl

theorem combSetsLoop_spec {dim : Nat} (coef : Nat) : ∀ (l : List Nat) (i r : Nat), i + l.length ≤ dim → ∃ r', combSetsLoop dim coef l i r = .ok r' ∧
    vec r' = vec r + lin l (fun j => vec coef (i + j)) ∧ ∀ n, (∀ x ∈ l, x < 2 ^ n) → r < 2 ^ n → r' < 2 ^ n := by
  intro l
  induction l with
  | nil => intro i r _; exact ⟨r, rfl, by unfold lin; simp, fun _ _ h => h⟩
  | cons x l ih =>
    intro i r hi
    rw [List.length_cons] at hi
    rw [combSetsLoop, bsTest_ok (by omega), Res.ok_bind]
    have hfun : (fun j => vec coef (i + 1 + j)) = fun j => vec coef (i + (j + 1)) := by funext j; congr 1; omega
    by_cases hb : coef.testBit i = true
    · rw [if_pos hb]
      obtain ⟨r', h1, h2, h3⟩ := ih (i + 1) (r ^^^ x) (by omega)
      refine ⟨r', h1, ?_, fun n hl hr => h3 n (fun y hy => hl y (List.mem_cons_of_mem _ hy)) (xor_lt hr (hl x List.mem_cons_self))⟩
      rw [h2, lin_cons, hfun, vec_xor, Nat.add_zero, vec_eq_one.2 hb, one_smul, add_assoc]
    · rw [if_neg hb]
      obtain ⟨r', h1, h2, h3⟩ := ih (i + 1) r (by omega)
      refine ⟨r', h1, ?_, fun n hl hr => h3 n (fun y hy => hl y (List.mem_cons_of_mem _ hy)) hr⟩
      rw [h2, lin_cons, hfun, Nat.add_zero, vec_eq_zero.2 (by simpa using hb), zero_smul, zero_add]

theorem combSets_spec {dim : Nat} (coef : Nat) (l : List Nat) (hl : l.length ≤ dim) : ∃ r, combSets dim l coef = .ok r ∧
    vec r = lin l (vec coef) ∧ ∀ n, (∀ x ∈ l, x < 2 ^ n) → r < 2 ^ n := by
  obtain ⟨r, h1, h2, h3⟩ := combSetsLoop_spec (dim := dim) coef l 0 0 (by omega)
  refine ⟨r, h1, ?_, fun n hn => h3 n hn (Nat.pow_pos (by omega))⟩
  rw [h2, vec_zero, zero_add]
  congr 1; funext j; rw [Nat.zero_add]

theorem combLoop_spec (nd : Bool) {dim n : Nat} (e : Nat) : ∀ (b : List BV), (∀ v ∈ b, Fits n v) → ∀ i r, i + b.length ≤ dim → r < 2 ^ n →
    ∃ r', combLoop nd dim e b i ⟨r, n⟩ = .ok ⟨r', n⟩ ∧ r' < 2 ^ n ∧ vec r' = vec r + lin (b.map (·.data)) (fun j => vec e (i + j)) := by
  intro b
  induction b with
  | nil => intro _ i r _ hr; exact ⟨r, rfl, hr, by unfold lin; simp⟩
  | cons x b ih =>
    intro hb i r hi hr
    obtain ⟨x, n'⟩ := x
    obtain ⟨rfl, hx⟩ := hb _ List.mem_cons_self
    rw [List.length_cons] at hi
    rw [combLoop, bsTest_ok (by omega), Res.ok_bind]
    have hfun : (fun j => vec e (i + 1 + j)) = fun j => vec e (i + (j + 1)) := by funext j; congr 1; omega
    by_cases hbit : e.testBit i = true
    · rw [if_pos hbit, add_ok', Res.ok_bind]
      obtain ⟨r', h1, h2, h3⟩ := ih (fun v hv => hb v (List.mem_cons_of_mem _ hv)) (i + 1) (r ^^^ x) (by omega) (xor_lt hr hx)
      refine ⟨r', h1, h2, ?_⟩
      rw [h3, List.map_cons, lin_cons, hfun, vec_xor, Nat.add_zero, vec_eq_one.2 hbit, one_smul, add_assoc]
    · rw [if_neg hbit]
      obtain ⟨r', h1, h2, h3⟩ := ih (fun v hv => hb v (List.mem_cons_of_mem _ hv)) (i + 1) r (by omega) hr
      refine ⟨r', h1, h2, ?_⟩
      rw [h3, List.map_cons, lin_cons, hfun, Nat.add_zero, vec_eq_zero.2 (by simpa using hbit), zero_smul, zero_add]

/-- C33: `combination` returns the linear combination of the vectors with the given coefficients. -/
theorem C33_combination (nd : Bool) {dim n : Nat} (e : Nat) (b : List BV) (hb : ∀ v ∈ b, Fits n v) (hl : b.length ≤ dim) :
    ∃ v, combination nd dim b n e = .ok v ∧ Fits n v ∧
      vec v.data = ∑ j ∈ Finset.range b.length, vec e j • vec (b.getD j ⟨0, n⟩).data := by
  obtain ⟨r, h1, h2, h3⟩ := combLoop_spec nd (dim := dim) e b hb 0 0 (by omega) (Nat.pow_pos (by omega))
  refine ⟨_, h1, ⟨rfl, h2⟩, ?_⟩
  rw [h3, vec_zero, zero_add]
  unfold lin
  rw [List.length_map]
  refine Finset.sum_congr rfl fun j hj => ?_
  have hj := Finset.mem_range.1 hj
  simp only [Nat.zero_add]
  rw [List.getD_eq_getElem _ _ (by simpa using hj), List.getD_eq_getElem _ _ hj, List.getElem_map]

example : combination false 32 [⟨3, 3⟩, ⟨6, 3⟩, ⟨4, 3⟩] 3 5 = .ok ⟨7, 3⟩ := by decide +kernel

theorem mem_Span {b : List BV} {u : Nat → ZMod 2} : u ∈ Span b ↔ ∃ c, lin (b.map (·.data)) c = u := by
  induction b generalizing u with
  | nil =>
    have : Span [] = ⊥ := by unfold Span; simp
    rw [this, Submodule.mem_bot]
    refine ⟨fun h => ⟨0, by unfold lin; simp [h]⟩, fun ⟨c, h⟩ => by rw [← h]; unfold lin; simp⟩
  | cons x b ih =>
    have : Span (x :: b) = Submodule.span (ZMod 2) (insert (vec x.data) {u | ∃ y ∈ b, vec y.data = u}) := by
      unfold Span; congr 1; ext u; simp [eq_comm]
    rw [this, Submodule.mem_span_insert]
    constructor
    · rintro ⟨a, z, hz, rfl⟩
      obtain ⟨c, rfl⟩ := ih.1 hz
      refine ⟨fun j => match j with | 0 => a | j + 1 => c j, ?_⟩
      rw [List.map_cons, lin_cons]
    · rintro ⟨c, rfl⟩
      refine ⟨c 0, _, ih.2 ⟨fun j => c (j + 1), rfl⟩, ?_⟩
      rw [List.map_cons, lin_cons]

/-! ### `combination_exists` -/

/-- a bit as an element of `Z/2` -/
def bz (b : Bool) : ZMod 2 := if b then 1 else 0

theorem bz_xor (a b : Bool) : bz (a ^^ b) = bz a + bz b := by cases a <;> cases b <;> decide

theorem vec_bz (x i : Nat) : vec x i = bz (x.testBit i) := rfl

/-- equations: a coefficient vector, its pivot, and the right hand side -/
abbrev Eqs := List ((Nat × Nat) × Bool)

/-- `c` satisfies the equations -/
def Sat (k : Nat) (t : Eqs) (c : Nat → ZMod 2) : Prop := ∀ y ∈ t, dotN k (vec y.1.1) c = bz y.2

/-- the bits of `rh` from `j` on are the right hand sides -/
def RhOk (j rh : Nat) (t : Eqs) : Prop := ∀ (i : Nat) (y : (Nat × Nat) × Bool), t[i]? = some y → rh.testBit (j + i) = y.2

theorem RhOk.head {j rh : Nat} {y : (Nat × Nat) × Bool} {t : Eqs} (h : RhOk j rh (y :: t)) : rh.testBit j = y.2 := h 0 y rfl

theorem RhOk.tail {j rh : Nat} {y : (Nat × Nat) × Bool} {t : Eqs} (h : RhOk j rh (y :: t)) : RhOk (j + 1) rh t := by
  intro i z hz
  rw [show j + 1 + i = j + (i + 1) by omega]
  exact h (i + 1) z hz

abbrev vals (t : Eqs) : List Nat := t.map (·.1.1)
abbrev pivs (t : Eqs) : List Nat := t.map (·.1.2)
abbrev prs (t : Eqs) : List (Nat × Nat) := t.map Prod.fst

theorem eqReduce_spec {dim k rh : Nat} (hk : k ≤ dim) : ∀ (t : Eqs) (j : Nat), j + t.length ≤ dim → Tri k (prs t) → RhOk j rh t →
    ∀ r x, r < 2 ^ k → ∃ r' x', eqReduce dim rh (vals t) (pivs t) j r x = .ok (r', x') ∧ r' < 2 ^ k ∧
      (∀ y ∈ t, r'.testBit y.1.2 = false) ∧ (∀ p, (∀ y ∈ t, y.1.1.testBit p = false) → r'.testBit p = r.testBit p) ∧
      ∀ c, Sat k t c → dotN k (vec r') c + bz x' = dotN k (vec r) c + bz x := by
  intro t
  induction t with
  | nil => intro j _ _ _ r x hr; exact ⟨r, x, rfl, hr, by simp, fun _ _ => rfl, fun _ _ => rfl⟩
  | cons y t ih =>
    intro j hj hT hrh r x hr
    rw [List.length_cons] at hj
    have hpos : y.1.2 < k := hT.pos (x := y.1) List.mem_cons_self
    have hlt : y.1.1 < 2 ^ k := hT.lt y.1 List.mem_cons_self
    have hl := hT.lead y.1 List.mem_cons_self
    have htri : ∀ z ∈ t, z.1.1.testBit y.1.2 = false := fun z hz => (List.pairwise_cons.1 hT.tri).1 z.1 (List.mem_map_of_mem hz)
    rw [vals, pivs, List.map_cons, List.map_cons, eqReduce, bsTest_ok (by omega), Res.ok_bind]
    by_cases hb : r.testBit y.1.2 = true
    · rw [if_pos hb, bsTest_ok (by omega), Res.ok_bind, hrh.head]
      obtain ⟨r', x', h1, h2, h3, h4, h5⟩ := ih (j + 1) (by omega) hT.tail hrh.tail (r ^^^ y.1.1) (x ^^ y.2) (xor_lt hr hlt)
      refine ⟨r', x', h1, h2, ?_, ?_, ?_⟩
      · intro z hz
        rcases List.mem_cons.1 hz with rfl | hz
        · rw [h4 _ htri, Nat.testBit_xor, hb, hl.1]; rfl
        · exact h3 z hz
      · intro p hp
        rw [h4 p (fun z hz => hp z (List.mem_cons_of_mem _ hz)), Nat.testBit_xor, hp y List.mem_cons_self, Bool.xor_false]
      · intro c hc
        rw [h5 c fun z hz => hc z (List.mem_cons_of_mem _ hz), vec_xor, dotN_add_left, hc y List.mem_cons_self, bz_xor]
        have h2 : bz y.2 + bz y.2 = 0 := by cases y.2 <;> decide
        rw [add_add_add_comm, h2, add_zero]
    · rw [if_neg hb]
      obtain ⟨r', x', h1, h2, h3, h4, h5⟩ := ih (j + 1) (by omega) hT.tail hrh.tail r x hr
      refine ⟨r', x', h1, h2, ?_, ?_, fun c hc => h5 c fun z hz => hc z (List.mem_cons_of_mem _ hz)⟩
      · intro z hz
        rcases List.mem_cons.1 hz with rfl | hz
        · rw [h4 _ htri]; simpa using hb
        · exact h3 z hz
      · intro p hp
        exact h4 p (fun z hz => hp z (List.mem_cons_of_mem _ hz))

/-- clearing bit `m` of an equation by means of the equation `(r,x)` -/
def clr3 (m r : Nat) (x : Bool) (y : (Nat × Nat) × Bool) : (Nat × Nat) × Bool := (clr m r y.1, if y.1.1.testBit m then y.2 ^^ x else y.2)

theorem eqClear_spec {dim m r : Nat} {x : Bool} (hm : m < dim) : ∀ (t : Eqs) (j rh : Nat), j + t.length ≤ dim → RhOk j rh t →
    ∃ rh', eqClear dim m r x (vals t) j rh = .ok (vals (t.map (clr3 m r x)), rh') ∧ RhOk j rh' (t.map (clr3 m r x)) ∧
      ∀ i, i < j → rh'.testBit i = rh.testBit i := by
  intro t
  induction t with
  | nil => intro j rh _ _; exact ⟨rh, rfl, by intro i y h; simp at h, fun _ _ => rfl⟩
  | cons y t ih =>
    intro j rh hj hrh
    rw [List.length_cons] at hj
    rw [vals, List.map_cons, eqClear, bsTest_ok hm, Res.ok_bind]
    by_cases hb : y.1.1.testBit m = true
    · rw [if_pos hb, bsTest_ok (by omega), Res.ok_bind, bsSet_ok (by omega), Res.ok_bind, hrh.head]
      obtain ⟨rh', h1, h2, h3⟩ := ih (j + 1) (putBit rh j (y.2 ^^ x)) (by omega) (by
        intro i z hz
        rw [testBit_putBit, if_neg (by omega)]
        exact hrh.tail i z hz)
      rw [h1, Res.ok_bind]
      refine ⟨rh', by simp [clr3, clr, hb], ?_, ?_⟩
      · intro i z hz
        rw [List.map_cons] at hz
        cases i with
        | zero =>
          rw [List.getElem?_cons_zero, Option.some.injEq] at hz
          subst hz
          rw [Nat.add_zero, h3 j (by omega), testBit_putBit, if_pos rfl]
          unfold clr3; rw [if_pos hb]
        | succ i =>
          rw [List.getElem?_cons_succ] at hz
          rw [show j + (i + 1) = j + 1 + i by omega]
          exact h2 i z hz
      · intro i hi
        rw [h3 i (by omega), testBit_putBit, if_neg (by omega)]
    · rw [if_neg hb]
      obtain ⟨rh', h1, h2, h3⟩ := ih (j + 1) rh (by omega) hrh.tail
      rw [h1, Res.ok_bind]
      refine ⟨rh', by simp [clr3, clr, hb], ?_, fun i hi => h3 i (by omega)⟩
      intro i z hz
      rw [List.map_cons] at hz
      cases i with
      | zero =>
        rw [List.getElem?_cons_zero, Option.some.injEq] at hz
        subst hz
        rw [Nat.add_zero, h3 j (by omega), hrh.head]
        unfold clr3; rw [if_neg hb]
      | succ i =>
        rw [List.getElem?_cons_succ] at hz
        rw [show j + (i + 1) = j + 1 + i by omega]
        exact h2 i z hz

theorem Red.length_le {n : Nat} {l : List (Nat × Nat)} (h : Red n l) : l.length ≤ n := by
  have hnd : (piv l).Nodup := List.pairwise_map.2 h.distinct
  have hsub : (piv l).toFinset ⊆ Finset.range n := by
    intro p hp
    obtain ⟨x, hx, rfl⟩ := List.mem_map.1 (List.mem_toFinset.1 hp)
    exact Finset.mem_range.2 (h.pos hx)
  have := Finset.card_le_card hsub
  rw [List.toFinset_card_of_nodup hnd, Finset.card_range, List.length_map] at this
  exact this

theorem rowOf_spec (nd : Bool) {dim n i : Nat} (hn : n ≤ dim) (hi : i < n) : ∀ (b : List BV), (∀ v ∈ b, Fits n v) → ∀ j r, j + b.length ≤ dim →
    r < 2 ^ j → ∃ r', rowOf nd dim i b j r = .ok r' ∧ r' < 2 ^ (j + b.length) ∧ (∀ p < j, r'.testBit p = r.testBit p) ∧
      ∀ (p : Nat) (v : BV), b[p]? = some v → r'.testBit (j + p) = v.data.testBit i := by
  intro b
  induction b with
  | nil => intro _ j r _ hr; exact ⟨r, rfl, hr, fun _ _ => rfl, by simp⟩
  | cons x b ih =>
    intro hb j r hj hr
    obtain ⟨x, n'⟩ := x
    obtain ⟨rfl, hx⟩ := hb _ List.mem_cons_self
    rw [List.length_cons] at hj
    rw [rowOf, get_ok' nd x hi hn, Res.ok_bind, bsSet_ok (by omega), Res.ok_bind]
    obtain ⟨r', h1, h2, h3, h4⟩ := ih (fun v hv => hb v (List.mem_cons_of_mem _ hv)) (j + 1) (putBit r j (x.testBit i)) (by omega)
      (putBit_lt (hr.trans_le (Nat.pow_le_pow_right (by omega) (by omega))) (by omega))
    refine ⟨r', h1, by rw [List.length_cons, show j + (b.length + 1) = j + 1 + b.length by omega]; exact h2, ?_, ?_⟩
    · intro p hp
      rw [h3 p (by omega), testBit_putBit, if_neg (by omega)]
    · intro p v hv
      cases p with
      | zero =>
        rw [List.getElem?_cons_zero, Option.some.injEq] at hv
        subst hv
        rw [Nat.add_zero, h3 j (by omega), testBit_putBit, if_pos rfl]
      | succ p =>
        rw [List.getElem?_cons_succ] at hv
        rw [show j + (p + 1) = j + 1 + p by omega]
        exact h4 p v hv

theorem rowOf_dot {b : List BV} {r i : Nat} (h : ∀ (p : Nat) (v : BV), b[p]? = some v → r.testBit p = v.data.testBit i) (c : Nat → ZMod 2) :
    dotN b.length (vec r) c = lin (b.map (·.data)) c i := by
  unfold dotN lin
  rw [Finset.sum_apply, List.length_map]
  refine Finset.sum_congr rfl fun j hj => ?_
  have hj := Finset.mem_range.1 hj
  rw [Pi.smul_apply, smul_eq_mul, mul_comm, vec_bz, h j b[j] (List.getElem?_eq_getElem hj), List.getD_eq_getElem _ _ (by simpa using hj),
    List.getElem_map]
  rfl

theorem existsLoop_spec (nd : Bool) {dim n : Nat} (hn : n ≤ dim) (hd : dim ≤ 64) (b : List BV) (hb : ∀ v ∈ b, Fits n v) (hbl : b.length ≤ dim)
    {rhs : Nat} : ∀ m i, i + m = n → ∀ (t : Eqs) (rh : Nat), Red b.length (prs t) → RhOk 0 rh t →
      (∀ c, (∀ p < i, lin (b.map (·.data)) c p = vec rhs p) ↔ Sat b.length t c) →
      (∃ rh' t', existsLoop nd dim b ⟨rhs, n⟩ m i (vals t) rh (pivs t) = .ok (some (rh', pivs t')) ∧ Red b.length (prs t') ∧ RhOk 0 rh' t' ∧
        ∀ c, (∀ p < n, lin (b.map (·.data)) c p = vec rhs p) ↔ Sat b.length t' c) ∨
      (existsLoop nd dim b ⟨rhs, n⟩ m i (vals t) rh (pivs t) = .ok none ∧ ∀ c, ¬ ∀ p < n, lin (b.map (·.data)) c p = vec rhs p) := by
  intro m
  induction m with
  | zero =>
    intro i hi t rh hR hrh hs
    have : i = n := by omega
    subst this
    exact Or.inl ⟨rh, t, rfl, hR, hrh, hs⟩
  | succ m ih =>
    intro i hi t rh hR hrh hs
    have htl : t.length ≤ b.length := by simpa using hR.length_le
    obtain ⟨r0, h1, h2, _, h3⟩ := rowOf_spec nd hn (show i < n by omega) b hb 0 0 (by omega) (by simp)
    rw [Nat.zero_add] at h2
    have hdot := rowOf_dot (r := r0) (i := i) (b := b) (fun p v hv => by have := h3 p v hv; rwa [Nat.zero_add] at this)
    obtain ⟨r, x, g1, g2, g3, g4, g5⟩ := eqReduce_spec (rh := rh) hbl t 0 (by omega) hR.tri hrh r0 (rhs.testBit i) h2
    rw [existsLoop, h1, Res.ok_bind, get_ok' nd rhs (by omega) hn, Res.ok_bind, g1, Res.ok_bind]
    simp only
    have hnew : ∀ c, (∀ p < i + 1, lin (b.map (·.data)) c p = vec rhs p) ↔ Sat b.length t c ∧ dotN b.length (vec r) c = bz x := by
      intro c
      have e : (∀ p < i + 1, lin (b.map (·.data)) c p = vec rhs p) ↔
          (∀ p < i, lin (b.map (·.data)) c p = vec rhs p) ∧ lin (b.map (·.data)) c i = vec rhs i := by
        refine ⟨fun h => ⟨fun p hp => h p (by omega), h i (by omega)⟩, fun h p hp => ?_⟩
        rcases Nat.lt_or_eq_of_le (Nat.le_of_lt_succ hp) with h' | rfl
        · exact h.1 p h'
        · exact h.2
      rw [e, hs]
      refine and_congr_right fun hc => ?_
      have := g5 c hc
      rw [hdot] at this
      rw [vec_bz]
      have two : ∀ u v : ZMod 2, u = v ↔ u + v = 0 := by decide
      rw [two, two (dotN _ _ _), this]
    by_cases hr : r = 0
    · subst hr
      rw [if_neg (by simp)]
      have h0 : ∀ c, dotN b.length (vec 0) c = 0 := by intro c; unfold dotN; simp
      by_cases hx : x = true
      · rw [if_pos hx]
        refine Or.inr ⟨rfl, fun c hc => ?_⟩
        have := ((hnew c).1 fun p hp => hc p (by omega)).2
        rw [h0, hx] at this
        exact absurd this (by decide)
      · rw [if_neg hx]
        refine ih (i + 1) (by omega) t rh hR hrh fun c => ?_
        rw [hnew, h0]
        have : bz x = 0 := by simp [bz, hx]
        rw [this]; simp
    · rw [if_pos hr]
      have hl := lead_firstBit g2 (hbl.trans hd) hr
      have hp := testBit_lt g2 hl.1
      have hR' : Red b.length (prs (t.map (clr3 (Bits.firstBit r) r x) ++ [((r, Bits.firstBit r), x)])) := by
        have := hR.add g2 hl (by
          intro y hy
          obtain ⟨z, hz, rfl⟩ := List.mem_map.1 hy
          exact g3 z hz)
        have e : prs (t.map (clr3 (Bits.firstBit r) r x) ++ [((r, Bits.firstBit r), x)]) =
            (prs t).map (clr (Bits.firstBit r) r) ++ [(r, Bits.firstBit r)] := by simp [prs, clr3]
        rw [e]; exact this
      have htl' : t.length < b.length := by
        have := hR'.length_le
        simp at this; omega
      obtain ⟨rh', k1, k2, k3⟩ := eqClear_spec (dim := dim) (m := Bits.firstBit r) (r := r) (x := x) (by omega) t 0 rh (by omega) hrh
      rw [k1, Res.ok_bind]
      simp only
      rw [bsSet_ok (by simp; omega), Res.ok_bind]
      have := ih (i + 1) (by omega) (t.map (clr3 (Bits.firstBit r) r x) ++ [((r, Bits.firstBit r), x)]) (putBit rh' t.length x) hR' ?_ ?_
      · have e1 : vals (t.map (clr3 (Bits.firstBit r) r x) ++ [((r, Bits.firstBit r), x)]) = vals (t.map (clr3 (Bits.firstBit r) r x)) ++ [r] := by simp
        have e2 : pivs (t.map (clr3 (Bits.firstBit r) r x) ++ [((r, Bits.firstBit r), x)]) = pivs t ++ [Bits.firstBit r] := by simp [clr3, clr]
        have e3 : (vals (t.map (clr3 (Bits.firstBit r) r x))).length = t.length := by simp
        rw [e1, e2] at this
        rw [e3]
        exact this
      · intro j y hy
        rw [Nat.zero_add, testBit_putBit]
        by_cases hj : j = t.length
        · rw [if_pos hj]
          subst hj
          rw [List.getElem?_append_right (by simp)] at hy
          simp at hy
          rw [← hy]
        · rw [if_neg hj]
          by_cases hj2 : j < t.length
          · rw [List.getElem?_append_left (by simpa using hj2)] at hy
            have := k2 j y hy
            rwa [Nat.zero_add] at this
          · rw [List.getElem?_eq_none (by simp; omega)] at hy
            cases hy
      · intro c
        rw [hnew]
        unfold Sat
        constructor
        · rintro ⟨a1, a2⟩ y hy
          rcases List.mem_append.1 hy with hy | hy
          · obtain ⟨z, hz, rfl⟩ := List.mem_map.1 hy
            unfold clr3 clr
            simp only
            split
            · rw [vec_xor, dotN_add_left, a1 z hz, a2, bz_xor]
            · exact a1 z hz
          · rw [List.mem_singleton.1 hy]; exact a2
        · intro a
          have a2 : dotN b.length (vec r) c = bz x := a _ (List.mem_append_right _ (List.mem_singleton_self _))
          refine ⟨fun z hz => ?_, a2⟩
          have := a _ (List.mem_append_left _ (List.mem_map_of_mem hz))
          unfold clr3 clr at this
          simp only at this
          by_cases hb : z.1.1.testBit (Bits.firstBit r) = true
          · rw [if_pos hb, if_pos hb, vec_xor, dotN_add_left, a2, bz_xor] at this
            exact add_right_cancel this
          · rw [if_neg hb, if_neg hb] at this; exact this

theorem storeLoop_spec {dim k rh : Nat} (hk : k ≤ dim) : ∀ (t : Eqs) (j c : Nat), j + t.length ≤ dim → (∀ y ∈ t, y.1.2 < k) →
    (t.Pairwise fun y z => y.1.2 ≠ z.1.2) → RhOk j rh t → c < 2 ^ k → ∃ c', storeLoop dim rh (pivs t) j c = .ok c' ∧ c' < 2 ^ k ∧
      (∀ y ∈ t, c'.testBit y.1.2 = y.2) ∧ ∀ p, p ∉ pivs t → c'.testBit p = c.testBit p := by
  intro t
  induction t with
  | nil => intro j c _ _ _ _ hc; exact ⟨c, rfl, hc, by simp, fun _ _ => rfl⟩
  | cons y t ih =>
    intro j c hj hlt hd hrh hc
    rw [List.length_cons] at hj
    have hy := hlt y List.mem_cons_self
    have hdc := List.pairwise_cons.1 hd
    rw [pivs, List.map_cons, storeLoop, bsTest_ok (by omega), Res.ok_bind, bsSet_ok (by omega), Res.ok_bind, hrh.head]
    obtain ⟨c', h1, h2, h3, h4⟩ := ih (j + 1) (putBit c y.1.2 y.2) (by omega) (fun z hz => hlt z (List.mem_cons_of_mem _ hz)) hdc.2 hrh.tail
      (putBit_lt hc hy)
    have hnot : y.1.2 ∉ pivs t := by
      intro hm
      obtain ⟨z, hz, e⟩ := List.mem_map.1 hm
      exact hdc.1 z hz e.symm
    refine ⟨c', h1, h2, ?_, ?_⟩
    · intro z hz
      rcases List.mem_cons.1 hz with rfl | hz
      · rw [h4 _ hnot, testBit_putBit, if_pos rfl]
      · exact h3 z hz
    · intro p hp
      rw [List.mem_cons, not_or] at hp
      rw [h4 p hp.2, testBit_putBit, if_neg hp.1]

/-- C33: `combination_exists` decides whether the vector is in the span of the given ones, and in that case finds
coefficients. -/
theorem C33_combinationExists (nd : Bool) {dim n : Nat} (hn : n ≤ dim) (hd : dim ≤ 64) (b : List BV) (hb : ∀ v ∈ b, Fits n v)
    (hbl : b.length ≤ dim) (rhs : BV) (hr : Fits n rhs) :
    (∃ c, combinationExists nd dim b rhs = .ok (some c) ∧ c < 2 ^ b.length ∧
      ∑ j ∈ Finset.range b.length, vec c j • vec (b.getD j ⟨0, n⟩).data = vec rhs.data) ∨
    (combinationExists nd dim b rhs = .ok none ∧ vec rhs.data ∉ Span b) := by
  have hsum : ∀ c, ∑ j ∈ Finset.range b.length, vec c j • vec (b.getD j ⟨0, n⟩).data = lin (b.map (·.data)) (vec c) := by
    intro c
    unfold lin
    rw [List.length_map]
    refine Finset.sum_congr rfl fun j hj => ?_
    have hj := Finset.mem_range.1 hj
    rw [List.getD_eq_getElem _ _ hj, List.getD_eq_getElem _ _ (by simpa using hj), List.getElem_map]
  obtain ⟨rhs, n'⟩ := rhs
  obtain ⟨rfl, hr⟩ := hr
  have hfull : ∀ c, (∀ p < n', lin (b.map (·.data)) c p = vec rhs p) ↔ lin (b.map (·.data)) c = vec rhs := by
    intro c
    refine ⟨fun h => ?_, fun h p _ => by rw [h]⟩
    funext p
    by_cases hp : p < n'
    · exact h p hp
    · have z : ∀ x, x < 2 ^ n' → vec x p = 0 := fun x hx => vec_eq_zero.2 (Nat.testBit_lt_two_pow (hx.trans_le (Nat.pow_le_pow_right (by omega) (by omega))))
      rw [z rhs hr]
      unfold lin
      rw [Finset.sum_apply]
      refine Finset.sum_eq_zero fun j hj => ?_
      have hj := Finset.mem_range.1 hj
      have hj' : j < b.length := by simpa using hj
      rw [Pi.smul_apply, List.getD_eq_getElem _ _ hj, List.getElem_map, z _ (hb _ (List.getElem_mem hj')).2, smul_zero]
  unfold combinationExists
  split
  · by_cases h0 : rhs = 0
    · subst h0
      exact Or.inl ⟨0, by simp [BV.isZero], by simp, by simp⟩
    · refine Or.inr ⟨by simp [BV.isZero, h0], ?_⟩
      have : Span [] = ⊥ := by unfold Span; simp
      rw [this, Submodule.mem_bot]
      exact fun h => h0 (vec_eq_zero_iff.1 h)
  · rename_i b0 bs
    have hb0 : b0.size = n' := (hb b0 List.mem_cons_self).1
    rw [Res.assertIn_bind nd (by simpa using hb0), hb0]
    have := existsLoop_spec nd hn hd (b0 :: bs) hb hbl (rhs := rhs) n' 0 (Nat.zero_add _) [] 0 ⟨by simp, by simp, List.Pairwise.nil⟩
      (by intro i y h; simp at h) (by intro c; unfold Sat; simp)
    rcases this with ⟨rh, t, h1, h2, h3, h4⟩ | ⟨h1, h2⟩
    · left
      have htl : t.length ≤ (b0 :: bs).length := by simpa using h2.length_le
      have hpos : ∀ y ∈ t, y.1.2 < (b0 :: bs).length := fun y hy => h2.pos (List.mem_map_of_mem hy)
      obtain ⟨c, g1, g2, g3, g4⟩ := storeLoop_spec hbl t 0 0 (by omega) hpos (by have := h2.distinct; rwa [prs, List.pairwise_map] at this) h3 (Nat.pow_pos (by omega))
      refine ⟨c, ?_, g2, ?_⟩
      · rw [show vals [] = [] from rfl, show pivs [] = [] from rfl] at h1
        rw [h1, Res.ok_bind]
        simp only
        rw [g1]; rfl
      · rw [hsum, ← hfull, h4]
        intro y hy
        unfold dotN
        rw [Finset.sum_eq_single y.1.2]
        · rw [vec_eq_one.2 (h2.lead y.1 (List.mem_map_of_mem hy)).1, one_mul, vec_bz, g3 y hy]
        · intro i _ hi
          by_cases hip : i ∈ pivs t
          · obtain ⟨z, hz, rfl⟩ := List.mem_map.1 hip
            have : vec y.1.1 z.1.2 = 0 := vec_eq_zero.2 (by
              rw [h2.bit (List.mem_map_of_mem hy) (List.mem_map_of_mem hz)]; simp [Ne.symm hi])
            rw [this, zero_mul]
          · have : vec c i = 0 := vec_eq_zero.2 (by rw [g4 i hip, Nat.zero_testBit])
            rw [this, mul_zero]
        · intro hc; exact absurd (Finset.mem_range.2 (hpos y hy)) hc
    · right
      refine ⟨?_, ?_⟩
      · rw [show vals [] = [] from rfl, show pivs [] = [] from rfl] at h1
        rw [h1, Res.ok_bind]; rfl
      · rw [mem_Span]
        rintro ⟨c, hc⟩
        exact h2 c ((hfull c).2 hc)

example : combinationExists false 32 [⟨3, 3⟩, ⟨6, 3⟩, ⟨5, 3⟩] ⟨5, 3⟩ = .ok (some 3) ∧
    combinationExists false 32 [⟨3, 3⟩, ⟨6, 3⟩, ⟨5, 3⟩] ⟨1, 3⟩ = .ok none := by decide +kernel

/-! ### `solvable` -/

theorem dot_extend {n v : Nat} {x : Nat → ZMod 2} (h1 : x n = 1) :
    dotN (n + 1) (vec v) x = 0 ↔ ∑ i ∈ Finset.range n, vec v i * x i = vec v n := by
  unfold dotN
  rw [Finset.sum_range_succ, h1, mul_one]
  have two : ∀ u v : ZMod 2, u + v = 0 ↔ u = v := by decide
  exact two _ _

theorem solLoop_spec (nd : Bool) {dimsol dimeq n : Nat} (hs : n ≤ dimsol) (he : n + 1 ≤ dimeq) : ∀ (l : List (Nat × Nat)), (∀ x ∈ l, x.2 < n) →
    (l.Pairwise fun a b => a.2 ≠ b.2) → ∀ s, s < 2 ^ n → ∃ s', solLoop nd dimsol dimeq n (piv l) (bvs (n + 1) l) ⟨s, n⟩ = .ok ⟨s', n⟩ ∧ s' < 2 ^ n ∧
      (∀ x ∈ l, s'.testBit x.2 = x.1.testBit n) ∧ ∀ i, i ∉ piv l → s'.testBit i = s.testBit i := by
  intro l
  induction l with
  | nil => intro _ _ s hs; exact ⟨s, rfl, hs, by simp, fun _ _ => rfl⟩
  | cons x l ih =>
    intro hl hd s hs'
    have hx := hl x List.mem_cons_self
    have hdc := List.pairwise_cons.1 hd
    obtain ⟨k', h1, h2, h3, h4⟩ := ih (fun y hy => hl y (List.mem_cons_of_mem _ hy)) hdc.2 (putBit s x.2 (x.1.testBit n)) (putBit_lt hs' hx)
    have hnot : x.2 ∉ piv l := by
      intro hc
      obtain ⟨y, hy, e⟩ := List.mem_map.1 hc
      exact hdc.1 y hy e.symm
    refine ⟨k', ?_, h2, ?_, ?_⟩
    · rw [piv, bvs, List.map_cons, List.map_cons, solLoop, get_ok' nd x.1 (by omega) he, Res.ok_bind, BV.set_ok nd s hx hs, Res.ok_bind]
      exact h1
    · intro y hy
      rcases List.mem_cons.1 hy with rfl | hy
      · rw [h4 _ hnot, testBit_putBit, if_pos rfl]
      · exact h3 y hy
    · intro i hi
      rw [piv, List.map_cons, List.mem_cons, not_or] at hi
      rw [h4 i hi.2, testBit_putBit, if_neg hi.1]

/-- C33: given equations in `n` unknowns, each a vector of size `n+1` of which the last bit is the right hand side,
`solvable` decides whether they have a common solution and finds one. -/
theorem C33_solvable (nd : Bool) {dimsol dimeq n : Nat} (hs : n ≤ dimsol) (he : n + 1 ≤ dimeq) (hd : dimeq ≤ 64) (eqns : List BV)
    (hne : eqns ≠ []) (hq : ∀ v ∈ eqns, Fits (n + 1) v) (sol : BV) :
    (∃ s, solvable nd dimsol dimeq eqns sol = .ok (some s) ∧ Fits n s ∧
      ∀ v ∈ eqns, ∑ i ∈ Finset.range n, vec v.data i * vec s.data i = vec v.data n) ∨
    (solvable nd dimsol dimeq eqns sol = .ok none ∧
      ¬ ∃ x : Nat → ZMod 2, ∀ v ∈ eqns, ∑ i ∈ Finset.range n, vec v.data i * x i = vec v.data n) := by
  unfold solvable
  split
  · exact absurd rfl hne
  · rename_i e0 es
    obtain ⟨l, t, h1, h2, h3, h4, h5, h6, h7⟩ := gaussJordan_spec nd he hd (e0 :: es) hq
    rw [h1, Res.ok_bind]
    have hlast : (e0.size + 4294967295) % 4294967296 = n := by
      rw [(hq e0 List.mem_cons_self).1]
      omega
    simp only
    rw [hlast, bsTest_ok (by omega), Res.ok_bind]
    -- an extended solution is orthogonal to all equations
    have hext : ∀ y : Nat → ZMod 2, (∀ v ∈ e0 :: es, dotN (n + 1) (vec v.data) y = 0) ↔ ∀ x ∈ l, dotN (n + 1) (vec x.1) y = 0 := by
      intro y
      have e1 : (∀ x ∈ l, dotN (n + 1) (vec x.1) y = 0) ↔ ∀ w ∈ sp l, dotN (n + 1) w y = 0 := by
        unfold sp
        rw [dotN_span]
        exact ⟨fun h w ⟨x, hx, e⟩ => e ▸ h x hx, fun h x hx => h _ ⟨x, hx, rfl⟩⟩
      rw [e1, h7]
      unfold Span
      rw [dotN_span]
      exact ⟨fun h w ⟨x, hx, e⟩ => e ▸ h x hx, fun h x hx => h _ ⟨x, hx, rfl⟩⟩
    by_cases hb : t.testBit n = true
    · rw [if_pos hb]
      refine Or.inr ⟨rfl, ?_⟩
      rintro ⟨x, hx⟩
      obtain ⟨y, hy, e⟩ := List.mem_map.1 ((h4 n).1 hb)
      have hall : ∀ v ∈ e0 :: es, dotN (n + 1) (vec v.data) (Function.update x n 1) = 0 := by
        intro v hv
        rw [dot_extend (Function.update_self _ _ _)]
        rw [← hx v hv]
        refine Finset.sum_congr rfl fun i hi => ?_
        rw [Function.update_of_ne (by have := Finset.mem_range.1 hi; omega)]
      have := (hext _).1 hall y hy
      unfold dotN at this
      rw [Finset.sum_range_succ, Function.update_self, Finset.sum_eq_zero, zero_add, mul_one,
        vec_eq_one.2 (e ▸ (h2.lead y hy).1)] at this
      · exact absurd this (by decide)
      · intro i hi
        rw [vec_eq_zero.2 ((h2.lead y hy).2 i (by rw [e]; exact Finset.mem_range.1 hi)), zero_mul]
    · rw [if_neg hb, Res.assertIn_bind nd (by simpa using hs), h5]
      have hpos : ∀ x ∈ l, x.2 < n := by
        intro x hx
        have := h2.pos hx
        have : x.2 ≠ n := fun e => hb ((h4 n).2 (e ▸ List.mem_map_of_mem hx))
        omega
      obtain ⟨s, g1, g2, g3, g4⟩ := solLoop_spec nd hs he l hpos h2.distinct 0 (Nat.pow_pos (by omega))
      rw [g1, Res.ok_bind]
      refine Or.inl ⟨_, rfl, ⟨rfl, g2⟩, ?_⟩
      have hall : ∀ x ∈ l, dotN (n + 1) (vec x.1) (Function.update (vec s) n 1) = 0 := by
        intro x hx
        rw [dot_extend (Function.update_self _ _ _), Finset.sum_eq_single x.2]
        · rw [vec_eq_one.2 (h2.lead x hx).1, one_mul, Function.update_of_ne (by have := hpos x hx; omega), vec_bz, vec_bz, g3 x hx]
        · intro i hi hne
          rw [Function.update_of_ne (by have := Finset.mem_range.1 hi; omega)]
          by_cases hip : i ∈ piv l
          · obtain ⟨z, hz, rfl⟩ := List.mem_map.1 hip
            have : vec x.1 z.2 = 0 := vec_eq_zero.2 (by rw [h2.bit hx hz]; simp [Ne.symm hne])
            rw [this, zero_mul]
          · have : vec s i = 0 := vec_eq_zero.2 (by rw [g4 i hip, Nat.zero_testBit])
            rw [this, mul_zero]
        · intro hc; exact absurd (Finset.mem_range.2 (hpos x hx)) hc
      intro v hv
      have := (hext _).2 hall v hv
      rw [dot_extend (Function.update_self _ _ _)] at this
      rw [← this]
      refine Finset.sum_congr rfl fun i hi => ?_
      rw [Function.update_of_ne (by have := Finset.mem_range.1 hi; omega)]

example : solvable false 32 32 [⟨11, 4⟩, ⟨6, 4⟩] ⟨0, 0⟩ = .ok (some ⟨1, 3⟩) ∧
    solvable false 32 32 [⟨11, 4⟩, ⟨3, 4⟩] ⟨0, 0⟩ = .ok none := by decide +kernel

end Verif.F2
