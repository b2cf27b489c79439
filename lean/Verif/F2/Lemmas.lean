import Verif.F2.Spec
import Verif.Bits.Props
import Mathlib.LinearAlgebra.Span.Defs
/-
Gauss-Jordan elimination on lists of pairs of a vector and its pivot position.
-/
namespace Verif.F2
open Verif

theorem vec_apply (x i : Nat) : vec x i = if x.testBit i then 1 else 0 := rfl

theorem vec_eq_one {x i : Nat} : vec x i = 1 ↔ x.testBit i = true := by
  unfold vec; split <;> simp_all

theorem vec_eq_zero {x i : Nat} : vec x i = 0 ↔ x.testBit i = false := by
  unfold vec; split <;> simp_all

theorem vec_xor (x y : Nat) : vec (x ^^^ y) = vec x + vec y := by
  funext i
  rw [Pi.add_apply, vec_apply, vec_apply, vec_apply, Nat.testBit_xor]
  cases x.testBit i <;> cases y.testBit i <;> decide

@[simp] theorem vec_zero : vec 0 = 0 := by
  funext i; simp [vec]

theorem vec_inj {x y : Nat} (h : vec x = vec y) : x = y := by
  apply Nat.eq_of_testBit_eq
  intro i
  have := congrFun h i
  unfold vec at this
  cases hx : x.testBit i <;> cases hy : y.testBit i <;> simp [hx, hy] at this <;> rfl

theorem vec_eq_zero_iff {x : Nat} : vec x = 0 ↔ x = 0 := ⟨fun h => vec_inj (by rw [h, vec_zero]), fun h => by rw [h, vec_zero]⟩

theorem add_self (u : Nat → ZMod 2) : u + u = 0 := by
  funext i
  rw [Pi.add_apply, Pi.zero_apply]
  generalize u i = x
  revert x; decide

theorem xor_lt {x y n : Nat} (hx : x < 2 ^ n) (hy : y < 2 ^ n) : x ^^^ y < 2 ^ n := Nat.xor_lt_two_pow hx hy

theorem testBit_lt {x n i : Nat} (hx : x < 2 ^ n) (h : x.testBit i = true) : i < n := by
  by_contra hn
  rw [Nat.testBit_lt_two_pow (hx.trans_le (Nat.pow_le_pow_right (by omega) (by omega)))] at h
  cases h

theorem Lead.unique {x p q : Nat} (h : Lead x p) (h' : Lead x q) : p = q := by
  rcases Nat.lt_trichotomy p q with c | c | c
  · have := h'.2 p c; rw [h.1] at this; cases this
  · exact c
  · have := h.2 q c; rw [h'.1] at this; cases this

theorem lead_firstBit {x n : Nat} (hx : x < 2 ^ n) (hn : n ≤ 64) (h0 : x ≠ 0) : Lead x (Bits.firstBit x) := by
  have := (Bits.C18_firstBit (hx.trans_le (Nat.pow_le_pow_right (by omega) hn))).1 h0
  exact ⟨this.2.1, this.2.2⟩

theorem Lead.firstBit {x n p : Nat} (hx : x < 2 ^ n) (hn : n ≤ 64) (h : Lead x p) : Bits.firstBit x = p := by
  have h0 : x ≠ 0 := by rintro rfl; simp [Lead] at h
  exact (lead_firstBit hx hn h0).unique h

/-! ### Spans of lists of pairs -/

/-- the span of the vectors in a list of pairs -/
def sp (l : List (Nat × Nat)) : Submodule (ZMod 2) (Nat → ZMod 2) := Submodule.span (ZMod 2) {u | ∃ x ∈ l, vec x.1 = u}

theorem mem_sp {l : List (Nat × Nat)} {x : Nat × Nat} (h : x ∈ l) : vec x.1 ∈ sp l := Submodule.subset_span ⟨x, h, rfl⟩

theorem sp_le {l : List (Nat × Nat)} {S : Submodule (ZMod 2) (Nat → ZMod 2)} (h : ∀ x ∈ l, vec x.1 ∈ S) : sp l ≤ S := by
  apply Submodule.span_le.2
  rintro u ⟨x, hx, rfl⟩
  exact h x hx

theorem sp_mono {l l' : List (Nat × Nat)} (h : ∀ x ∈ l, x ∈ l') : sp l ≤ sp l' := sp_le fun x hx => mem_sp (h x hx)

theorem sp_perm {l l' : List (Nat × Nat)} (h : ∀ x, x ∈ l ↔ x ∈ l') : sp l = sp l' :=
  le_antisymm (sp_mono fun x => (h x).1) (sp_mono fun x => (h x).2)

/-- as vectors of size `n` -/
abbrev bvs (n : Nat) (l : List (Nat × Nat)) : List BV := l.map fun x => ⟨x.1, n⟩
abbrev piv (l : List (Nat × Nat)) : List Nat := l.map Prod.snd

theorem span_bvs {n : Nat} (l : List (Nat × Nat)) : Span (bvs n l) = sp l := by
  unfold Span sp
  congr 1
  ext u
  constructor
  · rintro ⟨b, hb, rfl⟩
    obtain ⟨x, hx, rfl⟩ := List.mem_map.1 hb
    exact ⟨x, hx, rfl⟩
  · rintro ⟨x, hx, rfl⟩
    exact ⟨_, List.mem_map.2 ⟨x, hx, rfl⟩, rfl⟩

theorem get_ok' (nd : Bool) {dim n i : Nat} (w : Nat) (hi : i < n) (hn : n ≤ dim) : BV.get nd dim ⟨w, n⟩ i = .ok (w.testBit i) := by
  unfold BV.get bsTest
  rw [Res.assertIn_bind nd (by simpa using hi), if_pos (by omega)]

theorem add_ok' (nd : Bool) {n : Nat} (w x : Nat) : BV.add nd ⟨w, n⟩ ⟨x, n⟩ = .ok ⟨w ^^^ x, n⟩ := by
  unfold BV.add
  rw [Res.assertIn_bind nd (by simp)]; rfl

/-- what is needed for reduction -/
structure Tri (n : Nat) (l : List (Nat × Nat)) : Prop where
  lt : ∀ x ∈ l, x.1 < 2 ^ n
  lead : ∀ x ∈ l, Lead x.1 x.2
  tri : l.Pairwise fun x y => y.1.testBit x.2 = false

theorem Tri.pos {n : Nat} {l : List (Nat × Nat)} (h : Tri n l) {x : Nat × Nat} (hx : x ∈ l) : x.2 < n := testBit_lt (h.lt x hx) (h.lead x hx).1

theorem reduceLoop_spec (nd : Bool) {dim n : Nat} (hn : n ≤ dim) : ∀ (l : List (Nat × Nat)), Tri n l → ∀ w, w < 2 ^ n →
    ∃ w', reduceLoop nd dim (bvs n l) (piv l) ⟨w, n⟩ = .ok ⟨w', n⟩ ∧ w' < 2 ^ n ∧ (∀ x ∈ l, w'.testBit x.2 = false) ∧
      (∀ p, (∀ x ∈ l, x.1.testBit p = false) → w'.testBit p = w.testBit p) ∧ vec w' + vec w ∈ sp l := by
  intro l
  induction l with
  | nil =>
    intro _ w hw
    exact ⟨w, rfl, hw, by simp, fun _ _ => rfl, by rw [add_self]; exact Submodule.zero_mem _⟩
  | cons x l ih =>
    intro h w hw
    have hp := h.pos List.mem_cons_self
    have htri := List.pairwise_cons.1 h.tri
    have hT : Tri n l := ⟨fun y hy => h.lt y (List.mem_cons_of_mem _ hy), fun y hy => h.lead y (List.mem_cons_of_mem _ hy), htri.2⟩
    have hle : sp l ≤ sp (x :: l) := sp_mono fun y hy => List.mem_cons_of_mem _ hy
    rw [bvs, piv, List.map_cons, List.map_cons, reduceLoop, get_ok' nd w hp hn, Res.ok_bind]
    by_cases hb : w.testBit x.2 = true
    · rw [if_pos hb, add_ok', Res.ok_bind]
      obtain ⟨w', h1, h2, h3, h4, h5⟩ := ih hT (w ^^^ x.1) (xor_lt hw (h.lt x List.mem_cons_self))
      refine ⟨w', h1, h2, ?_, ?_, ?_⟩
      · intro y hy
        rcases List.mem_cons.1 hy with rfl | hy
        · rw [h4 y.2 htri.1, Nat.testBit_xor, hb, (h.lead y List.mem_cons_self).1]; rfl
        · exact h3 y hy
      · intro p hpx
        rw [h4 p (fun y hy => hpx y (List.mem_cons_of_mem _ hy)), Nat.testBit_xor, hpx x List.mem_cons_self, Bool.xor_false]
      · have e : vec w' + vec w = (vec w' + vec (w ^^^ x.1)) + vec x.1 := by
          rw [vec_xor, add_assoc, add_assoc, add_self, add_zero]
        rw [e]
        exact Submodule.add_mem _ (hle h5) (mem_sp List.mem_cons_self)
    · rw [if_neg hb]
      obtain ⟨w', h1, h2, h3, h4, h5⟩ := ih hT w hw
      refine ⟨w', h1, h2, ?_, ?_, hle h5⟩
      · intro y hy
        rcases List.mem_cons.1 hy with rfl | hy
        · rw [h4 y.2 htri.1]; simpa using hb
        · exact h3 y hy
      · intro p hpx
        exact h4 p (fun y hy => hpx y (List.mem_cons_of_mem _ hy))

/-- clearing bit `p` using `w` -/
def clr (p w : Nat) (x : Nat × Nat) : Nat × Nat := (if x.1.testBit p then x.1 ^^^ w else x.1, x.2)

theorem clearLoop_spec (nd : Bool) {dim n p : Nat} (hn : n ≤ dim) (hp : p < n) (w : Nat) (l : List (Nat × Nat)) :
    clearLoop nd dim p ⟨w, n⟩ (bvs n l) = .ok (bvs n (l.map (clr p w))) := by
  induction l with
  | nil => rfl
  | cons x l ih =>
    rw [bvs, List.map_cons, clearLoop]
    rw [get_ok' nd x.1 hp hn, Res.ok_bind]
    by_cases hb : x.1.testBit p = true
    · rw [if_pos hb, add_ok', Res.ok_bind, ih, Res.ok_bind, Res.pure_eq]
      simp [clr, hb]
    · rw [if_neg hb, Res.pure_eq, Res.ok_bind, ih, Res.ok_bind, Res.pure_eq]
      simp [clr, hb]

/-- a reduced list -/
structure Red (n : Nat) (l : List (Nat × Nat)) : Prop where
  lt : ∀ x ∈ l, x.1 < 2 ^ n
  lead : ∀ x ∈ l, Lead x.1 x.2
  red : l.Pairwise fun x y => y.1.testBit x.2 = false ∧ x.1.testBit y.2 = false

theorem Red.tri {n : Nat} {l : List (Nat × Nat)} (h : Red n l) : Tri n l := ⟨h.lt, h.lead, h.red.imp fun h => h.1⟩

theorem Red.pos {n : Nat} {l : List (Nat × Nat)} (h : Red n l) {x : Nat × Nat} (hx : x ∈ l) : x.2 < n := h.tri.pos hx

theorem sizeOk_bvs {n : Nat} (l : List (Nat × Nat)) (v : Nat) : sizeOk (bvs n l) ⟨v, n⟩ = true := by
  cases l <;> simp [sizeOk]

theorem Red.add {n : Nat} {l : List (Nat × Nat)} (h : Red n l) {w p : Nat} (hw : w < 2 ^ n) (hp : Lead w p)
    (h0 : ∀ x ∈ l, w.testBit x.2 = false) : Red n (l.map (clr p w) ++ [(w, p)]) := by
  have hlt : ∀ x ∈ l, (clr p w x).1 < 2 ^ n := by
    intro x hx
    unfold clr; simp only
    split
    · exact xor_lt (h.lt x hx) hw
    · exact h.lt x hx
  have hbit : ∀ x ∈ l, (clr p w x).1.testBit p = false := by
    intro x hx
    unfold clr; simp only
    split
    · rename_i hb; rw [Nat.testBit_xor, hb, hp.1]; rfl
    · rename_i hb; simpa using hb
  have hother : ∀ x, ∀ q, w.testBit q = false → (clr p w x).1.testBit q = x.1.testBit q := by
    intro x q hq
    unfold clr; simp only
    split
    · rw [Nat.testBit_xor, hq, Bool.xor_false]
    · rfl
  refine ⟨?_, ?_, ?_⟩
  · intro x hx
    rcases List.mem_append.1 hx with hx | hx
    · obtain ⟨y, hy, rfl⟩ := List.mem_map.1 hx
      exact hlt y hy
    · rw [List.mem_singleton.1 hx]; exact hw
  · intro x hx
    rcases List.mem_append.1 hx with hx | hx
    · obtain ⟨y, hy, rfl⟩ := List.mem_map.1 hx
      have hl := h.lead y hy
      refine ⟨by rw [show (clr p w y).2 = y.2 from rfl, hother y _ (h0 y hy)]; exact hl.1, ?_⟩
      intro q hq
      change q < y.2 at hq
      by_cases hpq : q < p
      · rw [hother y q (hp.2 q hpq)]; exact hl.2 q hq
      · have hyp : y.1.testBit p = false := hl.2 p (by omega)
        unfold clr; simp only
        rw [hyp]; exact hl.2 q hq
    · rw [List.mem_singleton.1 hx]; exact hp
  · rw [List.pairwise_append]
    refine ⟨?_, List.pairwise_singleton _ _, ?_⟩
    · rw [List.pairwise_map]
      refine List.Pairwise.imp_of_mem ?_ h.red
      intro x y hx hy hxy
      exact ⟨by rw [show (clr p w x).2 = x.2 from rfl, hother y _ (h0 x hx)]; exact hxy.1,
        by rw [show (clr p w y).2 = y.2 from rfl, hother x _ (h0 y hy)]; exact hxy.2⟩
    · intro x hx y hy
      rw [List.mem_singleton.1 hy]
      obtain ⟨z, hz, rfl⟩ := List.mem_map.1 hx
      exact ⟨h0 z hz, hbit z hz⟩

theorem sp_add {l : List (Nat × Nat)} {w v p : Nat} (h : vec w + vec v ∈ sp l) :
    sp (l.map (clr p w) ++ [(w, p)]) = sp l ⊔ Submodule.span (ZMod 2) {vec v} := by
  have hw : vec w ∈ sp (l.map (clr p w) ++ [(w, p)]) :=
    mem_sp (x := (w, p)) (List.mem_append_right _ (List.mem_singleton_self _))
  have hl : sp l ≤ sp (l.map (clr p w) ++ [(w, p)]) := by
    apply sp_le
    intro x hx
    have hm : vec (clr p w x).1 ∈ sp (l.map (clr p w) ++ [(w, p)]) := mem_sp (List.mem_append_left _ (List.mem_map_of_mem hx))
    unfold clr at hm
    simp only at hm
    split at hm
    · have := Submodule.add_mem _ hm hw
      rw [vec_xor, add_assoc, add_self, add_zero] at this
      exact this
    · exact hm
  have hv : vec v = vec w + (vec w + vec v) := by rw [← add_assoc, add_self, zero_add]
  have hw' : vec w = (vec w + vec v) + vec v := by rw [add_assoc, add_self, add_zero]
  have hwr : vec w ∈ sp l ⊔ Submodule.span (ZMod 2) {vec v} := by
    rw [hw']
    exact Submodule.add_mem _ (Submodule.mem_sup_left h) (Submodule.mem_sup_right (Submodule.mem_span_singleton_self _))
  apply le_antisymm
  · apply sp_le
    intro x hx
    rcases List.mem_append.1 hx with hx | hx
    · obtain ⟨y, hy, rfl⟩ := List.mem_map.1 hx
      unfold clr; simp only
      split
      · rw [vec_xor]
        exact Submodule.add_mem _ (Submodule.mem_sup_left (mem_sp hy)) hwr
      · exact Submodule.mem_sup_left (mem_sp hy)
    · rw [List.mem_singleton.1 hx]; exact hwr
  · refine sup_le hl ?_
    rw [Submodule.span_singleton_le_iff_mem, hv]
    exact Submodule.add_mem _ hw (hl h)

theorem sup_of_mem {l : List (Nat × Nat)} {v : Nat} (h : vec v ∈ sp l) : sp l = sp l ⊔ Submodule.span (ZMod 2) {vec v} :=
  (sup_eq_left.2 ((Submodule.span_singleton_le_iff_mem _ _).2 h)).symm

theorem normalSpanAdd_spec (nd : Bool) {dim n : Nat} (hn : n ≤ dim) (hd : dim ≤ 64) {l : List (Nat × Nat)} (h : Red n l) {v : Nat} (hv : v < 2 ^ n) :
    ∃ l', normalSpanAdd nd dim (bvs n l) (piv l) ⟨v, n⟩ = .ok (bvs n l', piv l') ∧ Red n l' ∧
      sp l' = sp l ⊔ Submodule.span (ZMod 2) {vec v} := by
  unfold normalSpanAdd
  rw [Res.assertIn_bind nd (sizeOk_bvs l v), Res.assertIn_bind nd (by simp)]
  by_cases h0 : v = 0
  · subst h0
    rw [if_pos (by simp [BV.isZero])]
    exact ⟨l, rfl, h, sup_of_mem (by rw [vec_zero]; exact Submodule.zero_mem _)⟩
  · rw [if_neg (by simpa [BV.isZero] using h0)]
    obtain ⟨w, h1, h2, h3, h4, h5⟩ := reduceLoop_spec nd hn l h.tri v hv
    rw [h1, Res.ok_bind]
    by_cases hw : w = 0
    · subst hw
      rw [if_pos (by simp [BV.isZero])]
      exact ⟨l, rfl, h, sup_of_mem (by simpa using h5)⟩
    · rw [if_neg (by simpa [BV.isZero] using hw)]
      have hl := lead_firstBit h2 (hn.trans hd) hw
      have hp := testBit_lt h2 hl.1
      simp only
      rw [BV.firstBit]
      simp only
      rw [clearLoop_spec nd hn hp, Res.ok_bind, Res.pure_eq]
      refine ⟨l.map (clr (Bits.firstBit w) w) ++ [(w, Bits.firstBit w)], ?_, h.add h2 hl h3, sp_add h5⟩
      simp [clr]

theorem spanLoop_spec (nd : Bool) {dim n : Nat} (hn : n ≤ dim) (hd : dim ≤ 64) : ∀ (b : List BV), (∀ v ∈ b, Fits n v) → ∀ l, Red n l →
    ∃ l', spanLoop nd dim b (bvs n l) (piv l) = .ok (bvs n l', piv l') ∧ Red n l' ∧ sp l' = sp l ⊔ Span b := by
  intro b
  induction b with
  | nil =>
    intro _ l h
    refine ⟨l, rfl, h, ?_⟩
    have : Span [] = ⊥ := by unfold Span; simp
    rw [this, sup_bot_eq]
  | cons v b ih =>
    intro hb l h
    obtain ⟨v, n'⟩ := v
    obtain ⟨rfl, hv⟩ := hb _ List.mem_cons_self
    obtain ⟨l1, h1, h2, h3⟩ := normalSpanAdd_spec nd hn hd h hv
    obtain ⟨l2, g1, g2, g3⟩ := ih (fun w hw => hb w (List.mem_cons_of_mem _ hw)) l1 h2
    refine ⟨l2, by rw [spanLoop, h1, Res.ok_bind]; exact g1, g2, ?_⟩
    rw [g3, h3, sup_assoc]
    congr 1
    unfold Span
    rw [← Submodule.span_union]
    congr 1
    ext u
    simp [eq_comm]

/-! ### The set of pivots -/

theorem testBit_putBit (d i : Nat) (b : Bool) (j : Nat) : (putBit d i b).testBit j = if j = i then b else d.testBit j := by
  unfold putBit
  have h1 : (1 <<< i).testBit j = decide (i = j) := by rw [Nat.shiftLeft_eq, Nat.one_mul, Nat.testBit_two_pow]
  by_cases hji : j = i
  · subst hji
    cases b <;> simp
  · have : ¬ i = j := fun e => hji e.symm
    cases b <;> simp [hji, h1, this]

theorem bsSet_ok {dim d i : Nat} {b : Bool} (hi : i < dim) : bsSet dim d i b = .ok (putBit d i b) := if_pos hi

theorem bsTest_ok {dim d i : Nat} (hi : i < dim) : bsTest dim d i = .ok (d.testBit i) := if_pos hi

theorem lt_of_bits {x n : Nat} (h : ∀ i, n ≤ i → x.testBit i = false) : x < 2 ^ n := Nat.lt_pow_two_of_testBit x h

theorem putBit_lt {d i n : Nat} {b : Bool} (hd : d < 2 ^ n) (hi : i < n) : putBit d i b < 2 ^ n := by
  apply lt_of_bits
  intro j hj
  rw [testBit_putBit, if_neg (by omega)]
  exact Nat.testBit_lt_two_pow (hd.trans_le (Nat.pow_le_pow_right (by omega) hj))

theorem setAll_spec {dim : Nat} : ∀ (f : List Nat), (∀ p ∈ f, p < dim) → ∀ t, ∃ t', setAll dim f t = .ok t' ∧
    ∀ p, t'.testBit p = true ↔ t.testBit p = true ∨ p ∈ f := by
  intro f
  induction f with
  | nil => intro _ t; exact ⟨t, rfl, by simp⟩
  | cons i f ih =>
    intro hf t
    obtain ⟨t', h1, h2⟩ := ih (fun p hp => hf p (List.mem_cons_of_mem _ hp)) (putBit t i true)
    refine ⟨t', by rw [setAll, bsSet_ok (hf i List.mem_cons_self), Res.ok_bind, h1], ?_⟩
    intro p
    rw [h2, testBit_putBit, List.mem_cons]
    by_cases h : p = i
    · simp [h]
    · simp [h]

/-! ### Sorting -/

/-- insertion of a pair -/
def ins (x : Nat × Nat) : List (Nat × Nat) → List (Nat × Nat)
  | [] => [x]
  | y :: l => if x.2 ≤ y.2 then x :: y :: l else y :: ins x l

def srt : List (Nat × Nat) → List (Nat × Nat)
  | [] => []
  | x :: l => ins x (srt l)

theorem ins_perm (x : Nat × Nat) (l : List (Nat × Nat)) : (ins x l).Perm (x :: l) := by
  induction l with
  | nil => exact .refl _
  | cons y l ih =>
    unfold ins
    split
    · exact .refl _
    · exact (List.Perm.cons y ih).trans (List.Perm.swap x y l)

theorem srt_perm (l : List (Nat × Nat)) : (srt l).Perm l := by
  induction l with
  | nil => exact .refl _
  | cons x l ih => exact (ins_perm x _).trans (List.Perm.cons x ih)

theorem ins_sorted {x : Nat × Nat} {l : List (Nat × Nat)} (h : l.Pairwise fun a b => a.2 < b.2) (hx : ∀ y ∈ l, y.2 ≠ x.2) :
    (ins x l).Pairwise fun a b => a.2 < b.2 := by
  induction l with
  | nil => exact List.pairwise_singleton _ _
  | cons y l ih =>
    have hc := List.pairwise_cons.1 h
    unfold ins
    by_cases hxy : x.2 ≤ y.2
    · rw [if_pos hxy, List.pairwise_cons]
      have := hx y List.mem_cons_self
      refine ⟨fun z hz => ?_, h⟩
      rcases List.mem_cons.1 hz with rfl | hz
      · omega
      · have := hc.1 z hz; omega
    · rw [if_neg hxy, List.pairwise_cons]
      refine ⟨fun z hz => ?_, ih hc.2 fun z hz => hx z (List.mem_cons_of_mem _ hz)⟩
      rcases List.mem_cons.1 ((ins_perm x l).mem_iff.1 hz) with rfl | hz
      · omega
      · exact hc.1 z hz

theorem srt_sorted {l : List (Nat × Nat)} (h : l.Pairwise fun a b => a.2 ≠ b.2) : (srt l).Pairwise fun a b => a.2 < b.2 := by
  induction l with
  | nil => exact List.Pairwise.nil
  | cons x l ih =>
    have hc := List.pairwise_cons.1 h
    exact ins_sorted (ih hc.2) fun y hy => (hc.1 y ((srt_perm l).mem_iff.1 hy)).symm

theorem insertBy_spec {n : Nat} (hn : n ≤ 64) {x : Nat × Nat} (hx : x.1 < 2 ^ n ∧ Lead x.1 x.2) {l : List (Nat × Nat)}
    (hl : ∀ y ∈ l, y.1 < 2 ^ n ∧ Lead y.1 y.2) : insertBy ⟨x.1, n⟩ (bvs n l) = bvs n (ins x l) := by
  induction l with
  | nil => rfl
  | cons y l ih =>
    have hy := hl y List.mem_cons_self
    rw [bvs, List.map_cons, insertBy, BV.firstBit, BV.firstBit, ins]
    simp only
    rw [hx.2.firstBit hx.1 hn, hy.2.firstBit hy.1 hn]
    split
    · rfl
    · rw [ih fun z hz => hl z (List.mem_cons_of_mem _ hz)]; rfl

theorem sortBy_spec {n : Nat} (hn : n ≤ 64) {l : List (Nat × Nat)} (hl : ∀ y ∈ l, y.1 < 2 ^ n ∧ Lead y.1 y.2) :
    sortBy (bvs n l) = bvs n (srt l) := by
  induction l with
  | nil => rfl
  | cons x l ih =>
    have := ih fun z hz => hl z (List.mem_cons_of_mem _ hz)
    rw [bvs, List.map_cons, sortBy, srt, ← insertBy_spec hn (hl x List.mem_cons_self), ← this]
    intro y hy
    exact hl y (List.mem_cons_of_mem _ ((srt_perm l).mem_iff.1 hy))

theorem Red.perm {n : Nat} {l l' : List (Nat × Nat)} (h : Red n l) (hp : l'.Perm l) : Red n l' := by
  refine ⟨fun x hx => h.lt x (hp.mem_iff.1 hx), fun x hx => h.lead x (hp.mem_iff.1 hx), ?_⟩
  exact hp.symm.pairwise h.red (fun _ => by rename_i a; exact ⟨a.2, a.1⟩)

theorem Red.distinct {n : Nat} {l : List (Nat × Nat)} (h : Red n l) : l.Pairwise fun a b => a.2 ≠ b.2 := by
  refine List.Pairwise.imp_of_mem ?_ h.red
  intro x y hx hy hxy he
  have := (h.lead y hy).1
  rw [← he, hxy.1] at this
  cases this

theorem members_spec {t : Nat} {l : List Nat} (hs : l.Pairwise (· < ·)) (ht : ∀ p, t.testBit p = true ↔ p ∈ l) (hl : ∀ p ∈ l, p < 64) :
    members t = l := by
  have h1 : (members t).Pairwise (· < ·) := List.Pairwise.filter _ List.pairwise_lt_range
  have hm : ∀ p, p ∈ members t ↔ p ∈ l := by
    intro p
    unfold members
    rw [List.mem_filter, List.mem_range, ht]
    exact ⟨fun h => h.2, fun h => ⟨hl p h, h⟩⟩
  exact List.Perm.eq_of_pairwise (le := (· < ·)) (fun a b _ _ hab hba => absurd (lt_trans hab hba) (lt_irrefl _)) h1 hs
    ((List.perm_ext_iff_of_nodup (h1.imp fun h => Nat.ne_of_lt h) (hs.imp fun h => Nat.ne_of_lt h)).2 hm)

/-- the result of `Gauss_Jordan` -/
theorem gaussJordan_spec (nd : Bool) {dim n : Nat} (hn : n ≤ dim) (hd : dim ≤ 64) (b : List BV) (hb : ∀ v ∈ b, Fits n v) :
    ∃ l t, gaussJordan nd dim b = .ok (t, bvs n l) ∧ Red n l ∧ l.Pairwise (fun x y => x.2 < y.2) ∧
      (∀ p, t.testBit p = true ↔ p ∈ piv l) ∧ members t = piv l ∧ t < 2 ^ n ∧ sp l = Span b := by
  obtain ⟨l, h1, h2, h3⟩ := spanLoop_spec nd hn hd b hb [] ⟨by simp, by simp, List.Pairwise.nil⟩
  have hpiv : ∀ p ∈ piv l, p < n := by
    intro p hp
    obtain ⟨x, hx, rfl⟩ := List.mem_map.1 hp
    exact h2.pos hx
  obtain ⟨t, g1, g2⟩ := setAll_spec (dim := dim) (piv l) (fun p hp => (hpiv p hp).trans_le hn) 0
  have hperm := srt_perm l
  have ht : ∀ p, t.testBit p = true ↔ p ∈ piv (srt l) := by
    intro p
    rw [g2, Nat.zero_testBit]
    simp only [Bool.false_eq_true, false_or]
    exact ((hperm.map Prod.snd).mem_iff).symm
  have hsort := srt_sorted h2.distinct
  have hpiv' : ∀ p ∈ piv (srt l), p < n := fun p hp => hpiv p ((hperm.map Prod.snd).mem_iff.1 hp)
  refine ⟨srt l, t, ?_, h2.perm hperm, hsort, ht, ?_, ?_, ?_⟩
  · unfold gaussJordan
    rw [show ([] : List BV) = bvs n [] from rfl, show ([] : List Nat) = piv [] from rfl, h1, Res.ok_bind]
    simp only
    rw [g1, Res.ok_bind, sortBy_spec (hn.trans hd) fun y hy => ⟨h2.lt y hy, h2.lead y hy⟩]
    rfl
  · refine members_spec (List.pairwise_map.2 hsort) ht fun p hp => ?_
    have := hpiv' p hp
    omega
  · apply lt_of_bits
    intro i hi
    by_contra hc
    have := hpiv' i ((ht i).1 (by simpa using hc))
    omega
  · rw [sp_perm fun x => hperm.mem_iff, h3]
    have : sp [] = ⊥ := by unfold sp; simp
    rw [this, bot_sup_eq]

end Verif.F2
