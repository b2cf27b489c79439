import Verif.Part.Model
import Mathlib.Algebra.Group.Subgroup.Lattice
import Mathlib.Algebra.Group.End
import Mathlib.GroupTheory.Perm.Finite
import Mathlib.Data.List.Perm.Basic
import Mathlib.Tactic.Linarith
/-
C27: `Partition` represents exactly the given equivalence.
-/
namespace Verif.Part
open Verif

variable {n : Nat} {P : Partition}

/-- a valid partition of `[0,n)`: every element has a class, and each class has as representative
its least element (so it is not empty) -/
structure Valid (n : Nat) (P : Partition) : Prop where
  size : P.cls.length = n
  total : ∀ i, i < n → ∃ c, P.classOf i = .ok c ∧ c < P.classCount
  rep : ∀ c, c < P.classCount → ∃ j, P.classRep c = .ok j ∧ P.classOf j = .ok c ∧ ∀ i, i < j → P.classOf i ≠ .ok c

/-- classes are numbered in order of first occurrence: the representatives (least elements)
increase -/
def Ordered (P : Partition) : Prop :=
  ∀ c d i j, c < d → P.classRep c = .ok i → P.classRep d = .ok j → i < j

theorem get_iff {α : Type} {l : List α} {i : Nat} {x : α} : Vec.get l i = .ok x ↔ l[i]? = some x := by
  unfold Vec.get
  cases h : l[i]? with
  | none => simp
  | some y => simp

theorem classOf_iff {i c : Nat} : P.classOf i = .ok c ↔ P.cls[i]? = some c := get_iff
theorem classRep_iff {i c : Nat} : P.classRep i = .ok c ↔ P.rep[i]? = some c := get_iff

/-! ### from a class function -/

/-- invariant of the constructor's loop after `i` entries of `f` -/
structure MInv (f : List Nat) (i : Nat) (val : List (Nat × Nat)) (P : Partition) : Prop where
  size : P.cls.length = f.length
  sorted : SMap.Sorted val
  seen : ∀ j x, j < i → f[j]? = some x → ∃ c, P.cls[j]? = some c ∧ SMap.get val x = some c
  vals : ∀ x c, SMap.get val x = some c → ∃ j, P.rep[c]? = some j ∧ j < i ∧ f[j]? = some x ∧ ∀ k, k < j → f[k]? ≠ some x
  reps : ∀ c j, P.rep[c]? = some j → j < i ∧ ∃ x, f[j]? = some x ∧ SMap.get val x = some c
  incr : P.rep.Pairwise (· < ·)

theorem lt_of_get? {α : Type} {l : List α} {i : Nat} {x : α} (h : l[i]? = some x) : i < l.length :=
  (List.getElem?_eq_some_iff.1 h).1

theorem pairwise_snoc {l : List Nat} {x : Nat} (h : l.Pairwise (· < ·)) (hx : ∀ y ∈ l, y < x) : (l ++ [x]).Pairwise (· < ·) := by
  rw [List.pairwise_append]
  exact ⟨h, List.pairwise_singleton _ _, fun a ha b hb => by rw [List.mem_singleton.1 hb]; exact hx a ha⟩

theorem MInv.fresh {f : List Nat} {i : Nat} {val : List (Nat × Nat)} {P : Partition} (h : MInv f i val P) {x : Nat}
    (hx : f[i]? = some x) (hn : SMap.get val x = none) :
    MInv f (i + 1) (SMap.set val x P.rep.length) ⟨P.cls.set i P.rep.length, P.rep ++ [i]⟩ where
  size := by simpa using h.size
  sorted := SMap.sorted_set h.sorted _ _
  seen := by
    intro j y hj hy
    rw [SMap.get_set h.sorted]
    by_cases e : i = j
    · subst e
      rw [hx] at hy; cases hy
      exact ⟨P.rep.length, by rw [List.getElem?_set_self (by rw [h.size]; exact lt_of_get? hx)], by simp⟩
    · obtain ⟨c, h1, h2⟩ := h.seen j y (by omega) hy
      have : y ≠ x := by rintro rfl; rw [hn] at h2; cases h2
      exact ⟨c, by rw [List.getElem?_set_ne e]; exact h1, by rw [if_neg (Ne.symm this)]; exact h2⟩
  vals := by
    intro y c hy
    rw [SMap.get_set h.sorted] at hy
    by_cases e : x = y
    · subst e
      rw [if_pos rfl] at hy; cases hy
      refine ⟨i, by simp, by omega, hx, ?_⟩
      intro k hk e
      obtain ⟨c, _, h2⟩ := h.seen k x hk e
      rw [hn] at h2; cases h2
    · rw [if_neg e] at hy
      obtain ⟨j, h1, h2, h3, h4⟩ := h.vals y c hy
      exact ⟨j, by rw [List.getElem?_append_left (lt_of_get? h1)]; exact h1, by omega, h3, h4⟩
  reps := by
    intro c j hc
    rcases Nat.lt_or_ge c P.rep.length with hlt | hge
    · rw [List.getElem?_append_left hlt] at hc
      obtain ⟨h1, y, h2, h3⟩ := h.reps c j hc
      have : y ≠ x := by rintro rfl; rw [hn] at h3; cases h3
      exact ⟨by omega, y, h2, by rw [SMap.get_set h.sorted, if_neg (Ne.symm this)]; exact h3⟩
    · have : c = P.rep.length := by
        have := lt_of_get? hc
        simp at this; omega
      subst this
      simp at hc
      subst hc
      exact ⟨by omega, x, hx, by rw [SMap.get_set h.sorted, if_pos rfl]⟩
  incr := pairwise_snoc h.incr (fun y hy => by
    obtain ⟨c, hc, e⟩ := List.getElem_of_mem hy
    exact (h.reps c y (by rw [List.getElem?_eq_getElem hc, e])).1)

theorem MInv.old {f : List Nat} {i : Nat} {val : List (Nat × Nat)} {P : Partition} (h : MInv f i val P) {x c : Nat}
    (hx : f[i]? = some x) (hc : SMap.get val x = some c) : MInv f (i + 1) val ⟨P.cls.set i c, P.rep⟩ where
  size := by simpa using h.size
  sorted := h.sorted
  seen := by
    intro j y hj hy
    by_cases e : i = j
    · subst e
      rw [hx] at hy; cases hy
      exact ⟨c, by rw [List.getElem?_set_self (by rw [h.size]; exact lt_of_get? hx)], hc⟩
    · obtain ⟨c, h1, h2⟩ := h.seen j y (by omega) hy
      exact ⟨c, by rw [List.getElem?_set_ne e]; exact h1, h2⟩
  vals := fun y c hy => by
    obtain ⟨j, h1, h2, h3, h4⟩ := h.vals y c hy
    exact ⟨j, h1, by omega, h3, h4⟩
  reps := fun c j hc => by
    obtain ⟨h1, h2⟩ := h.reps c j hc
    exact ⟨by omega, h2⟩
  incr := h.incr

theorem makeLoop_spec (f : List Nat) (l : List Nat) (i : Nat) (val : List (Nat × Nat)) (P : Partition) (hl : f.drop i = l)
    (hi : i + l.length = f.length) (h : MInv f i val P) :
    ∃ val' P', makeLoop l i P.rep.length val P = .ok P' ∧ MInv f f.length val' P' := by
  induction l generalizing i val P with
  | nil =>
    obtain rfl : i = f.length := by simpa using hi
    exact ⟨val, P, rfl, h⟩
  | cons x l ih =>
    have hx : f[i]? = some x := by
      have := congrArg (fun t => t[0]?) hl
      simpa [List.getElem?_drop] using this
    have hl' : f.drop (i + 1) = l := by
      have := congrArg List.tail hl
      simpa using this
    have hif : i < P.cls.length := by rw [h.size]; exact lt_of_get? hx
    rw [List.length_cons] at hi
    rw [makeLoop]
    cases c : SMap.get val x with
    | none =>
      simp only
      unfold Partition.newClass
      rw [Vec.put_ok hif, Res.ok_bind, Res.pure_eq, Res.ok_bind]
      have := ih (i + 1) _ _ hl' (by omega) (h.fresh hx c)
      simpa using this
    | some d =>
      simp only
      unfold Partition.addToClass
      rw [Vec.put_ok hif, Res.ok_bind, Res.pure_eq, Res.ok_bind]
      exact ih (i + 1) _ _ hl' (by omega) (h.old hx c)

/-- C27: `Partition(f)` always succeeds; `x` and `y` are in the same class exactly when `f` agrees on them;
classes are numbered consecutively in order of first occurrence, and `classRep` is the first element of each class. -/
theorem C27_make (f : List Nat) :
    ∃ P, make f = .ok P ∧ Valid f.length P ∧ Ordered P ∧
      ∀ i j, i < f.length → j < f.length → (P.classOf i = P.classOf j ↔ f[i]? = f[j]?) := by
  obtain ⟨val, P, h1, h⟩ := makeLoop_spec f f 0 [] (Partition.sized f.length) (by simp) (by simp) {
    size := by simp [Partition.sized]
    sorted := List.Pairwise.nil
    seen := fun j x hj => by omega
    vals := fun x c hx => by simp [SMap.get] at hx
    reps := fun c j hc => by simp [Partition.sized] at hc
    incr := List.Pairwise.nil }
  have hget : ∀ i, i < f.length → ∃ x c, f[i]? = some x ∧ P.cls[i]? = some c ∧ SMap.get val x = some c := by
    intro i hi
    obtain ⟨c, h2, h3⟩ := h.seen i f[i] hi (List.getElem?_eq_getElem hi)
    exact ⟨f[i], c, List.getElem?_eq_getElem hi, h2, h3⟩
  have inj : ∀ x y c, SMap.get val x = some c → SMap.get val y = some c → x = y := by
    intro x y c hx hy
    obtain ⟨j, a1, _, a3, _⟩ := h.vals x c hx
    obtain ⟨k, b1, _, b3, _⟩ := h.vals y c hy
    rw [a1] at b1; cases b1
    rw [a3] at b3; exact Option.some.inj b3
  refine ⟨P, h1, ⟨h.size, ?_, ?_⟩, ?_, ?_⟩
  · intro i hi
    obtain ⟨x, c, _, h3, h4⟩ := hget i hi
    obtain ⟨j, a1, _⟩ := h.vals x c h4
    exact ⟨c, classOf_iff.2 h3, lt_of_get? a1⟩
  · intro c hc
    obtain ⟨h2, x, h3, h4⟩ := h.reps c P.rep[c] (List.getElem?_eq_getElem hc)
    obtain ⟨j, a1, _, a3, a4⟩ := h.vals x c h4
    have : j = P.rep[c] := by rw [List.getElem?_eq_getElem hc] at a1; exact (Option.some.inj a1).symm
    subst this
    obtain ⟨d, b1, b2⟩ := h.seen _ x h2 h3
    rw [h4] at b2; cases b2
    refine ⟨P.rep[c], classRep_iff.2 (List.getElem?_eq_getElem hc), classOf_iff.2 b1, ?_⟩
    intro i hi e
    rw [classOf_iff] at e
    obtain ⟨y, e', c1, c2, c3⟩ := hget i (by omega)
    rw [c2] at e; cases e
    have := inj x y c h4 c3
    subst this
    exact a4 i hi c1
  · intro c d i j hcd hi hj
    rw [classRep_iff] at hi hj
    obtain ⟨q1, rfl⟩ := List.getElem?_eq_some_iff.1 hi
    obtain ⟨q2, rfl⟩ := List.getElem?_eq_some_iff.1 hj
    exact List.pairwise_iff_getElem.1 h.incr c d q1 q2 hcd
  · intro i j hi hj
    obtain ⟨x, c, a1, a2, a3⟩ := hget i hi
    obtain ⟨y, d, b1, b2, b3⟩ := hget j hj
    rw [classOf_iff.2 a2, classOf_iff.2 b2, a1, b1]
    constructor
    · intro e
      have : c = d := by injection e
      subst this
      rw [inj x y c a3 b3]
    · intro e
      cases e
      rw [a3] at b3; cases b3; rfl

example : make [7, 3, 7, 9, 3] = .ok ⟨[0, 1, 0, 2, 1], [0, 1, 3]⟩ := by decide

theorem firstLoop_spec (f l : List Nat) (i : Nat) (val : List (Nat × Nat)) (hl : f.drop i = l) (hi : i + l.length = f.length)
    (hs : SMap.Sorted val)
    (h : ∀ x, match SMap.get val x with
      | none => ∀ k, k < i → f[k]? ≠ some x
      | some j => j < i ∧ f[j]? = some x ∧ ∀ k, k < j → f[k]? ≠ some x) :
    SMap.Sorted (firstLoop l i val) ∧ ∀ x, match SMap.get (firstLoop l i val) x with
      | none => ∀ k : Nat, f[k]? ≠ some x
      | some j => f[j]? = some x ∧ ∀ k, k < j → f[k]? ≠ some x := by
  induction l generalizing i val with
  | nil =>
    have hi : i = f.length := by simpa using hi
    refine ⟨hs, fun x => ?_⟩
    rw [firstLoop]
    have := h x
    cases c : SMap.get val x with
    | none =>
      rw [c] at this
      intro k e
      exact this k (by rw [hi]; exact lt_of_get? e) e
    | some j => rw [c] at this; exact this.2
  | cons x l ih =>
    have hx : f[i]? = some x := by
      have := congrArg (fun t => t[0]?) hl
      simpa [List.getElem?_drop] using this
    have hl' : f.drop (i + 1) = l := by
      have := congrArg List.tail hl
      simpa using this
    rw [List.length_cons] at hi
    rw [firstLoop]
    cases c : SMap.get val x with
    | none =>
      refine ih (i + 1) _ hl' (by omega) (SMap.sorted_set hs _ _) ?_
      intro y
      rw [SMap.get_set hs]
      by_cases e : x = y
      · subst e
        rw [if_pos rfl]
        have := h x
        rw [c] at this
        exact ⟨by omega, hx, this⟩
      · rw [if_neg e]
        have := h y
        cases c' : SMap.get val y with
        | none =>
          rw [c'] at this
          intro k hk
          by_cases ek : k = i
          · subst ek; rw [hx]; intro e'; exact e (Option.some.inj e')
          · exact this k (by omega)
        | some j => rw [c'] at this; exact ⟨by omega, this.2⟩
    | some d =>
      refine ih (i + 1) _ hl' (by omega) hs ?_
      intro y
      have := h y
      cases c' : SMap.get val y with
      | none =>
        rw [c'] at this
        intro k hk
        by_cases ek : k = i
        · subst ek; rw [hx]; intro e'; cases e'; rw [c] at c'; cases c'
        · exact this k (by omega)
      | some j => rw [c'] at this; exact ⟨by omega, this.2⟩

theorem repLoop_spec (m : List (Nat × Nat)) (r : List Nat) (hs : SMap.Sorted m) (hr : ∀ e ∈ m, e.1 < r.length) :
    ∃ r', repLoop m r = .ok r' ∧ r'.length = r.length ∧ (∀ e ∈ m, r'[e.1]? = some e.2) ∧
      ∀ j, (∀ e ∈ m, e.1 ≠ j) → r'[j]? = r[j]? := by
  induction m generalizing r with
  | nil => exact ⟨r, rfl, rfl, by simp, fun _ _ => rfl⟩
  | cons e m ih =>
    rw [SMap.Sorted, List.pairwise_cons] at hs
    have he := hr e (by simp)
    rw [repLoop, Vec.put_ok he, Res.ok_bind]
    obtain ⟨r', h1, h2, h3, h4⟩ := ih (r.set e.1 e.2) hs.2 (fun x hx => by simpa using hr x (by simp [hx]))
    refine ⟨r', h1, by simpa using h2, ?_, ?_⟩
    · intro x hx
      rcases List.mem_cons.1 hx with rfl | hx
      · rw [h4 _ (fun y hy => by have := hs.1 y hy; omega), List.getElem?_set_self he]
      · exact h3 x hx
    · intro j hj
      rw [h4 j (fun y hy => hj y (by simp [hy])), List.getElem?_set_ne (hj e (by simp))]

/-- C27: `Partition(f,UnnormalizedTag())` for a function onto an interval `[0,s)`: the class numbers are the values of `f`, and
`classRep` is the first element of each class. -/
theorem C27_unnormalized (f : List Nat) (s : Nat) (hlt : ∀ x ∈ f, x < s) (hsurj : ∀ x, x < s → x ∈ f) :
    ∃ P, makeUnnormalized f = .ok P ∧ Valid f.length P ∧ P.classCount = s ∧ P.cls = f := by
  obtain ⟨h1, h2⟩ := firstLoop_spec f f 0 [] (by simp) (by simp) List.Pairwise.nil (fun x => by
    simp only [SMap.get]; intro k hk; omega)
  -- the keys are the numbers below s
  have hmem : ∀ x j, (x, j) ∈ firstLoop f 0 [] ↔ (f[j]? = some x ∧ ∀ k, k < j → f[k]? ≠ some x) := by
    intro x j
    rw [← SMap.get_mem h1]
    have := h2 x
    cases c : SMap.get (firstLoop f 0 []) x with
    | none =>
      rw [c] at this
      simp only [reduceCtorEq, false_iff, not_and]
      intro e; exact absurd e (this j)
    | some k =>
      rw [c] at this
      constructor
      · intro e; cases e; exact this
      · rintro ⟨e1, e2⟩
        congr 1
        rcases Nat.lt_trichotomy k j with q | q | q
        · exact absurd this.1 (e2 k q)
        · exact q
        · exact absurd e1 (this.2 j q)
  have hfst : ((firstLoop f 0 []).map (·.1)).Perm (List.range s) := by
    rw [List.perm_ext_iff_of_nodup]
    · intro x
      rw [List.mem_map, List.mem_range]
      constructor
      · rintro ⟨⟨y, j⟩, e1, rfl⟩
        have := ((hmem y j).1 e1).1
        exact hlt _ (List.mem_of_getElem? this)
      · intro hx
        have := h2 x
        cases c : SMap.get (firstLoop f 0 []) x with
        | none =>
          rw [c] at this
          obtain ⟨j, hj, e⟩ := List.getElem_of_mem (hsurj x hx)
          exact absurd (by rw [List.getElem?_eq_getElem hj, e]) (this j)
        | some j => exact ⟨(x, j), (SMap.get_mem h1).1 c, rfl⟩
    · unfold SMap.Sorted at h1
      rw [List.Nodup, List.pairwise_map]
      exact h1.imp (fun h => Nat.ne_of_lt h)
    · exact List.nodup_range
  have hlen : (firstLoop f 0 []).length = s := by simpa using hfst.length_eq
  obtain ⟨r, k1, k2, k3, _⟩ := repLoop_spec (firstLoop f 0 []) (List.replicate (firstLoop f 0 []).length 0) h1 (fun e he => by
    have : e.1 ∈ List.range s := hfst.mem_iff.1 (List.mem_map_of_mem (f := (·.1)) he)
    rw [List.mem_range] at this
    simp [hlen, this])
  rw [List.length_replicate, hlen] at k2
  refine ⟨⟨f, r⟩, ?_, ⟨rfl, ?_, ?_⟩, k2, rfl⟩
  · unfold makeUnnormalized
    simp only
    rw [k1, Res.ok_bind]; rfl
  · intro i hi
    exact ⟨f[i], classOf_iff.2 (List.getElem?_eq_getElem hi), by show f[i] < r.length; rw [k2]; exact hlt _ (List.getElem_mem hi)⟩
  · intro c hc
    have hc : c < s := by rw [← k2]; exact hc
    have hc' : c ∈ (firstLoop f 0 []).map (·.1) := hfst.mem_iff.2 (List.mem_range.2 hc)
    obtain ⟨⟨x, j⟩, e1, rfl⟩ := List.mem_map.1 hc'
    obtain ⟨a1, a2⟩ := (hmem x j).1 e1
    exact ⟨j, classRep_iff.2 (k3 _ e1), classOf_iff.2 a1, fun i hi e => a2 i hi (classOf_iff.1 e)⟩

example : makeUnnormalized [2, 0, 2, 1, 0] = .ok ⟨[2, 0, 2, 1, 0], [1, 3, 0]⟩ := by decide

/-! ### sizes -/

theorem foldl_count (c : Nat) (l : List Nat) (k : Nat) : l.foldl (fun n elt => if elt = c then n + 1 else n) k = k + l.count c := by
  induction l generalizing k with
  | nil => rfl
  | cons x l ih =>
    rw [List.foldl_cons, ih, List.count_cons]
    by_cases e : x = c
    · simp [e]; omega
    · simp [e]

/-- C27: `classSize(c)` is the number of elements of class `c`. -/
theorem C27_classSize (h : Valid n P) (c : Nat) : P.classSize c = ((Finset.range n).filter (fun i => P.classOf i = .ok c)).card := by
  have key : ∀ l : List Nat, l.count c = ((Finset.range l.length).filter (fun i => l[i]? = some c)).card := by
    intro l
    induction l using List.reverseRecOn with
    | nil => simp
    | append_singleton l x ih =>
      rw [List.count_append, ih, List.length_append, List.length_singleton, Finset.range_add_one, Finset.filter_insert]
      have e : (Finset.range l.length).filter (fun i => (l ++ [x])[i]? = some c) = (Finset.range l.length).filter (fun i => l[i]? = some c) := by
        apply Finset.filter_congr
        intro i hi
        rw [List.getElem?_append_left (Finset.mem_range.1 hi)]
      rw [e]
      simp only [List.getElem?_concat_length, Option.some.injEq]
      by_cases hx : x = c
      · rw [if_pos hx, Finset.card_insert_of_notMem (by simp)]; simp [hx]
      · rw [if_neg hx]; simp [hx]
  unfold Partition.classSize
  rw [foldl_count, key, h.size, Nat.zero_add]
  simp only [classOf_iff]

theorem sizesLoop_spec (l r : List Nat) (hl : ∀ x ∈ l, x < r.length) :
    ∃ r', sizesLoop l r = .ok r' ∧ r'.length = r.length ∧ ∀ c, c < r.length → r'[c]? = some (r.getD c 0 + l.count c) := by
  induction l generalizing r with
  | nil => exact ⟨r, rfl, rfl, fun c hc => by simp [List.getD_eq_getElem?_getD, hc]⟩
  | cons x l ih =>
    have hx := hl x (by simp)
    rw [sizesLoop, Vec.get_ok hx, Res.ok_bind, Vec.put_ok hx, Res.ok_bind]
    obtain ⟨r', h1, h2, h3⟩ := ih (r.set x (r[x] + 1)) (fun y hy => by simpa using hl y (by simp [hy]))
    rw [List.length_set] at h2 h3
    refine ⟨r', h1, h2, fun c hc => ?_⟩
    rw [h3 c hc, List.count_cons, List.getD_eq_getElem?_getD, List.getD_eq_getElem?_getD]
    by_cases e : x = c
    · subst e
      rw [List.getElem?_set_self hx, List.getElem?_eq_getElem hx]
      simp; omega
    · rw [List.getElem?_set_ne e]
      simp [e]

/-- C27: `class_sizes()` gives all class sizes. -/
theorem C27_classSizes (h : Valid n P) :
    ∃ r, P.classSizes = .ok r ∧ r.length = P.classCount ∧ ∀ c, c < P.classCount → r[c]? = some (P.classSize c) := by
  obtain ⟨r, h1, h2, h3⟩ := sizesLoop_spec P.cls (List.replicate P.classCount 0) (fun x hx => by
    obtain ⟨i, hi, e⟩ := List.getElem_of_mem hx
    obtain ⟨c, a1, a2⟩ := h.total i (by rw [← h.size]; exact hi)
    rw [classOf_iff, List.getElem?_eq_getElem hi, e] at a1
    cases a1
    simpa using a2)
  rw [List.length_replicate] at h2 h3
  refine ⟨r, h1, h2, fun c hc => ?_⟩
  rw [h3 c hc, Partition.classSize, foldl_count]
  simp [List.getD_eq_getElem?_getD, hc]

end Verif.Part
