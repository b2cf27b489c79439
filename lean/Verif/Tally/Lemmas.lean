import Verif.Tally.Model
import Mathlib.Data.List.GetD
import Mathlib.Algebra.BigOperators.Group.Finset.Basic
/-
Representation invariant of `TallyVec` and its preservation.
-/
namespace Verif.Tally
set_option linter.dupNamespace false

/-- `t` holds the multiplicities `f`, whose sum is `S` -/
structure Rep (M : Nat) (t : Tally) (f : Nat → Nat) (S : Nat) : Prop where
  len : t.count.length ≤ t.cap
  le : ∀ i, i < t.count.length → t.count.getD i 0 ≤ M
  sorted : SMap.Sorted t.overflow
  lo : ∀ i, i < t.count.length → t.count.getD i 0 ≠ M → f i = t.count.getD i 0 ∧ SMap.get t.overflow i = none
  hi : ∀ i, i < t.count.length → t.count.getD i 0 = M → SMap.get t.overflow i = some (f i) ∧ M ≤ f i
  mid : ∀ i, t.count.length ≤ i → i < t.cap → f i = 0 ∧ SMap.get t.overflow i = none
  big : ∀ i, t.cap ≤ i → SMap.get t.overflow i = some (f i) ∨ (SMap.get t.overflow i = none ∧ f i = 0)
  total : t.total = S
  bound : S < 2 ^ 64
  fle : ∀ i, f i ≤ S
  max : ∀ i, t.max < i → f i = 0
  lmax : t.count.length ≤ t.max + 1

/-- moreover entries recorded are positive, and the largest index is recorded unless there is none -/
structure Pos (t : Tally) (f : Nat → Nat) : Prop where
  opos : ∀ i v, SMap.get t.overflow i = some v → 0 < v
  mpos : 0 < f t.max ∨ (t.max = 0 ∧ ∀ i, f i = 0)

/-- add `m` at place `i` -/
def bump (f : Nat → Nat) (i m : Nat) : Nat → Nat := fun j => if j = i then f j + m else f j

theorem u64_small {x : Nat} (h : x < 2 ^ 64) : u64 x = x := Nat.mod_eq_of_lt h

theorem getD_append_left (l r : List Nat) (i : Nat) (h : i < l.length) : (l ++ r).getD i 0 = l.getD i 0 := by
  rw [List.getD_append _ _ _ _ h]

theorem length_padTo (l : List Nat) (i : Nat) (h : l.length ≤ i) : (padTo l i).length = i := by
  simp [padTo]; omega

theorem getD_padTo (l : List Nat) (i j : Nat) : (padTo l i).getD j 0 = l.getD j 0 := by
  rw [padTo]
  by_cases h : j < l.length
  · rw [List.getD_append _ _ _ _ h]
  · rw [List.getD_append_right _ _ _ _ (by omega), List.getD_eq_default l 0 (by omega)]
    by_cases h2 : j - l.length < i - l.length
    · rw [List.getD_eq_getElem _ _ (by simpa using h2)]; simp
    · rw [List.getD_eq_default _ _ (by simp; omega)]

theorem getD_pad_snoc (l : List Nat) (i j c : Nat) (h : l.length ≤ i) :
    (padTo l i ++ [c]).getD j 0 = if j = i then c else l.getD j 0 := by
  have hl := length_padTo l i h
  by_cases hj : j < i
  · rw [List.getD_append _ _ _ _ (by omega), getD_padTo, if_neg (by omega)]
  · rw [List.getD_append_right _ _ _ _ (by omega), hl]
    by_cases e : j = i
    · subst e; simp
    · rw [if_neg e, List.getD_eq_default _ _ (by simp; omega), List.getD_eq_default l _ (by omega)]

theorem getD_set (l : List Nat) (i j c : Nat) (h : i < l.length) :
    (l.set i c).getD j 0 = if j = i then c else l.getD j 0 := by
  by_cases e : j = i
  · subst e; rw [if_pos rfl, List.getD_eq_getElem _ _ (by simpa using h)]; simp
  · rw [if_neg e]
    simp only [List.getD_eq_getElem?_getD, List.getElem?_set_ne (Ne.symm e)]

theorem rep_make (M cap : Nat) : Rep M (make cap) (fun _ => 0) 0 where
  len := Nat.zero_le _
  le := by intro i h; exact absurd h (by simp [make])
  sorted := List.Pairwise.nil
  lo := by intro i h; exact absurd h (by simp [make])
  hi := by intro i h; exact absurd h (by simp [make])
  mid := by intro i _ _; exact ⟨rfl, rfl⟩
  big := by intro i _; exact .inr ⟨rfl, rfl⟩
  total := rfl
  bound := by decide
  fle := by intro i; exact le_rfl
  max := by intro i _; rfl
  lmax := by simp [make]

theorem pos_make (cap : Nat) : Pos (make cap) (fun _ => 0) where
  opos := by intro i v h; simp [make, SMap.get] at h
  mpos := .inr ⟨rfl, fun _ => rfl⟩

variable {M : Nat} {t : Tally} {f : Nat → Nat} {S : Nat}

theorem bump_same (f : Nat → Nat) (i m : Nat) : bump f i m i = f i + m := by simp [bump]
theorem bump_ne (f : Nat → Nat) {i j : Nat} (m : Nat) (h : j ≠ i) : bump f i m j = f j := by simp [bump, h]

theorem bump_le (h : Rep M t f S) (i m j : Nat) : bump f i m j ≤ S + m := by
  have := h.fle j
  rw [bump]; split <;> omega

/-- a counter in `count` below its maximum that stays below -/
theorem rep_low (h : Rep M t f S) {i m : Nat} (hi : i < t.count.length) (hc : t.count.getD i 0 ≠ M)
    (hS : S + m < 2 ^ 64) (hm : t.count.getD i 0 + m < M) :
    Rep M { t with count := t.count.set i (t.count.getD i 0 + m), total := S + m } (bump f i m) (S + m) where
  len := by simpa using h.len
  le := by
    intro j hj
    simp only [List.length_set] at hj
    rw [getD_set _ _ _ _ hi]
    split
    · omega
    · exact h.le j hj
  sorted := h.sorted
  lo := by
    intro j hj hne
    simp only [List.length_set] at hj
    rw [getD_set _ _ _ _ hi] at hne ⊢
    by_cases e : j = i
    · subst e; rw [bump_same, if_pos rfl]
      have := h.lo j hj hc
      exact ⟨by omega, this.2⟩
    · rw [if_neg e] at hne ⊢; rw [bump_ne f m e]; exact h.lo j hj hne
  hi := by
    intro j hj he
    simp only [List.length_set] at hj
    rw [getD_set _ _ _ _ hi] at he
    by_cases e : j = i
    · rw [if_pos e] at he; omega
    · rw [if_neg e] at he; rw [bump_ne f m e]; exact h.hi j hj he
  mid := by
    intro j hj hj2
    simp only [List.length_set] at hj
    rw [bump_ne f m (by omega)]; exact h.mid j hj hj2
  big := by
    intro j hj
    have := h.len
    rw [bump_ne f m (by simp only at hj; omega)]; exact h.big j hj
  total := rfl
  bound := hS
  fle := bump_le h i m
  max := by
    intro j hj
    have := h.lmax
    rw [bump_ne f m (by simp only at hj; omega)]; exact h.max j hj
  lmax := by simpa using h.lmax

/-- a counter in `count` that reaches its maximum or has done so already -/
theorem rep_sat (h : Rep M t f S) {i m : Nat} (hi : i < t.count.length) (hS : S + m < 2 ^ 64) (hm : M ≤ f i + m) :
    Rep M { t with count := t.count.set i M, overflow := SMap.set t.overflow i (f i + m), total := S + m }
      (bump f i m) (S + m) where
  len := by simpa using h.len
  le := by
    intro j hj
    simp only [List.length_set] at hj
    rw [getD_set _ _ _ _ hi]
    split
    · omega
    · exact h.le j hj
  sorted := SMap.sorted_set h.sorted _ _
  lo := by
    intro j hj hne
    simp only [List.length_set] at hj
    rw [getD_set _ _ _ _ hi] at hne ⊢
    by_cases e : j = i
    · subst e; rw [if_pos rfl] at hne; exact absurd rfl hne
    · rw [if_neg e] at hne ⊢; rw [bump_ne f m e, SMap.get_set h.sorted, if_neg (Ne.symm e)]; exact h.lo j hj hne
  hi := by
    intro j hj he
    simp only [List.length_set] at hj
    rw [getD_set _ _ _ _ hi] at he
    rw [SMap.get_set h.sorted]
    by_cases e : j = i
    · subst e; rw [if_pos rfl, bump_same]; exact ⟨rfl, hm⟩
    · rw [if_neg e] at he; rw [bump_ne f m e, if_neg (Ne.symm e)]; exact h.hi j hj he
  mid := by
    intro j hj hj2
    simp only [List.length_set] at hj
    rw [bump_ne f m (by omega), SMap.get_set h.sorted, if_neg (by omega)]; exact h.mid j hj hj2
  big := by
    intro j hj
    have := h.len
    have e : j ≠ i := by simp only at hj; omega
    rw [bump_ne f m e, SMap.get_set h.sorted, if_neg (Ne.symm e)]; exact h.big j hj
  total := rfl
  bound := hS
  fle := bump_le h i m
  max := by
    intro j hj
    have := h.lmax
    rw [bump_ne f m (by simp only at hj; omega)]; exact h.max j hj
  lmax := by simpa using h.lmax

/-- a counter added to `count` -/
theorem rep_push (h : Rep M t f S) {i m : Nat} (hi : t.count.length ≤ i) (hcap : i < t.cap) (hS : S + m < 2 ^ 64)
    (hm : m < M) :
    Rep M { t with count := padTo t.count i ++ [m], max := Nat.max t.max i, total := S + m } (bump f i m) (S + m) := by
  have hl : (padTo t.count i ++ [m]).length = i + 1 := by simp [length_padTo _ _ hi]
  have hz : ∀ j, t.count.length ≤ j → j < t.cap → t.count.getD j 0 = 0 := fun j hj _ => List.getD_eq_default _ _ hj
  have hmx : Nat.max t.max i = Max.max t.max i := rfl
  refine ⟨by simp only [hl]; omega, ?_, h.sorted, ?_, ?_, ?_, ?_, rfl, hS, bump_le h i m, ?_, ?_⟩
  · intro j hj
    simp only [hl] at hj ⊢
    rw [getD_pad_snoc _ _ _ _ hi]
    split
    · omega
    · by_cases c : j < t.count.length
      · exact h.le j c
      · rw [hz j (by omega) (by omega)]; omega
  · intro j hj hne
    simp only [hl] at hj hne ⊢
    rw [getD_pad_snoc _ _ _ _ hi] at hne ⊢
    by_cases e : j = i
    · subst e; rw [if_pos rfl, bump_same]; have := h.mid j hi hcap; exact ⟨by omega, this.2⟩
    · rw [if_neg e] at hne ⊢; rw [bump_ne f m e]
      by_cases c : j < t.count.length
      · exact h.lo j c hne
      · rw [hz j (by omega) (by omega)]; exact h.mid j (by omega) (by omega)
  · intro j hj he
    simp only [hl] at hj he ⊢
    rw [getD_pad_snoc _ _ _ _ hi] at he
    by_cases e : j = i
    · rw [if_pos e] at he; omega
    · rw [if_neg e] at he; rw [bump_ne f m e]
      by_cases c : j < t.count.length
      · exact h.hi j c he
      · rw [hz j (by omega) (by omega)] at he; omega
  · intro j hj hj2
    simp only [hl] at hj hj2 ⊢
    rw [bump_ne f m (by omega)]; exact h.mid j (by omega) hj2
  · intro j hj
    simp only at hj
    rw [bump_ne f m (by omega)]; exact h.big j hj
  · intro j hj
    simp only [hmx] at hj
    rw [bump_ne f m (by omega)]; exact h.max j (by omega)
  · simp only [hl, hmx]; omega

/-- a saturated counter added to `count` -/
theorem rep_pushSat (h : Rep M t f S) {i m : Nat} (hi : t.count.length ≤ i) (hcap : i < t.cap) (hS : S + m < 2 ^ 64)
    (hm : M ≤ m) (hM : 0 < M) :
    Rep M { t with count := padTo t.count i ++ [M], overflow := SMap.set t.overflow i m, max := Nat.max t.max i,
                   total := S + m } (bump f i m) (S + m) := by
  have hl : (padTo t.count i ++ [M]).length = i + 1 := by simp [length_padTo _ _ hi]
  have hz : ∀ j, t.count.length ≤ j → j < t.cap → t.count.getD j 0 = 0 := fun j hj _ => List.getD_eq_default _ _ hj
  have hmx : Nat.max t.max i = Max.max t.max i := rfl
  have hf := h.mid i hi hcap
  refine ⟨by simp only [hl]; omega, ?_, SMap.sorted_set h.sorted _ _, ?_, ?_, ?_, ?_, rfl, hS, bump_le h i m, ?_, ?_⟩
  · intro j hj
    simp only [hl] at hj ⊢
    rw [getD_pad_snoc _ _ _ _ hi]
    split
    · omega
    · by_cases c : j < t.count.length
      · exact h.le j c
      · rw [hz j (by omega) (by omega)]; omega
  · intro j hj hne
    simp only [hl] at hj hne ⊢
    rw [getD_pad_snoc _ _ _ _ hi] at hne ⊢
    by_cases e : j = i
    · rw [if_pos e] at hne; exact absurd rfl hne
    · rw [if_neg e] at hne ⊢; rw [bump_ne f m e, SMap.get_set h.sorted, if_neg (Ne.symm e)]
      by_cases c : j < t.count.length
      · exact h.lo j c hne
      · rw [hz j (by omega) (by omega)]; exact h.mid j (by omega) (by omega)
  · intro j hj he
    simp only [hl] at hj he ⊢
    rw [getD_pad_snoc _ _ _ _ hi] at he
    rw [SMap.get_set h.sorted]
    by_cases e : j = i
    · subst e; rw [if_pos rfl, bump_same, hf.1]; exact ⟨by rw [Nat.zero_add], by omega⟩
    · rw [if_neg e] at he; rw [bump_ne f m e, if_neg (Ne.symm e)]
      by_cases c : j < t.count.length
      · exact h.hi j c he
      · rw [hz j (by omega) (by omega)] at he; omega
  · intro j hj hj2
    simp only [hl] at hj hj2 ⊢
    rw [bump_ne f m (by omega), SMap.get_set h.sorted, if_neg (by omega)]; exact h.mid j (by omega) hj2
  · intro j hj
    simp only at hj
    rw [bump_ne f m (by omega), SMap.get_set h.sorted, if_neg (by omega)]; exact h.big j hj
  · intro j hj
    simp only [hmx] at hj
    rw [bump_ne f m (by omega)]; exact h.max j (by omega)
  · simp only [hl, hmx]; omega

/-- an index beyond the capacity -/
theorem rep_over (h : Rep M t f S) {i m : Nat} (hcap : t.cap ≤ i) (hS : S + m < 2 ^ 64) :
    Rep M { t with overflow := SMap.set t.overflow i (f i + m), max := Nat.max t.max i, total := S + m }
      (bump f i m) (S + m) := by
  have hmx : Nat.max t.max i = Max.max t.max i := rfl
  have hlen := h.len
  refine ⟨h.len, h.le, SMap.sorted_set h.sorted _ _, ?_, ?_, ?_, ?_, rfl, hS, bump_le h i m, ?_, ?_⟩
  · intro j hj hne
    have e : j ≠ i := by simp only at hj; omega
    rw [bump_ne f m e, SMap.get_set h.sorted, if_neg (Ne.symm e)]; exact h.lo j hj hne
  · intro j hj he
    have e : j ≠ i := by simp only at hj; omega
    rw [bump_ne f m e, SMap.get_set h.sorted, if_neg (Ne.symm e)]; exact h.hi j hj he
  · intro j hj hj2
    have e : j ≠ i := by simp only at hj2; omega
    rw [bump_ne f m e, SMap.get_set h.sorted, if_neg (Ne.symm e)]; exact h.mid j hj hj2
  · intro j hj
    rw [SMap.get_set h.sorted]
    by_cases e : j = i
    · subst e; rw [if_pos rfl, bump_same]; exact .inl rfl
    · rw [bump_ne f m e, if_neg (Ne.symm e)]; exact h.big j hj
  · intro j hj
    simp only [hmx] at hj
    rw [bump_ne f m (by omega)]; exact h.max j (by omega)
  · have := h.lmax
    simp only [hmx]; omega

theorem max_if (t : Tally) (i : Nat) : (if i > t.max then { t with max := i } else t) = { t with max := Nat.max t.max i } := by
  have hmx : Nat.max t.max i = Max.max t.max i := rfl
  by_cases c : i > t.max
  · rw [if_pos c, hmx, Nat.max_eq_right (by omega)]
  · rw [if_neg c, hmx, Nat.max_eq_left (by omega)]

/-- the flag `tally(i,m)` returns -/
def newN (M : Nat) (t : Tally) (f : Nat → Nat) (i m : Nat) : Bool :=
  decide (f i = 0 ∧ ¬ (i < t.count.length ∧ M ≤ m) ∧ SMap.get t.overflow i = none)

theorem tallyN_spec (hM : 0 < M) (h : Rep M t f S) (i m : Nat) (hS : S + m < 2 ^ 64) :
    Rep M (tallyN M t i m).1 (bump f i m) (S + m) ∧ (tallyN M t i m).2 = newN M t f i m := by
  have hb : f i + m < 2 ^ 64 := by have := h.fle i; omega
  have ht : u64 (t.total + m) = S + m := by rw [h.total, u64_small hS]
  rw [tallyN]
  simp only [ht]
  by_cases c1 : i < t.count.length
  · rw [if_pos c1]
    by_cases c2 : t.count.getD i 0 ≠ M
    · rw [if_pos c2]
      have hf := h.lo i c1 c2
      have hu : u64 (t.count.getD i 0 + m) = t.count.getD i 0 + m := u64_small (by omega)
      rw [hu]
      by_cases c3 : t.count.getD i 0 + m < M
      · rw [if_pos c3, Nat.mod_eq_of_lt (by omega)]
        refine ⟨rep_low h c1 c2 hS c3, ?_⟩
        rw [newN]
        rw [Bool.eq_iff_iff]; simp only [beq_iff_eq, decide_eq_true_eq]
        rw [hf.1, hf.2]
        constructor
        · intro e; exact ⟨e, by omega, rfl⟩
        · exact fun e => e.1
      · rw [if_neg c3]
        have := rep_sat h c1 hS (m := m) (by omega)
        rw [hf.1] at this
        refine ⟨this, ?_⟩
        rw [newN]
        rw [Bool.eq_iff_iff]; simp only [decide_eq_true_eq]
        constructor
        · intro e; exact absurd e (by simp)
        · intro e; exact absurd e.2.1 (by rw [hf.1] at e; omega)
    · rw [if_neg c2]
      have c2' : t.count.getD i 0 = M := not_not.1 c2
      have hf := h.hi i c1 c2'
      rw [hf.1, Option.getD_some, u64_small hb]
      have := rep_sat h c1 hS (m := m) (by omega)
      have e : t.count.set i M = t.count := by
        apply List.ext_getElem (by simp)
        intro j h1 h2
        rw [List.getElem_set]
        split
        · next e => subst e; rw [List.getD_eq_getElem _ _ c1] at c2'; exact c2'.symm
        · rfl
      rw [e] at this
      refine ⟨this, ?_⟩
      rw [newN]
      rw [Bool.eq_iff_iff]; simp only [decide_eq_true_eq, hf.1]
      simp
  · rw [if_neg c1]
    have hmx := max_if { t with total := S + m } i
    simp only at hmx
    rw [hmx]
    simp only
    by_cases c2 : i < t.cap
    · rw [if_pos c2]
      have hf := h.mid i (by omega) c2
      have hn : newN M t f i m = true := by
        rw [newN]; simp only [decide_eq_true_eq]; exact ⟨hf.1, by omega, hf.2⟩
      rw [hn]
      by_cases c3 : m ≥ M
      · rw [if_pos c3]; exact ⟨rep_pushSat h (by omega) c2 hS c3 hM, rfl⟩
      · rw [if_neg c3]; exact ⟨rep_push h (by omega) c2 hS (by omega), rfl⟩
    · rw [if_neg c2]
      have hr := rep_over h (i := i) (m := m) (by omega) hS
      rcases h.big i (by omega) with hf | ⟨hf, hf0⟩
      · rw [hf]
        simp only
        rw [u64_small hb]
        refine ⟨hr, ?_⟩
        rw [newN, hf]; simp
      · rw [hf]
        simp only
        rw [hf0, Nat.zero_add] at hr
        refine ⟨hr, ?_⟩
        rw [newN, hf]
        rw [Bool.eq_iff_iff]; simp only [decide_eq_true_eq]
        simp only [true_iff]
        exact ⟨hf0, by omega, trivial⟩

theorem tally1_eq (hM : 1 < M) (h : Rep M t f S) (i : Nat) (hS : S + 1 < 2 ^ 64) :
    tally1 M t i = tallyN M t i 1 := by
  have ht : u64 (t.total + 1) = S + 1 := by rw [h.total, u64_small hS]
  have hb : f i + 1 < 2 ^ 64 := by have := h.fle i; omega
  rw [tally1, tallyN]
  simp only [ht]
  by_cases c1 : i < t.count.length
  · rw [if_pos c1, if_pos c1]
    by_cases c2 : t.count.getD i 0 ≠ M
    · rw [if_pos c2, if_pos c2]
      have hle := h.le i c1
      have hf := h.lo i c1 c2
      rw [Nat.mod_eq_of_lt (show t.count.getD i 0 + 1 < M + 1 by omega), u64_small (by omega)]
      by_cases c3 : t.count.getD i 0 + 1 = M
      · rw [if_pos c3, if_neg (by omega), c3]
      · rw [if_neg c3, if_pos (by omega)]
        congr 1
        rw [Bool.eq_iff_iff]; simp
    · rw [if_neg c2, if_neg c2]
  · rw [if_neg c1, if_neg c1]
    have hmx := max_if { t with total := S + 1 } i
    simp only at hmx
    rw [hmx]
    simp only
    by_cases c2 : i < t.cap
    · rw [if_pos c2, if_pos c2, if_neg (by omega)]
    · rw [if_neg c2, if_neg c2]

theorem pos_tallyN (hM : 0 < M) (h : Rep M t f S) (hp : Pos t f) (i m : Nat) (hm : 0 < m) (hS : S + m < 2 ^ 64) :
    Pos (tallyN M t i m).1 (bump f i m) := by
  have hr := (tallyN_spec hM h i m hS).1
  constructor
  · intro j v hv
    have key : ∀ t' : Tally, SMap.get t'.overflow j = some v → Rep M t' (bump f i m) (S + m) →
        v = bump f i m j ∧ (M ≤ bump f i m j ∨ t'.cap ≤ j) := by
      intro t' hv hr
      by_cases c : j < t'.count.length
      · by_cases c2 : t'.count.getD j 0 = M
        · have := hr.hi j c c2; rw [this.1] at hv; exact ⟨(Option.some.inj hv).symm, .inl this.2⟩
        · have := hr.lo j c c2; rw [this.2] at hv; exact absurd hv (by simp)
      · by_cases c2 : j < t'.cap
        · have := hr.mid j (by omega) c2; rw [this.2] at hv; exact absurd hv (by simp)
        · rcases hr.big j (by omega) with this | this
          · rw [this] at hv; exact ⟨(Option.some.inj hv).symm, .inr (by omega)⟩
          · rw [this.1] at hv; exact absurd hv (by simp)
    obtain ⟨k1, k2⟩ := key _ hv hr
    rw [k1]
    by_cases e : j = i
    · subst e; rw [bump_same]; omega
    · rcases k2 with k2 | k2
      · omega
      · -- the entry was there before
        rw [bump_ne f m e]
        have hcap : (tallyN M t i m).1.cap = t.cap := by
          rw [tallyN]; simp only; repeat' split
          all_goals rfl
        rw [hcap] at k2
        rcases h.big j k2 with g | g
        · exact hp.opos j _ g
        · exfalso
          have hov : SMap.get (tallyN M t i m).1.overflow j = SMap.get t.overflow j := by
            have hne : ¬ i = j := fun x => e x.symm
            rw [tallyN]; simp only; repeat' split
            all_goals first
              | rfl
              | (simp only [SMap.get_set h.sorted, if_neg hne])
          rw [hov, g.1] at hv; exact absurd hv (by simp)
  · left
    have hmax : (tallyN M t i m).1.max = Nat.max t.max i ∨ ((tallyN M t i m).1.max = t.max ∧ i < t.count.length) := by
      by_cases c1 : i < t.count.length
      · right
        refine ⟨?_, c1⟩
        rw [tallyN]; simp only; rw [if_pos c1]; repeat' split
        all_goals rfl
      · left
        have hmx := max_if { t with total := u64 (t.total + m) } i
        simp only at hmx
        rw [tallyN]; simp only; rw [if_neg c1, hmx]; simp only; repeat' split
        all_goals rfl
    have hmx : Nat.max t.max i = Max.max t.max i := rfl
    have hlm := h.lmax
    rcases hmax with e | ⟨e, c⟩
    · rw [e, hmx]
      by_cases c : i ≤ t.max
      · rw [Nat.max_eq_left c]
        by_cases c' : t.max = i
        · rw [c', bump_same]; omega
        · rw [bump_ne f m c']
          rcases hp.mpos with g | ⟨g, -⟩
          · exact g
          · omega
      · rw [Nat.max_eq_right (by omega), bump_same]; omega
    · rw [e]
      by_cases c' : t.max = i
      · rw [c', bump_same]; omega
      · rw [bump_ne f m c']
        rcases hp.mpos with g | ⟨g, -⟩
        · exact g
        · omega

theorem multiplicity_eq (h : Rep M t f S) (i : Nat) : multiplicity M t i = .ok (f i) := by
  rw [multiplicity]
  by_cases c : i < t.count.length
  · rw [if_pos c]
    by_cases c2 : t.count.getD i 0 ≠ M
    · rw [if_pos c2, (h.lo i c c2).1]
    · rw [if_neg c2, (h.hi i c (not_not.1 c2)).1]; rfl
  · rw [if_neg c]
    by_cases c2 : i < t.cap
    · rw [(h.mid i (by omega) c2).2, (h.mid i (by omega) c2).1]; rfl
    · rcases h.big i (by omega) with g | g
      · rw [g]; rfl
      · rw [g.1, g.2]; rfl

/-- when positive, an index at or beyond the counters is in the overflow table -/
theorem over_iff (h : Rep M t f S) (hp : Pos t f) {i : Nat} (hi : t.count.length ≤ i) :
    0 < f i ↔ ∃ v, (i, v) ∈ t.overflow := by
  by_cases c2 : i < t.cap
  · have := h.mid i hi c2
    constructor
    · omega
    · rintro ⟨v, hv⟩; rw [← SMap.get_mem h.sorted, this.2] at hv; exact absurd hv (by simp)
  · constructor
    · intro hpos
      rcases h.big i (by omega) with g | g
      · exact ⟨_, (SMap.get_mem h.sorted).1 g⟩
      · omega
    · rintro ⟨v, hv⟩
      rw [← SMap.get_mem h.sorted] at hv
      rcases h.big i (by omega) with g | g
      · rw [hv] at g; have := hp.opos i v hv; rw [← Option.some.inj g]; exact this
      · rw [g.1] at hv; exact absurd hv (by simp)

theorem count_iff (hM : 0 < M) (h : Rep M t f S) {i : Nat} (hi : i < t.count.length) :
    t.count.getD i 0 ≠ 0 ↔ 0 < f i := by
  by_cases c : t.count.getD i 0 = M
  · have := (h.hi i hi c).2; omega
  · have := (h.lo i hi c).1; omega

theorem advanceLoop_spec (count : List Nat) (k i : Nat) :
    (advanceLoop count k i = none ∧ ∀ j, i ≤ j → j < i + k → count.getD j 0 = 0) ∨
    ∃ j, advanceLoop count k i = some j ∧ i ≤ j ∧ j < i + k ∧ count.getD j 0 ≠ 0 ∧
      ∀ l, i ≤ l → l < j → count.getD l 0 = 0 := by
  induction k generalizing i with
  | zero => exact .inl ⟨rfl, by intro j h1 h2; omega⟩
  | succ k ih =>
    rw [advanceLoop]
    by_cases c : count.getD i 0 ≠ 0
    · rw [if_pos c]; exact .inr ⟨i, rfl, le_rfl, by omega, c, by intro l h1 h2; omega⟩
    · rw [if_neg c]
      have c' : count.getD i 0 = 0 := not_not.1 c
      rcases ih (i + 1) with ⟨h1, h2⟩ | ⟨j, h1, h2, h3, h4, h5⟩
      · refine .inl ⟨h1, fun j hj hj2 => ?_⟩
        by_cases e : j = i
        · rw [e]; exact c'
        · exact h2 j (by omega) (by omega)
      · refine .inr ⟨j, h1, by omega, by omega, h4, fun l hl hl2 => ?_⟩
        by_cases e : l = i
        · rw [e]; exact c'
        · exact h5 l (by omega) hl2

theorem advance_spec (hM : 0 < M) (h : Rep M t f S) (hp : Pos t f) (nd : Bool) (i : Nat) :
    (t.max ≤ i ∧ advance nd t i = .ok (size t)) ∨
    ∃ j, advance nd t i = .ok j ∧ i < j ∧ j ≤ t.max ∧ 0 < f j ∧ ∀ l, i < l → l < j → f l = 0 := by
  rw [advance]
  by_cases c : i ≥ t.max
  · rw [if_pos c]; exact .inl ⟨c, rfl⟩
  · rw [if_neg c]
    right
    have hmax : 0 < f t.max := by
      rcases hp.mpos with g | g
      · exact g
      · omega
    have hlt : ∀ j, 0 < f j → j ≤ t.max := fun j hj => by
      by_contra hc
      have := h.max j (by omega)
      omega
    rcases advanceLoop_spec t.count (t.count.length - (i + 1)) (i + 1) with ⟨h1, h2⟩ | ⟨j, h1, h2, h3, h4, h5⟩
    · rw [h1]
      simp only
      have hmx : Nat.max (i + 1) t.count.length = Max.max (i + 1) t.count.length := rfl
      have hzero : ∀ l, i < l → l < Nat.max (i + 1) t.count.length → f l = 0 := by
        intro l hl hl2
        rw [hmx] at hl2
        have hlc : l < t.count.length := by omega
        have := h2 l (by omega) (by omega)
        by_contra hc
        exact ((count_iff hM h hlc).2 (by omega)) this
      have hge : t.count.length ≤ t.max := by
        by_contra hc
        have := h2 t.max (by omega) (by omega)
        exact (count_iff hM h (by omega)).2 hmax this
      obtain ⟨v, hv⟩ := (over_iff h hp hge).1 hmax
      rcases SMap.lowerBound_spec h.sorted (Nat.max (i + 1) t.count.length) with ⟨g1, g2⟩ | ⟨e, g1, g2, g3, g4⟩
      · have := g2 _ hv
        simp only [hmx] at this
        omega
      · rw [g1]
        simp only
        have hfe : 0 < f e.1 := (over_iff h hp (by rw [hmx] at g3; omega)).2 ⟨e.2, g2⟩
        refine ⟨e.1, rfl, by rw [hmx] at g3; omega, hlt _ hfe, hfe, fun l hl hl2 => ?_⟩
        by_contra hc
        by_cases cl : l < Nat.max (i + 1) t.count.length
        · exact hc (hzero l hl cl)
        · obtain ⟨w, hw⟩ := (over_iff h hp (i := l) (by rw [hmx] at cl; omega)).1 (by omega)
          have := g4 _ hw (by simp only; omega)
          simp only at this
          omega
    · rw [h1]
      simp only
      have hjc : j < t.count.length := by omega
      have hfj := (count_iff hM h hjc).1 h4
      refine ⟨j, rfl, by omega, hlt j hfj, hfj, fun l hl hl2 => ?_⟩
      by_contra hc
      exact (count_iff hM h (by omega)).2 (by omega) (h5 l (by omega) hl2)

theorem lowerLoop_spec (count : List Nat) (i : Nat) :
    ((lowerLoop count i).2 = false ∧ ∀ j, j < i → count.getD j 0 = 0) ∨
    ∃ j, lowerLoop count i = (j, true) ∧ j < i ∧ count.getD j 0 ≠ 0 ∧ ∀ l, j < l → l < i → count.getD l 0 = 0 := by
  induction i with
  | zero => exact .inl ⟨rfl, by intro j h; omega⟩
  | succ i ih =>
    rw [lowerLoop]
    by_cases c : count.getD i 0 ≠ 0
    · rw [if_pos c]; exact .inr ⟨i, rfl, by omega, c, by intro l h1 h2; omega⟩
    · rw [if_neg c]
      have c' : count.getD i 0 = 0 := not_not.1 c
      rcases ih with ⟨h1, h2⟩ | ⟨j, h1, h2, h3, h4⟩
      · refine .inl ⟨h1, fun j hj => ?_⟩
        by_cases e : j = i
        · rw [e]; exact c'
        · exact h2 j (by omega)
      · refine .inr ⟨j, h1, by omega, h3, fun l hl hl2 => ?_⟩
        by_cases e : l = i
        · rw [e]; exact c'
        · exact h4 l hl (by omega)

theorem lower_spec (hM : 0 < M) (h : Rep M t f S) (hp : Pos t f) (i : Nat) :
    ((lower t i).2 = false ∧ ∀ j, j < i → f j = 0) ∨
    ∃ j, lower t i = (j, true) ∧ j < i ∧ 0 < f j ∧ ∀ l, j < l → l < i → f l = 0 := by
  have base : ∀ k, k ≤ t.count.length → (∀ l, k ≤ l → l < i → f l = 0) → k ≤ i →
      ((lowerLoop t.count k).2 = false ∧ ∀ j, j < i → f j = 0) ∨
      ∃ j, lowerLoop t.count k = (j, true) ∧ j < i ∧ 0 < f j ∧ ∀ l, j < l → l < i → f l = 0 := by
    intro k hk hz hki
    have hc : ∀ l, l < k → t.count.getD l 0 = 0 → f l = 0 := fun l hl e => by
      by_contra hc
      exact (count_iff hM h (by omega)).2 (by omega) e
    rcases lowerLoop_spec t.count k with ⟨h1, h2⟩ | ⟨j, h1, h2, h3, h4⟩
    · refine .inl ⟨h1, fun j hj => ?_⟩
      by_cases c : j < k
      · exact hc j c (h2 j c)
      · exact hz j (by omega) hj
    · refine .inr ⟨j, h1, by omega, (count_iff hM h (by omega)).1 h3, fun l hl hl2 => ?_⟩
      by_cases c : l < k
      · exact hc l c (h4 l hl c)
      · exact hz l (by omega) hl2
  rw [lower]
  by_cases c : i > t.count.length
  · rw [if_pos c]
    have nope : (∀ e ∈ t.overflow, e.1 < i → e.1 < t.count.length) → ∀ l, t.count.length ≤ l → l < i → f l = 0 := by
      intro hall l hl hl2
      by_contra hc
      obtain ⟨v, hv⟩ := (over_iff h hp hl).1 (by omega)
      have := hall _ hv hl2
      simp only at this
      omega
    rcases SMap.lastBelow_spec h.sorted i with ⟨g1, g2⟩ | ⟨e, g1, g2, g3, g4⟩
    · rw [g1]
      exact base _ le_rfl (nope (fun e he hei => by have := g2 e he; omega)) (by omega)
    · rw [g1]
      simp only
      by_cases c2 : e.1 ≥ t.count.length
      · rw [if_pos c2]
        refine .inr ⟨e.1, rfl, g3, (over_iff h hp c2).2 ⟨e.2, g2⟩, fun l hl hl2 => ?_⟩
        by_contra hc
        obtain ⟨v, hv⟩ := (over_iff h hp (i := l) (by omega)).1 (by omega)
        have := g4 _ hv hl2
        simp only at this
        omega
      · rw [if_neg c2]
        exact base _ le_rfl (nope (fun f hf hfi => by have := g4 f hf hfi; omega)) (by omega)
  · rw [if_neg c]
    exact base i (by omega) (fun l h1 h2 => by omega) le_rfl

end Verif.Tally
