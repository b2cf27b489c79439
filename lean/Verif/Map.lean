import Mathlib.Data.List.Sort
/-
`std::map` from naturals as used by the modelled classes: an association list with strictly
increasing keys (the order in which the container iterates).
-/
namespace Verif.SMap
set_option linter.unusedSectionVars false

variable {β : Type}

/-- keys strictly increasing -/
def Sorted (m : List (Nat × β)) : Prop := m.Pairwise (fun a b => a.1 < b.1)

/-- `find(k)`: the value for key `k` -/
def get : List (Nat × β) → Nat → Option β
  | [], _ => none
  | (a, v) :: m, k => if a = k then some v else get m k

/-- `m[k]=v`: replace the value for `k`, or insert it at its place -/
def set : List (Nat × β) → Nat → β → List (Nat × β)
  | [], k, v => [(k, v)]
  | (a, w) :: m, k, v => if k < a then (k, v) :: (a, w) :: m else if a = k then (k, v) :: m else (a, w) :: set m k v

/-- `lower_bound(k)`: the first entry with key at least `k` -/
def lowerBound : List (Nat × β) → Nat → Option (Nat × β)
  | [], _ => none
  | (a, v) :: m, k => if k ≤ a then some (a, v) else lowerBound m k

/-- the entry before `lower_bound(k)`: the last one with key less than `k` -/
def lastBelow : List (Nat × β) → Nat → Option (Nat × β)
  | [], _ => none
  | (a, v) :: m, k => if k ≤ a then none else (lastBelow m k).or (some (a, v))

theorem get_mem {m : List (Nat × β)} (h : Sorted m) {k : Nat} {v : β} : get m k = some v ↔ (k, v) ∈ m := by
  induction m with
  | nil => simp [get]
  | cons e m ih =>
    obtain ⟨a, w⟩ := e
    rw [Sorted, List.pairwise_cons] at h
    rw [get]
    by_cases c : a = k
    · subst c
      rw [if_pos rfl, List.mem_cons]
      constructor
      · intro h'; exact .inl (by rw [Option.some.inj h'])
      · rintro (h' | h')
        · rw [(Prod.mk.inj h').2]
        · have := h.1 _ h'; simp at this
    · rw [if_neg c, ih h.2, List.mem_cons]
      constructor
      · exact .inr
      · rintro (h' | h')
        · exact absurd (Prod.mk.inj h').1.symm c
        · exact h'

theorem mem_set {m : List (Nat × β)} (h : Sorted m) {k : Nat} {v : β} (e : Nat × β) :
    e ∈ set m k v ↔ e = (k, v) ∨ (e ∈ m ∧ e.1 ≠ k) := by
  induction m with
  | nil => simp [set]
  | cons f m ih =>
    obtain ⟨a, w⟩ := f
    rw [Sorted, List.pairwise_cons] at h
    rw [set]
    have hbig : ∀ e ∈ m, a < e.1 := h.1
    by_cases c : k < a
    · rw [if_pos c, List.mem_cons]
      refine or_congr_right ⟨fun he => ⟨he, ?_⟩, fun he => he.1⟩
      rcases List.mem_cons.1 he with rfl | he
      · simp; omega
      · have := hbig e he; omega
    · rw [if_neg c]
      by_cases c' : a = k
      · subst c'
        rw [if_pos rfl, List.mem_cons]
        refine or_congr_right ⟨fun he => ⟨List.mem_cons_of_mem _ he, ?_⟩, fun he => ?_⟩
        · have := hbig e he; omega
        · rcases List.mem_cons.1 he.1 with rfl | h1
          · exact absurd rfl he.2
          · exact h1
      · rw [if_neg c', List.mem_cons, ih h.2, List.mem_cons]
        constructor
        · rintro (rfl | h1 | ⟨h1, h2⟩)
          · exact .inr ⟨.inl rfl, c'⟩
          · exact .inl h1
          · exact .inr ⟨.inr h1, h2⟩
        · rintro (h1 | ⟨rfl | h1, h2⟩)
          · exact .inr (.inl h1)
          · exact .inl rfl
          · exact .inr (.inr ⟨h1, h2⟩)

theorem sorted_set {m : List (Nat × β)} (h : Sorted m) (k : Nat) (v : β) : Sorted (set m k v) := by
  induction m with
  | nil => simp [set, Sorted]
  | cons f m ih =>
    obtain ⟨a, w⟩ := f
    have h' := h
    rw [Sorted, List.pairwise_cons] at h
    rw [set]
    by_cases c : k < a
    · rw [if_pos c, Sorted, List.pairwise_cons]
      refine ⟨fun e he => ?_, h'⟩
      rcases List.mem_cons.1 he with rfl | he
      · exact c
      · have := h.1 e he; simp at this ⊢; omega
    · rw [if_neg c]
      by_cases c' : a = k
      · subst c'
        rw [if_pos rfl, Sorted, List.pairwise_cons]
        exact h
      · rw [if_neg c', Sorted, List.pairwise_cons]
        refine ⟨fun e he => ?_, ih h.2⟩
        rcases (mem_set h.2 e).1 he with rfl | ⟨he, -⟩
        · simp; omega
        · exact h.1 e he

theorem get_set {m : List (Nat × β)} (h : Sorted m) (k : Nat) (v : β) (j : Nat) :
    get (set m k v) j = if k = j then some v else get m j := by
  by_cases c : k = j
  · subst c
    rw [if_pos rfl, get_mem (sorted_set h k v), mem_set h]
    exact .inl rfl
  · rw [if_neg c]
    apply Option.ext
    intro b
    rw [get_mem (sorted_set h k v), get_mem h, mem_set h]
    constructor
    · rintro (h1 | ⟨h1, -⟩)
      · exact absurd (Prod.mk.inj h1).1.symm c
      · exact h1
    · intro h1; exact .inr ⟨h1, fun h2 => c h2.symm⟩

theorem lowerBound_spec {m : List (Nat × β)} (h : Sorted m) (k : Nat) :
    (lowerBound m k = none ∧ ∀ e ∈ m, e.1 < k) ∨
    ∃ e, lowerBound m k = some e ∧ e ∈ m ∧ k ≤ e.1 ∧ ∀ f ∈ m, k ≤ f.1 → e.1 ≤ f.1 := by
  induction m with
  | nil => exact .inl ⟨rfl, by simp⟩
  | cons f m ih =>
    obtain ⟨a, w⟩ := f
    rw [Sorted, List.pairwise_cons] at h
    rw [lowerBound]
    by_cases c : k ≤ a
    · rw [if_pos c]
      refine .inr ⟨_, rfl, by simp, c, fun f hf _ => ?_⟩
      rcases List.mem_cons.1 hf with rfl | hf
      · exact le_rfl
      · exact (h.1 f hf).le
    · rw [if_neg c]
      rcases ih h.2 with ⟨h1, h2⟩ | ⟨e, h1, h2, h3, h4⟩
      · refine .inl ⟨h1, fun e he => ?_⟩
        rcases List.mem_cons.1 he with rfl | he
        · simp; omega
        · exact h2 e he
      · refine .inr ⟨e, h1, List.mem_cons_of_mem _ h2, h3, fun f hf hk => ?_⟩
        rcases List.mem_cons.1 hf with rfl | hf
        · exact absurd hk c
        · exact h4 f hf hk

theorem lastBelow_spec {m : List (Nat × β)} (h : Sorted m) (k : Nat) :
    (lastBelow m k = none ∧ ∀ e ∈ m, k ≤ e.1) ∨
    ∃ e, lastBelow m k = some e ∧ e ∈ m ∧ e.1 < k ∧ ∀ f ∈ m, f.1 < k → f.1 ≤ e.1 := by
  induction m with
  | nil => exact .inl ⟨rfl, by simp⟩
  | cons f m ih =>
    obtain ⟨a, w⟩ := f
    rw [Sorted, List.pairwise_cons] at h
    rw [lastBelow]
    by_cases c : k ≤ a
    · rw [if_pos c]
      refine .inl ⟨rfl, fun f hf => ?_⟩
      rcases List.mem_cons.1 hf with rfl | hf
      · exact c
      · have := h.1 f hf; simp at this; omega
    · rw [if_neg c]
      rcases ih h.2 with ⟨h1, h2⟩ | ⟨e, h1, h2, h3, h4⟩
      · refine .inr ⟨(a, w), by rw [h1]; rfl, by simp, by simp; omega, fun f hf hk => ?_⟩
        rcases List.mem_cons.1 hf with rfl | hf
        · exact le_rfl
        · have := h2 f hf; omega
      · refine .inr ⟨e, by rw [h1]; rfl, List.mem_cons_of_mem _ h2, h3, fun f hf hk => ?_⟩
        rcases List.mem_cons.1 hf with rfl | hf
        · exact (h.1 e h2).le
        · exact h4 f hf hk

end Verif.SMap
