import Verif.SL.Full4
/-
Specification of the lists: the lists held by the list objects of a program, by the addresses and contents of their
nodes, and positions in them.
-/
namespace Verif.SL
variable {T : Type}

/-- the lists of the objects; no local variable of a list function holds nodes between calls -/
def lists (L : Nat → List (Nat × T)) : Root → List (Nat × T)
  | .obj k => L k
  | .loc _ => []

/-- The memory holds, for each object `k`, the list whose nodes and contents are `L k`, no node is in two places or
outside these lists (there are no leaks), and the objects with `F k`, those of class `sl_list`, know their end and
their length (modulo `2^64`). -/
structure State (m : Mem T) (L : Nat → List (Nat × T)) (F : Nat → Bool) : Prop where
  rep : Rep m (lists L)
  tidy : ∀ k, F k = true → Tidy m (.obj k) (L k)

/-- the iterator of object `k` after the nodes `xs`, with which its list begins: `begin()` if `xs` is empty, `end()`
if `xs` is the whole list -/
abbrev it (k : Nat) (xs : List (Nat × T)) : Loc := loc (.root (.obj k)) xs

theorem lists_upd (L : Nat → List (Nat × T)) (k : Nat) (zs : List (Nat × T)) :
    upd (lists L) (.obj k) zs = lists (upd L k zs) := by
  funext r
  cases r with
  | obj j =>
    by_cases hj : j = k
    · subst hj; simp [lists]
    · rw [upd_ne _ _ (by simpa using hj)]
      show L j = upd L k zs j
      rw [upd_ne _ _ hj]
  | loc i => rw [upd_ne _ _ (by simp)]; rfl

theorem State.simple1 {m m' : Mem T} {L : Nat → List (Nat × T)} {F : Nat → Bool} (h : State m L F) {k : Nat}
    (hk : F k = false) {zs : List (Nat × T)} (hr : Rep m' (upd (lists L) (.obj k) zs)) (hs : Same m m') :
    State m' (upd L k zs) F := by
  refine ⟨by rw [← lists_upd]; exact hr, fun j hj => ?_⟩
  have hjk : j ≠ k := by rintro rfl; rw [hk] at hj; cases hj
  rw [upd_ne _ _ hjk]
  exact (h.tidy j hj).same hs

theorem State.simple2 {m m' : Mem T} {L : Nat → List (Nat × T)} {F : Nat → Bool} (h : State m L F) {k l : Nat}
    (hk : F k = false) (hl : F l = false) {zs ws : List (Nat × T)}
    (hr : Rep m' (upd (upd (lists L) (.obj k) zs) (.obj l) ws)) (hs : Same m m') :
    State m' (upd (upd L k zs) l ws) F := by
  refine ⟨by rw [← lists_upd, ← lists_upd]; exact hr, fun j hj => ?_⟩
  have hjk : j ≠ k := by rintro rfl; rw [hk] at hj; cases hj
  have hjl : j ≠ l := by rintro rfl; rw [hl] at hj; cases hj
  rw [upd_ne _ _ hjl, upd_ne _ _ hjk]
  exact (h.tidy j hj).same hs

theorem State.full1 {m m' : Mem T} {L : Nat → List (Nat × T)} {F : Nat → Bool} (h : State m L F) {k : Nat}
    {zs : List (Nat × T)} {S : List Root} (hr : Rep m' (upd (lists L) (.obj k) zs)) (ht : Tidy m' (.obj k) zs)
    (hkeep : Keep m m' S) (hS : ∀ j, Root.obj j ∈ S → j = k) : State m' (upd L k zs) F := by
  refine ⟨by rw [← lists_upd]; exact hr, fun j hj => ?_⟩
  by_cases hjk : j = k
  · subst hjk; rw [upd_same]; exact ht
  · rw [upd_ne _ _ hjk]
    exact (h.tidy j hj).keep hkeep (fun hm => hjk (hS j hm))

theorem State.full2 {m m' : Mem T} {L : Nat → List (Nat × T)} {F : Nat → Bool} (h : State m L F) {k l : Nat}
    (hkl : k ≠ l) {zs ws : List (Nat × T)} {S : List Root}
    (hr : Rep m' (upd (upd (lists L) (.obj k) zs) (.obj l) ws)) (ht : Tidy m' (.obj k) zs) (hu : Tidy m' (.obj l) ws)
    (hkeep : Keep m m' S) (hS : ∀ j, Root.obj j ∈ S → j = k ∨ j = l) : State m' (upd (upd L k zs) l ws) F := by
  refine ⟨by rw [← lists_upd, ← lists_upd]; exact hr, fun j hj => ?_⟩
  by_cases hjl : j = l
  · subst hjl; rw [upd_same]; exact hu
  · rw [upd_ne _ _ hjl]
    by_cases hjk : j = k
    · subst hjk; rw [upd_same]; exact ht
    · rw [upd_ne _ _ hjk]
      exact (h.tidy j hj).keep hkeep (fun hm => (hS j hm).elim hjk hjl)

/-- the object becomes one of class `sl_list` -/
theorem State.become {m : Mem T} {L : Nat → List (Nat × T)} {F : Nat → Bool} (h : State m L F) {k : Nat}
    (ht : Tidy m (.obj k) (L k)) : State m L (upd F k true) := by
  refine ⟨h.rep, fun j hj => ?_⟩
  by_cases hjk : j = k
  · subst hjk; exact ht
  · rw [upd_ne _ _ hjk] at hj; exact h.tidy j hj

/-- the object becomes one of class `simple_list` -/
theorem State.unbecome {m : Mem T} {L : Nat → List (Nat × T)} {F : Nat → Bool} (h : State m L F) (k : Nat) :
    State m L (upd F k false) := by
  refine ⟨h.rep, fun j hj => ?_⟩
  by_cases hjk : j = k
  · subst hjk; simp at hj
  · rw [upd_ne _ _ hjk] at hj; exact h.tidy j hj

/-- a memory without nodes, and default constructed list objects -/
def initial (T : Type) : Mem T := ⟨fun _ => none, fun _ => none, 0, fun r => .root r, fun _ => 0⟩

theorem initial_state (F : Nat → Bool) : State (initial T) (fun _ => []) F := by
  refine ⟨⟨?_, ?_, ?_, ?_⟩, fun k _ => ⟨rfl, rfl⟩⟩
  · intro r; cases r <;> rfl
  · intro p q a _ _ h; cases h
  · intro a x h; cases h
  · intro a h; cases h

theorem obj_ne {k l : Nat} (h : k ≠ l) : Root.obj k ≠ Root.obj l := fun hc => h (Root.obj.inj hc)

end Verif.SL
