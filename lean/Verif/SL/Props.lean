import Verif.SL.Witness
/-
Properties of `simple_list`: what each of its functions does, for all contents of the list and all iterators into
it.  All functions return normally (no null or dangling pointer is followed), change the list as described, keep the
addresses of the nodes that remain in it (so that iterators and references to them remain valid), leave all other
lists as they were, and destroy the nodes that are removed.
-/
namespace Verif.SL
variable {T : Type} {m : Mem T} {L : Nat → List (Nat × T)} {F : Nat → Bool} {k l : Nat}

/-- the functions that inspect a list -/
theorem C56_inspect (h : State m L F) (k : Nat) :
    Simple.empty m (.obj k) = (L k).isEmpty ∧
    Simple.singleton m (.obj k) = .ok (decide ((L k).length = 1)) ∧
    Simple.length m (.obj k) = .ok (L k).length ∧
    Simple.toVector m (.obj k) = .ok ((L k).map Prod.snd) ∧
    (∀ a ys, L k = a :: ys → Simple.front m (.obj k) = .ok a.2) ∧
    (∀ xs a ys, L k = xs ++ a :: ys → item m (it k xs) = .ok a.2 ∧ advance m (it k xs) = .ok (it k (xs ++ [a]))) ∧
    (∀ xs ys, L k = xs ++ ys → atEnd m (it k xs) = .ok ys.isEmpty) :=
  ⟨Simple.empty_ok h.rep _, Simple.singleton_ok h.rep _, Simple.length_ok h.rep _, Simple.toVector_ok h.rep _,
    fun a ys e => Simple.front_ok (L := lists L) h.rep e,
    fun xs a ys e => ⟨h.rep.item (r := .obj k) e, h.rep.advance (r := .obj k) e⟩,
    fun xs ys e => h.rep.atEnd (r := .obj k) e⟩
example := C56_inspect (twoSimple_state (fun _ => false) rfl) 0

/-- constructors: from a range, from a number of copies, by copy and by move -/
theorem C56_construct (h : State m L F) (hk : F k = false) (e : L k = []) :
    (∀ vs, ∃ m' ns, Simple.ofRange m (.obj k) vs = .ok m' ∧ ns.map Prod.snd = vs ∧ State m' (upd L k ns) F) ∧
    (∀ n x, ∃ m' ns, Simple.ofN m (.obj k) n x = .ok m' ∧ ns.map Prod.snd = List.replicate n x ∧
      State m' (upd L k ns) F) ∧
    (∀ l, l ≠ k → ∃ m' ns, Simple.copy m (.obj k) (.obj l) = .ok m' ∧ ns.map Prod.snd = (L l).map Prod.snd ∧
      State m' (upd L k ns) F) ∧
    (∀ l, l ≠ k → F l = false → ∃ m', Simple.moveCtor m (.obj k) (.obj l) = .ok m' ∧
      State m' (upd (upd L k (L l)) l []) F) := by
  refine ⟨fun vs => ?_, fun n x => ?_, fun l hl => ?_, fun l hl hf => ?_⟩
  · obtain ⟨m', ns, a1, a2, a3, a4, -⟩ := Simple.ofRange_ok vs h.rep (r := .obj k) (t := .loc 0) (by simp) rfl e
    exact ⟨m', ns, a1, a2, h.simple1 hk a3 a4⟩
  · obtain ⟨m', ns, a1, a2, a3, a4, -⟩ := Simple.ofN_ok n x h.rep (r := .obj k) (t := .loc 0) (by simp) rfl e
    exact ⟨m', ns, a1, a2, h.simple1 hk a3 a4⟩
  · obtain ⟨m', ns, a1, a2, a3, a4, -⟩ := Simple.copy_ok h.rep (r := .obj k) (s := .obj l) (t := .loc 0) (by simp) rfl
      (obj_ne hl) e
    exact ⟨m', ns, a1, a2, h.simple1 hk a3 a4⟩
  · obtain ⟨m', a1, a2, a3, -⟩ := Simple.moveCtor_ok h.rep (obj_ne hl.symm) e
    exact ⟨m', a1, h.simple2 hk hf a2 a3⟩
example := C56_construct (k := 1) (twoSimple_state (fun _ => false) rfl) rfl rfl

/-- assignments: of a copy, by move, of a number of copies of a value and of a range; also those of a list to itself -/
theorem C56_assign (h : State m L F) (hk : F k = false) :
    (∀ l, ∃ m' ns, Simple.assignCopy m (.obj k) (.obj l) = .ok m' ∧ ns.map Prod.snd = (L l).map Prod.snd ∧
      State m' (upd L k ns) F) ∧
    (∀ l, F l = false → ∃ m', Simple.assignMove m (.obj k) (.obj l) = .ok m' ∧
      State m' (if k = l then L else upd (upd L k (L l)) l []) F) ∧
    (∀ n x, ∃ m' ns, Simple.assignN m (.obj k) n x = .ok m' ∧ ns.map Prod.snd = List.replicate n x ∧
      State m' (upd L k ns) F) ∧
    (∀ vs, ∃ m' ns, Simple.assignRange m (.obj k) vs = .ok m' ∧ ns.map Prod.snd = vs ∧ State m' (upd L k ns) F) := by
  refine ⟨fun l => ?_, fun l hl => ?_, fun n x => ?_, fun vs => ?_⟩
  · obtain ⟨m', ns, a1, a2, a3, a4, -⟩ := Simple.assignCopy_ok h.rep (r := .obj k) (s := .obj l) (t := .loc 0) (by simp) rfl
    exact ⟨m', ns, a1, a2, h.simple1 hk a3 a4⟩
  · obtain ⟨m', a1, a2, a3, -⟩ := Simple.assignMove_ok h.rep (.obj k) (.obj l)
    refine ⟨m', a1, ?_⟩
    by_cases hkl : k = l
    · rw [if_pos hkl]
      rw [if_pos (by rw [hkl])] at a2
      have := h.simple1 (k := k) hk (zs := L k) (m' := m') (a2.congr rfl (upd_self _ rfl).symm) a3
      rwa [upd_self L rfl] at this
    · rw [if_neg hkl]
      rw [if_neg (obj_ne hkl)] at a2
      exact h.simple2 hk hl a2 a3
  · obtain ⟨m', ns, a1, a2, a3, a4, -⟩ := Simple.assignN_ok n x h.rep (r := .obj k) (t := .loc 0) (by simp) rfl
    exact ⟨m', ns, a1, a2, h.simple1 hk a3 a4⟩
  · obtain ⟨m', ns, a1, a2, a3, a4, -⟩ := Simple.assignRange_ok vs h.rep (r := .obj k) (t := .loc 0) (by simp) rfl
    exact ⟨m', ns, a1, a2, h.simple1 hk a3 a4⟩
example := C56_assign (k := 1) (twoSimple_state (fun _ => false) rfl) rfl

/-- `swap`, also of a list with itself -/
theorem C56_swap (h : State m L F) (hk : F k = false) (hl : F l = false) :
    ∃ m', Simple.swap m (.obj k) (.obj l) = .ok m' ∧ State m' (upd (upd L k (L l)) l (L k)) F := by
  obtain ⟨m', a1, a2, a3, -⟩ := Simple.swap_ok h.rep (.obj k) (.obj l)
  exact ⟨m', a1, h.simple2 hk hl a2 a3⟩
example := C56_swap (k := 1) (l := 0) (twoSimple_state (fun _ => false) rfl) rfl rfl

/-- `insert` of a value, or of a number of copies of it, at any position -/
theorem C56_insert (h : State m L F) (hk : F k = false) {xs ys : List (Nat × T)} (e : L k = xs ++ ys) (x : T) :
    (∃ m' a, Simple.insert m (it k xs) x = .ok (m', it k (xs ++ [(a, x)])) ∧
      State m' (upd L k (xs ++ (a, x) :: ys)) F) ∧
    (∀ n, ∃ m' ns, Simple.insertN m (it k xs) n x = .ok (m', it k (xs ++ ns)) ∧ ns.map Prod.snd = List.replicate n x ∧
      State m' (upd L k (xs ++ (ns ++ ys))) F) := by
  refine ⟨?_, fun n => ?_⟩
  · obtain ⟨a1, a2⟩ := Simple.insert_ok h.rep (r := .obj k) (t := .loc 0) (by simp) rfl e x
    exact ⟨_, _, a1, h.simple1 hk a2 (Same.ins m _ x)⟩
  · obtain ⟨m', ns, a1, a2, a3, a4, -⟩ := Simple.insertN_ok n h.rep (r := .obj k) (t := .loc 0) (by simp) rfl e x
    exact ⟨m', ns, a1, a2, h.simple1 hk a3 a4⟩
example := C56_insert (k := 0) (twoSimple_state (fun _ => false) rfl) rfl (xs := [(0, 7)]) (ys := [(1, 7)]) rfl 5

/-- `insert` of a range at any position; partial: the iterator returned is as specified only if the range is not
empty or the position is `end()` -/
theorem C56_insertRange_partial (h : State m L F) (hk : F k = false) {xs ys : List (Nat × T)} (e : L k = xs ++ ys)
    (vs : List T) :
    ∃ m' ns p, Simple.insertRange m (it k xs) vs = .ok (m', p) ∧ ns.map Prod.snd = vs ∧
      State m' (upd L k (xs ++ (ns ++ ys))) F ∧ (vs ≠ [] ∨ ys = [] → p = it k (xs ++ ns)) := by
  obtain ⟨m', ns, a1, a2, a3, a4, -⟩ := Simple.insertRange_ok vs h.rep (r := .obj k) (t := .loc 1) rfl (by simp) (by simp)
    (by simp) rfl e
  refine ⟨m', ns, _, a1, a2, h.simple1 hk a3 a4, fun hc => if_neg ?_⟩
  rintro ⟨h1, h2⟩
  exact hc.elim (fun hc => hc h2) h1
example := C56_insertRange_partial (k := 0) (twoSimple_state (fun _ => false) rfl) rfl (xs := [(0, 7)]) (ys := [(1, 7)]) rfl [5, 6]

/-- `insert` of an empty range before `end()` returns an iterator that does not point into the list, but to a
destroyed local variable -/
theorem C56_insertRange_false :
    ∃ (m : Mem Nat) (L : Nat → List (Nat × Nat)) (F : Nat → Bool) (m' : Mem Nat),
      State m L F ∧ F 0 = false ∧ L 0 = [(0, 7)] ∧ Simple.insertRange m (it 0 ([] : List (Nat × Nat))) [] = .ok (m', .root (.loc 0)) ∧
      ∀ k xs, Loc.root (.loc 0) ≠ it k (xs : List (Nat × Nat)) := by
  obtain ⟨m1, a, -, h1⟩ := (C56_insert (k := 0) (initial_state (T := Nat) (fun _ => false)) rfl (xs := []) (ys := []) rfl 7).1
  have ha : ∃ m1, State m1 (upd (fun _ => ([] : List (Nat × Nat))) 0 [(0, 7)]) (fun _ => false) :=
    ⟨_, State.simple1 (initial_state (T := Nat) (fun _ => false)) rfl
      (Simple.insert_ok (initial_state (T := Nat) (fun _ => false)).rep (r := .obj 0) (t := .loc 0) (by simp) rfl
        (xs := []) (ys := []) rfl 7).2 (Same.ins _ _ 7)⟩
  obtain ⟨m2, h2⟩ := ha
  obtain ⟨m', ns, b1, -⟩ := Simple.insertRange_ok ([] : List Nat) h2.rep (r := .obj 0) (t := .loc 1) rfl (by simp) (by simp)
    (by simp) rfl (xs := []) (ys := [(0, 7)]) rfl
  rw [if_pos ⟨by simp, rfl⟩] at b1
  exact ⟨m2, _, _, m', h2, rfl, rfl, b1, fun k xs => root_ne (by simp) xs⟩

/-- `push_front`, `pop_front`, `erase` and `clear` -/
theorem C56_erase (h : State m L F) (hk : F k = false) :
    (∀ x, ∃ m' a, Simple.pushFront m (.obj k) x = .ok m' ∧ State m' (upd L k ((a, x) :: L k)) F) ∧
    (∀ a ys, L k = a :: ys → ∃ m', Simple.popFront m (.obj k) = .ok m' ∧ State m' (upd L k ys) F) ∧
    (∀ xs a ys, L k = xs ++ a :: ys → ∃ m', Simple.erase m (it k xs) = .ok (m', it k xs) ∧
      State m' (upd L k (xs ++ ys)) F) ∧
    (∀ xs ys zs, L k = xs ++ (ys ++ zs) → ∃ m', Simple.eraseRange m (it k xs) (it k (xs ++ ys)) = .ok (m', it k xs) ∧
      State m' (upd L k (xs ++ zs)) F) ∧
    (∃ m', Simple.clear m (.obj k) = .ok m' ∧ State m' (upd L k []) F) := by
  refine ⟨fun x => ?_, fun a ys e => ?_, fun xs a ys e => ?_, fun xs ys zs e => ?_, ?_⟩
  · obtain ⟨a1, a2⟩ := Simple.insert_ok h.rep (r := .obj k) (t := .loc 0) (by simp) rfl (xs := []) (ys := L k) rfl x
    refine ⟨_, _, ?_, h.simple1 hk a2 (Same.ins m _ x)⟩
    unfold Simple.pushFront
    rw [← root_loc] at a1
    rw [a1, Res.ok_bind]
    rfl
  · obtain ⟨m', a1, a2, a3, -⟩ := Simple.popFront_ok h.rep (r := .obj k) (t := .loc 0) (by simp) rfl e
    exact ⟨m', a1, h.simple1 hk a2 a3⟩
  · obtain ⟨m', a1, a2, a3, -⟩ := Simple.erase_ok h.rep (r := .obj k) (t := .loc 0) (by simp) rfl e
    exact ⟨m', a1, h.simple1 hk a2 a3⟩
  · obtain ⟨m', a1, a2, a3, -⟩ := Simple.eraseRange_ok h.rep (r := .obj k) (t := .loc 0) (by simp) rfl e
    exact ⟨m', a1, h.simple1 hk a2 a3⟩
  · obtain ⟨m', a1, a2, a3, -⟩ := Simple.clear_ok h.rep (.obj k)
    exact ⟨m', a1, h.simple1 hk a2 a3⟩
example := C56_erase (k := 0) (twoSimple_state (fun _ => false) rfl) rfl

/-- `resize`: the first elements remain, and copies of a value are added -/
theorem C56_resize (h : State m L F) (hk : F k = false) (n : Nat) (x : T) :
    ∃ m' ns, Simple.resize m (.obj k) n x = .ok m' ∧ ns.map Prod.snd = List.replicate (n - (L k).length) x ∧
      State m' (upd L k ((L k).take n ++ ns)) F := by
  obtain ⟨m', ns, a1, a2, a3, a4, -⟩ := Simple.resize_ok n x h.rep (r := .obj k) (t := .loc 0) rfl rfl (by simp) (by simp)
    rfl (by simp)
  exact ⟨m', ns, a1, a2, h.simple1 hk a3 a4⟩
example := C56_resize (k := 0) (twoSimple_state (fun _ => false) rfl) rfl 4 5

/-- `splice` of a whole list, of a range or of a node, before any position of another list -/
theorem C56_splice (h : State m L F) (hk : F k = false) (hl : F l = false) (hkl : k ≠ l)
    {xs ys : List (Nat × T)} (e : L k = xs ++ ys) :
    (∃ m', Simple.splice m (it k xs) (.obj l) = .ok (m', it k (xs ++ L l)) ∧
      State m' (upd (upd L k (xs ++ (L l ++ ys))) l []) F) ∧
    (∀ us ms ws, L l = us ++ (ms ++ ws) →
      ∃ m', Simple.spliceRange m (it k xs) (it l us) (it l (us ++ ms)) = .ok (m', it k (xs ++ ms)) ∧
        State m' (upd (upd L k (xs ++ (ms ++ ys))) l (us ++ ws)) F) ∧
    (∀ us a ws, L l = us ++ a :: ws →
      ∃ m', Simple.spliceNode m (it k xs) (it l us) = .ok (m', it k (xs ++ [a])) ∧
        State m' (upd (upd L k (xs ++ a :: ys)) l (us ++ ws)) F) := by
  have hr : ∀ us ms ws, L l = us ++ (ms ++ ws) →
      ∃ m', Simple.spliceRange m (it k xs) (it l us) (it l (us ++ ms)) = .ok (m', it k (xs ++ ms)) ∧
        State m' (upd (upd L k (xs ++ (ms ++ ys))) l (us ++ ws)) F := fun us ms ws es => by
    obtain ⟨m', a1, a2, a3, -⟩ := Simple.spliceRange_ok h.rep (obj_ne hkl) e es
    exact ⟨m', a1, h.simple2 hk hl a2 a3⟩
  refine ⟨?_, hr, fun us a ws es => ?_⟩
  · obtain ⟨m', a1, a2, a3, -⟩ := Simple.splice_ok h.rep (obj_ne hkl) rfl (by simp) (by simp) e (zs := L l) rfl
    exact ⟨m', a1, h.simple2 hk hl a2 a3⟩
  · obtain ⟨m', a1, a2⟩ := hr us [a] ws es
    unfold Simple.spliceNode
    rw [h.rep.advance (r := .obj l) es, Res.ok_bind]
    exact ⟨m', a1, a2⟩
example := C56_splice (k := 1) (l := 0) (twoSimple_state (fun _ => false) rfl) rfl rfl (by decide) (xs := []) (ys := []) rfl

/-- `splice` of a range within a list, to a position before or after it, or at one of its ends -/
theorem C56_spliceSame (h : State m L F) (hk : F k = false) {xs ys zs ws : List (Nat × T)}
    (e : L k = xs ++ (ys ++ (zs ++ ws))) :
    (∃ m', Simple.spliceRange m (it k xs) (it k (xs ++ ys)) (it k (xs ++ ys ++ zs)) = .ok (m', it k (xs ++ zs)) ∧
      State m' (upd L k (xs ++ (zs ++ (ys ++ ws)))) F) ∧
    (ys ≠ [] → ∃ m', Simple.spliceRange m (it k (xs ++ ys ++ zs)) (it k xs) (it k (xs ++ ys)) =
        .ok (m', it k (xs ++ (zs ++ ys))) ∧
      State m' (upd L k (xs ++ (zs ++ (ys ++ ws)))) F) := by
  refine ⟨?_, fun hy => ?_⟩
  · obtain ⟨m', a1, a2, a3, -⟩ := Simple.spliceBefore_ok h.rep (r := .obj k) (t := .loc 0) (by simp) rfl e
    exact ⟨m', a1, h.simple1 hk a2 a3⟩
  · obtain ⟨m', a1, a2, a3, -⟩ := Simple.spliceAfter_ok h.rep (r := .obj k) (t := .loc 0) (by simp) rfl e hy
    exact ⟨m', a1, h.simple1 hk a2 a3⟩
example := C56_spliceSame (k := 0) (twoSimple_state (fun _ => false) rfl) rfl (xs := []) (ys := [(0, 7)]) (zs := [(1, 7)]) (ws := []) rfl

/-- `reverse` of the list or of a range of it -/
theorem C56_reverse (h : State m L F) (hk : F k = false) :
    (∃ m', Simple.reverse m (.obj k) = .ok m' ∧ State m' (upd L k (L k).reverse) F) ∧
    (∀ xs ys zs, L k = xs ++ (ys ++ zs) →
      ∃ m', Simple.reverseRange m (it k xs) (it k (xs ++ ys)) = .ok (m', it k (xs ++ ys.reverse)) ∧
        State m' (upd L k (xs ++ (ys.reverse ++ zs))) F) := by
  refine ⟨?_, fun xs ys zs e => ?_⟩
  · obtain ⟨m', a1, a2, a3, -⟩ := Simple.reverse_ok h.rep (r := .obj k) rfl (by simp)
    exact ⟨m', a1, h.simple1 hk a2 a3⟩
  · obtain ⟨m', a1, a2, a3, -⟩ := Simple.reverseRange_ok h.rep (r := .obj k) rfl (by simp) rfl (by simp) e
    exact ⟨m', a1, h.simple1 hk a2 a3⟩
example := C56_reverse (k := 0) (twoSimple_state (fun _ => false) rfl) rfl

/-- `remove_if` keeps exactly the elements that do not satisfy the predicate; `unique` removes each element that is
related to the last one kept -/
theorem C56_remove (h : State m L F) (hk : F k = false) :
    (∀ pred : T → Bool, ∃ m', Simple.removeIf m (.obj k) pred = .ok m' ∧
      State m' (upd L k ((L k).filter (fun a => !pred a.2))) F) ∧
    (∀ rel : T → T → Bool, ∃ m', Simple.unique m (.obj k) rel = .ok m' ∧
      State m' (upd L k ((L k).destutter (fun b c => ¬ rel b.2 c.2 = true))) F) := by
  refine ⟨fun pred => ?_, fun rel => ?_⟩
  · obtain ⟨m', a1, a2, a3, -⟩ := Simple.removeIf_ok pred h.rep (r := .obj k) (t := .loc 0) (by simp) rfl
    exact ⟨m', a1, h.simple1 hk a2 a3⟩
  · obtain ⟨m', a1, a2, a3, -⟩ := Simple.unique_ok rel h.rep (r := .obj k) (t := .loc 0) (by simp) rfl
    exact ⟨m', a1, h.simple1 hk a2 a3⟩
example := C56_remove (k := 0) (twoSimple_state (fun _ => false) rfl) rfl

/-- `remove` of a value; partial: the value must not be an element of the list -/
theorem C56_removeValue_partial [DecidableEq T] (h : State m L F) (hk : F k = false) (v : Simple.Arg T) (x : T)
    (hv : v.read m = .ok x) (ho : Outside (L k) v) :
    ∃ m', Simple.remove m (.obj k) v = .ok m' ∧ State m' (upd L k ((L k).filter (fun a => !decide (a.2 = x)))) F := by
  obtain ⟨m', a1, a2, a3, -⟩ := Simple.remove_ok v x h.rep (r := .obj k) (t := .loc 0) (by simp) rfl hv ho
  exact ⟨m', a1, h.simple1 hk a2 a3⟩
example := C56_removeValue_partial (k := 0) (twoSimple_state (fun _ => false) rfl) rfl (.val 7) 7 rfl trivial

end Verif.SL
