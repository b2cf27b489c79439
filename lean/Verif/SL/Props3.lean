import Verif.SL.Props2
/-
Properties of the functions `merge` and `sort` of `simple_list` and `sl_list`, and the cases where functions of the
lists do not do what they should.
-/
namespace Verif.SL
variable {T : Type} {m : Mem T} {L : Nat → List (Nat × T)} {F : Nat → Bool} {k l : Nat}

/-- the merged list contains the elements of both lists; if both are sorted for a strict weak order, so is the merged
list, and of equivalent elements those of the first list come first, each list in its own order -/
def Merged (less : T → T → Bool) (ys ms ws : List (Nat × T)) : Prop :=
  ws.Perm (ys ++ ms) ∧
  (StrictWeak less → Sorted less ys → Sorted less ms →
    Sorted less ws ∧ ∀ c, class' less c ws = class' less c ys ++ class' less c ms)

theorem mrg_merged (less : T → T → Bool) (ys ms : List (Nat × T)) : Merged less ys ms (mrg less ys ms) :=
  ⟨mrg_perm less ys ms, fun h hy hm => ⟨mrg_sorted h hy hm, fun c => mrg_stable h c hy⟩⟩

/-- the list has been sorted: it contains the same elements; for a strict weak order, it is sorted, and equivalent
elements are in the order they were in -/
def SortedFrom (less : T → T → Bool) (ys ws : List (Nat × T)) : Prop :=
  ws.Perm ys ∧ (StrictWeak less → Sorted less ws ∧ ∀ c, class' less c ws = class' less c ys)

/-- `merge` of another list into the list; both classes -/
theorem C58_merge (h : State m L F) (hkl : k ≠ l) (less : T → T → Bool) :
    (F k = false → F l = false → ∃ m' ws, Simple.merge m (.obj k) (.obj l) less = .ok m' ∧
      Merged less (L k) (L l) ws ∧ State m' (upd (upd L k ws) l []) F) ∧
    (F k = true → F l = true → ∃ m' ws, Full.merge m (.obj k) (.obj l) less = .ok m' ∧
      Merged less (L k) (L l) ws ∧ State m' (upd (upd L k ws) l []) F) := by
  refine ⟨fun hk hl => ?_, fun hk hl => ?_⟩
  · obtain ⟨m', a1, a2, a3, -⟩ := Simple.merge_ok less h.rep (obj_ne hkl) (by simp) (by simp) rfl
    exact ⟨m', _, a1, mrg_merged less _ _, h.simple2 hk hl a2 a3⟩
  · obtain ⟨m', a1, a2, a3, a4, a5, -⟩ := Full.merge_ok less h.rep (obj_ne hkl) (by simp) (by simp) rfl (h.tidy k hk) (h.tidy l hl)
    exact ⟨m', _, a1, mrg_merged less _ _, h.full2 hkl a2 a3 a4 a5 (both k l)⟩
example := C58_merge (k := 0) (l := 1) (twoFull_state (fun _ => true) rfl) (by decide) (fun a b => decide (a < b))

/-- `merge` of two ranges of an `sl_list`: the merged range appears where the first range was, and its end is returned.
If the first range is immediately after the second one, their roles are exchanged: of equivalent elements those of
the second range come first. -/
theorem C58_mergeRanges (h : State m L F) (hk : F k = true) (less : T → T → Bool) :
    (∀ b0 e0 b1, Full.mergeRanges m (.obj k) b0 e0 b1 b1 less = .ok (m, e0)) ∧
    (∀ xs ys us ms zs, L k = xs ++ (ys ++ (us ++ (ms ++ zs))) → ms ≠ [] →
      ∃ m' ws, Full.mergeRanges m (.obj k) (it k xs) (it k (xs ++ ys)) (it k (xs ++ ys ++ us)) (it k (xs ++ ys ++ us ++ ms)) less =
          .ok (m', it k (xs ++ ws)) ∧
        Merged less ys ms ws ∧ State m' (upd L k (xs ++ (ws ++ (us ++ zs)))) F) ∧
    (∀ xs ms as ys us, L k = xs ++ (ms ++ (as ++ (ys ++ us))) → as ≠ [] → ms ≠ [] →
      ∃ m' ws, Full.mergeRanges m (.obj k) (it k (xs ++ ms ++ as)) (it k (xs ++ ms ++ as ++ ys)) (it k xs) (it k (xs ++ ms)) less =
          .ok (m', it k (xs ++ as ++ ws)) ∧
        Merged less ys ms ws ∧ State m' (upd L k (xs ++ (as ++ (ws ++ us)))) F) ∧
    (∀ xs ms ys zs, L k = xs ++ (ms ++ (ys ++ zs)) → ms ≠ [] →
      ∃ m' ws, Full.mergeRanges m (.obj k) (it k (xs ++ ms)) (it k (xs ++ ms ++ ys)) (it k xs) (it k (xs ++ ms)) less =
          .ok (m', it k (xs ++ ws)) ∧
        Merged less ms ys ws ∧ State m' (upd L k (xs ++ (ws ++ zs))) F) := by
  refine ⟨fun b0 e0 b1 => Full.mergeRanges_none less m _ b0 e0 b1, fun xs ys us ms zs e hms => ?_,
    fun xs ms as ys us e has hms => ?_, fun xs ms ys zs e hms => ?_⟩
  · obtain ⟨m', a1, a2, a3, a4, -⟩ := Full.mergeRanges_after less h.rep (r := .obj k) (by simp) rfl (h.tidy k hk) e hms
    exact ⟨m', _, a1, mrg_merged less _ _, h.full1 a2 a3 a4 (one k)⟩
  · obtain ⟨m', a1, a2, a3, a4, -⟩ := Full.mergeRanges_before less h.rep (r := .obj k) (by simp) rfl (by simp) rfl
      (h.tidy k hk) e has hms
    exact ⟨m', _, a1, mrg_merged less _ _, h.full1 a2 a3 a4 (one k)⟩
  · obtain ⟨m', a1, a2, a3, a4, -⟩ := Full.mergeRanges_swap less h.rep (r := .obj k) (by simp) rfl (h.tidy k hk) e hms
    exact ⟨m', _, a1, mrg_merged less _ _, h.full1 a2 a3 a4 (one k)⟩
example := C58_mergeRanges (k := 0) (twoFull_state (fun _ => true) rfl) rfl (fun a b => decide (a < b))

/-- `sort` of a list of either class, and of a range of an `sl_list` -/
theorem C58_sort (h : State m L F) (less : T → T → Bool) :
    (F k = false → ∃ m' ws, Simple.sort m (.obj k) less = .ok m' ∧ SortedFrom less (L k) ws ∧ State m' (upd L k ws) F) ∧
    (F k = true → (L k).length < 2 ^ 64 →
      ∃ m' ws, Full.sort m (.obj k) less = .ok m' ∧ SortedFrom less (L k) ws ∧ State m' (upd L k ws) F) ∧
    (F k = true → ∀ xs ys zs, L k = xs ++ (ys ++ zs) →
      ∃ m' ws, Full.sortRange m (.obj k) (it k xs) (it k (xs ++ ys)) less = .ok (m', it k (xs ++ ws)) ∧
        SortedFrom less ys ws ∧ State m' (upd L k (xs ++ (ws ++ zs))) F) := by
  refine ⟨fun hk => ?_, fun hk hn => ?_, fun hk xs ys zs e => ?_⟩
  · obtain ⟨m', ws, a1, a2, a3, -, a4, a5⟩ := Simple.sort_ok less h.rep (r := .obj k) (by simp) rfl
    exact ⟨m', ws, a1, ⟨a4, a5⟩, h.simple1 hk a2 a3⟩
  · obtain ⟨m', ws, a1, a2, a3, a4, -, a5, a6⟩ := Full.sort_ok less h.rep (r := .obj k) (by simp) rfl (h.tidy k hk) hn
    exact ⟨m', ws, a1, ⟨a5, a6⟩, h.full1 a2 a3 a4 (one k)⟩
  · obtain ⟨m', ws, a1, a2, a3, a4, -, a5, a6⟩ := Full.sortRange_ok less h.rep (r := .obj k) (by simp) rfl (h.tidy k hk) e
    exact ⟨m', ws, a1, ⟨a5, a6⟩, h.full1 a2 a3 a4 (one k)⟩
example := C58_sort (k := 0) (twoFull_state (fun _ => true) rfl) (fun a b => decide (a < b))

/-- sorting lists of pairs by their first components -/
def byFst (a b : Nat × Nat) : Bool := decide (a.1 < b.1)

/-- comparing by first components is a strict weak order, for which there are equivalent elements -/
theorem byFst_weak : StrictWeak byFst := by
  refine ⟨fun a b h => ?_, fun a b c h => ?_⟩
  · simp only [byFst, decide_eq_true_eq, decide_eq_false_iff_not] at *; omega
  · simp only [byFst, decide_eq_true_eq, decide_eq_false_iff_not] at *; omega

/-- `x = std::move(x)` leaves an `sl_list` with two nodes that reports to be empty and of size 0 -/
theorem C57_assignMove_false :
    ∃ (m m' : Mem Nat) (F : Nat → Bool), F 0 = true ∧ State m twoLists F ∧
      Full.assignMove m (.obj 0) (.obj 0) = .ok m' ∧ Simple.toVector m' (.obj 0) = .ok [7, 7] ∧
      Full.empty m' (.obj 0) = true ∧ Full.size m' (.obj 0) = 0 :=
  ⟨twoFull, _, fun _ => true, rfl, twoFull_state _ rfl, rfl, rfl, rfl, rfl⟩

/-- the move constructor with an equal allocator leaves an `sl_list` without nodes that reports not to be empty and
to have size 2 -/
theorem C57_moveCtorAlloc_false :
    ∃ (m m' : Mem Nat) (F : Nat → Bool), F 0 = true ∧ State m twoLists F ∧ twoLists 1 = [] ∧
      Full.moveCtorAlloc m (.obj 1) (.obj 0) = .ok m' ∧ Simple.toVector m' (.obj 1) = .ok [7, 7] ∧
      Simple.toVector m' (.obj 0) = .ok [] ∧ Full.empty m' (.obj 0) = false ∧ Full.size m' (.obj 0) = 2 :=
  ⟨twoFull, _, fun _ => true, rfl, twoFull_state _ rfl, rfl, rfl, rfl, rfl, rfl, rfl⟩

/-- `l.splice(l.end(),l,it,l.end())`, which should change nothing, makes an `sl_list` of two nodes believe that it
ends before its second node: `push_back` afterwards drops that node -/
theorem C57_spliceSame_false :
    ∃ (m m' m'' : Mem Nat) (F : Nat → Bool) (p : Loc) (a : Nat), F 0 = true ∧ State m twoLists F ∧
      Full.spliceRange m (.obj 0) (it 0 [(0, 7), (1, 7)]) (.obj 0) (it 0 [(0, 7)]) (it 0 [(0, 7), (1, 7)]) = .ok (m', p) ∧
      Simple.toVector m' (.obj 0) = .ok [7, 7] ∧ m'.tail (.obj 0) = it 0 [(0, 7)] ∧
      Full.pushBack m' (.obj 0) 9 = .ok (m'', a) ∧ Simple.toVector m'' (.obj 0) = .ok [7, 9] ∧
      Full.size m'' (.obj 0) = 3 :=
  ⟨twoFull, _, _, fun _ => true, _, _, rfl, twoFull_state _ rfl, rfl, rfl, rfl, rfl, rfl, rfl⟩

/-- `l.remove(l.front())` reads a destroyed node, for both classes -/
theorem C56_removeValue_false :
    ∃ (m : Mem Nat) (F : Nat → Bool), F 0 = false ∧ State m twoLists F ∧
      Simple.remove m (.obj 0) (.elem 0) = .undefined :=
  ⟨twoSimple, fun _ => false, rfl, twoSimple_state _ rfl, rfl⟩

theorem C57_removeValue_false :
    ∃ (m : Mem Nat) (F : Nat → Bool), F 0 = true ∧ State m twoLists F ∧
      Full.remove m (.obj 0) (.elem 0) = .undefined :=
  ⟨twoFull, fun _ => true, rfl, twoFull_state _ rfl, rfl⟩

/-- `insert` of an empty range before `end()` returns an iterator that does not point into the list, but to a
destroyed local variable -/
theorem C57_insertRange_false :
    ∃ (m m' : Mem Nat) (F : Nat → Bool), F 0 = true ∧ State m twoLists F ∧
      Full.insertRange m (.obj 0) (it 0 ([] : List (Nat × Nat))) [] = .ok (m', .root (.loc 0)) ∧
      ∀ k xs, Loc.root (.loc 0) ≠ it k (xs : List (Nat × Nat)) :=
  ⟨twoFull, _, fun _ => true, rfl, twoFull_state _ rfl, rfl, fun k xs => root_ne (by simp) xs⟩

end Verif.SL
