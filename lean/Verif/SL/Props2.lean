import Verif.SL.Props
/-
Properties of `sl_list`: what each of its functions does, for all contents of the list and all iterators into it.
In addition to what holds for `simple_list`, an `sl_list` always knows its end and its length, so that inserting
at the end, `end()`, `empty()` and `size()` are right after any number of calls.
-/
namespace Verif.SL
variable {T : Type} {m : Mem T} {L : Nat → List (Nat × T)} {F : Nat → Bool} {k l : Nat}

/-- the functions that inspect a list -/
theorem C57_inspect (h : State m L F) (hk : F k = true) :
    Full.empty m (.obj k) = (L k).isEmpty ∧
    ((L k).length < 2 ^ 64 → Full.size m (.obj k) = (L k).length) ∧
    m.tail (.obj k) = it k (L k) ∧
    Simple.toVector m (.obj k) = .ok ((L k).map Prod.snd) :=
  ⟨Full.empty_ok (L := lists L) (h.tidy k hk), fun hn => Full.size_ok (h.tidy k hk) hn, (h.tidy k hk).1,
    Simple.toVector_ok h.rep _⟩
example := C57_inspect (k := 0) (twoFull_state (fun _ => true) rfl) rfl

/-- constructors: default, from a range, from a number of copies, by copy and by move -/
theorem C57_construct (h : State m L F) (e : L k = []) :
    State (Full.make m (.obj k)) (upd L k []) (upd F k true) ∧
    (∀ vs, ∃ m' ns, Full.ofRange m (.obj k) vs = .ok m' ∧ ns.map Prod.snd = vs ∧ State m' (upd L k ns) (upd F k true)) ∧
    (∀ n x, ∃ m' ns, Full.ofN m (.obj k) n x = .ok m' ∧ ns.map Prod.snd = List.replicate n x ∧
      State m' (upd L k ns) (upd F k true)) ∧
    (∀ l, l ≠ k → F l = true → ∃ m' ns, Full.copy m (.obj k) (.obj l) = .ok m' ∧ ns.map Prod.snd = (L l).map Prod.snd ∧
      State m' (upd L k ns) (upd F k true)) ∧
    (∀ l, l ≠ k → F l = true → ∃ m', Full.moveCtor m (.obj k) (.obj l) = .ok m' ∧
      State m' (upd (upd L k (L l)) l []) (upd F k true)) := by
  refine ⟨?_, fun vs => ?_, fun n x => ?_, fun l hl hf => ?_, fun l hl hf => ?_⟩
  · rw [Full.make_ok h.rep (r := .obj k) e]
    have h2 : Rep (SL.setEmpty m (.obj k)) (upd (lists L) (.obj k) []) :=
      (h.rep.setEmpty (.obj k)).congr rfl (upd_self (lists L) (a := .obj k) (b := []) e).symm
    exact (h.full1 h2 (Tidy.setEmpty _ _) (Keep.setEmpty m _) (one k)).become (by rw [upd_same]; exact Tidy.setEmpty _ _)
  · obtain ⟨m', ns, a1, a2, a3, a4, a5, -⟩ := Full.ofRange_ok vs h.rep (r := .obj k) (t := .loc 0) (by simp) rfl e
    exact ⟨m', ns, a1, a2, (h.full1 a3 a4 a5 (one k)).become (by rw [upd_same]; exact a4)⟩
  · obtain ⟨m', ns, a1, a2, a3, a4, a5, -⟩ := Full.ofN_ok n x h.rep (r := .obj k) (t := .loc 0) (by simp) rfl e
    exact ⟨m', ns, a1, a2, (h.full1 a3 a4 a5 (one k)).become (by rw [upd_same]; exact a4)⟩
  · obtain ⟨m', ns, a1, a2, a3, a4, a5, -⟩ := Full.copy_ok h.rep (r := .obj k) (s := .obj l) (t := .loc 0) (by simp) rfl
      (obj_ne hl) e (h.tidy l hf)
    exact ⟨m', ns, a1, a2, (h.full1 a3 a4 a5 (one k)).become (by rw [upd_same]; exact a4)⟩
  · obtain ⟨m', a1, a2, a3, a4, a5, -⟩ := Full.moveCtor_ok h.rep (obj_ne hl.symm) e (h.tidy l hf)
    exact ⟨m', a1, (h.full2 hl.symm a2 a3 a4 a5 (both k l)).become (by rw [upd_ne _ _ hl.symm, upd_same]; exact a3)⟩
example := C57_construct (k := 1) (twoFull_state (fun _ => true) rfl) rfl

/-- conversion from and to `simple_list`, by move -/
theorem C57_dress (h : State m L F) (hkl : k ≠ l) :
    (L k = [] → F l = false → ∃ m', Full.dress m (.obj k) (.obj l) = .ok m' ∧
      State m' (upd (upd L k (L l)) l []) (upd F k true)) ∧
    (L l = [] → F l = false → F k = true → ∃ m', Full.undress m (.obj k) (.obj l) = .ok m' ∧
      State m' (upd (upd L l (L k)) k []) F) := by
  refine ⟨fun e hl => ?_, fun e hl hk => ?_⟩
  · obtain ⟨m', a1, a2, a3, a4, -⟩ := Full.dress_ok h.rep (obj_ne hkl) e
    refine ⟨m', a1, ?_, fun j hj => ?_⟩
    · rw [← lists_upd, ← lists_upd]; exact a2
    · by_cases hjk : j = k
      · subst hjk; rw [upd_ne _ _ hkl, upd_same]; exact a3
      · rw [upd_ne _ _ hjk] at hj
        have hjl : j ≠ l := by rintro rfl; rw [hl] at hj; cases hj
        rw [upd_ne _ _ hjl, upd_ne _ _ hjk]
        exact (h.tidy j hj).keep a4 (fun hm => hjk (one k j hm))
  · obtain ⟨m', a1, a2, a3, a4, -⟩ := Full.undress_ok h.rep (obj_ne hkl) e
    refine ⟨m', a1, ?_, fun j hj => ?_⟩
    · rw [← lists_upd, ← lists_upd]; exact a2
    · by_cases hjk : j = k
      · subst hjk; rw [upd_same]; exact a3
      · have hjl : j ≠ l := by rintro rfl; rw [hl] at hj; cases hj
        rw [upd_ne _ _ hjk, upd_ne _ _ hjl]
        exact (h.tidy j hj).keep a4 (fun hm => hjk (one k j hm))
example := C57_dress (k := 0) (l := 1) (twoFull_state (fun k => decide (k = 0)) rfl) (by decide)

/-- assignments: of a copy (also of the list itself), of a number of copies of a value and of a range -/
theorem C57_assign (h : State m L F) (hk : F k = true) :
    (∀ l, ∃ m' ns, Full.assignCopy m (.obj k) (.obj l) = .ok m' ∧ ns.map Prod.snd = (L l).map Prod.snd ∧
      State m' (upd L k ns) F) ∧
    (∀ n x, n < 2 ^ 64 → ∃ m' ns, Full.assignN m (.obj k) n x = .ok m' ∧ ns.map Prod.snd = List.replicate n x ∧
      State m' (upd L k ns) F) ∧
    (∀ vs, ∃ m' ns, Full.assignRange m (.obj k) vs = .ok m' ∧ ns.map Prod.snd = vs ∧ State m' (upd L k ns) F) := by
  refine ⟨fun l => ?_, fun n x hn => ?_, fun vs => ?_⟩
  · obtain ⟨m', ns, a1, a2, a3, a4, a5, -⟩ := Full.assignCopy_ok h.rep (r := .obj k) (s := .obj l) (t := .loc 0) (by simp) rfl
      (h.tidy k hk)
    exact ⟨m', ns, a1, a2, h.full1 a3 a4 a5 (one k)⟩
  · obtain ⟨m', ns, a1, a2, a3, a4, a5, -⟩ := Full.assignN_ok n x hn h.rep (r := .obj k) (t := .loc 0) (by simp) rfl
      (h.tidy k hk)
    exact ⟨m', ns, a1, a2, h.full1 a3 a4 a5 (one k)⟩
  · obtain ⟨m', ns, a1, a2, a3, a4, a5, -⟩ := Full.assignRange_ok vs h.rep (r := .obj k) (t := .loc 0) (by simp) rfl
      (h.tidy k hk)
    exact ⟨m', ns, a1, a2, h.full1 a3 a4 a5 (one k)⟩
example := C57_assign (k := 1) (twoFull_state (fun _ => true) rfl) rfl

/-- move assignment; partial: only for two different lists, see `C57_assignMove_false` -/
theorem C57_assignMove_partial (h : State m L F) (hl : F l = true) (hkl : k ≠ l) :
    ∃ m', Full.assignMove m (.obj k) (.obj l) = .ok m' ∧ State m' (upd (upd L k (L l)) l []) F := by
  obtain ⟨m', a1, a2, a3, a4, a5, -⟩ := Full.assignMove_ok h.rep (obj_ne hkl) (h.tidy l hl)
  exact ⟨m', a1, h.full2 hkl a2 a3 a4 a5 (both k l)⟩
example := C57_assignMove_partial (k := 1) (l := 0) (twoFull_state (fun _ => true) rfl) rfl (by decide)

/-- `swap`, also of a list with itself -/
theorem C57_swap (h : State m L F) (hk : F k = true) (hl : F l = true) :
    ∃ m', Full.swap m (.obj k) (.obj l) = .ok m' ∧ State m' (upd (upd L k (L l)) l (L k)) F := by
  by_cases hkl : k = l
  · subst hkl
    obtain ⟨m', a1, a2, a3, a4⟩ := Simple.swap_ok h.rep (.obj k) (.obj k)
    unfold Simple.swap at a1
    have hd := h.tidy k hk
    unfold Full.swap
    rw [a1, Res.ok_bind]
    refine ⟨_, rfl, ?_⟩
    have hlink := a2.link (r := .obj k) (xs := []) (ys := L k) (by rw [upd_same]; rfl)
    rw [← root_loc] at hlink
    have key : ∀ m2 : Mem T, m2.link = m'.link → m2.cont = m'.cont → m2.fresh = m'.fresh → m2.tail = m'.tail →
        m2.count = m'.count → State m2 (upd (upd L k (L k)) k (L k)) F := fun m2 e1 e2 e3 e4 e5 => by
      have : m2 = m' := by cases m2; cases m'; simp_all
      rw [this]
      have hr : Rep m' (upd (lists L) (.obj k) (L k)) := a2.congr rfl (upd_upd _ _ _ _)
      have := h.full1 hr ((h.tidy k hk).same a3) (a3.keep [.obj k]) (one k)
      rw [upd_upd]; exact this
    have htail : (m'.link (.root (.obj k))).isNone = true → m'.tail (.obj k) = .root (.obj k) := fun hn => by
      rw [hlink] at hn
      have : L k = [] := by
        rcases e : L k with _ | ⟨a, ys⟩
        · rfl
        · rw [e] at hn; simp at hn
      rw [a3.1, hd.1, this]; rfl
    refine key _ ?_ ?_ ?_ ?_ ?_
    · split_ifs <;> rfl
    · split_ifs <;> rfl
    · split_ifs <;> rfl
    · have hu : ∀ f : Root → Loc, ∀ v, v = f (.obj k) → upd f (.obj k) v = f := fun f v hv => upd_self f hv.symm
      by_cases hn : (m'.link (.root (.obj k))).isNone = true
      · simp only [SL.setTail, SL.setCount, hn, if_true, upd_upd]
        exact hu _ _ (htail hn).symm
      · have hn' := Bool.eq_false_iff.mpr hn
        simp only [SL.setTail, SL.setCount, hn', Bool.false_eq_true, if_false, upd_upd]
        exact hu _ _ rfl
    · have hu : ∀ f : Root → Nat, ∀ v, v = f (.obj k) → upd f (.obj k) v = f := fun f v hv => upd_self f hv.symm
      split_ifs <;> simp only [SL.setTail, SL.setCount, upd_upd] <;> exact hu _ _ rfl
  · obtain ⟨m', a1, a2, a3, a4, a5, -⟩ := Full.swap_ok h.rep (obj_ne hkl) (h.tidy k hk) (h.tidy l hl)
    exact ⟨m', a1, h.full2 hkl a2 a3 a4 a5 (both k l)⟩
example := C57_swap (k := 1) (l := 0) (twoFull_state (fun _ => true) rfl) rfl rfl

/-- `push_front`, `push_back`, `insert` of a value, or of a number of copies of it, at any position -/
theorem C57_insert (h : State m L F) (hk : F k = true) (x : T) :
    (∃ m' a, Full.pushFront m (.obj k) x = .ok m' ∧ State m' (upd L k ((a, x) :: L k)) F) ∧
    (∃ m' a, Full.pushBack m (.obj k) x = .ok (m', a) ∧ State m' (upd L k (L k ++ [(a, x)])) F) ∧
    (∀ xs ys, L k = xs ++ ys → ∃ m' a, Full.insert m (.obj k) (it k xs) x = .ok (m', it k (xs ++ [(a, x)])) ∧
      State m' (upd L k (xs ++ (a, x) :: ys)) F) ∧
    (∀ xs ys n, L k = xs ++ ys → ∃ m' ns, Full.insertN m (.obj k) (it k xs) n x = .ok (m', it k (xs ++ ns)) ∧
      ns.map Prod.snd = List.replicate n x ∧ State m' (upd L k (xs ++ (ns ++ ys))) F) := by
  refine ⟨?_, ?_, fun xs ys e => ?_, fun xs ys n e => ?_⟩
  · obtain ⟨m', a1, a2, a3, a4, -⟩ := Full.pushFront_ok x h.rep (r := .obj k) (t := .loc 0) (by simp) rfl (h.tidy k hk)
    exact ⟨m', _, a1, h.full1 a2 a3 a4 (one k)⟩
  · obtain ⟨m', a1, a2, a3, a4, -⟩ := Full.pushBack_ok x h.rep (r := .obj k) (t := .loc 0) (by simp) rfl (h.tidy k hk)
    exact ⟨m', _, a1, h.full1 a2 a3 a4 (one k)⟩
  · obtain ⟨m', a1, a2, a3, a4, -⟩ := Full.insert_ok x h.rep (r := .obj k) (t := .loc 0) (by simp) rfl e (h.tidy k hk)
    exact ⟨m', _, a1, h.full1 a2 a3 a4 (one k)⟩
  · obtain ⟨m', ns, a1, a2, a3, a4, a5, -⟩ := Full.insertN_ok n x h.rep (r := .obj k) (t := .loc 0) (by simp) rfl e
      (h.tidy k hk)
    exact ⟨m', ns, a1, a2, h.full1 a3 a4 a5 (one k)⟩
example := C57_insert (k := 0) (twoFull_state (fun _ => true) rfl) rfl 5

/-- `append` of a range, and of another list -/
theorem C57_append (h : State m L F) (hk : F k = true) :
    (∀ vs, ∃ m' ns, Full.appendRange m (.obj k) vs = .ok (m', it k (L k ++ ns)) ∧ ns.map Prod.snd = vs ∧
      State m' (upd L k (L k ++ ns)) F) ∧
    (∀ l, k ≠ l → F l = true → ∃ m', Full.append m (.obj k) (.obj l) = .ok (m', it k (L k)) ∧
      State m' (upd (upd L k (L k ++ L l)) l []) F) := by
  refine ⟨fun vs => ?_, fun l hkl hl => ?_⟩
  · obtain ⟨m', ns, a1, a2, a3, a4, a5, -⟩ := Full.appendRange_ok vs h.rep (r := .obj k) (t := .loc 0) (by simp) rfl
      (h.tidy k hk)
    exact ⟨m', ns, a1, a2, h.full1 a3 a4 a5 (one k)⟩
  · obtain ⟨m', a1, a2, a3, a4, a5, -⟩ := Full.append_ok h.rep (obj_ne hkl) (h.tidy k hk) (h.tidy l hl)
    exact ⟨m', a1, h.full2 hkl a2 a3 a4 a5 (both k l)⟩
example := C57_append (k := 0) (twoFull_state (fun _ => true) rfl) rfl

/-- `insert` of a range at any position; partial: the iterator returned is as specified only if the range is not
empty or the position is `end()` -/
theorem C57_insertRange_partial (h : State m L F) (hk : F k = true) {xs ys : List (Nat × T)} (e : L k = xs ++ ys)
    (vs : List T) :
    ∃ m' ns p, Full.insertRange m (.obj k) (it k xs) vs = .ok (m', p) ∧ ns.map Prod.snd = vs ∧
      State m' (upd L k (xs ++ (ns ++ ys))) F ∧ (vs ≠ [] ∨ ys = [] → p = it k (xs ++ ns)) := by
  obtain ⟨m', ns, a1, a2, a3, a4, a5, -⟩ := Full.insertRange_ok vs h.rep (r := .obj k) (t := .loc 1) rfl (by simp) (by simp)
    (by simp) rfl e (h.tidy k hk)
  refine ⟨m', ns, _, a1, a2, h.full1 a3 a4 a5 (by intro j hj; simpa using hj), fun hc => if_neg ?_⟩
  rintro ⟨h1, h2⟩
  exact hc.elim (fun hc => hc h2) h1
example := C57_insertRange_partial (k := 0) (twoFull_state (fun _ => true) rfl) rfl (xs := [(0, 7)]) (ys := [(1, 7)]) rfl [5, 6]

/-- `pop_front`, `erase` and `clear` -/
theorem C57_erase (h : State m L F) (hk : F k = true) :
    (∀ a ys, L k = a :: ys → ∃ m', Full.popFront m (.obj k) = .ok m' ∧ State m' (upd L k ys) F) ∧
    (∀ xs a ys, L k = xs ++ a :: ys → ∃ m', Full.erase m (.obj k) (it k xs) = .ok (m', it k xs) ∧
      State m' (upd L k (xs ++ ys)) F) ∧
    (∀ xs ys zs, L k = xs ++ (ys ++ zs) →
      ∃ m', Full.eraseRange m (.obj k) (it k xs) (it k (xs ++ ys)) = .ok (m', it k xs) ∧ State m' (upd L k (xs ++ zs)) F) ∧
    (∃ m', Full.clear m (.obj k) = .ok m' ∧ State m' (upd L k []) F) := by
  refine ⟨fun a ys e => ?_, fun xs a ys e => ?_, fun xs ys zs e => ?_, ?_⟩
  · obtain ⟨m', a1, a2, a3, a4, -⟩ := Full.popFront_ok h.rep (r := .obj k) (t := .loc 0) (by simp) rfl (h.tidy k hk) e
    exact ⟨m', a1, h.full1 a2 a3 a4 (one k)⟩
  · obtain ⟨m', a1, a2, a3, a4, -⟩ := Full.erase_ok h.rep (r := .obj k) (t := .loc 0) (by simp) rfl (h.tidy k hk) e
    exact ⟨m', a1, h.full1 a2 a3 a4 (one k)⟩
  · obtain ⟨m', a1, a2, a3, a4, -⟩ := Full.eraseRange_ok h.rep (r := .obj k) (t := .loc 0) (by simp) rfl (h.tidy k hk) e
    exact ⟨m', a1, h.full1 a2 a3 a4 (one k)⟩
  · obtain ⟨m', a1, a2, a3, a4, -⟩ := Full.clear_ok h.rep (.obj k)
    exact ⟨m', a1, h.full1 a2 a3 a4 (one k)⟩
example := C57_erase (k := 0) (twoFull_state (fun _ => true) rfl) rfl

/-- `resize`: the first elements remain, and copies of a value are added -/
theorem C57_resize (h : State m L F) (hk : F k = true) (hn : (L k).length < 2 ^ 64) (n : Nat) (x : T) :
    ∃ m' ns, Full.resize m (.obj k) n x = .ok m' ∧ ns.map Prod.snd = List.replicate (n - (L k).length) x ∧
      State m' (upd L k ((L k).take n ++ ns)) F := by
  obtain ⟨m', ns, a1, a2, a3, a4, a5, -⟩ := Full.resize_ok n x h.rep (r := .obj k) (t := .loc 0) (by simp) rfl (h.tidy k hk) hn
  exact ⟨m', ns, a1, a2, h.full1 a3 a4 a5 (one k)⟩
example := C57_resize (k := 0) (twoFull_state (fun _ => true) rfl) rfl (by decide) 4 5

/-- `splice` of a whole list, of a range or of a node, before any position of another list -/
theorem C57_splice (h : State m L F) (hk : F k = true) (hl : F l = true) (hkl : k ≠ l)
    {xs ys : List (Nat × T)} (e : L k = xs ++ ys) :
    (∃ m', Full.splice m (.obj k) (it k xs) (.obj l) = .ok (m', it k (xs ++ L l)) ∧
      State m' (upd (upd L k (xs ++ (L l ++ ys))) l []) F) ∧
    (∀ us ms ws, L l = us ++ (ms ++ ws) →
      ∃ m', Full.spliceRange m (.obj k) (it k xs) (.obj l) (it l us) (it l (us ++ ms)) = .ok (m', it k (xs ++ ms)) ∧
        State m' (upd (upd L k (xs ++ (ms ++ ys))) l (us ++ ws)) F) ∧
    (∀ us a ws, L l = us ++ a :: ws →
      ∃ m', Full.spliceNode m (.obj k) (it k xs) (.obj l) (it l us) = .ok (m', it k (xs ++ [a])) ∧
        State m' (upd (upd L k (xs ++ a :: ys)) l (us ++ ws)) F) := by
  have hr : ∀ us ms ws, L l = us ++ (ms ++ ws) →
      ∃ m', Full.spliceRange m (.obj k) (it k xs) (.obj l) (it l us) (it l (us ++ ms)) = .ok (m', it k (xs ++ ms)) ∧
        State m' (upd (upd L k (xs ++ (ms ++ ys))) l (us ++ ws)) F := fun us ms ws es => by
    obtain ⟨m', a1, a2, a3, a4, a5, -⟩ := Full.spliceRange_ok h.rep (obj_ne hkl) (h.tidy k hk) (h.tidy l hl) e es
    exact ⟨m', a1, h.full2 hkl a2 a3 a4 a5 (both k l)⟩
  refine ⟨?_, hr, fun us a ws es => ?_⟩
  · obtain ⟨m', a1, a2, a3, a4, a5, -⟩ := Full.splice_ok h.rep (obj_ne hkl) (h.tidy k hk) (h.tidy l hl) e
    exact ⟨m', a1, h.full2 hkl a2 a3 a4 a5 (both k l)⟩
  · obtain ⟨m', a1, a2⟩ := hr us [a] ws es
    unfold Full.spliceNode
    rw [h.rep.advance (r := .obj l) es, Res.ok_bind]
    exact ⟨m', a1, a2⟩
example := C57_splice (k := 1) (l := 0) (twoFull_state (fun _ => true) rfl) rfl rfl (by decide) (xs := []) (ys := []) rfl

/-- `splice` of a range within a list, to a position before or after it, or at one of its ends; partial: except when
the range is at the end of the list and the position is `end()`, see `C57_spliceSame_false` -/
theorem C57_spliceSame_partial (h : State m L F) (hk : F k = true) {xs ys zs ws : List (Nat × T)}
    (e : L k = xs ++ (ys ++ (zs ++ ws))) :
    (∃ m', Full.spliceRange m (.obj k) (it k xs) (.obj k) (it k (xs ++ ys)) (it k (xs ++ ys ++ zs)) =
        .ok (m', it k (xs ++ zs)) ∧
      State m' (upd L k (xs ++ (zs ++ (ys ++ ws)))) F) ∧
    (ys ≠ [] → zs ++ ws ≠ [] →
      ∃ m', Full.spliceRange m (.obj k) (it k (xs ++ ys ++ zs)) (.obj k) (it k xs) (it k (xs ++ ys)) =
        .ok (m', it k (xs ++ (zs ++ ys))) ∧
      State m' (upd L k (xs ++ (zs ++ (ys ++ ws)))) F) := by
  refine ⟨?_, fun hy hzw => ?_⟩
  · obtain ⟨m', a1, a2, a3, a4, -⟩ := Full.spliceBefore_ok h.rep (r := .obj k) (t := .loc 0) (by simp) rfl (h.tidy k hk) e
    exact ⟨m', a1, h.full1 a2 a3 a4 (one k)⟩
  · obtain ⟨m', a1, a2, a3, a4, -⟩ := Full.spliceAfter_ok h.rep (r := .obj k) (t := .loc 0) (by simp) rfl (h.tidy k hk) e hy hzw
    exact ⟨m', a1, h.full1 a2 a3 a4 (one k)⟩
example := C57_spliceSame_partial (k := 0) (twoFull_state (fun _ => true) rfl) rfl (xs := []) (ys := [(0, 7)]) (zs := [(1, 7)]) (ws := []) rfl

/-- `reverse` of the list or of a range of it -/
theorem C57_reverse (h : State m L F) (hk : F k = true) :
    (∃ m', Full.reverse m (.obj k) = .ok m' ∧ State m' (upd L k (L k).reverse) F) ∧
    (∀ xs ys zs, L k = xs ++ (ys ++ zs) →
      ∃ m', Full.reverseRange m (.obj k) (it k xs) (it k (xs ++ ys)) = .ok (m', it k (xs ++ ys.reverse)) ∧
        State m' (upd L k (xs ++ (ys.reverse ++ zs))) F) := by
  refine ⟨?_, fun xs ys zs e => ?_⟩
  · obtain ⟨m', a1, a2, a3, a4, -⟩ := Full.reverse_ok h.rep (r := .obj k) rfl (by simp) rfl (by simp) (h.tidy k hk)
    exact ⟨m', a1, h.full1 a2 a3 a4 (one k)⟩
  · obtain ⟨m', a1, a2, a3, a4, -⟩ := Full.reverseRange_ok h.rep (r := .obj k) rfl (by simp) rfl (by simp) (h.tidy k hk) e
    exact ⟨m', a1, h.full1 a2 a3 a4 (one k)⟩
example := C57_reverse (k := 0) (twoFull_state (fun _ => true) rfl) rfl

/-- `remove_if` keeps exactly the elements that do not satisfy the predicate; `unique` removes each element that is
related to the last one kept -/
theorem C57_remove (h : State m L F) (hk : F k = true) :
    (∀ pred : T → Bool, ∃ m', Full.removeIf m (.obj k) pred = .ok m' ∧
      State m' (upd L k ((L k).filter (fun a => !pred a.2))) F) ∧
    (∀ rel : T → T → Bool, ∃ m', Full.unique m (.obj k) rel = .ok m' ∧
      State m' (upd L k ((L k).destutter (fun b c => ¬ rel b.2 c.2 = true))) F) := by
  refine ⟨fun pred => ?_, fun rel => ?_⟩
  · obtain ⟨m', a1, a2, a3, a4, -⟩ := Full.removeIf_ok pred h.rep (r := .obj k) (t := .loc 0) (by simp) rfl (h.tidy k hk)
    exact ⟨m', a1, h.full1 a2 a3 a4 (one k)⟩
  · obtain ⟨m', a1, a2, a3, a4, -⟩ := Full.unique_ok rel h.rep (r := .obj k) (t := .loc 0) (by simp) rfl (h.tidy k hk)
    exact ⟨m', a1, h.full1 a2 a3 a4 (one k)⟩
example := C57_remove (k := 0) (twoFull_state (fun _ => true) rfl) rfl

/-- `remove` of a value; partial: the value must not be an element of the list -/
theorem C57_removeValue_partial [DecidableEq T] (h : State m L F) (hk : F k = true) (v : Simple.Arg T) (x : T)
    (hv : v.read m = .ok x) (ho : Outside (L k) v) :
    ∃ m', Full.remove m (.obj k) v = .ok m' ∧ State m' (upd L k ((L k).filter (fun a => !decide (a.2 = x)))) F := by
  obtain ⟨m', a1, a2, a3, a4, -⟩ := Full.remove_ok v x h.rep (r := .obj k) (t := .loc 0) (by simp) rfl (h.tidy k hk) hv ho
  exact ⟨m', a1, h.full1 a2 a3 a4 (one k)⟩
example := C57_removeValue_partial (k := 0) (twoFull_state (fun _ => true) rfl) rfl (.val 7) 7 rfl trivial

end Verif.SL
