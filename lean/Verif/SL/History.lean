import Verif.SL.Props3
/-
Any sequence of calls of functions of `simple_list` and `sl_list` objects, seen from outside: what the functions do
to the sequences of values in the lists.
-/
namespace Verif.SL
variable {T : Type}

/-- A call of a function of list objects.  Positions are given by the number of elements before them. -/
inductive Call (T : Type) where
  | pushFront (k : Nat) (x : T)
  | pushBack (k : Nat) (x : T)
  | popFront (k : Nat)
  | clear (k : Nat)
  | insert (k i : Nat) (x : T)
  | insertN (k i n : Nat) (x : T)
  | insertRange (k i : Nat) (vs : List T)
  | appendRange (k : Nat) (vs : List T)
  | append (k l : Nat)
  | erase (k i : Nat)
  | eraseRange (k i n : Nat)
  | resize (k n : Nat) (x : T)
  | assignN (k n : Nat) (x : T)
  | assignRange (k : Nat) (vs : List T)
  | assignCopy (k l : Nat)
  | assignMove (k l : Nat)
  | swap (k l : Nat)
  | splice (k i l : Nat)
  | spliceRange (k i l j n : Nat)
  | reverse (k : Nat)
  | reverseRange (k i n : Nat)
  | removeIf (k : Nat) (pred : T → Bool)
  | remove (k : Nat) (x : T)
  | unique (k : Nat) (rel : T → T → Bool)
  | merge (k l : Nat) (less : T → T → Bool)
  | sort (k : Nat) (less : T → T → Bool)

/-- `std::next(l.begin(),i)` for the list object `k` -/
def posAt (m : Mem T) (k i : Nat) : Res Loc := Full.nextN m i (.root (.obj k))

/-- the call, for the functions of the class of the object: `sl_list` if `F k`, and otherwise `simple_list` -/
def Call.run [DecidableEq T] (F : Nat → Bool) (m : Mem T) : Call T → Res (Mem T)
  | .pushFront k x => if F k then Full.pushFront m (.obj k) x else Simple.pushFront m (.obj k) x
  | .pushBack k x => if F k then do let (m, _) ← Full.pushBack m (.obj k) x; .ok m else .undefined
  | .popFront k => if F k then Full.popFront m (.obj k) else Simple.popFront m (.obj k)
  | .clear k => if F k then Full.clear m (.obj k) else Simple.clear m (.obj k)
  | .insert k i x => do
    let p ← posAt m k i
    let (m, _) ← if F k then Full.insert m (.obj k) p x else Simple.insert m p x
    .ok m
  | .insertN k i n x => do
    let p ← posAt m k i
    let (m, _) ← if F k then Full.insertN m (.obj k) p n x else Simple.insertN m p n x
    .ok m
  | .insertRange k i vs => do
    let p ← posAt m k i
    let (m, _) ← if F k then Full.insertRange m (.obj k) p vs else Simple.insertRange m p vs
    .ok m
  | .appendRange k vs => if F k then do let (m, _) ← Full.appendRange m (.obj k) vs; .ok m else .undefined
  | .append k l => if F k && F l then do let (m, _) ← Full.append m (.obj k) (.obj l); .ok m else .undefined
  | .erase k i => do
    let p ← posAt m k i
    let (m, _) ← if F k then Full.erase m (.obj k) p else Simple.erase m p
    .ok m
  | .eraseRange k i n => do
    let p ← posAt m k i
    let q ← posAt m k (i + n)
    let (m, _) ← if F k then Full.eraseRange m (.obj k) p q else Simple.eraseRange m p q
    .ok m
  | .resize k n x => if F k then Full.resize m (.obj k) n x else Simple.resize m (.obj k) n x
  | .assignN k n x => if F k then Full.assignN m (.obj k) n x else Simple.assignN m (.obj k) n x
  | .assignRange k vs => if F k then Full.assignRange m (.obj k) vs else Simple.assignRange m (.obj k) vs
  | .assignCopy k l => if F k then Full.assignCopy m (.obj k) (.obj l) else Simple.assignCopy m (.obj k) (.obj l)
  | .assignMove k l => if F k then Full.assignMove m (.obj k) (.obj l) else Simple.assignMove m (.obj k) (.obj l)
  | .swap k l => if F k then Full.swap m (.obj k) (.obj l) else Simple.swap m (.obj k) (.obj l)
  | .splice k i l => do
    let p ← posAt m k i
    let (m, _) ← if F k then Full.splice m (.obj k) p (.obj l) else Simple.splice m p (.obj l)
    .ok m
  | .spliceRange k i l j n => do
    let p ← posAt m k i
    let b ← posAt m l j
    let e ← posAt m l (j + n)
    let (m, _) ← if F k then Full.spliceRange m (.obj k) p (.obj l) b e else Simple.spliceRange m p b e
    .ok m
  | .reverse k => if F k then Full.reverse m (.obj k) else Simple.reverse m (.obj k)
  | .reverseRange k i n => do
    let p ← posAt m k i
    let q ← posAt m k (i + n)
    let (m, _) ← if F k then Full.reverseRange m (.obj k) p q else Simple.reverseRange m p q
    .ok m
  | .removeIf k pred => if F k then Full.removeIf m (.obj k) pred else Simple.removeIf m (.obj k) pred
  | .remove k x => if F k then Full.remove m (.obj k) (.val x) else Simple.remove m (.obj k) (.val x)
  | .unique k rel => if F k then Full.unique m (.obj k) rel else Simple.unique m (.obj k) rel
  | .merge k l less => if F k then Full.merge m (.obj k) (.obj l) less else Simple.merge m (.obj k) (.obj l) less
  | .sort k less => if F k then Full.sort m (.obj k) less else Simple.sort m (.obj k) less

/-- the calls, one after the other -/
def runAll [DecidableEq T] (F : Nat → Bool) : List (Call T) → Mem T → Res (Mem T)
  | [], m => .ok m
  | c :: cs, m => do runAll F cs (← c.run F m)

/-! ### Specification: the sequences of values -/

/-- the conditions under which a call is allowed: positions and ranges are within the lists, functions with two list
arguments are called for two different lists of one class, `push_back` and `append` are called for an `sl_list`, and
lists have less than `2^64` elements -/
def Call.Pre (F : Nat → Bool) (V : Nat → List T) : Call T → Prop
  | .pushFront _ _ => True
  | .pushBack k _ => F k = true
  | .popFront k => V k ≠ []
  | .clear _ => True
  | .insert k i _ => i ≤ (V k).length
  | .insertN k i _ _ => i ≤ (V k).length
  | .insertRange k i _ => i ≤ (V k).length
  | .appendRange k _ => F k = true
  | .append k l => F k = true ∧ F l = true ∧ k ≠ l
  | .erase k i => i < (V k).length
  | .eraseRange k i n => i + n ≤ (V k).length
  | .resize k _ _ => (V k).length < 2 ^ 64
  | .assignN _ n _ => n < 2 ^ 64
  | .assignRange _ _ => True
  | .assignCopy _ _ => True
  | .assignMove k l => F k = F l ∧ k ≠ l
  | .swap k l => F k = F l
  | .splice k i l => F k = F l ∧ k ≠ l ∧ i ≤ (V k).length
  | .spliceRange k i l j n => F k = F l ∧ k ≠ l ∧ i ≤ (V k).length ∧ j + n ≤ (V l).length
  | .reverse _ => True
  | .reverseRange k i n => i + n ≤ (V k).length
  | .removeIf _ _ => True
  | .remove _ _ => True
  | .unique _ _ => True
  | .merge k l _ => F k = F l ∧ k ≠ l
  | .sort k _ => (V k).length < 2 ^ 64

/-- no element comes after one that is greater -/
def SortedV (less : T → T → Bool) (l : List T) : Prop := l.Pairwise (fun a b => less b a = false)

/-- the elements equivalent to a value -/
def equivs (less : T → T → Bool) (c : T) (l : List T) : List T := l.filter (fun a => !less a c && !less c a)

/-- what a call does to the sequences of values in the lists -/
def Call.Post [DecidableEq T] (V V' : Nat → List T) : Call T → Prop
  | .pushFront k x => V' = upd V k (x :: V k)
  | .pushBack k x => V' = upd V k (V k ++ [x])
  | .popFront k => V' = upd V k (V k).tail
  | .clear k => V' = upd V k []
  | .insert k i x => V' = upd V k ((V k).take i ++ x :: (V k).drop i)
  | .insertN k i n x => V' = upd V k ((V k).take i ++ (List.replicate n x ++ (V k).drop i))
  | .insertRange k i vs => V' = upd V k ((V k).take i ++ (vs ++ (V k).drop i))
  | .appendRange k vs => V' = upd V k (V k ++ vs)
  | .append k l => V' = upd (upd V k (V k ++ V l)) l []
  | .erase k i => V' = upd V k ((V k).take i ++ (V k).drop (i + 1))
  | .eraseRange k i n => V' = upd V k ((V k).take i ++ (V k).drop (i + n))
  | .resize k n x => V' = upd V k ((V k).take n ++ List.replicate (n - (V k).length) x)
  | .assignN k n x => V' = upd V k (List.replicate n x)
  | .assignRange k vs => V' = upd V k vs
  | .assignCopy k l => V' = upd V k (V l)
  | .assignMove k l => V' = upd (upd V k (V l)) l []
  | .swap k l => V' = upd (upd V k (V l)) l (V k)
  | .splice k i l => V' = upd (upd V k ((V k).take i ++ (V l ++ (V k).drop i))) l []
  | .spliceRange k i l j n =>
    V' = upd (upd V k ((V k).take i ++ (((V l).drop j).take n ++ (V k).drop i))) l ((V l).take j ++ (V l).drop (j + n))
  | .reverse k => V' = upd V k (V k).reverse
  | .reverseRange k i n => V' = upd V k ((V k).take i ++ ((((V k).drop i).take n).reverse ++ (V k).drop (i + n)))
  | .removeIf k pred => V' = upd V k ((V k).filter (fun a => !pred a))
  | .remove k x => V' = upd V k ((V k).filter (fun a => !decide (a = x)))
  | .unique k rel => V' = upd V k ((V k).destutter (fun a b => ¬ rel a b = true))
  | .merge k l less =>
    ∃ ws, V' = upd (upd V k ws) l [] ∧ ws.Perm (V k ++ V l) ∧
      (StrictWeak less → SortedV less (V k) → SortedV less (V l) →
        SortedV less ws ∧ ∀ c, equivs less c ws = equivs less c (V k) ++ equivs less c (V l))
  | .sort k less =>
    ∃ ws, V' = upd V k ws ∧ ws.Perm (V k) ∧
      (StrictWeak less → SortedV less ws ∧ ∀ c, equivs less c ws = equivs less c (V k))

/-- the sequence of calls is allowed -/
def Allowed [DecidableEq T] (F : Nat → Bool) : List (Call T) → (Nat → List T) → Prop
  | [], _ => True
  | c :: cs, V => c.Pre F V ∧ ∀ V', c.Post V V' → Allowed F cs V'

/-- what a sequence of calls does to the sequences of values in the lists -/
def Posts [DecidableEq T] : List (Call T) → (Nat → List T) → (Nat → List T) → Prop
  | [], V, V' => V' = V
  | c :: cs, V, V' => ∃ W, c.Post V W ∧ Posts cs W V'

/-! ### Proof -/

/-- the sequences of values of lists of nodes -/
def vals (L : Nat → List (Nat × T)) : Nat → List T := fun k => (L k).map Prod.snd

theorem vals_upd (L : Nat → List (Nat × T)) (k : Nat) (zs : List (Nat × T)) :
    vals (upd L k zs) = upd (vals L) k (zs.map Prod.snd) := by
  funext j
  unfold vals
  by_cases hj : j = k
  · subst hj; rw [upd_same, upd_same]
  · rw [upd_ne _ _ hj, upd_ne _ _ hj]

theorem posAt_ok {m : Mem T} {L : Nat → List (Nat × T)} {F : Nat → Bool} (h : State m L F) (k : Nat)
    {xs ys : List (Nat × T)} (e : L k = xs ++ ys) : posAt m k xs.length = .ok (it k xs) := by
  unfold posAt
  have := Full.nextN_ok xs.length h.rep (r := .obj k) (xs := []) (ys := xs) (zs := ys) e rfl
  rw [← root_loc] at this
  exact this

/-- a list is split at a position -/
theorem split_at (l : List (Nat × T)) {i : Nat} (h : i ≤ (l.map Prod.snd).length) :
    ∃ xs ys, l = xs ++ ys ∧ xs.length = i ∧ (l.map Prod.snd).take i = xs.map Prod.snd ∧
      (l.map Prod.snd).drop i = ys.map Prod.snd := by
  refine ⟨l.take i, l.drop i, (List.take_append_drop i l).symm, ?_, by rw [List.map_take], by rw [List.map_drop]⟩
  rw [List.length_take]; simp at h; omega

theorem split_range (l : List (Nat × T)) {i n : Nat} (h : i + n ≤ (l.map Prod.snd).length) :
    ∃ xs ys zs, l = xs ++ (ys ++ zs) ∧ xs.length = i ∧ (xs ++ ys).length = i + n ∧
      (l.map Prod.snd).take i = xs.map Prod.snd ∧ ((l.map Prod.snd).drop i).take n = ys.map Prod.snd ∧
      (l.map Prod.snd).drop (i + n) = zs.map Prod.snd := by
  simp at h
  refine ⟨l.take i, (l.drop i).take n, l.drop (i + n), ?_, ?_, ?_, by rw [List.map_take],
    by rw [List.map_take, List.map_drop], by rw [List.map_drop]⟩
  · rw [← List.drop_drop, List.take_append_drop, List.take_append_drop]
  · rw [List.length_take]; omega
  · rw [List.length_append, List.length_take, List.length_take, List.length_drop]; omega

theorem destutter'_vals (rel : T → T → Bool) (l : List (Nat × T)) (a : Nat × T) :
    (l.destutter' (fun b c => ¬ rel b.2 c.2 = true) a).map Prod.snd =
      (l.map Prod.snd).destutter' (fun b c => ¬ rel b c = true) a.2 := by
  induction l generalizing a with
  | nil => rfl
  | cons b l ih =>
    rw [List.map_cons]
    by_cases hr : rel a.2 b.2 = true
    · rw [List.destutter'_cons_neg _ (by simpa using hr), List.destutter'_cons_neg _ (by simpa using hr), ih]
    · rw [List.destutter'_cons_pos _ (by simpa using hr), List.destutter'_cons_pos _ (by simpa using hr), List.map_cons, ih]

theorem destutter_vals (rel : T → T → Bool) (l : List (Nat × T)) :
    (l.destutter (fun b c => ¬ rel b.2 c.2 = true)).map Prod.snd =
      (l.map Prod.snd).destutter (fun b c => ¬ rel b c = true) := by
  cases l with
  | nil => rfl
  | cons a l => exact destutter'_vals rel l a

theorem equivs_vals (less : T → T → Bool) (c : T) (l : List (Nat × T)) :
    equivs less c (l.map Prod.snd) = (class' less c l).map Prod.snd := by
  unfold equivs class'
  rw [List.filter_map]
  rfl

theorem sorted_vals (less : T → T → Bool) (l : List (Nat × T)) : SortedV less (l.map Prod.snd) ↔ Sorted less l := by
  unfold SortedV Sorted
  rw [List.pairwise_map]

theorem filter_vals (p : T → Bool) (l : List (Nat × T)) :
    (l.filter (fun a => p a.2)).map Prod.snd = (l.map Prod.snd).filter p := by
  rw [List.filter_map]
  rfl

/-- one call -/
theorem Call.run_ok [DecidableEq T] {m : Mem T} {L : Nat → List (Nat × T)} {F : Nat → Bool} (h : State m L F)
    (c : Call T) (hp : c.Pre F (vals L)) :
    ∃ m' L', c.run F m = .ok m' ∧ State m' L' F ∧ c.Post (vals L) (vals L') := by
  cases c with
  | pushFront k x =>
    dsimp only [Call.run]
    by_cases hk : F k = true
    · rw [if_pos hk]
      obtain ⟨m', a, a1, a2⟩ := (C57_insert h hk x).1
      exact ⟨m', _, a1, a2, vals_upd _ _ _⟩
    · rw [if_neg hk]
      obtain ⟨m', a, a1, a2⟩ := (C56_erase h (Bool.eq_false_iff.mpr hk)).1 x
      exact ⟨m', _, a1, a2, vals_upd _ _ _⟩
  | pushBack k x =>
    dsimp only [Call.run]
    rw [if_pos (show F k = true from hp)]
    obtain ⟨m', a, a1, a2⟩ := (C57_insert h hp x).2.1
    rw [a1]
    refine ⟨m', _, rfl, a2, ?_⟩
    rw [Call.Post, vals_upd, List.map_append]; rfl
  | popFront k =>
    dsimp only [Call.run]
    obtain ⟨a, ys, e⟩ : ∃ a ys, L k = a :: ys := by
      rcases e : L k with _ | ⟨a, ys⟩
      · exact absurd (show vals L k = [] by unfold vals; rw [e]; rfl) hp
      · exact ⟨a, ys, rfl⟩
    have ht : (vals L k).tail = ys.map Prod.snd := by unfold vals; rw [e]; rfl
    by_cases hk : F k = true
    · rw [if_pos hk]
      obtain ⟨m', a1, a2⟩ := (C57_erase h hk).1 a ys e
      exact ⟨m', _, a1, a2, by rw [Call.Post, vals_upd, ht]⟩
    · rw [if_neg hk]
      obtain ⟨m', a1, a2⟩ := (C56_erase h (Bool.eq_false_iff.mpr hk)).2.1 a ys e
      exact ⟨m', _, a1, a2, by rw [Call.Post, vals_upd, ht]⟩
  | clear k =>
    dsimp only [Call.run]
    by_cases hk : F k = true
    · rw [if_pos hk]
      obtain ⟨m', a1, a2⟩ := (C57_erase h hk).2.2.2
      exact ⟨m', _, a1, a2, vals_upd _ _ _⟩
    · rw [if_neg hk]
      obtain ⟨m', a1, a2⟩ := (C56_erase h (Bool.eq_false_iff.mpr hk)).2.2.2.2
      exact ⟨m', _, a1, a2, vals_upd _ _ _⟩
  | insert k i x =>
    obtain ⟨xs, ys, e, hl, ht, hd⟩ := split_at (L k) hp
    dsimp only [Call.run]
    rw [← hl, posAt_ok h k e, Res.ok_bind]
    by_cases hk : F k = true
    · rw [if_pos hk]
      obtain ⟨m', a, a1, a2⟩ := (C57_insert h hk x).2.2.1 xs ys e
      rw [a1]
      exact ⟨m', _, rfl, a2, by rw [Call.Post, vals_upd, hl]; unfold vals; rw [ht, hd]; simp⟩
    · rw [if_neg hk]
      obtain ⟨m', a, a1, a2⟩ := (C56_insert h (Bool.eq_false_iff.mpr hk) e x).1
      rw [a1]
      exact ⟨m', _, rfl, a2, by rw [Call.Post, vals_upd, hl]; unfold vals; rw [ht, hd]; simp⟩
  | insertN k i n x =>
    obtain ⟨xs, ys, e, hl, ht, hd⟩ := split_at (L k) hp
    dsimp only [Call.run]
    rw [← hl, posAt_ok h k e, Res.ok_bind]
    by_cases hk : F k = true
    · rw [if_pos hk]
      obtain ⟨m', ns, a1, a2, a3⟩ := (C57_insert h hk x).2.2.2 xs ys n e
      rw [a1]
      exact ⟨m', _, rfl, a3, by rw [Call.Post, vals_upd, hl]; unfold vals; rw [ht, hd]; simp [a2]⟩
    · rw [if_neg hk]
      obtain ⟨m', ns, a1, a2, a3⟩ := (C56_insert h (Bool.eq_false_iff.mpr hk) e x).2 n
      rw [a1]
      exact ⟨m', _, rfl, a3, by rw [Call.Post, vals_upd, hl]; unfold vals; rw [ht, hd]; simp [a2]⟩
  | insertRange k i vs =>
    obtain ⟨xs, ys, e, hl, ht, hd⟩ := split_at (L k) hp
    dsimp only [Call.run]
    rw [← hl, posAt_ok h k e, Res.ok_bind]
    by_cases hk : F k = true
    · rw [if_pos hk]
      obtain ⟨m', ns, p, a1, a2, a3, -⟩ := C57_insertRange_partial h hk e vs
      rw [a1]
      exact ⟨m', _, rfl, a3, by rw [Call.Post, vals_upd, hl]; unfold vals; rw [ht, hd]; simp [a2]⟩
    · rw [if_neg hk]
      obtain ⟨m', ns, p, a1, a2, a3, -⟩ := C56_insertRange_partial h (Bool.eq_false_iff.mpr hk) e vs
      rw [a1]
      exact ⟨m', _, rfl, a3, by rw [Call.Post, vals_upd, hl]; unfold vals; rw [ht, hd]; simp [a2]⟩
  | appendRange k vs =>
    dsimp only [Call.run]
    rw [if_pos (show F k = true from hp)]
    obtain ⟨m', ns, a1, a2, a3⟩ := (C57_append h hp).1 vs
    rw [a1]
    exact ⟨m', _, rfl, a3, by rw [Call.Post, vals_upd]; unfold vals; simp [a2]⟩
  | append k l =>
    obtain ⟨hk, hl, hkl⟩ := hp
    dsimp only [Call.run]
    rw [if_pos (by rw [hk, hl]; rfl)]
    obtain ⟨m', a1, a2⟩ := (C57_append h hk).2 l hkl hl
    rw [a1]
    exact ⟨m', _, rfl, a2, by rw [Call.Post, vals_upd, vals_upd]; unfold vals; simp⟩
  | erase k i =>
    obtain ⟨xs, ys, zs, e, hl, hl2, ht, hm, hd⟩ := split_range (L k) (i := i) (n := 1) hp
    obtain ⟨a, rfl⟩ : ∃ a, ys = [a] := by
      rw [List.length_append, hl] at hl2
      exact List.length_eq_one_iff.mp (by omega)
    dsimp only [Call.run]
    rw [← hl, posAt_ok h k e, Res.ok_bind]
    by_cases hk : F k = true
    · rw [if_pos hk]
      obtain ⟨m', a1, a2⟩ := (C57_erase h hk).2.1 xs a zs e
      rw [a1]
      exact ⟨m', _, rfl, a2, by rw [Call.Post, vals_upd, hl]; unfold vals; rw [ht, hd]; simp⟩
    · rw [if_neg hk]
      obtain ⟨m', a1, a2⟩ := (C56_erase h (Bool.eq_false_iff.mpr hk)).2.2.1 xs a zs e
      rw [a1]
      exact ⟨m', _, rfl, a2, by rw [Call.Post, vals_upd, hl]; unfold vals; rw [ht, hd]; simp⟩
  | eraseRange k i n =>
    obtain ⟨xs, ys, zs, e, hl, hl2, ht, hm, hd⟩ := split_range (L k) (i := i) (n := n) hp
    have e2 : L k = (xs ++ ys) ++ zs := by rw [e]; simp
    dsimp only [Call.run]
    rw [← hl2]
    conv in posAt m k i => rw [← hl]
    rw [posAt_ok h k e, Res.ok_bind, posAt_ok h k e2, Res.ok_bind]
    by_cases hk : F k = true
    · rw [if_pos hk]
      obtain ⟨m', a1, a2⟩ := (C57_erase h hk).2.2.1 xs ys zs e
      rw [a1]
      exact ⟨m', _, rfl, a2, by rw [Call.Post, vals_upd]; unfold vals; rw [ht, hd]; simp⟩
    · rw [if_neg hk]
      obtain ⟨m', a1, a2⟩ := (C56_erase h (Bool.eq_false_iff.mpr hk)).2.2.2.1 xs ys zs e
      rw [a1]
      exact ⟨m', _, rfl, a2, by rw [Call.Post, vals_upd]; unfold vals; rw [ht, hd]; simp⟩
  | resize k n x =>
    dsimp only [Call.run]
    by_cases hk : F k = true
    · rw [if_pos hk]
      obtain ⟨m', ns, a1, a2, a3⟩ := C57_resize h hk (by simpa [Call.Pre, vals] using hp) n x
      exact ⟨m', _, a1, a3, by rw [Call.Post, vals_upd]; unfold vals; simp [a2, List.map_take]⟩
    · rw [if_neg hk]
      obtain ⟨m', ns, a1, a2, a3⟩ := C56_resize h (Bool.eq_false_iff.mpr hk) n x
      exact ⟨m', _, a1, a3, by rw [Call.Post, vals_upd]; unfold vals; simp [a2, List.map_take]⟩
  | assignN k n x =>
    dsimp only [Call.run]
    by_cases hk : F k = true
    · rw [if_pos hk]
      obtain ⟨m', ns, a1, a2, a3⟩ := (C57_assign h hk).2.1 n x hp
      exact ⟨m', _, a1, a3, by rw [Call.Post, vals_upd, a2]⟩
    · rw [if_neg hk]
      obtain ⟨m', ns, a1, a2, a3⟩ := (C56_assign h (Bool.eq_false_iff.mpr hk)).2.2.1 n x
      exact ⟨m', _, a1, a3, by rw [Call.Post, vals_upd, a2]⟩
  | assignRange k vs =>
    dsimp only [Call.run]
    by_cases hk : F k = true
    · rw [if_pos hk]
      obtain ⟨m', ns, a1, a2, a3⟩ := (C57_assign h hk).2.2 vs
      exact ⟨m', _, a1, a3, by rw [Call.Post, vals_upd, a2]⟩
    · rw [if_neg hk]
      obtain ⟨m', ns, a1, a2, a3⟩ := (C56_assign h (Bool.eq_false_iff.mpr hk)).2.2.2 vs
      exact ⟨m', _, a1, a3, by rw [Call.Post, vals_upd, a2]⟩
  | assignCopy k l =>
    dsimp only [Call.run]
    by_cases hk : F k = true
    · rw [if_pos hk]
      obtain ⟨m', ns, a1, a2, a3⟩ := (C57_assign h hk).1 l
      exact ⟨m', _, a1, a3, by rw [Call.Post, vals_upd, a2]; rfl⟩
    · rw [if_neg hk]
      obtain ⟨m', ns, a1, a2, a3⟩ := (C56_assign h (Bool.eq_false_iff.mpr hk)).1 l
      exact ⟨m', _, a1, a3, by rw [Call.Post, vals_upd, a2]; rfl⟩
  | assignMove k l =>
    obtain ⟨hF, hkl⟩ := hp
    dsimp only [Call.run]
    by_cases hk : F k = true
    · rw [if_pos hk]
      obtain ⟨m', a1, a2⟩ := C57_assignMove_partial h (hF ▸ hk) hkl
      exact ⟨m', _, a1, a2, by rw [Call.Post, vals_upd, vals_upd]; rfl⟩
    · rw [if_neg hk]
      have hk' := Bool.eq_false_iff.mpr hk
      obtain ⟨m', a1, a2⟩ := (C56_assign h hk').2.1 l (hF ▸ hk')
      rw [if_neg hkl] at a2
      exact ⟨m', _, a1, a2, by rw [Call.Post, vals_upd, vals_upd]; rfl⟩
  | swap k l =>
    dsimp only [Call.run]
    by_cases hk : F k = true
    · rw [if_pos hk]
      obtain ⟨m', a1, a2⟩ := C57_swap h hk ((show F k = F l from hp) ▸ hk)
      exact ⟨m', _, a1, a2, by rw [Call.Post, vals_upd, vals_upd]; rfl⟩
    · rw [if_neg hk]
      have hk' := Bool.eq_false_iff.mpr hk
      obtain ⟨m', a1, a2⟩ := C56_swap h hk' ((show F k = F l from hp) ▸ hk')
      exact ⟨m', _, a1, a2, by rw [Call.Post, vals_upd, vals_upd]; rfl⟩
  | splice k i l =>
    obtain ⟨hF, hkl, hi⟩ := hp
    obtain ⟨xs, ys, e, hl, ht, hd⟩ := split_at (L k) hi
    dsimp only [Call.run]
    rw [← hl, posAt_ok h k e, Res.ok_bind]
    by_cases hk : F k = true
    · rw [if_pos hk]
      obtain ⟨m', a1, a2⟩ := (C57_splice h hk (hF ▸ hk) hkl e).1
      rw [a1]
      exact ⟨m', _, rfl, a2, by rw [Call.Post, vals_upd, vals_upd, hl]; unfold vals; rw [ht, hd]; simp⟩
    · rw [if_neg hk]
      have hk' := Bool.eq_false_iff.mpr hk
      obtain ⟨m', a1, a2⟩ := (C56_splice h hk' (hF ▸ hk') hkl e).1
      rw [a1]
      exact ⟨m', _, rfl, a2, by rw [Call.Post, vals_upd, vals_upd, hl]; unfold vals; rw [ht, hd]; simp⟩
  | spliceRange k i l j n =>
    obtain ⟨hF, hkl, hi, hj⟩ := hp
    obtain ⟨xs, ys, e, hl, ht, hd⟩ := split_at (L k) hi
    obtain ⟨us, ms, ws, es, hl1, hl2, ht1, hm1, hd1⟩ := split_range (L l) (i := j) (n := n) hj
    have e2 : L l = (us ++ ms) ++ ws := by rw [es]; simp
    dsimp only [Call.run]
    rw [← hl2, ← hl]
    conv in posAt m l j => rw [← hl1]
    rw [posAt_ok h k e, Res.ok_bind, posAt_ok h l es, Res.ok_bind, posAt_ok h l e2, Res.ok_bind]
    by_cases hk : F k = true
    · rw [if_pos hk]
      obtain ⟨m', a1, a2⟩ := (C57_splice h hk (hF ▸ hk) hkl e).2.1 us ms ws es
      rw [a1]
      exact ⟨m', _, rfl, a2, by rw [Call.Post, vals_upd, vals_upd, hl]; unfold vals; rw [ht, hd, ht1, hm1, hd1]; simp⟩
    · rw [if_neg hk]
      have hk' := Bool.eq_false_iff.mpr hk
      obtain ⟨m', a1, a2⟩ := (C56_splice h hk' (hF ▸ hk') hkl e).2.1 us ms ws es
      rw [a1]
      exact ⟨m', _, rfl, a2, by rw [Call.Post, vals_upd, vals_upd, hl]; unfold vals; rw [ht, hd, ht1, hm1, hd1]; simp⟩
  | reverse k =>
    dsimp only [Call.run]
    by_cases hk : F k = true
    · rw [if_pos hk]
      obtain ⟨m', a1, a2⟩ := (C57_reverse h hk).1
      exact ⟨m', _, a1, a2, by rw [Call.Post, vals_upd, List.map_reverse]; rfl⟩
    · rw [if_neg hk]
      obtain ⟨m', a1, a2⟩ := (C56_reverse h (Bool.eq_false_iff.mpr hk)).1
      exact ⟨m', _, a1, a2, by rw [Call.Post, vals_upd, List.map_reverse]; rfl⟩
  | reverseRange k i n =>
    obtain ⟨xs, ys, zs, e, hl, hl2, ht, hm, hd⟩ := split_range (L k) (i := i) (n := n) hp
    have e2 : L k = (xs ++ ys) ++ zs := by rw [e]; simp
    dsimp only [Call.run]
    rw [← hl2]
    conv in posAt m k i => rw [← hl]
    rw [posAt_ok h k e, Res.ok_bind, posAt_ok h k e2, Res.ok_bind]
    by_cases hk : F k = true
    · rw [if_pos hk]
      obtain ⟨m', a1, a2⟩ := (C57_reverse h hk).2 xs ys zs e
      rw [a1]
      exact ⟨m', _, rfl, a2, by rw [Call.Post, vals_upd]; unfold vals; rw [ht, hm, hd]; simp⟩
    · rw [if_neg hk]
      obtain ⟨m', a1, a2⟩ := (C56_reverse h (Bool.eq_false_iff.mpr hk)).2 xs ys zs e
      rw [a1]
      exact ⟨m', _, rfl, a2, by rw [Call.Post, vals_upd]; unfold vals; rw [ht, hm, hd]; simp⟩
  | removeIf k pred =>
    dsimp only [Call.run]
    by_cases hk : F k = true
    · rw [if_pos hk]
      obtain ⟨m', a1, a2⟩ := (C57_remove h hk).1 pred
      exact ⟨m', _, a1, a2, by rw [Call.Post, vals_upd, filter_vals (fun a => !pred a)]; rfl⟩
    · rw [if_neg hk]
      obtain ⟨m', a1, a2⟩ := (C56_remove h (Bool.eq_false_iff.mpr hk)).1 pred
      exact ⟨m', _, a1, a2, by rw [Call.Post, vals_upd, filter_vals (fun a => !pred a)]; rfl⟩
  | remove k x =>
    dsimp only [Call.run]
    by_cases hk : F k = true
    · rw [if_pos hk]
      obtain ⟨m', a1, a2⟩ := C57_removeValue_partial h hk (.val x) x rfl trivial
      exact ⟨m', _, a1, a2, by rw [Call.Post, vals_upd, filter_vals (fun a => !decide (a = x))]; rfl⟩
    · rw [if_neg hk]
      obtain ⟨m', a1, a2⟩ := C56_removeValue_partial h (Bool.eq_false_iff.mpr hk) (.val x) x rfl trivial
      exact ⟨m', _, a1, a2, by rw [Call.Post, vals_upd, filter_vals (fun a => !decide (a = x))]; rfl⟩
  | unique k rel =>
    dsimp only [Call.run]
    by_cases hk : F k = true
    · rw [if_pos hk]
      obtain ⟨m', a1, a2⟩ := (C57_remove h hk).2 rel
      exact ⟨m', _, a1, a2, by rw [Call.Post, vals_upd, destutter_vals]; rfl⟩
    · rw [if_neg hk]
      obtain ⟨m', a1, a2⟩ := (C56_remove h (Bool.eq_false_iff.mpr hk)).2 rel
      exact ⟨m', _, a1, a2, by rw [Call.Post, vals_upd, destutter_vals]; rfl⟩
  | merge k l less =>
    obtain ⟨hF, hkl⟩ := hp
    have key : ∀ ws, Merged less (L k) (L l) ws → Call.Post (vals L) (vals (upd (upd L k ws) l [])) (.merge k l less) :=
      fun ws hw => by
        refine ⟨ws.map Prod.snd, by rw [vals_upd, vals_upd]; rfl, ?_, fun hs h1 h2 => ?_⟩
        · have := hw.1.map Prod.snd
          rwa [List.map_append] at this
        · obtain ⟨b1, b2⟩ := hw.2 hs ((sorted_vals _ _).mp h1) ((sorted_vals _ _).mp h2)
          refine ⟨(sorted_vals _ _).mpr b1, fun c => ?_⟩
          unfold vals
          rw [equivs_vals, equivs_vals, equivs_vals, b2 c, List.map_append]
    dsimp only [Call.run]
    by_cases hk : F k = true
    · rw [if_pos hk]
      obtain ⟨m', ws, a1, a2, a3⟩ := (C58_merge h hkl less).2 hk (hF ▸ hk)
      exact ⟨m', _, a1, a3, key ws a2⟩
    · rw [if_neg hk]
      have hk' := Bool.eq_false_iff.mpr hk
      obtain ⟨m', ws, a1, a2, a3⟩ := (C58_merge h hkl less).1 hk' (hF ▸ hk')
      exact ⟨m', _, a1, a3, key ws a2⟩
  | sort k less =>
    have key : ∀ ws, SortedFrom less (L k) ws → Call.Post (vals L) (vals (upd L k ws)) (.sort k less) :=
      fun ws hw => by
        refine ⟨ws.map Prod.snd, by rw [vals_upd], hw.1.map Prod.snd, fun hs => ?_⟩
        obtain ⟨b1, b2⟩ := hw.2 hs
        refine ⟨(sorted_vals _ _).mpr b1, fun c => ?_⟩
        unfold vals
        rw [equivs_vals, equivs_vals, b2 c]
    dsimp only [Call.run]
    by_cases hk : F k = true
    · rw [if_pos hk]
      obtain ⟨m', ws, a1, a2, a3⟩ := (C58_sort h less).2.1 hk (by simpa [Call.Pre, vals] using hp)
      exact ⟨m', _, a1, a3, key ws a2⟩
    · rw [if_neg hk]
      obtain ⟨m', ws, a1, a2, a3⟩ := (C58_sort h less).1 (Bool.eq_false_iff.mpr hk)
      exact ⟨m', _, a1, a3, key ws a2⟩

theorem runAll_ok [DecidableEq T] {F : Nat → Bool} (cs : List (Call T)) {m : Mem T} {L : Nat → List (Nat × T)}
    (h : State m L F) (ha : Allowed F cs (vals L)) :
    ∃ m' L', runAll F cs m = .ok m' ∧ State m' L' F ∧ Posts cs (vals L) (vals L') := by
  induction cs generalizing m L with
  | nil => exact ⟨m, L, rfl, h, rfl⟩
  | cons c cs ih =>
    obtain ⟨m1, L1, a1, a2, a3⟩ := c.run_ok h ha.1
    obtain ⟨m2, L2, b1, b2, b3⟩ := ih a2 (ha.2 _ a3)
    exact ⟨m2, L2, by rw [runAll, a1, Res.ok_bind, b1], b2, _, a3, b3⟩

/-- After any allowed sequence of calls, starting with empty lists, no call has followed a null or dangling pointer,
and all lists have the values that result from the effects of the calls: this is what `to_vector`, `empty`, `size` and
`length` report.  All nodes that are allocated belong to the lists. -/
theorem C59_history [DecidableEq T] (F : Nat → Bool) (cs : List (Call T)) (ha : Allowed F cs (fun _ => [])) :
    ∃ m V, runAll F cs (initial T) = .ok m ∧ Posts cs (fun _ => []) V ∧
      (∀ k, Simple.toVector m (.obj k) = .ok (V k) ∧ Simple.length m (.obj k) = .ok (V k).length ∧
        Simple.empty m (.obj k) = (V k).isEmpty) ∧
      (∀ k, F k = true → Full.empty m (.obj k) = (V k).isEmpty ∧ ((V k).length < 2 ^ 64 → Full.size m (.obj k) = (V k).length)) ∧
      (∀ a x, m.cont a = some x → ∃ k, x ∈ V k) := by
  obtain ⟨m, L, a1, a2, a3⟩ := runAll_ok cs (initial_state F) ha
  refine ⟨m, vals L, a1, a3, fun k => ?_, fun k hk => ?_, fun a x hx => ?_⟩
  · obtain ⟨b1, -, b2, b3, -⟩ := C56_inspect a2 k
    exact ⟨b3, by rw [b2]; simp [vals], by rw [b1]; simp [vals]⟩
  · obtain ⟨b1, b2, -⟩ := C57_inspect a2 hk
    exact ⟨by rw [b1]; simp [vals], fun hn => by rw [b2 (by simpa [vals] using hn)]; simp [vals]⟩
  · obtain ⟨r, hr⟩ := a2.rep.owned a x hx
    cases r with
    | obj k => exact ⟨k, List.mem_map.mpr ⟨_, hr, rfl⟩⟩
    | loc i => cases hr

/-- an allowed sequence of calls, and its effect -/
example : Allowed (fun k => decide (k = 0)) [Call.pushBack 0 3, .insertN 0 1 2 5, .pushFront 1 7, .sort 0 (fun a b => decide (a < b))]
    (fun _ => ([] : List Nat)) := by
  refine ⟨rfl, fun V1 h1 => ⟨?_, fun V2 h2 => ⟨trivial, fun V3 h3 => ⟨?_, fun V4 _ => trivial⟩⟩⟩⟩
  · rw [show V1 = upd (fun _ => []) 0 ([] ++ [3]) from h1]; simp [Call.Pre]
  · rw [show V3 = _ from h3, show V2 = _ from h2, show V1 = _ from h1]
    simp only [Call.Pre]
    decide

end Verif.SL
