import Verif.SL.Sort
/-
What the functions of `sl_list` do to the lists in memory, and to the fields `tail` and `node_count`: constructors,
insertion, removal and assignment.
-/
namespace Verif.SL
variable {T : Type}

/-- the fields `tail` and `node_count` of a list object describe the given list -/
def Tidy (m : Mem T) (r : Root) (xs : List (Nat × T)) : Prop :=
  m.tail r = loc (.root r) xs ∧ m.count r = xs.length % 2 ^ 64

/-- the fields `tail` and `node_count` of other objects are unchanged -/
def Keep (m m' : Mem T) (S : List Root) : Prop := ∀ s, s ∉ S → m'.tail s = m.tail s ∧ m'.count s = m.count s

theorem Keep.trans {m m' m'' : Mem T} {S : List Root} (h : Keep m m' S) (k : Keep m' m'' S) : Keep m m'' S :=
  fun s hs => ⟨(k s hs).1.trans (h s hs).1, (k s hs).2.trans (h s hs).2⟩

theorem Keep.refl (m : Mem T) (S : List Root) : Keep m m S := fun _ _ => ⟨rfl, rfl⟩

theorem Same.keep {m m' : Mem T} (h : Same m m') (S : List Root) : Keep m m' S :=
  fun s _ => ⟨by rw [h.1], by rw [h.2]⟩

theorem Keep.addCount (m : Mem T) (r : Root) (d : Nat) : Keep m (addCount m r d) [r] :=
  fun s hs => ⟨rfl, upd_ne _ _ (by simpa using hs)⟩
theorem Keep.subCount (m : Mem T) (r : Root) (d : Nat) : Keep m (subCount m r d) [r] :=
  fun s hs => ⟨rfl, upd_ne _ _ (by simpa using hs)⟩
theorem Keep.setCount (m : Mem T) (r : Root) (d : Nat) : Keep m (setCount m r d) [r] :=
  fun s hs => ⟨rfl, upd_ne _ _ (by simpa using hs)⟩
theorem Keep.setTail (m : Mem T) (r : Root) (p : Loc) : Keep m (setTail m r p) [r] :=
  fun s hs => ⟨upd_ne _ _ (by simpa using hs), rfl⟩
theorem Keep.setEmpty (m : Mem T) (r : Root) : Keep m (setEmpty m r) [r] :=
  fun s hs => ⟨upd_ne _ _ (by simpa using hs), upd_ne _ _ (by simpa using hs)⟩
theorem Keep.mono {m m' : Mem T} {S S' : List Root} (h : Keep m m' S) (hs : ∀ s ∈ S, s ∈ S') : Keep m m' S' :=
  fun s k => h s (fun hc => k (hs s hc))

/-- `Rep` does not depend on the other fields -/
theorem Rep.fields {m m' : Mem T} {L : Root → List (Nat × T)} (h : Rep m L) (hl : m'.link = m.link)
    (hc : m'.cont = m.cont) (hf : m'.fresh = m.fresh) : Rep m' L := by
  obtain ⟨l, c, f, t, n⟩ := m
  obtain ⟨l', c', f', t', n'⟩ := m'
  dsimp only at hl hc hf
  subst hl; subst hc; subst hf
  refine ⟨fun r => ?_, fun p q a hp hq => h.inj p q a ?_ ?_, h.owned, h.bound⟩
  · exact Seg_congr (h.chain r) (fun _ _ => rfl) (fun _ _ => rfl)
  · cases p <;> exact hp
  · cases q <;> exact hq

theorem Rep.addCount {m : Mem T} {L : Root → List (Nat × T)} (h : Rep m L) (r : Root) (d : Nat) :
    Rep (addCount m r d) L := h.fields rfl rfl rfl
theorem Rep.subCount {m : Mem T} {L : Root → List (Nat × T)} (h : Rep m L) (r : Root) (d : Nat) :
    Rep (subCount m r d) L := h.fields rfl rfl rfl
theorem Rep.setCount {m : Mem T} {L : Root → List (Nat × T)} (h : Rep m L) (r : Root) (d : Nat) :
    Rep (setCount m r d) L := h.fields rfl rfl rfl
theorem Rep.setTail {m : Mem T} {L : Root → List (Nat × T)} (h : Rep m L) (r : Root) (p : Loc) :
    Rep (setTail m r p) L := h.fields rfl rfl rfl
theorem Rep.setEmpty {m : Mem T} {L : Root → List (Nat × T)} (h : Rep m L) (r : Root) :
    Rep (setEmpty m r) L := h.fields rfl rfl rfl

theorem Tidy.setEmpty (m : Mem T) (r : Root) : Tidy (setEmpty m r) r [] := by
  simp [Tidy, SL.setEmpty, SL.setCount, SL.setTail, loc]

theorem Tidy.same {m m' : Mem T} {r : Root} {xs : List (Nat × T)} (h : Tidy m r xs) (k : Same m m') : Tidy m' r xs :=
  ⟨by rw [k.1]; exact h.1, by rw [k.2]; exact h.2⟩

theorem Tidy.keep {m m' : Mem T} {r : Root} {xs : List (Nat × T)} {S : List Root} (h : Tidy m r xs) (k : Keep m m' S)
    (hr : r ∉ S) : Tidy m' r xs :=
  ⟨by rw [(k r hr).1]; exact h.1, by rw [(k r hr).2]; exact h.2⟩

/-- nodes are added to a list, before its end -/
theorem Tidy.add {m m' : Mem T} {r : Root} {xs zs : List (Nat × T)} (h : Tidy m r xs) (d : Nat)
    (ht : m'.tail r = loc (.root r) zs) (hc : m'.count r = (m.count r + d) % 2 ^ 64) (hd : zs.length = xs.length + d) :
    Tidy m' r zs := ⟨ht, by rw [hc, h.2, hd]; omega⟩

theorem Tidy.sub {m m' : Mem T} {r : Root} {xs zs : List (Nat × T)} (h : Tidy m r xs) (d : Nat)
    (ht : m'.tail r = loc (.root r) zs) (hc : m'.count r = (m.count r + (2 ^ 64 - d % 2 ^ 64)) % 2 ^ 64)
    (hd : xs.length = zs.length + d) : Tidy m' r zs := ⟨ht, by rw [hc, h.2, hd]; omega⟩

/-- the position at the end does not change when nodes that come before others are changed -/
theorem loc_last (p : Loc) (xs us ys : List (Nat × T)) (h : ys ≠ []) : loc p (xs ++ ys) = loc p (us ++ ys) := by
  rw [loc_append, loc_append]; exact loc_indep h

/-- the default constructor -/
theorem Full.make_ok {m : Mem T} {L : Root → List (Nat × T)} (h : Rep m L) {r : Root} (e : L r = []) :
    Full.make m r = SL.setEmpty m r := by
  unfold Full.make
  rw [h.initRoot e]

theorem Full.empty_ok {m : Mem T} {L : Root → List (Nat × T)} {r : Root} (hd : Tidy m r (L r)) :
    Full.empty m r = (L r).isEmpty := by
  unfold Full.empty
  rw [hd.1]
  rcases loc_cases (Loc.root r) (L r) with ⟨h1, h2⟩ | ⟨us, a, h1, h2⟩
  · rw [h2, h1]; simp
  · rw [h2, h1]; simp

theorem Full.size_ok {m : Mem T} {r : Root} {xs : List (Nat × T)} (hd : Tidy m r xs) (hn : xs.length < 2 ^ 64) :
    Full.size m r = xs.length := by
  unfold Full.size
  rw [hd.2, Nat.mod_eq_of_lt hn]

/-- `clear` -/
theorem Full.clear_ok {m : Mem T} {L : Root → List (Nat × T)} (h : Rep m L) (r : Root) :
    ∃ m', Full.clear m r = .ok m' ∧ Rep m' (upd L r []) ∧ Tidy m' r [] ∧ Keep m m' [r] ∧ m.fresh ≤ m'.fresh := by
  obtain ⟨m1, a1, a2, a3, a4⟩ := Simple.clear_ok h r
  unfold Simple.clear at a1
  unfold Full.clear
  rw [a1, Res.ok_bind]
  exact ⟨_, rfl, a2.setEmpty r, Tidy.setEmpty _ _, (a3.keep _).trans (Keep.setEmpty m1 r), a4.ge⟩

theorem ins_steps {m : Mem T} {p : Loc} (x : T) (hp : Live m p) (hne : p ≠ .next m.fresh) :
    ∃ m1, moveLink (alloc m x).1 (.next m.fresh) p = .ok m1 ∧ reset m1 p (some m.fresh) = .ok (insMem m p x) := by
  have h := Simple.insert_ok' x hp hne
  unfold Simple.insert at h
  rw [get_of_live hp, Res.ok_bind] at h
  change (do
    let m1 ← moveLink (alloc m x).1 (.next m.fresh) p
    let m1 ← reset m1 p (some m.fresh)
    Res.ok (m1, Loc.next m.fresh)) = _ at h
  cases h1 : moveLink (alloc m x).1 (.next m.fresh) p with
  | ok m1 =>
    rw [h1, Res.ok_bind] at h
    cases h2 : reset m1 p (some m.fresh) with
    | ok m2 =>
      rw [h2, Res.ok_bind] at h
      injection h with h
      injection h with h _
      exact ⟨m1, rfl, by rw [h2, h]⟩
    | throw => rw [h2] at h; cases h
    | assertFail => rw [h2] at h; cases h
    | undefined => rw [h2] at h; cases h
    | outOfFuel => rw [h2] at h; cases h
  | throw => rw [h1] at h; cases h
  | assertFail => rw [h1] at h; cases h
  | undefined => rw [h1] at h; cases h
  | outOfFuel => rw [h1] at h; cases h

/-- the steps that the functions for insertion of one value have in common -/
theorem Full.insert_steps (x : T) {m : Mem T} {L : Root → List (Nat × T)} (h : Rep m L) {r t : Root} (htr : t ≠ r)
    (ht : L t = []) {xs ys : List (Nat × T)} (e : L r = xs ++ ys) (hd : Tidy m r (L r)) :
    ∃ m1 m2, (if ys = [] then Res.ok (SL.setTail (alloc m x).1 r (.next m.fresh))
          else moveLink (alloc m x).1 (.next m.fresh) (loc (.root r) xs)) = .ok m1 ∧
      reset m1 (loc (.root r) xs) (some m.fresh) = .ok m2 ∧
      Rep (SL.addCount m2 r 1) (upd L r (xs ++ (m.fresh, x) :: ys)) ∧
      Tidy (SL.addCount m2 r 1) r (xs ++ (m.fresh, x) :: ys) ∧ Keep m (SL.addCount m2 r 1) [r] ∧
      (SL.addCount m2 r 1).fresh = m.fresh + 1 := by
  have hp := h.live e
  have hne := h.ne_fresh hp
  by_cases hy : ys = []
  · subst hy
    rw [if_pos rfl]
    have hl : m.link (loc (.root r) xs) = none := h.link e
    have a1 := add_ok (m := SL.setTail m r (.next m.fresh)) x (p := loc (.root r) xs)
      (by cases h1 : loc (.root r) xs with
          | root _ => trivial
          | next a => rw [h1] at hp; exact hp) hne hl
    have a2 := (h.setTail r (.next m.fresh)).insMem htr ht e x
    refine ⟨_, _, rfl, a1, a2.addCount r 1, hd.add 1 ?_ ?_ ?_, ?_, rfl⟩
    · show upd m.tail r (.next m.fresh) r = _
      rw [upd_same, loc_snoc]
    · exact upd_same _ _ _
    · rw [e]; simp
    · intro s hs
      simp only [List.mem_singleton] at hs
      exact ⟨upd_ne _ _ hs, upd_ne _ _ hs⟩
  · rw [if_neg hy]
    obtain ⟨m1, a1, a2⟩ := ins_steps x hp hne
    refine ⟨m1, _, a1, a2, (h.insMem htr ht e x).addCount r 1, hd.add 1 ?_ (upd_same _ _ _) ?_, ?_, rfl⟩
    · show m.tail r = _
      rw [hd.1, e, loc_last (.root r) xs (xs ++ [(m.fresh, x)]) ys hy]
      simp
    · rw [e]; simp; omega
    · intro s hs
      simp only [List.mem_singleton] at hs
      exact ⟨rfl, upd_ne _ _ hs⟩

/-- `push_front` -/
theorem Full.pushFront_ok (x : T) {m : Mem T} {L : Root → List (Nat × T)} (h : Rep m L) {r t : Root} (htr : t ≠ r)
    (ht : L t = []) (hd : Tidy m r (L r)) :
    ∃ m', Full.pushFront m r x = .ok m' ∧ Rep m' (upd L r ((m.fresh, x) :: L r)) ∧
      Tidy m' r ((m.fresh, x) :: L r) ∧ Keep m m' [r] ∧ m'.fresh = m.fresh + 1 := by
  obtain ⟨m1, m2, a1, a2, a3, a4, a5, a6⟩ := Full.insert_steps x h htr ht (xs := []) (ys := L r) rfl hd
  refine ⟨_, ?_, a3, a4, a5, a6⟩
  unfold Full.pushFront
  have hl := h.link (r := r) (xs := []) (ys := L r) rfl
  have hn : ((alloc m x).1.link (.root r)).isNone = decide (L r = []) := by
    show ((upd m.link (.next m.fresh) none) (.root r)).isNone = _
    rw [upd_ne _ _ (by simp), show Loc.root r = loc (.root r) ([] : List (Nat × T)) from rfl, hl]
    cases L r <;> simp
  show (do
    let m1 ← if ((alloc m x).1.link (.root r)).isNone then Res.ok (SL.setTail (alloc m x).1 r (.next m.fresh))
      else moveLink (alloc m x).1 (.next m.fresh) (.root r)
    let m2 ← reset m1 (.root r) (some m.fresh)
    Res.ok (SL.addCount m2 r 1)) = _
  rw [hn]
  simp only [decide_eq_true_eq]
  rw [root_loc (T := T) r]
  by_cases hy : L r = []
  · rw [if_pos hy] at a1 ⊢
    rw [a1, Res.ok_bind, a2, Res.ok_bind]
  · rw [if_neg hy] at a1 ⊢
    rw [a1, Res.ok_bind, a2, Res.ok_bind]

/-- `insert(pos,val)` -/
theorem Full.insert_ok (x : T) {m : Mem T} {L : Root → List (Nat × T)} (h : Rep m L) {r t : Root} (htr : t ≠ r)
    (ht : L t = []) {xs ys : List (Nat × T)} (e : L r = xs ++ ys) (hd : Tidy m r (L r)) :
    ∃ m', Full.insert m r (loc (.root r) xs) x = .ok (m', loc (.root r) (xs ++ [(m.fresh, x)])) ∧
      Rep m' (upd L r (xs ++ (m.fresh, x) :: ys)) ∧
      Tidy m' r (xs ++ (m.fresh, x) :: ys) ∧ Keep m m' [r] ∧ m'.fresh = m.fresh + 1 := by
  obtain ⟨m1, m2, a1, a2, a3, a4, a5, a6⟩ := Full.insert_steps x h htr ht e hd
  refine ⟨_, ?_, a3, a4, a5, a6⟩
  unfold Full.insert
  have hp := h.live e
  have hne := h.ne_fresh hp
  have hlive : Live (alloc m x).1 (loc (.root r) xs) := by
    cases hc : loc (.root r) xs with
    | root _ => trivial
    | next a =>
      have : (upd m.cont m.fresh (some x) a).isSome = true := by
        rw [upd_ne _ _ (fun e => hne (by rw [hc, e]))]; rw [hc] at hp; exact hp
      exact this
  have hl := h.link e
  have hn : atEnd (alloc m x).1 (loc (.root r) xs) = .ok (decide (ys = [])) := by
    unfold atEnd
    rw [get_of_live hlive, Res.ok_bind]
    show Res.ok ((upd m.link (.next m.fresh) none) (loc (.root r) xs)).isNone = _
    rw [upd_ne _ _ hne, hl]
    cases ys <;> simp
  rw [get_of_live hp, Res.ok_bind]
  show (do
    let b ← atEnd (alloc m x).1 (loc (.root r) xs)
    let m1 ← if b = true then Res.ok (SL.setTail (alloc m x).1 r (.next m.fresh))
      else moveLink (alloc m x).1 (.next m.fresh) (loc (.root r) xs)
    let m2 ← reset m1 (loc (.root r) xs) (some m.fresh)
    Res.ok (SL.addCount m2 r 1, Loc.next m.fresh)) = _
  rw [hn, Res.ok_bind]
  simp only [decide_eq_true_eq]
  rw [loc_snoc]
  by_cases hy : ys = []
  · rw [if_pos hy] at a1 ⊢
    rw [a1, Res.ok_bind, a2, Res.ok_bind]
  · rw [if_neg hy] at a1 ⊢
    rw [a1, Res.ok_bind, a2, Res.ok_bind]

theorem Full.insertNLoop_ok (n : Nat) (x : T) {m : Mem T} {L : Root → List (Nat × T)} (h : Rep m L) {r t : Root}
    (htr : t ≠ r) (ht : L t = []) {xs ys : List (Nat × T)} (e : L r = xs ++ ys) (hd : Tidy m r (L r)) (hy : ys ≠ []) :
    ∃ m' ns, Full.insertNLoop r (loc (.root r) xs) x n m = .ok m' ∧ ns.map Prod.snd = List.replicate n x ∧
      Rep m' (upd L r (xs ++ (ns ++ ys))) ∧ Tidy m' r (xs ++ (ns ++ ys)) ∧ Keep m m' [r] ∧ m.fresh ≤ m'.fresh := by
  induction n generalizing m L ys with
  | zero => exact ⟨m, [], rfl, rfl, h.congr rfl (upd_self _ (by simp [e])).symm, by rw [e] at hd; exact hd, Keep.refl _ _, le_refl _⟩
  | succ n ih =>
    obtain ⟨h1, h2⟩ := Simple.insert_ok h htr ht e x
    have h3 := h2.addCount r 1
    have hd3 : Tidy (SL.addCount (SL.insMem m (loc (.root r) xs) x) r 1) r (xs ++ (m.fresh, x) :: ys) := by
      refine hd.add 1 ?_ (upd_same _ _ _) ?_
      · show m.tail r = _
        rw [hd.1, e, loc_last (.root r) xs (xs ++ [(m.fresh, x)]) ys hy]
        simp
      · rw [e]; simp; omega
    have hk3 : Keep m (SL.addCount (SL.insMem m (loc (.root r) xs) x) r 1) [r] := Keep.addCount _ _ _
    obtain ⟨m', ns, b1, b2, b3, b4, b5, b6⟩ := ih h3 (by rw [upd_ne _ _ htr, ht]) (ys := (m.fresh, x) :: ys)
      (upd_same _ _ _) (by rw [upd_same]; exact hd3) (by simp)
    refine ⟨m', ns ++ [(m.fresh, x)], ?_, ?_, b3.congr rfl ?_, ?_, hk3.trans b5, le_trans (Nat.le_succ _) b6⟩
    · unfold Full.insertNLoop
      rw [h1, Res.ok_bind]
      exact b1
    · rw [List.map_append, b2, List.replicate_succ']; rfl
    · rw [upd_upd]; simp
    · simpa using b4

/-- `insert(pos,n,val)` -/
theorem Full.insertN_ok (n : Nat) (x : T) {m : Mem T} {L : Root → List (Nat × T)} (h : Rep m L) {r t : Root}
    (htr : t ≠ r) (ht : L t = []) {xs ys : List (Nat × T)} (e : L r = xs ++ ys) (hd : Tidy m r (L r)) :
    ∃ m' ns, Full.insertN m r (loc (.root r) xs) n x = .ok (m', loc (.root r) (xs ++ ns)) ∧
      ns.map Prod.snd = List.replicate n x ∧
      Rep m' (upd L r (xs ++ (ns ++ ys))) ∧ Tidy m' r (xs ++ (ns ++ ys)) ∧ Keep m m' [r] ∧ m.fresh ≤ m'.fresh := by
  unfold Full.insertN
  rw [get_of_live (h.live e), Res.ok_bind]
  by_cases hn : n = 0
  · rw [if_pos hn]
    subst hn
    exact ⟨m, [], by simp, rfl, h.congr rfl (upd_self _ (by simp [e])).symm, by rw [e] at hd; exact hd, Keep.refl _ _, le_refl _⟩
  · rw [if_neg hn]
    obtain ⟨m1, a1, a2, a3, a4, a5⟩ := Full.insert_ok x h htr ht e hd
    rw [a1, Res.ok_bind]
    dsimp only
    obtain ⟨m', ns, b1, b2, b3, b4, b5, b6⟩ := Full.insertNLoop_ok (n - 1) x a2 htr (by rw [upd_ne _ _ htr, ht])
      (ys := (m.fresh, x) :: ys) (upd_same _ _ _) (by rw [upd_same]; exact a3) (by simp)
    rw [b1, Res.ok_bind]
    refine ⟨m', ns ++ [(m.fresh, x)], ?_, ?_, b3.congr rfl ?_, by simpa using b4, a4.trans b5, by omega⟩
    · rw [loc_snoc, ← List.append_assoc, loc_snoc]
    · rw [List.map_append, b2]
      obtain ⟨k, rfl⟩ : ∃ k, n = k + 1 := ⟨n - 1, by omega⟩
      rw [List.replicate_succ']; rfl
    · rw [upd_upd]; simp

/-- the addition of a node at the end -/
theorem Full.add_step (x : T) {m : Mem T} {L : Root → List (Nat × T)} (h : Rep m L) {r t : Root}
    (htr : t ≠ r) (ht : L t = []) (hd : Tidy m r (L r)) :
    ∃ m1, reset (alloc m x).1 (m.tail r) (some (alloc m x).2) = .ok m1 ∧ advance m1 (m.tail r) = .ok (.next m.fresh) ∧
      Rep (SL.addCount (SL.setTail m1 r (.next m.fresh)) r 1) (upd L r (L r ++ [(m.fresh, x)])) ∧
      Tidy (SL.addCount (SL.setTail m1 r (.next m.fresh)) r 1) r (L r ++ [(m.fresh, x)]) ∧
      Keep m (SL.addCount (SL.setTail m1 r (.next m.fresh)) r 1) [r] ∧ m1.fresh = m.fresh + 1 := by
  have e : L r = L r ++ [] := by simp
  rw [hd.1]
  have hp := h.live e
  have hne := h.ne_fresh hp
  have a1 := add_ok x hp hne (h.link e)
  have a2 := h.insMem htr ht e x
  refine ⟨_, a1, ?_, (a2.setTail r _).addCount r 1, hd.add 1 ?_ (upd_same _ _ _) (by simp), ?_, rfl⟩
  · exact a2.advance (r := r) (xs := L r) (a := (m.fresh, x)) (ys := []) (upd_same _ _ _) |>.trans (by rw [loc_snoc])
  · show upd m.tail r _ r = _
    rw [upd_same, loc_snoc]
  · intro s hs
    simp only [List.mem_singleton] at hs
    exact ⟨upd_ne _ _ hs, upd_ne _ _ hs⟩

/-- `push_back` -/
theorem Full.pushBack_ok (x : T) {m : Mem T} {L : Root → List (Nat × T)} (h : Rep m L) {r t : Root}
    (htr : t ≠ r) (ht : L t = []) (hd : Tidy m r (L r)) :
    ∃ m', Full.pushBack m r x = .ok (m', m.fresh) ∧ Rep m' (upd L r (L r ++ [(m.fresh, x)])) ∧
      Tidy m' r (L r ++ [(m.fresh, x)]) ∧ Keep m m' [r] ∧ m'.fresh = m.fresh + 1 := by
  obtain ⟨m1, a1, a2, a3, a4, a5, a6⟩ := Full.add_step x h htr ht hd
  refine ⟨_, ?_, a3, a4, a5, a6⟩
  unfold Full.pushBack
  show (do
    let m1 ← reset (alloc m x).1 (m.tail r) (some (alloc m x).2)
    let p ← advance m1 (m.tail r)
    Res.ok (SL.addCount (SL.setTail m1 r p) r 1, m.fresh)) = _
  rw [a1, Res.ok_bind, a2, Res.ok_bind]

theorem Full.appendLoop_ok (vs : List T) {m : Mem T} {L : Root → List (Nat × T)} (h : Rep m L) {r t : Root}
    (htr : t ≠ r) (ht : L t = []) (hd : Tidy m r (L r)) :
    ∃ m' ns, Full.appendLoop' r vs m = .ok m' ∧ ns.map Prod.snd = vs ∧ Rep m' (upd L r (L r ++ ns)) ∧
      Tidy m' r (L r ++ ns) ∧ Keep m m' [r] ∧ m.fresh ≤ m'.fresh := by
  induction vs generalizing m L with
  | nil => exact ⟨m, [], rfl, rfl, h.congr rfl (upd_self _ (by simp)).symm, by simpa using hd, Keep.refl _ _, le_refl _⟩
  | cons x vs ih =>
    obtain ⟨m1, a1, a2, a3, a4, a5, a6⟩ := Full.add_step x h htr ht hd
    obtain ⟨m', ns, b1, b2, b3, b4, b5, b6⟩ := ih a3 (by rw [upd_ne _ _ htr, ht]) (by rw [upd_same]; exact a4)
    refine ⟨m', (m.fresh, x) :: ns, ?_, by rw [List.map_cons, b2], b3.congr rfl ?_, ?_, a5.trans b5, ?_⟩
    · unfold Full.appendLoop'
      show (do
        let m1 ← reset (alloc m x).1 (m.tail r) (some (alloc m x).2)
        let p ← advance m1 (m.tail r)
        Full.appendLoop' r vs (SL.addCount (SL.setTail m1 r p) r 1)) = _
      rw [a1, Res.ok_bind, a2, Res.ok_bind, b1]
    · rw [upd_upd, upd_same]; simp
    · rw [upd_same] at b4; simpa using b4
    · have : (SL.addCount (SL.setTail m1 r (.next m.fresh)) r 1).fresh = m1.fresh := rfl
      omega

/-- `append(first,last)` -/
theorem Full.appendRange_ok (vs : List T) {m : Mem T} {L : Root → List (Nat × T)} (h : Rep m L) {r t : Root}
    (htr : t ≠ r) (ht : L t = []) (hd : Tidy m r (L r)) :
    ∃ m' ns, Full.appendRange m r vs = .ok (m', loc (.root r) (L r ++ ns)) ∧ ns.map Prod.snd = vs ∧
      Rep m' (upd L r (L r ++ ns)) ∧ Tidy m' r (L r ++ ns) ∧ Keep m m' [r] ∧ m.fresh ≤ m'.fresh := by
  obtain ⟨m', ns, a1, a2, a3, a4, a5, a6⟩ := Full.appendLoop_ok vs h htr ht hd
  refine ⟨m', ns, ?_, a2, a3, a4, a5, a6⟩
  unfold Full.appendRange
  rw [a1, Res.ok_bind, a4.1]

/-- `append(other)` -/
theorem Full.append_ok {m : Mem T} {L : Root → List (Nat × T)} (h : Rep m L) {r s : Root} (hrs : r ≠ s)
    (hd : Tidy m r (L r)) (hs : Tidy m s (L s)) :
    ∃ m', Full.append m r s = .ok (m', loc (.root r) (L r)) ∧ Rep m' (upd (upd L r (L r ++ L s)) s []) ∧
      Tidy m' r (L r ++ L s) ∧ Tidy m' s [] ∧ Keep m m' [r, s] ∧ m.fresh ≤ m'.fresh := by
  unfold Full.append
  rw [Full.empty_ok hs]
  rcases es : L s with _ | ⟨a, zs⟩
  · rw [if_pos (by rfl), hd.1]
    refine ⟨m, rfl, h.congr rfl ?_, by simpa using hd, by rw [es] at hs; exact hs, Keep.refl _ _, le_refl _⟩
    rw [upd_self (f := L) (a := r) (by simp), upd_self L es]
  · rw [if_neg (by simp)]
    obtain ⟨m1, a1, a2, a3, a4⟩ := h.moveLink hrs (xs := L r) (ys := []) (zs := []) (ws := a :: zs) (by simp) es
    rw [← root_loc] at a1
    rw [hd.1]
    dsimp only
    rw [a1, Res.ok_bind]
    refine ⟨_, rfl, ((a2.setTail r _).addCount r _).setEmpty s, ?_, Tidy.setEmpty _ _, ?_, a4.ge⟩
    · refine hd.add (L s).length ?_ ?_ (by rw [es]; simp)
      · show upd (upd m1.tail r (m1.tail s)) s (.root s) r = _
        rw [upd_ne _ _ hrs, upd_same, a3.1, hs.1, es, loc_append]
        exact loc_indep (by simp)
      · show upd (upd m1.count r ((m1.count r + m1.count s) % 2 ^ 64)) s 0 r = _
        rw [upd_ne _ _ hrs, upd_same, a3.2, hs.2]
        omega
    · intro u hu
      simp only [List.mem_cons, List.not_mem_nil, or_false, not_or] at hu
      refine ⟨?_, ?_⟩
      · show upd (upd m1.tail r (m1.tail s)) s (.root s) u = _
        rw [upd_ne _ _ hu.2, upd_ne _ _ hu.1, a3.1]
      · show upd (upd m1.count r ((m1.count r + m1.count s) % 2 ^ 64)) s 0 u = _
        rw [upd_ne _ _ hu.2, upd_ne _ _ hu.1, a3.2]

/-- the range constructor -/
theorem Full.ofRange_ok (vs : List T) {m : Mem T} {L : Root → List (Nat × T)} (h : Rep m L) {r t : Root}
    (htr : t ≠ r) (ht : L t = []) (e : L r = []) :
    ∃ m' ns, Full.ofRange m r vs = .ok m' ∧ ns.map Prod.snd = vs ∧ Rep m' (upd L r ns) ∧ Tidy m' r ns ∧
      Keep m m' [r] ∧ m.fresh ≤ m'.fresh := by
  unfold Full.ofRange
  rw [Full.make_ok h e]
  obtain ⟨m', ns, a1, a2, a3, a4, a5, a6⟩ := Full.appendRange_ok vs (h.setEmpty r) htr ht
    (by rw [e]; exact Tidy.setEmpty m r)
  rw [a1, Res.ok_bind]
  rw [e] at a3 a4
  exact ⟨m', ns, rfl, a2, a3, a4, (Keep.setEmpty m r).trans a5, a6⟩

/-- the constructor from a number and a value -/
theorem Full.ofN_ok (n : Nat) (x : T) {m : Mem T} {L : Root → List (Nat × T)} (h : Rep m L) {r t : Root}
    (htr : t ≠ r) (ht : L t = []) (e : L r = []) :
    ∃ m' ns, Full.ofN m r n x = .ok m' ∧ ns.map Prod.snd = List.replicate n x ∧ Rep m' (upd L r ns) ∧ Tidy m' r ns ∧
      Keep m m' [r] ∧ m.fresh ≤ m'.fresh := by
  unfold Full.ofN
  rw [Full.make_ok h e]
  obtain ⟨m', ns, a1, a2, a3, a4, a5, a6⟩ := Full.insertN_ok n x (h.setEmpty r) htr ht (xs := []) (ys := []) e
    (by rw [e]; exact Tidy.setEmpty m r)
  rw [← root_loc] at a1
  rw [a1, Res.ok_bind]
  exact ⟨m', ns, rfl, a2, a3.congr rfl (by simp), by simpa using a4, (Keep.setEmpty m r).trans a5, a6⟩

/-- `insert(pos,first,last)`; for an empty range that is not at the end, the iterator that is returned is that of the
local variable `aux` -/
theorem Full.insertRange_ok (vs : List T) {m : Mem T} {L : Root → List (Nat × T)} (h : Rep m L) {r t : Root}
    (h0 : L (.loc 0) = []) (hr0 : r ≠ .loc 0) (htr : t ≠ r) (ht0 : t ≠ .loc 0) (ht : L t = [])
    {xs ys : List (Nat × T)} (e : L r = xs ++ ys) (hd : Tidy m r (L r)) :
    ∃ m' ns, Full.insertRange m r (loc (.root r) xs) vs =
        .ok (m', if ys ≠ [] ∧ vs = [] then .root (.loc 0) else loc (.root r) (xs ++ ns)) ∧
      ns.map Prod.snd = vs ∧ Rep m' (upd L r (xs ++ (ns ++ ys))) ∧ Tidy m' r (xs ++ (ns ++ ys)) ∧
      Keep m m' [r, .loc 0] ∧ m.fresh ≤ m'.fresh := by
  unfold Full.insertRange
  rw [h.atEnd e, Res.ok_bind]
  by_cases hy : ys = []
  · subst hy
    rw [if_pos (by rfl)]
    obtain ⟨m', ns, a1, a2, a3, a4, a5, a6⟩ := Full.appendRange_ok vs h htr ht hd
    rw [e] at a1 a3 a4
    refine ⟨m', ns, by rw [a1]; simp, a2, a3.congr rfl (by simp), by simpa using a4, a5.mono (by simp), a6⟩
  · rw [if_neg (by cases ys with | nil => exact absurd rfl hy | cons _ _ => simp)]
    obtain ⟨m1, ns, a1, a2, a3, a4, a5, a6⟩ := Full.ofRange_ok vs h ht0 ht h0
    rw [a1, Res.ok_bind, a4.1]
    obtain ⟨m2, b1, b2, b3, b4⟩ := a3.moveLink hr0.symm (xs := ns) (ys := []) (zs := xs) (ws := ys)
      (by rw [upd_same]; simp) (by rw [upd_ne _ _ hr0, e])
    rw [b1, Res.ok_bind]
    obtain ⟨m3, c1, c2, c3, c4⟩ := b2.moveLink hr0 (xs := xs) (ys := []) (zs := []) (ws := ns ++ ys)
      (by rw [upd_same]; simp) (by rw [upd_ne _ _ hr0.symm, upd_same]; rfl)
    rw [← root_loc] at c1
    rw [c1, Res.ok_bind]
    have hd1 := hd.keep a5 (by simpa using hr0)
    have hs3 : Same m1 m3 := b3.trans c3
    have a4' := a4.same hs3
    have hd3 := hd1.same hs3
    refine ⟨_, ns, ?_, a2, (c2.congr rfl ?_).addCount r (m3.count (.loc 0)), hd3.add ns.length ?_ ?_ ?_, ?_, ?_⟩
    · rw [a4'.1]
      congr 2
      by_cases hv : vs = []
      · have hn : ns = [] := by rw [hv] at a2; simpa using a2
        rw [if_pos ⟨hy, hv⟩, hn]; rfl
      · rw [if_neg (fun hc => hv hc.2), loc_append _ xs]
        exact loc_indep (fun hc => hv (by rw [← a2, hc]; rfl))
    · clear a1 b1 c1 a3 b2 c2 e hd hd1 hd3
      upd_ext
    · show m3.tail r = _
      rw [hd3.1, e, loc_last (.root r) xs (xs ++ ns) ys hy, List.append_assoc]
    · show upd m3.count r _ r = _
      rw [upd_same, a4'.2]; omega
    · rw [e]; simp; omega
    · have k1 : Keep m m1 [r, .loc 0] := a5.mono (by simp)
      exact (k1.trans (hs3.keep _)).trans ((Keep.addCount m3 r _).mono (by simp))
    · show _ ≤ m3.fresh
      omega

end Verif.SL
