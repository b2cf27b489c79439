import Verif.SL.Steps2
/-
What the functions of `simple_list` do to the lists in memory, except merging and sorting.
-/
namespace Verif.SL
variable {T : Type}

theorem Rep.ne_fresh {m : Mem T} {L : Root → List (Nat × T)} (h : Rep m L) {p : Loc} (hp : Live m p) :
    p ≠ .next m.fresh := by
  intro e
  rw [e] at hp
  have := h.bound m.fresh hp
  omega

theorem Same.ins (m : Mem T) (p : Loc) (x : T) : Same m (insMem m p x) := ⟨rfl, rfl⟩

/-- allocation of a node and `reset` of a null link field to it -/
theorem add_ok {m : Mem T} {p : Loc} (x : T) (hp : Live m p) (hne : p ≠ .next m.fresh) (hl : m.link p = none) :
    reset (alloc m x).1 p (some (alloc m x).2) = .ok (insMem m p x) := by
  have hlive : Live (alloc m x).1 p := by
    cases p with
    | root _ => trivial
    | next a =>
      have : (upd m.cont m.fresh (some x) a).isSome = true := by
        rw [upd_ne _ _ (fun e => hne (by rw [e]))]; exact hp
      exact this
  unfold reset
  rw [get_of_live hlive, Res.ok_bind, set_of_live hlive, Res.ok_bind]
  have h1 : (alloc m x).1.link p = none := by
    show upd m.link (.next m.fresh) none p = none
    rw [upd_ne _ _ hne, hl]
  rw [h1]
  show Res.ok _ = Res.ok _
  congr 1
  simp only [insMem, alloc, hl]

theorem Simple.insert_ok' {m : Mem T} {p : Loc} (x : T) (hp : Live m p) (hne : p ≠ .next m.fresh) :
    Simple.insert m p x = .ok (insMem m p x, .next m.fresh) := by
  have hlive : Live (alloc m x).1 p := by
    cases p with
    | root _ => trivial
    | next a =>
      have : (upd m.cont m.fresh (some x) a).isSome = true := by
        rw [upd_ne _ _ (fun e => hne (by rw [e]))]; exact hp
      exact this
  have hlf : Live (alloc m x).1 (.next m.fresh) := by
    show (upd m.cont m.fresh (some x) m.fresh).isSome = true
    simp
  unfold Simple.insert
  rw [get_of_live hp, Res.ok_bind]
  show (do
    let m1 ← moveLink (alloc m x).1 (.next m.fresh) p
    let m1 ← reset m1 p (some m.fresh)
    Res.ok (m1, Loc.next m.fresh)) = _
  unfold moveLink reset
  rw [get_of_live hlive, Res.ok_bind, set_of_live hlive, Res.ok_bind, get_of_live (live_upd hlf), Res.ok_bind,
    set_of_live (live_upd hlf), Res.ok_bind]
  have h1 : upd (alloc m x).1.link p none (.next m.fresh) = none := by
    rw [upd_ne _ _ hne.symm]
    show upd m.link (.next m.fresh) none (.next m.fresh) = none
    simp
  have h2 : (alloc m x).1.link p = m.link p := upd_ne _ _ hne
  dsimp only
  rw [h1, h2]
  unfold destroy
  dsimp only
  rw [Res.ok_bind, get_of_live (live_upd (live_upd hlive)), Res.ok_bind, set_of_live (live_upd (live_upd hlive)),
    Res.ok_bind]
  dsimp only
  rw [upd_ne _ _ hne, upd_same, Res.ok_bind]
  congr 2
  show Mem.mk _ _ _ _ _ = Mem.mk _ _ _ _ _
  congr 1
  funext y
  show upd (upd (upd (upd m.link _ none) p none) (.next m.fresh) (m.link p)) p (some m.fresh) y =
    upd (upd m.link (.next m.fresh) (m.link p)) p (some m.fresh) y
  by_cases h3 : y = p
  · subst h3; simp
  · rw [upd_ne _ _ h3, upd_ne _ _ h3]
    by_cases h4 : y = .next m.fresh
    · subst h4; simp
    · rw [upd_ne _ _ h4, upd_ne _ _ h3, upd_ne _ _ h4, upd_ne _ _ h4]

/-- `insert(pos,val)` -/
theorem Simple.insert_ok {m : Mem T} {L : Root → List (Nat × T)} (h : Rep m L) {r t : Root} (htr : t ≠ r)
    (ht : L t = []) {xs ys : List (Nat × T)} (e : L r = xs ++ ys) (x : T) :
    Simple.insert m (loc (.root r) xs) x = .ok (insMem m (loc (.root r) xs) x, loc (.root r) (xs ++ [(m.fresh, x)])) ∧
      Rep (insMem m (loc (.root r) xs) x) (upd L r (xs ++ (m.fresh, x) :: ys)) :=
  ⟨by rw [loc_snoc]; exact Simple.insert_ok' x (h.live e) (h.ne_fresh (h.live e)), h.insMem htr ht e x⟩

theorem Simple.insertNLoop_ok (n : Nat) {m : Mem T} {L : Root → List (Nat × T)} (h : Rep m L) {r t : Root}
    (htr : t ≠ r) (ht : L t = []) {xs ys : List (Nat × T)} (e : L r = xs ++ ys) (x : T) :
    ∃ m' ns, Simple.insertNLoop (loc (.root r) xs) x n m = .ok m' ∧ ns.map Prod.snd = List.replicate n x ∧
      Rep m' (upd L r (xs ++ (ns ++ ys))) ∧ Same m m' ∧ m.fresh ≤ m'.fresh := by
  induction n generalizing m L ys with
  | zero => exact ⟨m, [], rfl, rfl, h.congr rfl (upd_self _ (by simp [e])).symm, Same.rfl' m, le_refl _⟩
  | succ n ih =>
    obtain ⟨h1, h2⟩ := Simple.insert_ok h htr ht e x
    obtain ⟨m', ns, h3, h4, h5, h6, h7⟩ := ih h2 (by rw [upd_ne _ _ htr, ht]) (upd_same ..)
    refine ⟨m', ns ++ [(m.fresh, x)], ?_, ?_, ?_, (Same.ins m _ x).trans h6, ?_⟩
    · unfold Simple.insertNLoop
      rw [h1]
      exact h3
    · rw [List.map_append, h4, List.replicate_succ']; rfl
    · refine h5.congr rfl ?_
      rw [upd_upd]; simp
    · have : (insMem m (loc (.root r) xs) x).fresh = m.fresh + 1 := rfl
      omega

/-- `insert(pos,n,val)` -/
theorem Simple.insertN_ok (n : Nat) {m : Mem T} {L : Root → List (Nat × T)} (h : Rep m L) {r t : Root}
    (htr : t ≠ r) (ht : L t = []) {xs ys : List (Nat × T)} (e : L r = xs ++ ys) (x : T) :
    ∃ m' ns, Simple.insertN m (loc (.root r) xs) n x = .ok (m', loc (.root r) (xs ++ ns)) ∧
      ns.map Prod.snd = List.replicate n x ∧
      Rep m' (upd L r (xs ++ (ns ++ ys))) ∧ Same m m' ∧ m.fresh ≤ m'.fresh := by
  unfold Simple.insertN
  rw [h.get e, Res.ok_bind]
  by_cases hn : n = 0
  · subst hn
    rw [if_pos rfl]
    exact ⟨m, [], by simp, rfl, h.congr rfl (upd_self _ (by simp [e])).symm, Same.rfl' m, le_refl _⟩
  · rw [if_neg hn]
    obtain ⟨h1, h2⟩ := Simple.insert_ok h htr ht e x
    obtain ⟨m', ns, h3, h4, h5, h6, h7⟩ := Simple.insertNLoop_ok (n - 1) h2 htr (by rw [upd_ne _ _ htr, ht])
      (upd_same ..) x
    refine ⟨m', ns ++ [(m.fresh, x)], ?_, ?_, ?_, (Same.ins m _ x).trans h6, ?_⟩
    · rw [h1, Res.ok_bind]
      dsimp only
      rw [h3, Res.ok_bind]
      rw [← List.append_assoc, loc_snoc, loc_snoc]
    · rw [List.map_append, h4]
      obtain ⟨k, rfl⟩ := Nat.exists_eq_succ_of_ne_zero hn
      show List.replicate k x ++ [x] = _
      rw [List.replicate_succ']
    · refine h5.congr rfl ?_
      rw [upd_upd]; simp
    · have : (insMem m (loc (.root r) xs) x).fresh = m.fresh + 1 := rfl
      omega

/-- adding the values of a range at the end of a list -/
theorem Simple.appendLoop_ok (vs : List T) {m : Mem T} {L : Root → List (Nat × T)} (h : Rep m L) {r t : Root}
    (htr : t ≠ r) (ht : L t = []) {xs : List (Nat × T)} (e : L r = xs) :
    ∃ m' ns, Simple.appendLoop vs m (loc (.root r) xs) = .ok (m', loc (.root r) (xs ++ ns)) ∧ ns.map Prod.snd = vs ∧
      Rep m' (upd L r (xs ++ ns)) ∧ Same m m' ∧ m.fresh ≤ m'.fresh := by
  induction vs generalizing m L xs with
  | nil => exact ⟨m, [], by simp [Simple.appendLoop], rfl, h.congr rfl (upd_self _ (by simp [e])).symm, Same.rfl' m, le_refl _⟩
  | cons x vs ih =>
    have e0 : L r = xs ++ [] := by rw [e]; simp
    have h2 := h.insMem htr ht e0 x
    have h1 := add_ok x (h.live e0) (h.ne_fresh (h.live e0)) (h.link e0)
    have e1 : upd L r (xs ++ [(m.fresh, x)]) r = xs ++ (m.fresh, x) :: [] := upd_same ..
    obtain ⟨m', ns, h3, h4, h5, h6, h7⟩ := ih h2 (by rw [upd_ne _ _ htr, ht]) e1
    refine ⟨m', (m.fresh, x) :: ns, ?_, ?_, ?_, (Same.ins m _ x).trans h6, ?_⟩
    · unfold Simple.appendLoop
      show (do
        let m1 ← reset (alloc m x).1 (loc (.root r) xs) (some (alloc m x).2)
        Simple.appendLoop vs m1 (← advance m1 (loc (.root r) xs))) = _
      rw [h1, Res.ok_bind, h2.advance e1, Res.ok_bind, h3]
      simp
    · rw [List.map_cons, h4]
    · refine h5.congr rfl ?_
      rw [upd_upd]; simp
    · have : (insMem m (loc (.root r) xs) x).fresh = m.fresh + 1 := rfl
      omega

theorem Rep.initRoot {m : Mem T} {L : Root → List (Nat × T)} (h : Rep m L) {r : Root} (e : L r = []) :
    { m with link := upd m.link (.root r) none } = m := by
  have : m.link (.root r) = none := h.link (r := r) (xs := []) (ys := []) e
  rw [upd_self _ this]

/-- the range constructor -/
theorem Simple.ofRange_ok (vs : List T) {m : Mem T} {L : Root → List (Nat × T)} (h : Rep m L) {r t : Root}
    (htr : t ≠ r) (ht : L t = []) (e : L r = []) :
    ∃ m' ns, Simple.ofRange m r vs = .ok m' ∧ ns.map Prod.snd = vs ∧
      Rep m' (upd L r ns) ∧ Same m m' ∧ m.fresh ≤ m'.fresh := by
  obtain ⟨m', ns, h3, h4, h5, h6, h7⟩ := Simple.appendLoop_ok vs h htr ht e
  refine ⟨m', ns, ?_, h4, h5, h6, h7⟩
  unfold Simple.ofRange
  rw [h.initRoot e]
  dsimp only
  rw [show Loc.root r = loc (.root r) ([] : List (Nat × T)) from rfl, h3]
  rfl

/-- the constructor from a number and a value -/
theorem Simple.ofN_ok (n : Nat) (x : T) {m : Mem T} {L : Root → List (Nat × T)} (h : Rep m L) {r t : Root}
    (htr : t ≠ r) (ht : L t = []) (e : L r = []) :
    ∃ m' ns, Simple.ofN m r n x = .ok m' ∧ ns.map Prod.snd = List.replicate n x ∧
      Rep m' (upd L r ns) ∧ Same m m' ∧ m.fresh ≤ m'.fresh := by
  have e0 : L r = [] ++ [] := e
  obtain ⟨m', ns, h3, h4, h5, h6, h7⟩ := Simple.insertN_ok n h htr ht e0 x
  refine ⟨m', ns, ?_, h4, h5.congr rfl (by simp), h6, h7⟩
  unfold Simple.ofN
  rw [h.initRoot e]
  dsimp only
  rw [show Loc.root r = loc (.root r) ([] : List (Nat × T)) from rfl, h3]
  rfl

/-- the loop of the copy constructors -/
theorem Simple.copyLoop_ok (k : Nat) {m : Mem T} {L : Root → List (Nat × T)} (h : Rep m L) {r s t : Root}
    (htr : t ≠ r) (ht : L t = []) (hsr : s ≠ r) {xs ys zs : List (Nat × T)} (e : L r = xs) (es : L s = ys ++ zs)
    (hk : zs.length ≤ k) :
    ∃ m' ns, Simple.copyLoop k m (loc (.root r) xs) (zs.head?.map Prod.fst) = .ok (m', loc (.root r) (xs ++ ns)) ∧
      ns.map Prod.snd = zs.map Prod.snd ∧
      Rep m' (upd L r (xs ++ ns)) ∧ Same m m' ∧ m.fresh ≤ m'.fresh := by
  induction k generalizing m L xs ys zs with
  | zero =>
    have : zs = [] := List.eq_nil_of_length_eq_zero (by omega)
    subst this
    exact ⟨m, [], by simp [Simple.copyLoop], rfl, h.congr rfl (upd_self _ (by simp [e])).symm, Same.rfl' m, le_refl _⟩
  | succ k ih =>
    cases zs with
    | nil =>
      exact ⟨m, [], by simp [Simple.copyLoop], rfl, h.congr rfl (upd_self _ (by simp [e])).symm, Same.rfl' m, le_refl _⟩
    | cons a zs =>
      have e0 : L r = xs ++ [] := by rw [e]; simp
      have ha : a ∈ L s := by rw [es]; simp
      have h2 := h.insMem htr ht e0 a.2
      have h1 := add_ok a.2 (h.live e0) (h.ne_fresh (h.live e0)) (h.link e0)
      have e1 : upd L r (xs ++ [(m.fresh, a.2)]) r = xs ++ [(m.fresh, a.2)] := upd_same ..
      have es1 : upd L r (xs ++ [(m.fresh, a.2)]) s = (ys ++ [a]) ++ zs := by rw [upd_ne _ _ hsr, es]; simp
      obtain ⟨m', ns, h3, h4, h5, h6, h7⟩ := ih h2 (by rw [upd_ne _ _ htr, ht]) e1 es1 (by simpa using hk)
      refine ⟨m', (m.fresh, a.2) :: ns, ?_, ?_, ?_, (Same.ins m _ a.2).trans h6, ?_⟩
      · show (do
          let x ← contents m a.1
          let m1 ← reset (alloc m x).1 (loc (.root r) xs) (some (alloc m x).2)
          Simple.copyLoop k m1 (.next (alloc m x).2) (← get m1 (.next a.1))) = _
        rw [h.contents ha, Res.ok_bind, h1, Res.ok_bind]
        have := h2.get es1
        rw [loc_snoc] at this
        rw [this, Res.ok_bind]
        rw [loc_snoc] at h3
        rw [show (alloc m a.2).2 = m.fresh from rfl]
        simp only at h3
        rw [h3]
        simp
      · rw [List.map_cons, h4]; rfl
      · refine h5.congr rfl ?_
        rw [upd_upd]; simp
      · have : (insMem m (loc (.root r) xs) a.2).fresh = m.fresh + 1 := rfl
        omega

/-- the copy constructor -/
theorem Simple.copy_ok {m : Mem T} {L : Root → List (Nat × T)} (h : Rep m L) {r s t : Root}
    (htr : t ≠ r) (ht : L t = []) (hsr : s ≠ r) (e : L r = []) :
    ∃ m' ns, Simple.copy m r s = .ok m' ∧ ns.map Prod.snd = (L s).map Prod.snd ∧
      Rep m' (upd L r ns) ∧ Same m m' ∧ m.fresh ≤ m'.fresh := by
  have es : L s = [] ++ L s := rfl
  obtain ⟨m', ns, h3, h4, h5, h6, h7⟩ := Simple.copyLoop_ok (m.fresh + 1) h htr ht hsr e es
    (by have := h.length_le s; omega)
  refine ⟨m', ns, ?_, h4, h5, h6, h7⟩
  unfold Simple.copy
  rw [h.initRoot e]
  have hl : m.link (.root s) = (L s).head?.map Prod.fst := h.link es
  dsimp only
  rw [hl, show Loc.root r = loc (.root r) ([] : List (Nat × T)) from rfl, h3]
  rfl

/-- the loop of copy assignment: the nodes of the list get the contents of those of the other one, as long as there
are nodes in both -/
theorem Simple.assignLoop_ok (k : Nat) {m : Mem T} {L : Root → List (Nat × T)} (h : Rep m L) {r s : Root}
    (hsr : s ≠ r) {xs ys us vs : List (Nat × T)} (e : L r = xs ++ ys) (es : L s = us ++ vs)
    (hk : ys.length < k) :
    ∃ m' zs, Simple.assignLoop k m (loc (.root r) xs) (loc (.root s) us) =
        .ok (m', loc (.root r) (xs ++ zs), loc (.root s) (us ++ vs.take ys.length)) ∧
      zs.map Prod.snd = (vs.take ys.length).map Prod.snd ∧ zs.map Prod.fst = (ys.take vs.length).map Prod.fst ∧
      Rep m' (upd L r (xs ++ (zs ++ ys.drop vs.length))) ∧ Same m m' ∧ m'.fresh = m.fresh := by
  induction k generalizing m L xs ys us vs with
  | zero => omega
  | succ k ih =>
    unfold Simple.assignLoop
    rw [h.atEnd e, Res.ok_bind, h.atEnd es, Res.ok_bind]
    by_cases hy : ys = []
    · subst hy
      refine ⟨m, [], by simp, by simp, by simp, h.congr rfl (upd_self _ (by simp [e])).symm, Same.rfl' m, rfl⟩
    · by_cases hv : vs = []
      · subst hv
        refine ⟨m, [], by simp, by simp, by simp, h.congr rfl (upd_self _ (by simp [e])).symm, Same.rfl' m, rfl⟩
      · obtain ⟨a, ys, rfl⟩ := List.exists_cons_of_ne_nil hy
        obtain ⟨b, vs, rfl⟩ := List.exists_cons_of_ne_nil hv
        rw [if_neg (by simp), h.item es, Res.ok_bind]
        obtain ⟨m1, h1, h2, h3, h4⟩ := h.setItem e b.2
        rw [h1, Res.ok_bind]
        have e1 : upd L r (xs ++ (a.1, b.2) :: ys) r = xs ++ (a.1, b.2) :: ys := upd_same ..
        have es1 : upd L r (xs ++ (a.1, b.2) :: ys) s = us ++ b :: vs := by rw [upd_ne _ _ hsr, es]
        rw [h2.advance e1, Res.ok_bind, h2.advance es1, Res.ok_bind]
        obtain ⟨m', zs, g1, g2, g3, g4, g5, g6⟩ := ih h2 (xs := xs ++ [(a.1, b.2)]) (ys := ys) (us := us ++ [b]) (vs := vs)
          (by rw [e1]; simp) (by rw [es1]; simp) (by simpa using hk)
        refine ⟨m', (a.1, b.2) :: zs, ?_, ?_, ?_, ?_, h3.trans g5, by rw [g6, h4]⟩
        · rw [g1]; simp
        · simp [g2]
        · simp [g3]
        · refine g4.congr rfl ?_
          rw [upd_upd]; simp

theorem Simple.assignMore_ok (k : Nat) {m : Mem T} {L : Root → List (Nat × T)} (h : Rep m L) {r s t : Root}
    (htr : t ≠ r) (ht : L t = []) (hsr : s ≠ r) {xs us vs : List (Nat × T)} (e : L r = xs) (es : L s = us ++ vs)
    (hk : vs.length < k) :
    ∃ m' zs, Simple.assignMore k m (loc (.root r) xs) (loc (.root s) us) = .ok m' ∧
      zs.map Prod.snd = vs.map Prod.snd ∧
      Rep m' (upd L r (xs ++ zs)) ∧ Same m m' ∧ m.fresh ≤ m'.fresh := by
  induction k generalizing m L xs us vs with
  | zero => omega
  | succ k ih =>
    unfold Simple.assignMore
    rw [h.atEnd es, Res.ok_bind]
    cases vs with
    | nil =>
      exact ⟨m, [], by simp, rfl, h.congr rfl (upd_self _ (by simp [e])).symm, Same.rfl' m, le_refl _⟩
    | cons a vs =>
      have e0 : L r = xs ++ [] := by rw [e]; simp
      rw [if_neg (by simp), h.item es, Res.ok_bind]
      have h2 := h.insMem htr ht e0 a.2
      have h1 := add_ok a.2 (h.live e0) (h.ne_fresh (h.live e0)) (h.link e0)
      have e1 : upd L r (xs ++ [(m.fresh, a.2)]) r = xs ++ (m.fresh, a.2) :: [] := upd_same ..
      have es1 : upd L r (xs ++ [(m.fresh, a.2)]) s = us ++ a :: vs := by rw [upd_ne _ _ hsr, es]
      obtain ⟨m', ns, h3, h4, h5, h6, h7⟩ := ih h2 (xs := xs ++ [(m.fresh, a.2)]) (us := us ++ [a]) (vs := vs)
        (by rw [upd_ne _ _ htr, ht]) e1 (by rw [es1]; simp) (by simpa using hk)
      refine ⟨m', (m.fresh, a.2) :: ns, ?_, ?_, ?_, (Same.ins m _ a.2).trans h6, ?_⟩
      · show (do
          let m1 ← reset (alloc m a.2).1 (loc (.root r) xs) (some (alloc m a.2).2)
          Simple.assignMore k m1 (← advance m1 (loc (.root r) xs)) (← advance m1 (loc (.root s) us))) = _
        rw [h1, Res.ok_bind, h2.advance e1, Res.ok_bind, h2.advance es1, Res.ok_bind, h3]
      · rw [List.map_cons, h4]; rfl
      · refine h5.congr rfl ?_
        rw [upd_upd]; simp
      · have : (insMem m (loc (.root r) xs) a.2).fresh = m.fresh + 1 := rfl
        omega

/-- copy assignment -/
theorem Simple.assignCopy_ok {m : Mem T} {L : Root → List (Nat × T)} (h : Rep m L) {r s t : Root}
    (htr : t ≠ r) (ht : L t = []) :
    ∃ m' ns, Simple.assignCopy m r s = .ok m' ∧ ns.map Prod.snd = (L s).map Prod.snd ∧
      Rep m' (upd L r ns) ∧ Same m m' ∧ m.fresh ≤ m'.fresh := by
  unfold Simple.assignCopy
  by_cases hrs : r = s
  · subst hrs
    rw [if_pos rfl]
    exact ⟨m, L r, rfl, rfl, h.congr rfl (upd_self _ rfl).symm, Same.rfl' m, le_refl _⟩
  · rw [if_neg hrs]
    have e : L r = [] ++ L r := rfl
    have es : L s = [] ++ L s := rfl
    obtain ⟨m1, zs, g1, g2, g3, g4, g5, g6⟩ := Simple.assignLoop_ok (m.fresh + 1) h (Ne.symm hrs) e es
      (by have := h.length_le r; omega)
    have hloc : ∀ q : Root, loc (Loc.root q) ([] : List (Nat × T)) = .root q := fun q => rfl
    rw [hloc, hloc] at g1
    rw [g1, Res.ok_bind]
    dsimp only
    have er : upd L r ([] ++ (zs ++ (L r).drop (L s).length)) r = ([] ++ zs) ++ (L r).drop (L s).length := by
      rw [upd_same]; simp
    rw [g4.atEnd er, Res.ok_bind]
    have hlz := congrArg List.length g2
    have hlz' := congrArg List.length g3
    simp only [List.length_map, List.length_take] at hlz hlz'
    by_cases hd : (L r).drop (L s).length = []
    · rw [if_pos (by rw [hd]; rfl)]
      have hle : (L r).length ≤ (L s).length := List.drop_eq_nil_iff.mp hd
      obtain ⟨m', ns, k1, k2, k3, k4, k5⟩ := Simple.assignMore_ok (m1.fresh + 1) g4 htr
        (by rw [upd_ne _ _ htr, ht]) (Ne.symm hrs) (xs := [] ++ zs) (us := [] ++ (L s).take (L r).length)
        (vs := (L s).drop (L r).length) (by rw [er, hd]; simp)
        (by rw [upd_ne _ _ (Ne.symm hrs)]; simp) (by
          have := g4.length_le s
          rw [upd_ne _ _ (Ne.symm hrs)] at this
          rw [List.length_drop]; omega)
      refine ⟨m', zs ++ ns, k1, ?_, ?_, g5.trans k4, by omega⟩
      · rw [List.map_append, g2, k2, ← List.map_append, List.take_append_drop]
      · refine k3.congr rfl ?_
        rw [upd_upd]; simp
    · rw [if_neg (by simpa using hd)]
      obtain ⟨m', k1, k2, k3, k4⟩ := g4.reset er
      refine ⟨m', zs, k1, ?_, ?_, g5.trans k3, by omega⟩
      · have : (L s).length ≤ (L r).length := by
          by_contra hlt
          exact hd (List.drop_eq_nil_iff.mpr (by omega))
        rw [g2, List.take_of_length_le this]
      · refine k2.congr rfl ?_
        rw [upd_upd]; simp

/-- `clear` -/
theorem Simple.clear_ok {m : Mem T} {L : Root → List (Nat × T)} (h : Rep m L) (r : Root) :
    ∃ m', Simple.clear m r = .ok m' ∧ Rep m' (upd L r []) ∧ Same m m' ∧ m'.fresh = m.fresh :=
  h.reset (xs := []) rfl

/-- `pop_front` and `erase` -/
theorem Simple.erase_ok {m : Mem T} {L : Root → List (Nat × T)} (h : Rep m L) {r t : Root} (htr : t ≠ r)
    (ht : L t = []) {xs ys : List (Nat × T)} {a : Nat × T} (e : L r = xs ++ a :: ys) :
    ∃ m', Simple.erase m (loc (.root r) xs) = .ok (m', loc (.root r) xs) ∧ Rep m' (upd L r (xs ++ ys)) ∧ Same m m' ∧
      m'.fresh = m.fresh := by
  obtain ⟨m', h1, h2, h3, h4⟩ := h.drop htr ht (xs := xs) (ys := [a]) (zs := ys) e
  rw [loc_snoc] at h1
  unfold Simple.erase
  rw [h.node e, Res.ok_bind, h1]
  exact ⟨m', rfl, h2, h3, h4⟩

/-- `erase(first,last)` -/
theorem Simple.eraseRange_ok {m : Mem T} {L : Root → List (Nat × T)} (h : Rep m L) {r t : Root} (htr : t ≠ r)
    (ht : L t = []) {xs ys zs : List (Nat × T)} (e : L r = xs ++ (ys ++ zs)) :
    ∃ m', Simple.eraseRange m (loc (.root r) xs) (loc (.root r) (xs ++ ys)) = .ok (m', loc (.root r) xs) ∧
      Rep m' (upd L r (xs ++ zs)) ∧ Same m m' ∧ m'.fresh = m.fresh := by
  obtain ⟨m', h1, h2, h3, h4⟩ := h.drop htr ht (xs := xs) (ys := ys) (zs := zs) e
  unfold Simple.eraseRange
  rw [h1]
  exact ⟨m', rfl, h2, h3, h4⟩

theorem Simple.popFront_ok {m : Mem T} {L : Root → List (Nat × T)} (h : Rep m L) {r t : Root} (htr : t ≠ r)
    (ht : L t = []) {ys : List (Nat × T)} {a : Nat × T} (e : L r = a :: ys) :
    ∃ m', Simple.popFront m r = .ok m' ∧ Rep m' (upd L r ys) ∧ Same m m' ∧ m'.fresh = m.fresh := by
  obtain ⟨m', h1, h2, h3, h4⟩ := h.drop htr ht (xs := []) (ys := [a]) (zs := ys) e
  unfold Simple.popFront
  have := h.node (xs := []) e
  rw [show Loc.root r = loc (.root r) ([] : List (Nat × T)) from rfl, this]
  exact ⟨m', h1, h2, h3, h4⟩

/-- the loop of `assign(n,x)` -/
theorem Simple.fillLoop_ok (k n : Nat) (x : T) {m : Mem T} {L : Root → List (Nat × T)} (h : Rep m L) {r : Root}
    {xs ys : List (Nat × T)} (e : L r = xs ++ ys) (hk : ys.length < k) :
    ∃ m' zs, Simple.fillLoop x k m (loc (.root r) xs) n = .ok (m', loc (.root r) (xs ++ zs), n - ys.length) ∧
      zs.map Prod.snd = List.replicate (min n ys.length) x ∧ zs.map Prod.fst = (ys.take n).map Prod.fst ∧
      Rep m' (upd L r (xs ++ (zs ++ ys.drop n))) ∧ Same m m' ∧ m'.fresh = m.fresh := by
  induction k generalizing m L xs ys n with
  | zero => omega
  | succ k ih =>
    unfold Simple.fillLoop
    rw [h.atEnd e, Res.ok_bind]
    cases ys with
    | nil => exact ⟨m, [], by simp, by simp, by simp, h.congr rfl (upd_self _ (by simp [e])).symm, Same.rfl' m, rfl⟩
    | cons a ys =>
      rw [if_neg (by simp)]
      by_cases hn : n = 0
      · subst hn
        rw [if_pos rfl]
        exact ⟨m, [], by simp, by simp, by simp, h.congr rfl (upd_self _ (by simp [e])).symm, Same.rfl' m, rfl⟩
      · rw [if_neg hn]
        obtain ⟨m1, h1, h2, h3, h4⟩ := h.setItem e x
        have e1 : upd L r (xs ++ (a.1, x) :: ys) r = xs ++ (a.1, x) :: ys := upd_same ..
        rw [h1, Res.ok_bind, h2.advance e1, Res.ok_bind]
        obtain ⟨m', zs, g1, g2, g3, g4, g5, g6⟩ := ih (n - 1) h2 (xs := xs ++ [(a.1, x)]) (ys := ys)
          (by rw [e1]; simp) (by simpa using hk)
        obtain ⟨j, rfl⟩ := Nat.exists_eq_succ_of_ne_zero hn
        refine ⟨m', (a.1, x) :: zs, ?_, ?_, ?_, ?_, h3.trans g5, by rw [g6, h4]⟩
        · rw [g1]; simp
        · rw [List.map_cons, g2]
          show x :: List.replicate (min j ys.length) x = List.replicate (min (j + 1) (ys.length + 1)) x
          rw [Nat.add_min_add_right, List.replicate_succ]
        · simp only [List.map_cons, g3]; simp
        · refine g4.congr rfl ?_
          rw [upd_upd]; simp

/-- `assign(n,x)` -/
theorem Simple.assignN_ok (n : Nat) (x : T) {m : Mem T} {L : Root → List (Nat × T)} (h : Rep m L) {r t : Root}
    (htr : t ≠ r) (ht : L t = []) :
    ∃ m' ns, Simple.assignN m r n x = .ok m' ∧ ns.map Prod.snd = List.replicate n x ∧
      Rep m' (upd L r ns) ∧ Same m m' ∧ m.fresh ≤ m'.fresh := by
  have e : L r = [] ++ L r := rfl
  unfold Simple.assignN
  obtain ⟨m1, zs, g1, g2, g3, g4, g5, g6⟩ := Simple.fillLoop_ok (m.fresh + 1) n x h e
    (by have := h.length_le r; omega)
  rw [show loc (Loc.root r) ([] : List (Nat × T)) = .root r from rfl] at g1
  rw [g1, Res.ok_bind]
  dsimp only
  have er : upd L r ([] ++ (zs ++ (L r).drop n)) r = ([] ++ zs) ++ (L r).drop n := by rw [upd_same]; simp
  rw [g4.atEnd er, Res.ok_bind]
  by_cases hd : (L r).drop n = []
  · rw [if_pos (by rw [hd]; rfl)]
    have hle : (L r).length ≤ n := List.drop_eq_nil_iff.mp hd
    obtain ⟨m', ns, k1, k2, k3, k4, k5⟩ := Simple.insertNLoop_ok (n - (L r).length) g4 htr
      (by rw [upd_ne _ _ htr, ht]) er x
    refine ⟨m', zs ++ ns, k1, ?_, ?_, g5.trans k4, by omega⟩
    · rw [List.map_append, g2, k2, List.replicate_append_replicate]
      congr 1; omega
    · refine k3.congr rfl ?_
      rw [upd_upd, hd]; simp
  · rw [if_neg (by simpa using hd)]
    obtain ⟨m', k1, k2, k3, k4⟩ := g4.reset er
    refine ⟨m', zs, k1, ?_, ?_, g5.trans k3, by omega⟩
    · rw [g2]
      have : n ≤ (L r).length := by
        by_contra hlt
        exact hd (List.drop_eq_nil_iff.mpr (by omega))
      rw [Nat.min_eq_left this]
    · refine k2.congr rfl ?_
      rw [upd_upd]; simp

/-- the loop of `assign(first,last)` -/
theorem Simple.overLoop_ok (vs : List T) {m : Mem T} {L : Root → List (Nat × T)} (h : Rep m L) {r : Root}
    {xs ys : List (Nat × T)} (e : L r = xs ++ ys) :
    ∃ m' zs, Simple.overLoop vs m (loc (.root r) xs) = .ok (m', loc (.root r) (xs ++ zs), vs.drop ys.length) ∧
      zs.map Prod.snd = vs.take ys.length ∧ zs.map Prod.fst = (ys.take vs.length).map Prod.fst ∧
      Rep m' (upd L r (xs ++ (zs ++ ys.drop vs.length))) ∧ Same m m' ∧ m'.fresh = m.fresh := by
  induction vs generalizing m L xs ys with
  | nil => exact ⟨m, [], by simp [Simple.overLoop], by simp, by simp, h.congr rfl (upd_self _ (by simp [e])).symm, Same.rfl' m, rfl⟩
  | cons x vs ih =>
    unfold Simple.overLoop
    rw [h.atEnd e, Res.ok_bind]
    cases ys with
    | nil => exact ⟨m, [], by simp, by simp, by simp, h.congr rfl (upd_self _ (by simp [e])).symm, Same.rfl' m, rfl⟩
    | cons a ys =>
      rw [if_neg (by simp)]
      obtain ⟨m1, h1, h2, h3, h4⟩ := h.setItem e x
      have e1 : upd L r (xs ++ (a.1, x) :: ys) r = xs ++ (a.1, x) :: ys := upd_same ..
      rw [h1, Res.ok_bind, h2.advance e1, Res.ok_bind]
      obtain ⟨m', zs, g1, g2, g3, g4, g5, g6⟩ := ih h2 (xs := xs ++ [(a.1, x)]) (ys := ys)
        (by rw [e1]; simp)
      refine ⟨m', (a.1, x) :: zs, ?_, ?_, ?_, ?_, h3.trans g5, by rw [g6, h4]⟩
      · rw [g1]; simp
      · simp [g2]
      · simp only [List.map_cons, g3]; simp
      · refine g4.congr rfl ?_
        rw [upd_upd]; simp

/-- `assign(first,last)` -/
theorem Simple.assignRange_ok (vs : List T) {m : Mem T} {L : Root → List (Nat × T)} (h : Rep m L) {r t : Root}
    (htr : t ≠ r) (ht : L t = []) :
    ∃ m' ns, Simple.assignRange m r vs = .ok m' ∧ ns.map Prod.snd = vs ∧
      Rep m' (upd L r ns) ∧ Same m m' ∧ m.fresh ≤ m'.fresh := by
  have e : L r = [] ++ L r := rfl
  unfold Simple.assignRange
  obtain ⟨m1, zs, g1, g2, g3, g4, g5, g6⟩ := Simple.overLoop_ok vs h e
  rw [show loc (Loc.root r) ([] : List (Nat × T)) = .root r from rfl] at g1
  rw [g1, Res.ok_bind]
  dsimp only
  have er : upd L r ([] ++ (zs ++ (L r).drop vs.length)) r = ([] ++ zs) ++ (L r).drop vs.length := by
    rw [upd_same]; simp
  rw [g4.atEnd er, Res.ok_bind]
  by_cases hd : (L r).drop vs.length = []
  · rw [if_pos (by rw [hd]; rfl)]
    obtain ⟨m', ns, k1, k2, k3, k4, k5⟩ := Simple.appendLoop_ok (vs.drop (L r).length) g4 htr
      (by rw [upd_ne _ _ htr, ht]) (xs := [] ++ zs) (by rw [er, hd]; simp)
    refine ⟨m', zs ++ ns, by rw [k1]; rfl, ?_, ?_, g5.trans k4, by omega⟩
    · rw [List.map_append, g2, k2, List.take_append_drop]
    · refine k3.congr rfl ?_
      rw [upd_upd]; simp
  · rw [if_neg (by simpa using hd)]
    obtain ⟨m', k1, k2, k3, k4⟩ := g4.reset er
    refine ⟨m', zs, k1, ?_, ?_, g5.trans k3, by omega⟩
    · rw [g2]
      have : vs.length ≤ (L r).length := by
        by_contra hlt
        exact hd (List.drop_eq_nil_iff.mpr (by omega))
      rw [List.take_of_length_le this]
    · refine k2.congr rfl ?_
      rw [upd_upd]; simp

end Verif.SL
