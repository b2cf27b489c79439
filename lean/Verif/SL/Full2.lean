import Verif.SL.Full
/-
What the functions of `sl_list` do to the lists in memory, and to the fields `tail` and `node_count`: copying, moving,
assignment, removal.
-/
namespace Verif.SL
variable {T : Type}

theorem loc_fst {p : Loc} {xs ys : List (Nat × T)} (h : xs.map Prod.fst = ys.map Prod.fst) : loc p xs = loc p ys := by
  induction xs generalizing p ys with
  | nil => cases ys with
    | nil => rfl
    | cons b ys => simp at h
  | cons a xs ih =>
    cases ys with
    | nil => simp at h
    | cons b ys =>
      simp only [List.map_cons, List.cons.injEq] at h
      show loc (.next a.1) xs = loc (.next b.1) ys
      rw [h.1]; exact ih h.2

/-- a position is `end()` if no nodes come after it -/
theorem Rep.tail_iff {m : Mem T} {L : Root → List (Nat × T)} (h : Rep m L) {r : Root} {xs ys : List (Nat × T)}
    (e : L r = xs ++ ys) (hd : Tidy m r (L r)) : loc (.root r) xs = m.tail r ↔ ys = [] := by
  rw [hd.1]
  constructor
  · intro heq
    have := (h.loc_inj e (zs := L r) (ws := []) (by simp) heq).2
    rw [e] at this
    exact List.self_eq_append_right.mp this
  · intro hy; rw [e, hy]; simp

/-- the copy constructor -/
theorem Full.copy_ok {m : Mem T} {L : Root → List (Nat × T)} (h : Rep m L) {r s t : Root}
    (htr : t ≠ r) (ht : L t = []) (hsr : s ≠ r) (e : L r = []) (hs : Tidy m s (L s)) :
    ∃ m' ns, Full.copy m r s = .ok m' ∧ ns.map Prod.snd = (L s).map Prod.snd ∧
      Rep m' (upd L r ns) ∧ Tidy m' r ns ∧ Keep m m' [r] ∧ m.fresh ≤ m'.fresh := by
  unfold Full.copy
  rw [Full.make_ok h e]
  have h1 : Rep (SL.setCount (SL.setEmpty m r) r (m.count s)) L := h.fields rfl rfl rfl
  obtain ⟨m1, ns, a1, a2, a3, a4, a5⟩ := Simple.copyLoop_ok (m.fresh + 1) h1 htr ht hsr (xs := []) (ys := []) (zs := L s) e rfl
    (by have := h.length_le s; omega)
  rw [← root_loc] at a1
  rw [← h1.link (r := s) (xs := []) (ys := L s) rfl] at a1
  dsimp only
  refine ⟨SL.setTail m1 r (loc (.root r) ns), ns, ?_, a2, a3.setTail r _, ⟨?_, ?_⟩, ?_, a5⟩
  · have : (SL.setCount (SL.setEmpty m r) r (m.count s)).fresh + 1 = m.fresh + 1 := rfl
    rw [this]
    rw [show (SL.setCount (SL.setEmpty m r) r (m.count s)).link (.root s) =
      (SL.setCount (SL.setEmpty m r) r (m.count s)).link (loc (Loc.root s) ([] : List (Nat × T))) from rfl]
    rw [a1, Res.ok_bind]
    rfl
  · exact upd_same _ _ _
  · show m1.count r = _
    rw [a4.2]
    show upd _ r (m.count s) r = _
    rw [upd_same, hs.2]
    have := congrArg List.length a2
    simp only [List.length_map] at this
    rw [this]
  · refine Keep.trans (m' := SL.setCount (SL.setEmpty m r) r (m.count s)) ?_ ((a4.keep _).trans (Keep.setTail _ _ _))
    exact (Keep.setEmpty m r).trans (Keep.setCount _ _ _)

/-- the move constructor -/
theorem Full.moveCtor_ok {m : Mem T} {L : Root → List (Nat × T)} (h : Rep m L) {r s : Root} (hrs : r ≠ s)
    (e : L r = []) (hs : Tidy m s (L s)) :
    ∃ m', Full.moveCtor m r s = .ok m' ∧ Rep m' (upd (upd L r (L s)) s []) ∧ Tidy m' r (L s) ∧ Tidy m' s [] ∧
      Keep m m' [r, s] ∧ m.fresh ≤ m'.fresh := by
  obtain ⟨m1, a1, a2, a3, a4⟩ := h.moveLink hrs (xs := []) (zs := []) (ys := []) (ws := L s) e rfl
  rw [← root_loc, ← root_loc] at a1
  unfold Full.moveCtor
  rw [h.initRoot e]
  dsimp only
  rw [a1, Res.ok_bind]
  refine ⟨_, rfl, ((a2.setTail r _).setCount r _).setEmpty s, ⟨?_, ?_⟩, Tidy.setEmpty _ _, ?_, a4.ge⟩
  · show upd (upd m1.tail r _) s (.root s) r = _
    rw [upd_ne _ _ hrs, upd_same]
    have := Full.empty_ok (hs.same a3)
    rw [this, a3.1, hs.1]
    rcases L s with _ | ⟨a, zs⟩
    · rw [if_pos (by rfl)]; rfl
    · rw [if_neg (by simp)]; rfl
  · show upd (upd m1.count r (m1.count s)) s 0 r = _
    rw [upd_ne _ _ hrs, upd_same, a3.2, hs.2]
  · refine (a3.keep _).trans ((((Keep.setTail m1 r _).mono (by simp)).trans ((Keep.setCount _ r _).mono (by simp))).trans
      ((Keep.setEmpty _ s).mono (by simp)))

theorem Full.dressLoop_ok (k : Nat) {m : Mem T} {L : Root → List (Nat × T)} (h : Rep m L) {r : Root}
    {xs ys : List (Nat × T)} (e : L r = xs ++ ys) (hk : ys.length < k) :
    Full.dressLoop k m (loc (.root r) xs) (xs.length % 2 ^ 64) = .ok (loc (.root r) (L r), (L r).length % 2 ^ 64) := by
  induction k generalizing xs ys with
  | zero => omega
  | succ k ih =>
    unfold Full.dressLoop
    rw [h.get e, Res.ok_bind]
    cases ys with
    | nil =>
      show Res.ok _ = _
      rw [e]; simp
    | cons a ys =>
      dsimp only [List.head?_cons, Option.map_some]
      have := ih (xs := xs ++ [a]) (ys := ys) (by rw [e]; simp) (by simpa using hk)
      rw [loc_snoc] at this
      rw [← this]
      congr 1
      simp

/-- the constructor from a `simple_list` -/
theorem Full.dress_ok {m : Mem T} {L : Root → List (Nat × T)} (h : Rep m L) {r s : Root} (hrs : r ≠ s)
    (e : L r = []) :
    ∃ m', Full.dress m r s = .ok m' ∧ Rep m' (upd (upd L r (L s)) s []) ∧ Tidy m' r (L s) ∧
      Keep m m' [r] ∧ m.fresh ≤ m'.fresh := by
  obtain ⟨m1, a1, a2, a3, a4⟩ := h.moveLink hrs (xs := []) (zs := []) (ys := []) (ws := L s) e rfl
  rw [← root_loc, ← root_loc] at a1
  unfold Full.dress
  rw [h.initRoot e]
  dsimp only
  rw [a1, Res.ok_bind]
  have e1 : upd (upd L r ([] ++ L s)) s [] r = [] ++ L s := by rw [upd_ne _ _ hrs, upd_same]
  have b1 := Full.dressLoop_ok (m1.fresh + 1) a2 e1 (by have := a2.length_le r; rw [e1] at this; simpa using Nat.lt_succ_of_le this)
  rw [← root_loc, e1] at b1
  rw [show (0 : Nat) = ([] : List (Nat × T)).length % 2 ^ 64 from rfl, b1, Res.ok_bind]
  refine ⟨_, rfl, (a2.setTail r _).setCount r _, ⟨upd_same _ _ _, upd_same _ _ _⟩, ?_, a4.ge⟩
  exact (a3.keep _).trans ((Keep.setTail m1 r _).trans (Keep.setCount _ r _))

/-- `undress` -/
theorem Full.undress_ok {m : Mem T} {L : Root → List (Nat × T)} (h : Rep m L) {r s : Root} (hrs : r ≠ s)
    (e : L s = []) :
    ∃ m', Full.undress m r s = .ok m' ∧ Rep m' (upd (upd L s (L r)) r []) ∧ Tidy m' r [] ∧
      Keep m m' [r] ∧ m.fresh ≤ m'.fresh := by
  unfold Full.undress
  have h1 := h.setEmpty r
  have : ({ SL.setEmpty m r with link := upd m.link (.root s) none } : Mem T) = SL.setEmpty m r := h1.initRoot e
  rw [this]
  obtain ⟨m1, a1, a2, a3, a4⟩ := h1.moveLink hrs.symm (xs := []) (zs := []) (ys := []) (ws := L r) e rfl
  rw [← root_loc, ← root_loc] at a1
  exact ⟨m1, a1, a2, (Tidy.setEmpty m r).same a3, (Keep.setEmpty m r).trans (a3.keep _), a4.ge⟩

theorem Full.fillLoop_ok (k n : Nat) (x : T) {m : Mem T} {L : Root → List (Nat × T)} (h : Rep m L) {r : Root}
    {xs ys : List (Nat × T)} (e : L r = xs ++ ys) (hd : m.tail r = loc (.root r) (L r)) (hk : ys.length < k) :
    ∃ m' zs, Full.fillLoop r x k m (loc (.root r) xs) n = .ok (m', loc (.root r) (xs ++ zs), n - ys.length) ∧
      zs.map Prod.snd = List.replicate (min n ys.length) x ∧ zs.map Prod.fst = (ys.take n).map Prod.fst ∧
      Rep m' (upd L r (xs ++ (zs ++ ys.drop n))) ∧ Same m m' ∧ m'.fresh = m.fresh := by
  induction k generalizing m L xs ys n with
  | zero => omega
  | succ k ih =>
    unfold Full.fillLoop
    cases ys with
    | nil =>
      rw [if_pos (by rw [hd, e]; simp)]
      exact ⟨m, [], by simp, by simp, by simp, h.congr rfl (upd_self _ (by simp [e])).symm, Same.rfl' m, rfl⟩
    | cons a ys =>
      rw [if_neg (fun heq => by
        rw [hd] at heq
        have := (h.loc_inj e (zs := L r) (ws := []) (by simp) heq).2
        rw [e] at this; simp at this)]
      by_cases hn : n = 0
      · subst hn
        rw [if_pos rfl]
        exact ⟨m, [], by simp, by simp, by simp, h.congr rfl (upd_self _ (by simp [e])).symm, Same.rfl' m, rfl⟩
      · rw [if_neg hn]
        obtain ⟨m1, h1, h2, h3, h4⟩ := h.setItem e x
        have e1 : upd L r (xs ++ (a.1, x) :: ys) r = xs ++ (a.1, x) :: ys := upd_same ..
        rw [h1, Res.ok_bind, h2.advance e1, Res.ok_bind]
        obtain ⟨m', zs, g1, g2, g3, g4, g5, g6⟩ := ih (n - 1) h2 (xs := xs ++ [(a.1, x)]) (ys := ys)
          (by rw [e1]; simp) (by rw [h3.1, hd, e1, e]; exact loc_fst (by simp)) (by simpa using hk)
        obtain ⟨j, rfl⟩ := Nat.exists_eq_succ_of_ne_zero hn
        refine ⟨m', (a.1, x) :: zs, ?_, ?_, ?_, ?_, h3.trans g5, by rw [g6, h4]⟩
        · rw [g1]; simp
        · rw [List.map_cons, g2]
          show x :: List.replicate (min j ys.length) x = List.replicate (min (j + 1) (ys.length + 1)) x
          rw [Nat.add_min_add_right, List.replicate_succ]
        · simp only [List.map_cons, g3]; simp
        · refine g4.congr rfl ?_
          rw [upd_upd]; simp

/-- `assign(n,x)` -/
theorem Full.assignN_ok (n : Nat) (x : T) (hn : n < 2 ^ 64) {m : Mem T} {L : Root → List (Nat × T)} (h : Rep m L) {r t : Root}
    (htr : t ≠ r) (ht : L t = []) (hd : Tidy m r (L r)) :
    ∃ m' ns, Full.assignN m r n x = .ok m' ∧ ns.map Prod.snd = List.replicate n x ∧
      Rep m' (upd L r ns) ∧ Tidy m' r ns ∧ Keep m m' [r] ∧ m.fresh ≤ m'.fresh := by
  have e : L r = [] ++ L r := rfl
  unfold Full.assignN
  obtain ⟨m1, zs, g1, g2, g3, g4, g5, g6⟩ := Full.fillLoop_ok (m.fresh + 1) n x h e hd.1
    (by have := h.length_le r; omega)
  rw [← root_loc] at g1
  rw [g1, Res.ok_bind]
  dsimp only
  have er : upd L r ([] ++ (zs ++ (L r).drop n)) r = ([] ++ zs) ++ (L r).drop n := by rw [upd_same]; simp
  have hz : zs.length = min n (L r).length := by
    have := congrArg List.length g2
    simpa using this
  have hd1 : Tidy m1 r (upd L r ([] ++ (zs ++ (L r).drop n)) r) := by
    rw [er]
    refine ⟨?_, ?_⟩
    · rw [g5.1, hd.1]
      apply loc_fst
      rw [List.nil_append, List.map_append, g3, ← List.map_append, List.take_append_drop]
    · rw [g5.2, hd.2]
      simp [hz]
      congr 1; omega
  have hti := g4.tail_iff er hd1
  by_cases hdr : (L r).drop n = []
  · rw [if_pos (hti.mpr hdr)]
    have hle : (L r).length ≤ n := List.drop_eq_nil_iff.mp hdr
    obtain ⟨m', ns, k1, k2, k3, k4, k5, k6⟩ := Full.insertN_ok (n - (L r).length) x g4 htr
      (by rw [upd_ne _ _ htr, ht]) er hd1
    rw [k1, Res.ok_bind]
    rw [hdr] at k3 k4
    refine ⟨m', zs ++ ns, rfl, ?_, k3.congr rfl ?_, by simpa using k4, (g5.keep _).trans k5, by omega⟩
    · rw [List.map_append, g2, k2, List.replicate_append_replicate]
      congr 1; omega
    · rw [upd_upd]; simp
  · rw [if_neg (fun hc => hdr (hti.mp hc))]
    have hlt : n ≤ (L r).length := by
      by_contra hlt
      exact hdr (List.drop_eq_nil_iff.mpr (by omega))
    obtain ⟨m', k1, k2, k3, k4⟩ := (g4.setTail r (loc (.root r) ([] ++ zs))).reset er
    rw [k1, Res.ok_bind]
    refine ⟨_, zs, rfl, ?_, (k2.congr rfl ?_).setCount r n, ⟨?_, ?_⟩, ?_, ?_⟩
    · rw [g2, Nat.min_eq_left hlt]
    · rw [upd_upd]; simp
    · show m'.tail r = _
      rw [k3.1]
      show upd _ r _ r = _
      rw [upd_same]; rfl
    · show upd _ r n r = _
      rw [upd_same, hz, Nat.min_eq_left hlt, Nat.mod_eq_of_lt hn]
    · exact ((g5.keep _).trans (Keep.setTail m1 r _)).trans ((k3.keep _).trans (Keep.setCount _ _ _))
    · show _ ≤ m'.fresh
      rw [k4]; exact g6.ge

theorem Full.overLoop_ok (vs : List T) {m : Mem T} {L : Root → List (Nat × T)} (h : Rep m L) {r : Root}
    {xs ys : List (Nat × T)} (e : L r = xs ++ ys) (hd : m.tail r = loc (.root r) (L r)) :
    ∃ m' zs, Full.overLoop r vs m (loc (.root r) xs) = .ok (m', loc (.root r) (xs ++ zs), vs.drop ys.length) ∧
      zs.map Prod.snd = vs.take ys.length ∧ zs.map Prod.fst = (ys.take vs.length).map Prod.fst ∧
      Rep m' (upd L r (xs ++ (zs ++ ys.drop vs.length))) ∧ Same m m' ∧ m'.fresh = m.fresh := by
  induction vs generalizing m L xs ys with
  | nil => exact ⟨m, [], by simp [Full.overLoop], by simp, by simp, h.congr rfl (upd_self _ (by simp [e])).symm, Same.rfl' m, rfl⟩
  | cons x vs ih =>
    unfold Full.overLoop
    cases ys with
    | nil =>
      rw [if_pos (by rw [hd, e]; simp)]
      exact ⟨m, [], by simp, by simp, by simp, h.congr rfl (upd_self _ (by simp [e])).symm, Same.rfl' m, rfl⟩
    | cons a ys =>
      rw [if_neg (fun heq => by
        rw [hd] at heq
        have := (h.loc_inj e (zs := L r) (ws := []) (by simp) heq).2
        rw [e] at this; simp at this)]
      obtain ⟨m1, h1, h2, h3, h4⟩ := h.setItem e x
      have e1 : upd L r (xs ++ (a.1, x) :: ys) r = xs ++ (a.1, x) :: ys := upd_same ..
      rw [h1, Res.ok_bind, h2.advance e1, Res.ok_bind]
      obtain ⟨m', zs, g1, g2, g3, g4, g5, g6⟩ := ih h2 (xs := xs ++ [(a.1, x)]) (ys := ys)
        (by rw [e1]; simp) (by rw [h3.1, hd, e1, e]; exact loc_fst (by simp))
      refine ⟨m', (a.1, x) :: zs, ?_, ?_, ?_, ?_, h3.trans g5, by rw [g6, h4]⟩
      · rw [g1]; simp
      · simp [g2]
      · simp only [List.map_cons, g3]; simp
      · refine g4.congr rfl ?_
        rw [upd_upd]; simp

/-- `assign(first,last)` -/
theorem Full.assignRange_ok (vs : List T) {m : Mem T} {L : Root → List (Nat × T)} (h : Rep m L) {r t : Root}
    (htr : t ≠ r) (ht : L t = []) (hd : Tidy m r (L r)) :
    ∃ m' ns, Full.assignRange m r vs = .ok m' ∧ ns.map Prod.snd = vs ∧
      Rep m' (upd L r ns) ∧ Tidy m' r ns ∧ Keep m m' [r] ∧ m.fresh ≤ m'.fresh := by
  have e : L r = [] ++ L r := rfl
  unfold Full.assignRange
  obtain ⟨m1, zs, g1, g2, g3, g4, g5, g6⟩ := Full.overLoop_ok vs h e hd.1
  rw [← root_loc] at g1
  rw [g1, Res.ok_bind]
  dsimp only
  have er : upd L r ([] ++ (zs ++ (L r).drop vs.length)) r = ([] ++ zs) ++ (L r).drop vs.length := by
    rw [upd_same]; simp
  have hz : zs.length = min (L r).length vs.length := by
    have := congrArg List.length g2
    simpa using this
  have hd1 : Tidy m1 r (upd L r ([] ++ (zs ++ (L r).drop vs.length)) r) := by
    rw [er]
    refine ⟨?_, ?_⟩
    · rw [g5.1, hd.1]
      apply loc_fst
      rw [List.nil_append, List.map_append, g3, ← List.map_append, List.take_append_drop]
    · rw [g5.2, hd.2]
      simp [hz]
      congr 1; omega
  have hti := g4.tail_iff er hd1
  by_cases hdr : (L r).drop vs.length = []
  · rw [if_pos (hti.mpr hdr)]
    obtain ⟨m', ns, k1, k2, k3, k4, k5, k6⟩ := Full.appendRange_ok (vs.drop (L r).length) g4 htr
      (by rw [upd_ne _ _ htr, ht]) hd1
    rw [k1, Res.ok_bind]
    rw [er, hdr] at k3 k4
    refine ⟨m', zs ++ ns, rfl, ?_, k3.congr rfl ?_, by simpa using k4, (g5.keep _).trans k5, by omega⟩
    · rw [List.map_append, g2, k2, List.take_append_drop]
    · rw [upd_upd]; simp
  · rw [if_neg (fun hc => hdr (hti.mp hc))]
    have hlt : vs.length ≤ (L r).length := by
      by_contra hlt
      exact hdr (List.drop_eq_nil_iff.mpr (by omega))
    obtain ⟨m', k1, k2, k3, k4⟩ := (g4.setTail r (loc (.root r) ([] ++ zs))).reset er
    rw [k1, Res.ok_bind]
    refine ⟨_, zs, rfl, ?_, (k2.congr rfl ?_).setCount r _, ⟨?_, ?_⟩, ?_, ?_⟩
    · rw [g2, List.take_of_length_le hlt]
    · rw [upd_upd]; simp
    · show m'.tail r = _
      rw [k3.1]
      show upd _ r _ r = _
      rw [upd_same]; rfl
    · show upd _ r _ r = _
      rw [upd_same, hz, Nat.min_eq_right hlt, List.length_drop]
      congr 1; omega
    · exact ((g5.keep _).trans (Keep.setTail m1 r _)).trans ((k3.keep _).trans (Keep.setCount _ _ _))
    · show _ ≤ m'.fresh
      rw [k4]; exact g6.ge

/-- copy assignment -/
theorem Full.assignCopy_ok {m : Mem T} {L : Root → List (Nat × T)} (h : Rep m L) {r s t : Root}
    (htr : t ≠ r) (ht : L t = []) (hd : Tidy m r (L r)) :
    ∃ m' ns, Full.assignCopy m r s = .ok m' ∧ ns.map Prod.snd = (L s).map Prod.snd ∧
      Rep m' (upd L r ns) ∧ Tidy m' r ns ∧ Keep m m' [r] ∧ m.fresh ≤ m'.fresh := by
  unfold Full.assignCopy
  by_cases hrs : r = s
  · subst hrs
    rw [if_pos rfl]
    exact ⟨m, L r, rfl, rfl, h.congr rfl (upd_self L rfl).symm, hd, Keep.refl _ _, le_refl _⟩
  · rw [if_neg hrs, Simple.toVector_ok h, Res.ok_bind]
    exact Full.assignRange_ok _ h htr ht hd

/-- move assignment from another list -/
theorem Full.assignMove_ok {m : Mem T} {L : Root → List (Nat × T)} (h : Rep m L) {r s : Root} (hrs : r ≠ s)
    (hs : Tidy m s (L s)) :
    ∃ m', Full.assignMove m r s = .ok m' ∧ Rep m' (upd (upd L r (L s)) s []) ∧ Tidy m' r (L s) ∧ Tidy m' s [] ∧
      Keep m m' [r, s] ∧ m.fresh ≤ m'.fresh := by
  unfold Full.assignMove
  have hl := h.link (r := s) (xs := []) (ys := L s) rfl
  rw [show Loc.root s = loc (.root s) ([] : List (Nat × T)) from rfl, hl]
  rcases es : L s with _ | ⟨a, zs⟩
  · rw [if_pos (by rfl)]
    obtain ⟨m1, a1, a2, a3, a4, a5⟩ := Full.clear_ok h r
    refine ⟨m1, a1, a2.congr rfl ?_, a3, ?_, a4.mono (by simp), a5⟩
    · rw [upd_self (f := upd L r []) (a := s) (by rw [upd_ne _ _ hrs.symm, es])]
    · have := hs.keep a4 (by simpa using hrs.symm)
      rw [es] at this; exact this
  · rw [if_neg (by simp)]
    obtain ⟨m1, a1, a2, a3, a4⟩ := h.moveLink hrs (xs := []) (zs := []) (ys := L r) (ws := a :: zs) rfl es
    rw [← root_loc r] at a1
    rw [a1, Res.ok_bind]
    refine ⟨_, rfl, ((a2.setTail r _).setCount r _).setEmpty s, ⟨?_, ?_⟩, Tidy.setEmpty _ _, ?_, a4.ge⟩
    · show upd (upd m1.tail r (m1.tail s)) s (.root s) r = _
      rw [upd_ne _ _ hrs, upd_same, a3.1, hs.1, es]; rfl
    · show upd (upd m1.count r (m1.count s)) s 0 r = _
      rw [upd_ne _ _ hrs, upd_same, a3.2, hs.2, es]
    · refine (a3.keep _).trans ((((Keep.setTail m1 r _).mono (by simp)).trans ((Keep.setCount _ r _).mono (by simp))).trans
        ((Keep.setEmpty _ s).mono (by simp)))

/-- `swap` with another list -/
theorem Full.swap_ok {m : Mem T} {L : Root → List (Nat × T)} (h : Rep m L) {r s : Root} (hrs : r ≠ s)
    (hd : Tidy m r (L r)) (hs : Tidy m s (L s)) :
    ∃ m', Full.swap m r s = .ok m' ∧ Rep m' (upd (upd L r (L s)) s (L r)) ∧ Tidy m' r (L s) ∧ Tidy m' s (L r) ∧
      Keep m m' [r, s] ∧ m.fresh ≤ m'.fresh := by
  obtain ⟨m1, a1, a2, a3, a4⟩ := Simple.swap_ok h r s
  unfold Simple.swap at a1
  unfold Full.swap
  rw [a1, Res.ok_bind]
  have l1 : m1.link (.root r) = (L s).head?.map Prod.fst :=
    a2.link (r := r) (xs := []) (ys := L s) (by rw [upd_ne _ _ hrs, upd_same]; rfl)
  have l2 : m1.link (.root s) = (L r).head?.map Prod.fst :=
    a2.link (r := s) (xs := []) (ys := L r) (by rw [upd_same]; rfl)
  have ht := hd.same a3
  have hu := hs.same a3
  simp only [SL.setCount, SL.setTail]
  have d1 : ∀ b : Bool, b = true ∨ b = false := by intro b; cases b <;> simp
  by_cases c1 : L s = []
  · by_cases c2 : L r = []
    · rw [c1] at l1; rw [c2] at l2
      simp only [l1, l2, List.head?_nil, Option.map_none, Option.isNone_none, if_true]
      refine ⟨_, rfl, a2.fields rfl rfl rfl, ⟨?_, ?_⟩, ⟨?_, ?_⟩, ?_, a4.ge⟩
      · simp [upd, hrs, c1, loc]
      · simp [upd, hrs, hu.2]
      · simp [upd, c2, loc]
      · simp [upd, ht.2]
      · intro u hus
        simp only [List.mem_cons, List.not_mem_nil, or_false, not_or] at hus
        simp [upd, hus.1, hus.2, a3.1, a3.2]
    · rw [c1] at l1
      obtain ⟨b, ys, e⟩ := List.exists_cons_of_ne_nil c2
      rw [e] at l2
      simp only [l1, l2, List.head?_nil, Option.map_none, Option.isNone_none, if_true, List.head?_cons, Option.map_some,
        Option.isNone_some, Bool.false_eq_true, if_false]
      refine ⟨_, rfl, a2.fields rfl rfl rfl, ⟨?_, ?_⟩, ⟨?_, ?_⟩, ?_, a4.ge⟩
      · simp [upd, c1, loc]
      · simp [upd, hrs, hu.2]
      · simp only [upd, hrs.symm, if_false, if_true, ht.1]; exact loc_indep c2
      · simp [upd, ht.2]
      · intro u hus
        simp only [List.mem_cons, List.not_mem_nil, or_false, not_or] at hus
        simp [upd, hus.1, hus.2, a3.1, a3.2]
  · obtain ⟨b, ys, e⟩ := List.exists_cons_of_ne_nil c1
    rw [e] at l1
    by_cases c2 : L r = []
    · rw [c2] at l2
      simp only [l1, l2, List.head?_nil, Option.map_none, Option.isNone_none, if_true, List.head?_cons, Option.map_some,
        Option.isNone_some, Bool.false_eq_true, if_false]
      refine ⟨_, rfl, a2.fields rfl rfl rfl, ⟨?_, ?_⟩, ⟨?_, ?_⟩, ?_, a4.ge⟩
      · simp only [upd, hrs, if_false, if_true, hu.1]; exact loc_indep c1
      · simp [upd, hrs, hu.2]
      · simp [upd, c2, loc]
      · simp [upd, ht.2]
      · intro u hus
        simp only [List.mem_cons, List.not_mem_nil, or_false, not_or] at hus
        simp [upd, hus.1, hus.2, a3.1, a3.2]
    · obtain ⟨c, zs, e'⟩ := List.exists_cons_of_ne_nil c2
      rw [e'] at l2
      simp only [l1, l2, List.head?_cons, Option.map_some, Option.isNone_some, Bool.false_eq_true, if_false]
      refine ⟨_, rfl, a2.fields rfl rfl rfl, ⟨?_, ?_⟩, ⟨?_, ?_⟩, ?_, a4.ge⟩
      · simp only [upd, hrs, if_false, if_true, hu.1]; exact loc_indep c1
      · simp [upd, hrs, hu.2]
      · simp only [upd, if_true, ht.1]; exact loc_indep c2
      · simp [upd, ht.2]
      · intro u hus
        simp only [List.mem_cons, List.not_mem_nil, or_false, not_or] at hus
        simp [upd, hus.1, hus.2, a3.1, a3.2]

/-- `pop_front` -/
theorem Full.popFront_ok {m : Mem T} {L : Root → List (Nat × T)} (h : Rep m L) {r t : Root} (htr : t ≠ r)
    (ht : L t = []) (hd : Tidy m r (L r)) {ys : List (Nat × T)} {a : Nat × T} (e : L r = a :: ys) :
    ∃ m', Full.popFront m r = .ok m' ∧ Rep m' (upd L r ys) ∧ Tidy m' r ys ∧ Keep m m' [r] ∧ m.fresh ≤ m'.fresh := by
  obtain ⟨m1, a1, a2, a3, a4⟩ := h.drop htr ht (xs := []) (ys := [a]) (zs := ys) e
  have hn : node m (.root r) = .ok a.1 := h.node (xs := []) e
  unfold Full.popFront
  rw [loc_snoc, ← root_loc] at a1
  rw [hn, Res.ok_bind, a1, Res.ok_bind]
  have l1 : (SL.subCount m1 r 1).link (.root r) = ys.head?.map Prod.fst :=
    a2.link (r := r) (xs := []) (ys := ys) (upd_same _ _ _)
  dsimp only
  rw [l1]
  cases ys with
  | nil =>
    rw [if_pos (by rfl)]
    refine ⟨_, rfl, (a2.subCount r 1).setTail r _, hd.sub 1 ?_ ?_ (by rw [e]; rfl), ?_, a4.ge⟩
    · exact upd_same _ _ _
    · show upd m1.count r _ r = _
      rw [upd_same, a3.2]
    · exact (a3.keep _).trans ((Keep.subCount m1 r 1).trans (Keep.setTail _ _ _))
  | cons b ys =>
    rw [if_neg (by simp)]
    refine ⟨_, rfl, a2.subCount r 1, hd.sub 1 ?_ ?_ (by rw [e]; rfl), ?_, a4.ge⟩
    · show m1.tail r = _
      rw [a3.1, hd.1, e]; rfl
    · show upd m1.count r _ r = _
      rw [upd_same, a3.2]
    · exact (a3.keep _).trans (Keep.subCount m1 r 1)

/-- `erase(pos)` -/
theorem Full.erase_ok {m : Mem T} {L : Root → List (Nat × T)} (h : Rep m L) {r t : Root} (htr : t ≠ r)
    (ht : L t = []) (hd : Tidy m r (L r)) {xs ys : List (Nat × T)} {a : Nat × T} (e : L r = xs ++ a :: ys) :
    ∃ m', Full.erase m r (loc (.root r) xs) = .ok (m', loc (.root r) xs) ∧ Rep m' (upd L r (xs ++ ys)) ∧
      Tidy m' r (xs ++ ys) ∧ Keep m m' [r] ∧ m.fresh ≤ m'.fresh := by
  obtain ⟨m1, a1, a2, a3, a4⟩ := h.drop htr ht (xs := xs) (ys := [a]) (zs := ys) e
  unfold Full.erase
  rw [loc_snoc] at a1
  rw [h.node e, Res.ok_bind, a1, Res.ok_bind, a2.atEnd (upd_same _ _ _), Res.ok_bind]
  cases ys with
  | nil =>
    rw [if_pos (by rfl), Res.ok_bind]
    refine ⟨_, rfl, (a2.setTail r _).subCount r 1, hd.sub 1 ?_ ?_ (by rw [e]; simp), ?_, a4.ge⟩
    · show upd m1.tail r _ r = _
      rw [upd_same]; simp
    · show upd m1.count r _ r = _
      rw [upd_same]
      show (m1.count r + _) % _ = _
      rw [a3.2]
    · exact (a3.keep _).trans ((Keep.setTail m1 r _).trans (Keep.subCount _ _ _))
  | cons b ys =>
    rw [if_neg (by simp), Res.ok_bind]
    refine ⟨_, rfl, a2.subCount r 1, hd.sub 1 ?_ ?_ (by rw [e]; simp; omega), ?_, a4.ge⟩
    · show m1.tail r = _
      rw [a3.1, hd.1, e, ← loc_last (.root r) (xs ++ [a]) xs (b :: ys) (by simp)]; simp
    · show upd m1.count r _ r = _
      rw [upd_same, a3.2]
    · exact (a3.keep _).trans (Keep.subCount m1 r 1)

theorem Full.distance_ok (k : Nat) {m : Mem T} {L : Root → List (Nat × T)} (h : Rep m L) {r : Root}
    {xs ys zs : List (Nat × T)} (e : L r = xs ++ (ys ++ zs)) (hk : ys.length < k) :
    Full.distance (loc (.root r) (xs ++ ys)) k m (loc (.root r) xs) = .ok ys.length := by
  induction k generalizing xs ys with
  | zero => omega
  | succ k ih =>
    unfold Full.distance
    cases ys with
    | nil => rw [if_pos (by simp)]; rfl
    | cons a ys =>
      have e' : L r = (xs ++ a :: ys) ++ zs := by rw [e]; simp
      rw [if_neg (fun heq => by have := (h.loc_inj e e' heq).2; simp at this), h.advance e, Res.ok_bind]
      have := ih (xs := xs ++ [a]) (ys := ys) (by rw [e]; simp) (by simpa using hk)
      rw [show xs ++ [a] ++ ys = xs ++ a :: ys by simp] at this
      rw [this, Res.ok_bind, List.length_cons, Nat.add_comm]

theorem Full.nextN_ok (n : Nat) {m : Mem T} {L : Root → List (Nat × T)} (h : Rep m L) {r : Root}
    {xs ys zs : List (Nat × T)} (e : L r = xs ++ (ys ++ zs)) (hn : ys.length = n) :
    Full.nextN m n (loc (.root r) xs) = .ok (loc (.root r) (xs ++ ys)) := by
  induction n generalizing xs ys with
  | zero => rw [List.eq_nil_of_length_eq_zero hn]; simp [Full.nextN]
  | succ n ih =>
    cases ys with
    | nil => simp at hn
    | cons a ys =>
      unfold Full.nextN
      rw [h.advance e, Res.ok_bind, ih (xs := xs ++ [a]) (ys := ys) (by rw [e]; simp) (by simpa using hn)]
      simp

/-- `erase(first,last)` -/
theorem Full.eraseRange_ok {m : Mem T} {L : Root → List (Nat × T)} (h : Rep m L) {r t : Root} (htr : t ≠ r)
    (ht : L t = []) (hd : Tidy m r (L r)) {xs ys zs : List (Nat × T)} (e : L r = xs ++ (ys ++ zs)) :
    ∃ m', Full.eraseRange m r (loc (.root r) xs) (loc (.root r) (xs ++ ys)) = .ok (m', loc (.root r) xs) ∧
      Rep m' (upd L r (xs ++ zs)) ∧ Tidy m' r (xs ++ zs) ∧ Keep m m' [r] ∧ m.fresh ≤ m'.fresh := by
  obtain ⟨m1, a1, a2, a3, a4⟩ := (h.subCount r ys.length).drop htr ht (xs := xs) (ys := ys) (zs := zs) e
  unfold Full.eraseRange
  rw [Full.distance_ok (m.fresh + 1) h e (by have := h.length_le r; rw [e] at this; simp at this; omega), Res.ok_bind]
  dsimp only
  rw [a1, Res.ok_bind, a2.atEnd (upd_same _ _ _), Res.ok_bind]
  have hc : m1.count r = (m.count r + (2 ^ 64 - ys.length % 2 ^ 64)) % 2 ^ 64 := by
    rw [a3.2]; exact upd_same _ _ _
  have hk : Keep m m1 [r] := (Keep.subCount m r ys.length).trans (a3.keep _)
  cases zs with
  | nil =>
    rw [if_pos (by rfl), Res.ok_bind]
    refine ⟨_, rfl, a2.setTail r _, hd.sub ys.length ?_ hc (by rw [e]; simp), hk.trans (Keep.setTail _ _ _), a4.ge⟩
    show upd m1.tail r _ r = _
    rw [upd_same]; simp
  | cons b zs =>
    rw [if_neg (by simp), Res.ok_bind]
    refine ⟨_, rfl, a2, hd.sub ys.length ?_ hc (by rw [e]; simp; omega), hk, a4.ge⟩
    rw [a3.1]
    show m.tail r = _
    rw [hd.1, e, ← loc_last (.root r) (xs ++ ys) xs (b :: zs) (by simp)]; simp

/-- `resize` -/
theorem Full.resize_ok (n : Nat) (x : T) {m : Mem T} {L : Root → List (Nat × T)} (h : Rep m L) {r t : Root}
    (htr : t ≠ r) (ht : L t = []) (hd : Tidy m r (L r)) (hn : (L r).length < 2 ^ 64) :
    ∃ m' ns, Full.resize m r n x = .ok m' ∧ ns.map Prod.snd = List.replicate (n - (L r).length) x ∧
      Rep m' (upd L r ((L r).take n ++ ns)) ∧ Tidy m' r ((L r).take n ++ ns) ∧ Keep m m' [r] ∧ m.fresh ≤ m'.fresh := by
  unfold Full.resize
  rw [Full.size_ok hd hn]
  by_cases h1 : n > (L r).length
  · rw [if_pos h1, hd.1]
    obtain ⟨m', ns, a1, a2, a3, a4, a5, a6⟩ := Full.insertN_ok (n - (L r).length) x h htr ht (xs := L r) (ys := [])
      (by simp) hd
    rw [a1, Res.ok_bind]
    have ht : (L r).take n = L r := List.take_of_length_le (by omega)
    exact ⟨m', ns, rfl, a2, a3.congr rfl (by rw [ht]; simp), by rw [ht]; simpa using a4, a5, a6⟩
  · rw [if_neg h1]
    by_cases h2 : n < (L r).length
    · rw [if_pos h2]
      have e : L r = [] ++ ((L r).take n ++ (L r).drop n) := by simp
      have hx := Full.nextN_ok n h e (by rw [List.length_take]; omega)
      rw [← root_loc] at hx
      rw [hx, Res.ok_bind, hd.1]
      obtain ⟨m', a1, a2, a3, a4, a5⟩ := Full.eraseRange_ok h htr ht hd (xs := (L r).take n) (ys := (L r).drop n) (zs := [])
        (by simp)
      rw [List.take_append_drop] at a1
      rw [List.nil_append, a1, Res.ok_bind]
      refine ⟨m', [], rfl, ?_, a2, a3, a4, a5⟩
      rw [Nat.sub_eq_zero_of_le (by omega)]; rfl
    · rw [if_neg h2]
      have hl : n = (L r).length := by omega
      have ht : (L r).take n = L r := List.take_of_length_le (by omega)
      refine ⟨m, [], rfl, by rw [hl]; simp, h.congr rfl (upd_self L (by rw [ht]; simp)).symm, by rw [ht]; simpa using hd,
        Keep.refl _ _, le_refl _⟩

end Verif.SL
