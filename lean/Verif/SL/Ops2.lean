import Verif.SL.Ops
import Mathlib.Data.List.Destutter
/-
What the functions of `simple_list` do to the lists in memory: splicing, reversing, removing.
-/
namespace Verif.SL
variable {T : Type}

/-- two functions obtained by changes at some arguments are equal -/
macro "upd_ext" : tactic =>
  `(tactic| (funext x; simp only [upd]; split_ifs <;> first | rfl | (simp_all; done) | (subst_vars; simp_all; done)))

theorem Simple.front_ok {m : Mem T} {L : Root → List (Nat × T)} (h : Rep m L) {r : Root} {a : Nat × T}
    {ys : List (Nat × T)} (e : L r = a :: ys) : Simple.front m r = .ok a.2 := h.item (xs := []) e

theorem Simple.empty_ok {m : Mem T} {L : Root → List (Nat × T)} (h : Rep m L) (r : Root) :
    Simple.empty m r = (L r).isEmpty := by
  have := h.link (r := r) (xs := []) (ys := L r) rfl
  unfold Simple.empty
  rw [show Loc.root r = loc (.root r) ([] : List (Nat × T)) from rfl, this]
  cases L r <;> rfl

theorem Simple.singleton_ok {m : Mem T} {L : Root → List (Nat × T)} (h : Rep m L) (r : Root) :
    Simple.singleton m r = .ok (decide ((L r).length = 1)) := by
  unfold Simple.singleton
  rw [Simple.empty_ok h]
  rcases e : L r with _ | ⟨a, ys⟩
  · rfl
  · rw [if_neg (by simp)]
    have h1 := h.node (xs := []) e
    have h2 := h.get (r := r) (xs := [] ++ [a]) (ys := ys) (by rw [e]; simp)
    rw [loc_snoc] at h2
    rw [show Loc.root r = loc (.root r) ([] : List (Nat × T)) from rfl, h1, Res.ok_bind, h2, Res.ok_bind]
    cases ys <;> simp

theorem Simple.lengthLoop_ok (k : Nat) {m : Mem T} {L : Root → List (Nat × T)} (h : Rep m L) {r : Root}
    {xs ys : List (Nat × T)} (e : L r = xs ++ ys) (hk : ys.length ≤ k) :
    Simple.lengthLoop k m (ys.head?.map Prod.fst) = .ok ys.length := by
  induction k generalizing xs ys with
  | zero =>
    have : ys = [] := List.eq_nil_of_length_eq_zero (by omega)
    subst this; rfl
  | succ k ih =>
    cases ys with
    | nil => rfl
    | cons a ys =>
      have e2 : L r = (xs ++ [a]) ++ ys := by rw [e]; simp
      have h2 := h.get e2
      rw [loc_snoc] at h2
      show (do .ok (1 + (← Simple.lengthLoop k m (← get m (.next a.1))))) = _
      rw [h2, Res.ok_bind, ih e2 (by simpa using hk), Res.ok_bind]
      simp [Nat.add_comm]

theorem Simple.length_ok {m : Mem T} {L : Root → List (Nat × T)} (h : Rep m L) (r : Root) :
    Simple.length m r = .ok (L r).length := by
  unfold Simple.length
  rw [show Loc.root r = loc (.root r) ([] : List (Nat × T)) from rfl, h.link (xs := []) (ys := L r) rfl]
  exact Simple.lengthLoop_ok (m.fresh + 1) h (xs := []) rfl (by have := h.length_le r; omega)

theorem Simple.vectorLoop_ok (k : Nat) {m : Mem T} {L : Root → List (Nat × T)} (h : Rep m L) {r : Root}
    {xs ys : List (Nat × T)} (e : L r = xs ++ ys) (hk : ys.length ≤ k) :
    Simple.vectorLoop k m (ys.head?.map Prod.fst) = .ok (ys.map Prod.snd) := by
  induction k generalizing xs ys with
  | zero =>
    have : ys = [] := List.eq_nil_of_length_eq_zero (by omega)
    subst this; rfl
  | succ k ih =>
    cases ys with
    | nil => rfl
    | cons a ys =>
      have e2 : L r = (xs ++ [a]) ++ ys := by rw [e]; simp
      have h2 := h.get e2
      rw [loc_snoc] at h2
      show (do
        let x ← contents m a.1
        .ok (x :: (← Simple.vectorLoop k m (← get m (.next a.1))))) = _
      rw [h.contents (r := r) (by rw [e]; simp), Res.ok_bind, h2, Res.ok_bind, ih e2 (by simpa using hk), Res.ok_bind]
      rfl

theorem Simple.toVector_ok {m : Mem T} {L : Root → List (Nat × T)} (h : Rep m L) (r : Root) :
    Simple.toVector m r = .ok ((L r).map Prod.snd) := by
  unfold Simple.toVector
  rw [show Loc.root r = loc (.root r) ([] : List (Nat × T)) from rfl, h.link (xs := []) (ys := L r) rfl]
  exact Simple.vectorLoop_ok (m.fresh + 1) h (xs := []) rfl (by have := h.length_le r; omega)

/-- the move constructor -/
theorem Simple.moveCtor_ok {m : Mem T} {L : Root → List (Nat × T)} (h : Rep m L) {r s : Root} (hrs : r ≠ s)
    (e : L r = []) :
    ∃ m', Simple.moveCtor m r s = .ok m' ∧ Rep m' (upd (upd L r (L s)) s []) ∧ Same m m' ∧ m'.fresh = m.fresh := by
  unfold Simple.moveCtor
  rw [h.initRoot e]
  exact h.moveLink hrs (xs := []) (zs := []) (ys := []) (ws := L s) e rfl

theorem moveLink_self {m : Mem T} {p : Loc} (hp : Live m p) : moveLink m p p = .ok m := by
  unfold moveLink reset
  rw [get_of_live hp, Res.ok_bind, set_of_live hp, Res.ok_bind, get_of_live (live_upd hp), Res.ok_bind,
    set_of_live (live_upd hp), Res.ok_bind]
  dsimp only
  rw [upd_same, upd_upd, upd_self _ rfl]
  rfl

/-- move assignment; also for the assignment of a list to itself -/
theorem Simple.assignMove_ok {m : Mem T} {L : Root → List (Nat × T)} (h : Rep m L) (r s : Root) :
    ∃ m', Simple.assignMove m r s = .ok m' ∧ Rep m' (if r = s then L else upd (upd L r (L s)) s []) ∧ Same m m' ∧
      m'.fresh = m.fresh := by
  by_cases hrs : r = s
  · subst hrs
    refine ⟨m, moveLink_self (p := .root r) trivial, ?_, Same.rfl' m, rfl⟩
    rw [if_pos rfl]; exact h
  · rw [if_neg hrs]
    exact h.moveLink hrs (xs := []) (zs := []) (ys := L r) (ws := L s) rfl rfl

/-- `swap` -/
theorem Simple.swap_ok {m : Mem T} {L : Root → List (Nat × T)} (h : Rep m L) (r s : Root) :
    ∃ m', Simple.swap m r s = .ok m' ∧ Rep m' (upd (upd L r (L s)) s (L r)) ∧ Same m m' ∧
      m'.fresh = m.fresh := by
  by_cases hrs : r = s
  · subst hrs
    refine ⟨m, ?_, ?_, Same.rfl' m, rfl⟩
    · unfold Simple.swap swapLink
      have hp : Live m (.root r) := trivial
      rw [get_of_live hp, Res.ok_bind, Res.ok_bind, set_of_live hp, Res.ok_bind, set_of_live (live_upd hp)]
      dsimp only
      rw [upd_upd, upd_self _ rfl]
    · rw [upd_upd, upd_self _ rfl]; exact h
  · exact h.swapLink hrs (xs := []) (zs := []) (ys := L r) (ws := L s) rfl rfl

theorem Simple.toEnd_ok (k : Nat) {m : Mem T} {L : Root → List (Nat × T)} (h : Rep m L) {r : Root}
    {xs ys : List (Nat × T)} (e : L r = xs ++ ys) (hk : ys.length < k) :
    Simple.toEnd k m (loc (.root r) xs) = .ok (loc (.root r) (xs ++ ys)) := by
  induction k generalizing xs ys with
  | zero => omega
  | succ k ih =>
    unfold Simple.toEnd
    rw [h.atEnd e, Res.ok_bind]
    cases ys with
    | nil => simp
    | cons a ys =>
      rw [if_neg (by simp), h.advance e, Res.ok_bind, ih (xs := xs ++ [a]) (ys := ys) (by rw [e]; simp)
        (by simpa using hk)]
      simp

/-- `splice(pos,other)` -/
theorem Simple.splice_ok {m : Mem T} {L : Root → List (Nat × T)} (h : Rep m L) {r s : Root} (hrs : r ≠ s)
    (h0 : L (.loc 0) = []) (hr0 : r ≠ .loc 0) (hs0 : s ≠ .loc 0)
    {xs ys zs : List (Nat × T)} (e : L r = xs ++ ys) (es : L s = zs) :
    ∃ m', Simple.splice m (loc (.root r) xs) s = .ok (m', loc (.root r) (xs ++ zs)) ∧
      Rep m' (upd (upd L r (xs ++ (zs ++ ys))) s []) ∧ Same m m' ∧ m'.fresh = m.fresh := by
  obtain ⟨m1, a1, a2, a3, a4⟩ := h.moveLink hr0.symm (xs := []) (ys := []) (zs := xs) (ws := ys) h0 e
  obtain ⟨m2, b1, b2, b3, b4⟩ := a2.moveLink hrs (xs := xs) (ys := []) (zs := []) (ws := zs)
    (by rw [upd_same]; simp) (by rw [upd_ne _ _ hrs.symm, upd_ne _ _ hs0, es]; rfl)
  have er : upd (upd (upd (upd L (.loc 0) ([] ++ ys)) r xs) r (xs ++ zs)) s [] r = xs ++ zs := by
    rw [upd_ne _ _ hrs, upd_same]
  have c1 := Simple.toEnd_ok (m2.fresh + 1) b2 er (by have := b2.length_le r; rw [er] at this; simp at this; omega)
  obtain ⟨m3, d1, d2, d3, d4⟩ := b2.moveLink hr0 (xs := xs ++ zs) (ys := []) (zs := []) (ws := ys)
    (by rw [er]; simp) (by rw [upd_ne _ _ hs0.symm, upd_ne _ _ hr0.symm, upd_ne _ _ hr0.symm, upd_same])
  refine ⟨m3, ?_, ?_, (a3.trans b3).trans d3, by rw [d4, b4, a4]⟩
  · unfold Simple.splice
    rw [show loc (Loc.root (.loc 0)) ([] : List (Nat × T)) = .root (.loc 0) from rfl] at a1 d1
    rw [show loc (Loc.root s) ([] : List (Nat × T)) = .root s from rfl] at b1
    rw [a1, Res.ok_bind, b1, Res.ok_bind, c1, Res.ok_bind, d1, Res.ok_bind]
  · refine d2.congr rfl ?_
    upd_ext

/-- `insert(pos,first,last)`; the iterator that is returned is only valid if the range is not empty or the position
is the end of the list -/
theorem Simple.insertRange_ok (vs : List T) {m : Mem T} {L : Root → List (Nat × T)} (h : Rep m L) {r t : Root}
    (h0 : L (.loc 0) = []) (hr0 : r ≠ .loc 0) (htr : t ≠ r) (ht0 : t ≠ .loc 0) (ht : L t = [])
    {xs ys : List (Nat × T)} (e : L r = xs ++ ys) :
    ∃ m' ns, Simple.insertRange m (loc (.root r) xs) vs =
        .ok (m', if ys ≠ [] ∧ vs = [] then .root (.loc 0) else loc (.root r) (xs ++ ns)) ∧
      ns.map Prod.snd = vs ∧ Rep m' (upd L r (xs ++ (ns ++ ys))) ∧ Same m m' ∧ m.fresh ≤ m'.fresh := by
  unfold Simple.insertRange
  rw [h.atEnd e, Res.ok_bind]
  by_cases hy : ys = []
  · subst hy
    rw [if_pos (by rfl)]
    obtain ⟨m', ns, h1, h2, h3, h4, h5⟩ := Simple.appendLoop_ok vs h htr ht (xs := xs) (by simpa using e)
    exact ⟨m', ns, by rw [h1]; simp, h2, h3.congr rfl (by simp), h4, h5⟩
  · rw [if_neg (by simpa using hy)]
    obtain ⟨m1, ns, h1, h2, h3, h4, h5⟩ := Simple.appendLoop_ok vs h ht0 ht h0
    obtain ⟨m2, a1, a2, a3, a4⟩ := h3.moveLink hr0.symm (xs := ns) (ys := []) (zs := xs) (ws := ys)
      (by rw [upd_same]; simp) (by rw [upd_ne _ _ hr0, e])
    obtain ⟨m3, b1, b2, b3, b4⟩ := a2.moveLink hr0 (xs := xs) (ys := []) (zs := []) (ws := ns ++ ys)
      (by rw [upd_same]; simp) (by rw [upd_ne _ _ hr0.symm, upd_same]; rfl)
    refine ⟨m3, ns, ?_, h2, ?_, (h4.trans a3).trans b3, by omega⟩
    · rw [show loc (Loc.root (.loc 0)) ([] : List (Nat × T)) = .root (.loc 0) from rfl] at h1 b1
      rw [h1, Res.ok_bind]
      dsimp only [List.nil_append]
      rw [a1, Res.ok_bind, b1, Res.ok_bind]
      congr 2
      by_cases hv : vs = []
      · rw [if_pos ⟨hy, hv⟩]
        have : ns = [] := by rw [hv] at h2; exact List.map_eq_nil_iff.mp h2
        rw [this]; rfl
      · rw [if_neg (fun hc => hv hc.2)]
        have : ns ≠ [] := fun hc => hv (by rw [← h2, hc]; rfl)
        rw [loc_append]
        exact loc_indep this
    · refine b2.congr rfl ?_
      upd_ext

theorem Simple.skipLoop_ok (k n : Nat) {m : Mem T} {L : Root → List (Nat × T)} (h : Rep m L) {r : Root}
    {xs ys : List (Nat × T)} (e : L r = xs ++ ys) (hk : ys.length < k) :
    Simple.skipLoop k m (loc (.root r) xs) n = .ok (loc (.root r) (xs ++ ys.take n), n - ys.length) := by
  induction k generalizing xs ys n with
  | zero => omega
  | succ k ih =>
    unfold Simple.skipLoop
    rw [h.atEnd e, Res.ok_bind]
    cases ys with
    | nil => simp
    | cons a ys =>
      rw [if_neg (by simp)]
      by_cases hn : n = 0
      · subst hn; simp
      · rw [if_neg hn, h.advance e, Res.ok_bind, ih (n - 1) (xs := xs ++ [a]) (ys := ys) (by rw [e]; simp)
          (by simpa using hk)]
        obtain ⟨j, rfl⟩ := Nat.exists_eq_succ_of_ne_zero hn
        simp

/-- `resize` -/
theorem Simple.resize_ok (n : Nat) (x : T) {m : Mem T} {L : Root → List (Nat × T)} (h : Rep m L) {r t : Root}
    (h0 : L (.loc 0) = []) (h1 : L (.loc 1) = []) (hr0 : r ≠ .loc 0) (hr1 : r ≠ .loc 1) (ht : L t = [])
    (ht1 : t ≠ .loc 1) :
    ∃ m' ns, Simple.resize m r n x = .ok m' ∧ ns.map Prod.snd = List.replicate (n - (L r).length) x ∧
      Rep m' (upd L r ((L r).take n ++ ns)) ∧ Same m m' ∧ m.fresh ≤ m'.fresh := by
  unfold Simple.resize
  have s1 := Simple.skipLoop_ok (m.fresh + 1) n h (r := r) (xs := []) (ys := L r) rfl
    (by have := h.length_le r; omega)
  rw [show loc (Loc.root r) ([] : List (Nat × T)) = .root r from rfl] at s1
  have e : L r = ([] ++ (L r).take n) ++ (L r).drop n := by simp
  rw [s1, Res.ok_bind]
  dsimp only
  rw [h.atEnd e, Res.ok_bind]
  by_cases hd : (L r).drop n = []
  · rw [if_pos (by rw [hd]; rfl)]
    have hle := List.drop_eq_nil_iff.mp hd
    obtain ⟨m1, ns, a1, a2, a3, a4, a5⟩ := Simple.ofN_ok (n - (L r).length) x h ht1 ht h1
    obtain ⟨m2, b1, b2, b3, b4⟩ := Simple.splice_ok a3 hr1 (by rw [upd_ne _ _ (by decide), h0]) hr0 (by decide)
      (xs := [] ++ (L r).take n) (ys := []) (zs := ns)
      (by rw [upd_ne _ _ hr1, List.append_nil, List.nil_append, List.take_of_length_le hle])
      (by rw [upd_same])
    refine ⟨m2, ns, ?_, a2, ?_, a4.trans b3, by omega⟩
    · rw [a1, Res.ok_bind, b1]; rfl
    · refine b2.congr rfl ?_
      clear e
      upd_ext
  · rw [if_neg (by simpa using hd)]
    obtain ⟨m', k1, k2, k3, k4⟩ := h.reset e
    refine ⟨m', [], k1, ?_, k2.congr rfl (by simp), k3, by omega⟩
    have : n ≤ (L r).length := by
      by_contra hlt
      exact hd (List.drop_eq_nil_iff.mpr (by omega))
    rw [Nat.sub_eq_zero_of_le this]; rfl

/-- `splice(pos,other,begin,end)` for a range of another list -/
theorem Simple.spliceRange_ok {m : Mem T} {L : Root → List (Nat × T)} (h : Rep m L) {r s : Root} (hrs : r ≠ s)
    {xs ys us ms ws : List (Nat × T)} (e : L r = xs ++ ys) (es : L s = us ++ (ms ++ ws)) :
    ∃ m', Simple.spliceRange m (loc (.root r) xs) (loc (.root s) us) (loc (.root s) (us ++ ms)) =
        .ok (m', loc (.root r) (xs ++ ms)) ∧
      Rep m' (upd (upd L r (xs ++ (ms ++ ys))) s (us ++ ws)) ∧ Same m m' ∧ m'.fresh = m.fresh := by
  unfold Simple.spliceRange
  have es' : L s = (us ++ ms) ++ ws := by rw [es]; simp
  by_cases hm : ms = []
  · subst hm
    rw [if_pos (by simp)]
    refine ⟨m, by simp, h.congr rfl ?_, Same.rfl' m, rfl⟩
    rw [upd_self L (by rw [e]; simp), upd_self L (by rw [es]; simp)]
  · rw [if_neg (fun heq => hm (List.self_eq_append_right.mp (h.loc_inj es es' heq).2)),
      if_neg (fun heq => hrs (h.loc_inj e es heq).1)]
    obtain ⟨m1, a1, a2, a3, a4⟩ := h.swapLink hrs e es
    have er1 : upd (upd L r (xs ++ (ms ++ ws))) s (us ++ ys) r = (xs ++ ms) ++ ws := by
      rw [upd_ne _ _ hrs, upd_same]; simp
    have es1 : upd (upd L r (xs ++ (ms ++ ws))) s (us ++ ys) s = us ++ ys := upd_same ..
    obtain ⟨m2, b1, b2, b3, b4⟩ := a2.swapLink hrs.symm es1 er1
    have hl : loc (Loc.root s) (us ++ ms) = loc (.root r) (xs ++ ms) := by
      rw [loc_append, loc_append]; exact loc_indep hm
    refine ⟨m2, ?_, ?_, a3.trans b3, by rw [b4, a4]⟩
    · rw [a1, Res.ok_bind, hl, b1, Res.ok_bind]
    · refine b2.congr rfl ?_
      upd_ext

theorem swap2_ok {m : Mem T} {p b e : Loc} (hp : Live m p) (hb : Live m b) (he : Live m e)
    (hbe : b ≠ e) (hpe : p ≠ e) (f : Mem T → Res (Mem T × Loc)) :
    (do let m1 ← swapLink m p b
        let m2 ← swapLink m1 b e
        f m2) = f (m.withLink (upd (upd (upd m.link p (m.link b)) b (m.link e)) e (m.link p))) := by
  unfold swapLink
  rw [get_of_live hp, Res.ok_bind, get_of_live hb, Res.ok_bind, set_of_live hp, Res.ok_bind,
    set_of_live (live_upd hb), Res.ok_bind, get_of_live (live_upd (live_upd hb)), Res.ok_bind,
    get_of_live (live_upd (live_upd he)), Res.ok_bind, set_of_live (live_upd (live_upd hb)), Res.ok_bind,
    set_of_live (live_upd (live_upd (live_upd he))), Res.ok_bind]
  dsimp only
  rw [upd_same, upd_ne _ _ hbe.symm, upd_ne _ _ hpe.symm, upd_upd]

/-- `splice(pos,other,begin,end)` for a range of the same list, after the position -/
theorem Simple.spliceBefore_ok {m : Mem T} {L : Root → List (Nat × T)} (h : Rep m L) {r t : Root} (htr : t ≠ r)
    (ht : L t = []) {xs ys zs ws : List (Nat × T)} (e : L r = xs ++ (ys ++ (zs ++ ws))) :
    ∃ m', Simple.spliceRange m (loc (.root r) xs) (loc (.root r) (xs ++ ys)) (loc (.root r) (xs ++ ys ++ zs)) =
        .ok (m', loc (.root r) (xs ++ zs)) ∧
      Rep m' (upd L r (xs ++ (zs ++ (ys ++ ws)))) ∧ Same m m' ∧ m'.fresh = m.fresh := by
  unfold Simple.spliceRange
  have e' : L r = (xs ++ ys) ++ (zs ++ ws) := by rw [e]; simp
  have e'' : L r = (xs ++ ys ++ zs) ++ ws := by rw [e]; simp
  by_cases hz : zs = []
  · subst hz
    rw [if_pos (by simp)]
    exact ⟨m, by simp, h.congr rfl (upd_self L (by rw [e]; simp)).symm, Same.rfl' m, rfl⟩
  · rw [if_neg (fun heq => hz (List.self_eq_append_right.mp (h.loc_inj e' e'' heq).2))]
    by_cases hy : ys = []
    · subst hy
      rw [if_pos (by simp)]
      exact ⟨m, by simp, h.congr rfl (upd_self L (by rw [e]; simp)).symm, Same.rfl' m, rfl⟩
    · have n1 : loc (.root r) xs ≠ loc (.root r) (xs ++ ys) := fun heq =>
        hy (List.self_eq_append_right.mp (h.loc_inj e e' heq).2)
      have n2 : loc (.root r) (xs ++ ys) ≠ loc (.root r) (xs ++ ys ++ zs) := fun heq =>
        hz (List.self_eq_append_right.mp (h.loc_inj e' e'' heq).2)
      have n3 : loc (.root r) xs ≠ loc (.root r) (xs ++ ys ++ zs) := fun heq => by
        have := (h.loc_inj e e'' heq).2
        rw [List.append_assoc] at this
        exact hy (List.append_eq_nil_iff.mp (List.self_eq_append_right.mp this)).1
      rw [if_neg n1]
      refine ⟨_, ?_, h.rotate htr ht hy hz e, ⟨rfl, rfl⟩, rfl⟩
      have := swap2_ok (h.live e) (h.live e') (h.live e'') n2 n3
      rw [this]
      congr 2
      rw [loc_append (.root r) (xs ++ ys), loc_append (.root r) xs zs]; exact loc_indep hz

/-- `splice(pos,other,begin,end)` for a range of the same list, before the position -/
theorem Simple.spliceAfter_ok {m : Mem T} {L : Root → List (Nat × T)} (h : Rep m L) {r t : Root} (htr : t ≠ r)
    (ht : L t = []) {xs ys zs ws : List (Nat × T)} (e : L r = xs ++ (ys ++ (zs ++ ws))) (hy : ys ≠ []) :
    ∃ m', Simple.spliceRange m (loc (.root r) (xs ++ ys ++ zs)) (loc (.root r) xs) (loc (.root r) (xs ++ ys)) =
        .ok (m', loc (.root r) (xs ++ (zs ++ ys))) ∧
      Rep m' (upd L r (xs ++ (zs ++ (ys ++ ws)))) ∧ Same m m' ∧ m'.fresh = m.fresh := by
  unfold Simple.spliceRange
  have e' : L r = (xs ++ ys) ++ (zs ++ ws) := by rw [e]; simp
  have e'' : L r = (xs ++ ys ++ zs) ++ ws := by rw [e]; simp
  have n1 : loc (.root r) xs ≠ loc (.root r) (xs ++ ys) := fun heq =>
    hy (List.self_eq_append_right.mp (h.loc_inj e e' heq).2)
  have n3 : loc (.root r) xs ≠ loc (.root r) (xs ++ ys ++ zs) := fun heq => by
    have := (h.loc_inj e e'' heq).2
    rw [List.append_assoc] at this
    exact hy (List.append_eq_nil_iff.mp (List.self_eq_append_right.mp this)).1
  have hl : loc (Loc.root r) (xs ++ ys) = loc (.root r) (xs ++ (zs ++ ys)) := by
    rw [loc_append, ← List.append_assoc, loc_append]; exact loc_indep hy
  rw [if_neg n1, if_neg n3.symm]
  by_cases hz : zs = []
  · subst hz
    refine ⟨m, ?_, h.congr rfl (upd_self L (by rw [e]; simp)).symm, Same.rfl' m, rfl⟩
    rw [List.append_nil]
    unfold swapLink
    rw [get_of_live (h.live e'), Res.ok_bind, get_of_live (h.live e), Res.ok_bind, set_of_live (h.live e'), Res.ok_bind,
      set_of_live (live_upd (h.live e)), Res.ok_bind, get_of_live (live_upd (live_upd (h.live e))), Res.ok_bind,
      get_of_live (live_upd (live_upd (h.live e'))), Res.ok_bind, set_of_live (live_upd (live_upd (h.live e))),
      Res.ok_bind, set_of_live (live_upd (live_upd (live_upd (h.live e')))), Res.ok_bind]
    dsimp only
    rw [upd_same, upd_ne _ _ n1.symm, upd_same, upd_upd, upd_comm _ _ _ n1.symm, upd_upd,
      upd_self m.link (a := loc (.root r) xs) rfl, upd_self m.link rfl]
    simp
  · have n2 : loc (.root r) (xs ++ ys) ≠ loc (.root r) (xs ++ ys ++ zs) := fun heq =>
      hz (List.self_eq_append_right.mp (h.loc_inj e' e'' heq).2)
    refine ⟨_, ?_, h.rotate htr ht hy hz e, ⟨rfl, rfl⟩, rfl⟩
    have := swap2_ok (h.live e'') (h.live e) (h.live e') n1 n2.symm
    rw [this, hl]
    congr 2
    dsimp only [Mem.withLink]
    congr 1
    rw [← hl, upd_comm (upd m.link _ _) _ _ n1, upd_comm m.link _ _ n2.symm, upd_comm (upd m.link _ _) _ _ n3.symm,
      upd_comm m.link (a := loc (.root r) (xs ++ ys)) (c := loc (.root r) xs) _ _ n1.symm]

end Verif.SL
