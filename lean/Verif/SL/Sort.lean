import Verif.SL.Merge
import Mathlib.Data.List.Perm.Basic
/-
What merging ranges and sorting do to the lists in memory.
-/
namespace Verif.SL
variable {T : Type}

theorem upd_four {α β : Type} [DecidableEq α] (f : α → β) {r s : α} (hrs : r ≠ s) (a b c d : β) :
    upd (upd (upd (upd f r a) s b) r c) s d = upd (upd f r c) s d := by
  rw [upd_comm (upd f r a) b c hrs.symm, upd_upd, upd_upd]

/-- what `merge_aux` has done when its loop ends, for ranges in different lists -/
def AuxEnd (m m' : Mem T) (L : Root → List (Nat × T)) (less : T → T → Bool) (r : Root)
    (xs ys us ms zs : List (Nat × T)) : Option Loc → Prop
  | none => ys ≠ [] ∧ Rep m' (upd (upd L r (xs ++ (mrg less ys ms ++ us))) (.loc 0) zs) ∧ Same m m' ∧
      m'.fresh = m.fresh ∧ loc (.root r) (xs ++ mrg less ys ms) = loc (.root r) (xs ++ ys)
  | some p => ∃ w v ms', p = loc (.root r) (xs ++ w) ∧ w ++ ms' = mrg less ys ms ∧ ms = v ++ ms' ∧ ms' ≠ [] ∧
      (ys ≠ [] → loc (.root r) (xs ++ w) = loc (.root r) (xs ++ ys)) ∧ (ys = [] → w = []) ∧
      Rep m' (upd (upd L r (xs ++ (w ++ us))) (.loc 0) (ms' ++ zs)) ∧ Same m m' ∧ m'.fresh = m.fresh

theorem Simple.mergeAuxLoop_ok (less : T → T → Bool) (k : Nat) {m : Mem T} {L : Root → List (Nat × T)}
    (h : Rep m L) {r : Root} (hr0 : r ≠ .loc 0) {xs ys us ms zs : List (Nat × T)} {e0 e1 : Loc}
    (e : L r = xs ++ (ys ++ us)) (eq0 : L (.loc 0) = ms ++ zs) (hms : ms ≠ []) (hk : ys.length < k)
    (he0 : e0 = loc (.root r) (xs ++ ys)) (he1 : e1 = loc (.root (.loc 0)) ms) :
    ∃ m' p, Simple.mergeAuxLoop less e0 e1 k m (loc (.root r) xs) = .ok (m', p) ∧
      AuxEnd m m' L less r xs ys us ms zs p := by
  induction k generalizing m L xs ys ms with
  | zero => omega
  | succ k ih =>
    unfold Simple.mergeAuxLoop
    have e' : L r = (xs ++ ys) ++ us := by rw [e]; simp
    obtain ⟨b, qs, rfl⟩ := List.exists_cons_of_ne_nil hms
    rcases ys with _ | ⟨t, ys⟩
    · rw [if_pos (by rw [he0]; simp)]
      refine ⟨m, _, rfl, [], [], b :: qs, by simp, by simp [mrg], rfl, by simp, fun hc => absurd rfl hc, fun _ => rfl,
        h.congr rfl ?_, Same.rfl' m, rfl⟩
      rw [upd_self L (by rw [e]), upd_self L eq0]
    · rw [if_neg (fun heq => by rw [he0] at heq; have := (h.loc_inj e e' heq).2; simp at this)]
      have et : L r = xs ++ t :: (ys ++ us) := e
      have eb : L (.loc 0) = [] ++ b :: (qs ++ zs) := eq0
      rw [h.item et, Res.ok_bind, root_loc (T := T) (.loc 0), h.node eb, Res.ok_bind,
        h.contents (r := .loc 0) (a := b) (by rw [eb]; simp), Res.ok_bind]
      by_cases hl : less b.2 t.2 = true
      · rw [if_pos hl]
        have hg := Simple.gatherTo_ok less t.2 (m.fresh + 1) h (r := .loc 0) (xs := [] ++ [b]) (ys := qs) (zs := zs)
          (by rw [eb]; rfl) (by have := h.length_le (.loc 0); rw [eb] at this; simp at this; omega)
        rw [show [] ++ [b] ++ qs = b :: qs from rfl, ← he1, loc_snoc] at hg
        rw [hg, Res.ok_bind]
        obtain ⟨gs, hgs⟩ : ∃ gs, gs = qs.takeWhile (fun a => less a.2 t.2) := ⟨_, rfl⟩
        obtain ⟨rest, hrest⟩ : ∃ rest, rest = qs.dropWhile (fun a => less a.2 t.2) := ⟨_, rfl⟩
        have hq : qs = gs ++ rest := by rw [hgs, hrest, List.takeWhile_append_dropWhile]
        rw [← hgs]
        have hm : mrg less (t :: ys) (b :: qs) = b :: gs ++ t :: mrg less ys rest := by
          rw [mrg_cons]; simp [hl, hgs, hrest]
        obtain ⟨m1, a1, a2, a3, a4⟩ := h.swapLink hr0.symm (xs := []) (ys := b :: (qs ++ zs)) (zs := xs)
          (ws := t :: (ys ++ us)) eb et
        rw [a1, Res.ok_bind]
        have hs : loc (Loc.root (.loc 0)) ([] ++ [b] ++ gs) = loc (.root r) (xs ++ (b :: gs)) := by
          rw [loc_append (.root r)]; exact loc_indep (by simp)
        have hse : loc (Loc.root r) (xs ++ (b :: gs)) = e1 ↔ rest = [] := by
          rw [← hs, he1]
          constructor
          · intro heq
            have := (h.loc_inj (xs := [] ++ [b] ++ gs) (ys := rest ++ zs) (zs := b :: qs) (ws := zs)
              (by rw [eb, hq]; simp) (by rw [eb]; simp) heq).2
            rw [hq] at this
            simpa using this
          · intro h2; rw [hq, h2]; simp
        rw [hs]
        have er1 : upd (upd L (.loc 0) ([] ++ t :: (ys ++ us))) r (xs ++ b :: (qs ++ zs)) r =
            (xs ++ b :: gs) ++ (rest ++ zs) := by
          rw [upd_same, hq]; simp
        have e01 : upd (upd L (.loc 0) ([] ++ t :: (ys ++ us))) r (xs ++ b :: (qs ++ zs)) (.loc 0) =
            [] ++ t :: (ys ++ us) := by
          rw [upd_ne _ _ hr0.symm, upd_same]
        obtain ⟨m2, b1, b2, b3, b4⟩ := a2.swapLink hr0.symm e01 er1
        rw [b1, Res.ok_bind]
        have b2' : Rep m2 (upd (upd L r (xs ++ b :: gs ++ t :: (ys ++ us))) (.loc 0) (rest ++ zs)) := by
          refine b2.congr rfl ?_
          clear er1 e01 hs hm hq hgs hrest hg hse
          upd_ext
        clear b2
        have er2 : upd (upd L r (xs ++ b :: gs ++ t :: (ys ++ us))) (.loc 0) (rest ++ zs) r =
            (xs ++ b :: gs) ++ t :: (ys ++ us) := by
          rw [upd_ne _ _ hr0, upd_same]
        have e02 : upd (upd L r (xs ++ b :: gs ++ t :: (ys ++ us))) (.loc 0) (rest ++ zs) (.loc 0) = rest ++ zs :=
          upd_same ..
        by_cases hr : rest = []
        · rw [if_pos (hse.mpr hr)]
          subst hr
          refine ⟨m2, none, rfl, by simp, ?_, a3.trans b3, by rw [b4, a4], ?_⟩
          · refine b2'.congr rfl ?_
            rw [hm]
            simp [mrg]
          · rw [hm]
            simp [mrg, loc_append, loc]
        · rw [if_neg (fun heq => hr (hse.mp heq)), b2'.advance er2, Res.ok_bind]
          have er3 : upd (upd L r (xs ++ b :: gs ++ t :: (ys ++ us))) (.loc 0) (rest ++ zs) r =
              ((xs ++ b :: gs) ++ [t]) ++ (ys ++ us) := by
            rw [er2]; simp
          obtain ⟨m3, p, c1, c2⟩ := ih b2' er3 e02 hr (by simpa using hk)
            (by rw [he0]; simp [loc_append, loc])
            (by rw [he1, hq, show b :: (gs ++ rest) = (b :: gs) ++ rest from rfl, loc_append]; exact loc_indep hr)
          refine ⟨m3, p, c1, ?_⟩
          cases p with
          | none =>
            obtain ⟨d0, d1, d2, d3, d4⟩ := c2
            refine ⟨by simp, d1.congr rfl ?_, (a3.trans b3).trans d2, by rw [d3, b4, a4], ?_⟩
            · rw [hm]
              rw [show xs ++ b :: gs ++ [t] ++ (mrg less ys rest ++ us) =
                xs ++ (b :: gs ++ t :: mrg less ys rest ++ us) by simp]
              clear er1 e01 er2 e02 er3 hs d1 d4 hse
              exact upd_four L hr0 _ _ _ _
            · rw [hm]
              rw [show xs ++ (b :: gs ++ t :: mrg less ys rest) =
                xs ++ b :: gs ++ [t] ++ mrg less ys rest by simp, d4]
              simp [loc_append, loc]
          | some p =>
            obtain ⟨w, v, qs', d1, d2, d3, d4, d45, d46, d5, d6, d7⟩ := c2
            refine ⟨b :: gs ++ t :: w, b :: gs ++ v, qs', by rw [d1]; simp, ?_, by rw [hq, d3]; simp, d4, fun _ => ?_,
              fun hc => absurd hc (by simp), d5.congr rfl ?_, (a3.trans b3).trans d6, by rw [d7, b4, a4]⟩
            · rw [hm, ← d2]; simp
            · have : xs ++ (b :: gs ++ t :: w) = xs ++ b :: gs ++ [t] ++ w := by simp
              rw [this]
              by_cases hy : ys = []
              · rw [d46 hy, hy]; simp [loc_append, loc]
              · rw [d45 hy]; simp [loc_append, loc]
            · rw [show xs ++ b :: gs ++ [t] ++ (w ++ us) = xs ++ (b :: gs ++ t :: w ++ us) by simp]
              exact upd_four L hr0 _ _ _ _
      · rw [if_neg hl, h.advance et, Res.ok_bind]
        have hm : mrg less (t :: ys) (b :: qs) = t :: mrg less ys (b :: qs) := by
          rw [mrg_cons]; simp [hl]
        have er3 : L r = (xs ++ [t]) ++ (ys ++ us) := by rw [e]; simp
        obtain ⟨m3, p, c1, c2⟩ := ih h er3 eq0 hms (by simpa using hk) (by rw [he0]; simp) he1
        refine ⟨m3, p, c1, ?_⟩
        cases p with
        | none =>
          obtain ⟨d0, d1, d2, d3, d4⟩ := c2
          refine ⟨by simp, d1.congr rfl (by rw [hm]; simp), d2, d3, ?_⟩
          rw [hm]
          have : xs ++ t :: mrg less ys (b :: qs) = xs ++ [t] ++ mrg less ys (b :: qs) := by simp
          rw [this, d4]
          simp
        | some p =>
          obtain ⟨w, v, qs', d1, d2, d3, d4, d45, d46, d5, d6, d7⟩ := c2
          refine ⟨t :: w, v, qs', by rw [d1]; simp, by rw [hm, ← d2]; rfl, d3, d4, fun _ => ?_,
            fun hc => absurd hc (by simp), d5.congr rfl (by simp), d6, d7⟩
          have : xs ++ t :: w = xs ++ [t] ++ w := by simp
          rw [this]
          by_cases hy : ys = []
          · rw [d46 hy, hy]; simp
          · rw [d45 hy]; simp

/-- `merge_aux` for a range followed at once by the other one -/
theorem Simple.mergeAux_adj (less : T → T → Bool) {m : Mem T} {L : Root → List (Nat × T)}
    (h : Rep m L) {r : Root} (hr0 : r ≠ .loc 0) (h0 : L (.loc 0) = []) {xs ys ms zs : List (Nat × T)}
    (e : L r = xs ++ (ys ++ (ms ++ zs))) (hms : ms ≠ []) :
    ∃ m', Simple.mergeAux m (loc (.root r) xs) (loc (.root r) (xs ++ ys)) (loc (.root r) (xs ++ ys))
        (loc (.root r) (xs ++ ys ++ ms)) less = .ok (m', loc (.root r) (xs ++ mrg less ys ms)) ∧
      Rep m' (upd L r (xs ++ (mrg less ys ms ++ zs))) ∧ Same m m' ∧ m'.fresh = m.fresh ∧
      (loc (.root r) (xs ++ mrg less ys ms) = loc (.root r) (xs ++ ys) ∨
        loc (.root r) (xs ++ mrg less ys ms) = loc (.root r) (xs ++ ys ++ ms)) := by
  unfold Simple.mergeAux
  obtain ⟨m1, a1, a2, a3, a4⟩ := h.moveLink hr0.symm (xs := []) (ys := []) (zs := xs ++ ys) (ws := ms ++ zs)
    h0 (by rw [e]; simp)
  rw [← root_loc] at a1
  rw [a1, Res.ok_bind]
  have er1 : upd (upd L (.loc 0) ([] ++ (ms ++ zs))) r (xs ++ ys) r = xs ++ (ys ++ []) := by rw [upd_same]; simp
  have e01 : upd (upd L (.loc 0) ([] ++ (ms ++ zs))) r (xs ++ ys) (.loc 0) = ms ++ zs := by
    rw [upd_ne _ _ hr0.symm, upd_same]; rfl
  have hl1 : loc (Loc.root r) (xs ++ ys ++ ms) = loc (.root (.loc 0)) ms := by
    rw [loc_append]; exact loc_indep hms
  obtain ⟨m2, p, b1, b2⟩ := Simple.mergeAuxLoop_ok less (m1.fresh + 1) a2 hr0 er1 e01 hms
    (by have := a2.length_le r; rw [er1] at this; simp at this; omega) rfl rfl
  rw [hl1, b1, Res.ok_bind]
  cases p with
  | none =>
    obtain ⟨d0, d1, d2, d3, d4⟩ := b2
    obtain ⟨m3, f1, f2, f3, f4⟩ := d1.moveLink hr0 (xs := xs ++ mrg less ys ms) (ys := []) (zs := []) (ws := zs)
      (by rw [upd_ne _ _ hr0, upd_same]; simp) (by rw [upd_same]; rfl)
    rw [← root_loc, d4] at f1
    dsimp only
    rw [f1, Res.ok_bind]
    refine ⟨m3, by rw [d4], f2.congr rfl ?_, (a3.trans d2).trans f3, by rw [f4, d3, a4], Or.inl d4⟩
    clear er1 e01 d1 f2 d4 hl1 b1
    simp only [List.append_nil, List.nil_append]
    upd_ext
  | some p =>
    obtain ⟨w, v, qs', d1, d2, d3, d4, d45, d46, d5, d6, d7⟩ := b2
    obtain ⟨m3, f1, f2, f3, f4⟩ := d5.moveLink hr0 (xs := xs ++ w) (ys := []) (zs := []) (ws := qs' ++ zs)
      (by rw [upd_ne _ _ hr0, upd_same]; simp) (by rw [upd_same]; rfl)
    rw [← root_loc, ← d1] at f1
    dsimp only
    rw [if_neg (by simp), f1, Res.ok_bind]
    have hl2 : loc (Loc.root r) (xs ++ mrg less ys ms) = loc (.root (.loc 0)) ms := by
      rw [← d2, d3, loc_append, loc_append, loc_append _ v]; exact loc_indep d4
    refine ⟨m3, by rw [hl2], f2.congr rfl ?_, (a3.trans d6).trans f3, by rw [f4, d7, a4], Or.inr hl2⟩
    rw [← d2]
    clear er1 e01 d1 d2 d3 d5 f2 hl1 b1 hl2
    simp only [List.append_nil, List.nil_append, List.append_assoc]
    upd_ext

/-- `merge_aux` for a range of the list followed by other nodes and then by the other range -/
theorem Simple.mergeAux_gap (less : T → T → Bool) {m : Mem T} {L : Root → List (Nat × T)}
    (h : Rep m L) {r : Root} (hr0 : r ≠ .loc 0) (h0 : L (.loc 0) = []) {xs ys us ms zs : List (Nat × T)}
    (e : L r = xs ++ (ys ++ (us ++ (ms ++ zs)))) (hus : us ≠ []) (hms : ms ≠ []) :
    ∃ m', Simple.mergeAux m (loc (.root r) xs) (loc (.root r) (xs ++ ys)) (loc (.root r) (xs ++ ys ++ us))
        (loc (.root r) (xs ++ ys ++ us ++ ms)) less = .ok (m', loc (.root r) (xs ++ mrg less ys ms)) ∧
      Rep m' (upd L r (xs ++ (mrg less ys ms ++ (us ++ zs)))) ∧ Same m m' ∧ m'.fresh = m.fresh := by
  unfold Simple.mergeAux
  obtain ⟨m1, a1, a2, a3, a4⟩ := h.moveLink hr0.symm (xs := []) (ys := []) (zs := xs ++ ys ++ us) (ws := ms ++ zs)
    h0 (by rw [e]; simp)
  rw [← root_loc] at a1
  rw [a1, Res.ok_bind]
  have er1 : upd (upd L (.loc 0) ([] ++ (ms ++ zs))) r (xs ++ ys ++ us) r = xs ++ (ys ++ us) := by rw [upd_same]; simp
  have e01 : upd (upd L (.loc 0) ([] ++ (ms ++ zs))) r (xs ++ ys ++ us) (.loc 0) = ms ++ zs := by
    rw [upd_ne _ _ hr0.symm, upd_same]; rfl
  have hl1 : loc (Loc.root r) (xs ++ ys ++ us ++ ms) = loc (.root (.loc 0)) ms := by
    rw [loc_append]; exact loc_indep hms
  have hl0 : ∀ vs, loc (Loc.root r) (xs ++ ys ++ us) = loc (.root r) (xs ++ vs ++ us) := by
    intro vs
    rw [loc_append, loc_append _ (xs ++ vs)]; exact loc_indep hus
  obtain ⟨m2, p, b1, b2⟩ := Simple.mergeAuxLoop_ok less (m1.fresh + 1) a2 hr0 er1 e01 hms
    (by have := a2.length_le r; rw [er1] at this; simp at this; omega) rfl rfl
  rw [hl1, b1, Res.ok_bind]
  cases p with
  | none =>
    obtain ⟨d0, d1, d2, d3, d4⟩ := b2
    obtain ⟨m3, f1, f2, f3, f4⟩ := d1.moveLink hr0 (xs := xs ++ mrg less ys ms ++ us) (ys := []) (zs := []) (ws := zs)
      (by rw [upd_ne _ _ hr0, upd_same]; simp) (by rw [upd_same]; rfl)
    rw [← root_loc, ← hl0] at f1
    dsimp only
    rw [f1, Res.ok_bind]
    refine ⟨m3, by rw [d4], f2.congr rfl ?_, (a3.trans d2).trans f3, by rw [f4, d3, a4]⟩
    clear er1 e01 d1 f2 d4 hl1 b1 hl0
    simp only [List.append_nil, List.nil_append, List.append_assoc]
    upd_ext
  | some p =>
    obtain ⟨w, v, qs', d1, d2, d3, d4, d45, d46, d5, d6, d7⟩ := b2
    have hle1 : loc (Loc.root (.loc 0)) ms = loc (.root (.loc 0)) qs' := by
      rw [d3, loc_append]; exact loc_indep d4
    obtain ⟨m3, f1, f2, f3, f4⟩ := d5.moveLink hr0 (xs := xs ++ w ++ us) (ys := []) (zs := qs') (ws := zs)
      (by rw [upd_ne _ _ hr0, upd_same]; simp) (by rw [upd_same])
    obtain ⟨m4, g1, g2, g3, g4⟩ := f2.moveLink hr0.symm (xs := qs') (ys := []) (zs := xs ++ w) (ws := us ++ zs)
      (by rw [upd_same]; simp) (by rw [upd_ne _ _ hr0, upd_same]; simp)
    obtain ⟨m5, k1, k2, k3, k4⟩ := g2.moveLink hr0 (xs := xs ++ w) (ys := []) (zs := []) (ws := qs' ++ (us ++ zs))
      (by rw [upd_same]; simp) (by rw [upd_ne _ _ hr0.symm, upd_same]; rfl)
    rw [← hle1, ← hl0] at f1
    rw [← hle1, ← d1] at g1
    rw [← root_loc, ← d1] at k1
    have hne : loc (Loc.root r) (xs ++ ys) ≠ loc (.root r) (xs ++ ys ++ us) := fun heq => by
      have := (h.loc_inj (xs := xs ++ ys) (ys := us ++ (ms ++ zs)) (zs := xs ++ ys ++ us) (ws := ms ++ zs)
        (by rw [e]; simp) (by rw [e]; simp) heq).2
      exact hus (List.self_eq_append_right.mp this)
    dsimp only
    rw [if_pos hne, f1, Res.ok_bind, g1, Res.ok_bind, k1, Res.ok_bind]
    have hl2 : loc (Loc.root r) (xs ++ mrg less ys ms) = loc (.root (.loc 0)) ms := by
      rw [← d2, d3, loc_append, loc_append, loc_append _ v]; exact loc_indep d4
    refine ⟨m5, by rw [hl2], k2.congr rfl ?_, (((a3.trans d6).trans f3).trans g3).trans k3, by rw [k4, g4, f4, d7, a4]⟩
    rw [← d2]
    clear er1 e01 d1 d2 d3 d5 f2 hl1 b1 hl2 k2 g2 hl0 hle1
    simp only [List.append_nil, List.nil_append, List.append_assoc]
    upd_ext

/-- `merge_aux` for ranges of two lists -/
theorem Simple.mergeAux_other (less : T → T → Bool) {m : Mem T} {L : Root → List (Nat × T)}
    (h : Rep m L) {r s : Root} (hrs : r ≠ s) (hr0 : r ≠ .loc 0) (hs0 : s ≠ .loc 0) (h0 : L (.loc 0) = [])
    {xs ys us vs ms zs : List (Nat × T)}
    (e : L r = xs ++ (ys ++ us)) (es : L s = vs ++ (ms ++ zs)) (hms : ms ≠ []) :
    ∃ m', Simple.mergeAux m (loc (.root r) xs) (loc (.root r) (xs ++ ys)) (loc (.root s) vs)
        (loc (.root s) (vs ++ ms)) less = .ok (m', loc (.root r) (xs ++ mrg less ys ms)) ∧
      Rep m' (upd (upd L r (xs ++ (mrg less ys ms ++ us))) s (vs ++ zs)) ∧ Same m m' ∧ m'.fresh = m.fresh := by
  unfold Simple.mergeAux
  obtain ⟨m1, a1, a2, a3, a4⟩ := h.moveLink hs0.symm (xs := []) (ys := []) (zs := vs) (ws := ms ++ zs)
    h0 es
  rw [← root_loc] at a1
  rw [a1, Res.ok_bind]
  have er1 : upd (upd L (.loc 0) ([] ++ (ms ++ zs))) s vs r = xs ++ (ys ++ us) := by
    rw [upd_ne _ _ hrs, upd_ne _ _ hr0, e]
  have e01 : upd (upd L (.loc 0) ([] ++ (ms ++ zs))) s vs (.loc 0) = ms ++ zs := by
    rw [upd_ne _ _ hs0.symm, upd_same]; rfl
  have hl1 : loc (Loc.root s) (vs ++ ms) = loc (.root (.loc 0)) ms := by
    rw [loc_append]; exact loc_indep hms
  obtain ⟨m2, p, b1, b2⟩ := Simple.mergeAuxLoop_ok less (m1.fresh + 1) a2 hr0 er1 e01 hms
    (by have := a2.length_le r; rw [er1] at this; simp at this; omega) rfl rfl
  rw [hl1, b1, Res.ok_bind]
  cases p with
  | none =>
    obtain ⟨d0, d1, d2, d3, d4⟩ := b2
    obtain ⟨m3, f1, f2, f3, f4⟩ := d1.moveLink hs0 (xs := vs) (ys := []) (zs := []) (ws := zs)
      (by rw [upd_ne _ _ hs0, upd_ne _ _ hrs.symm, upd_same]; simp) (by rw [upd_same]; rfl)
    rw [← root_loc] at f1
    dsimp only
    rw [f1, Res.ok_bind]
    refine ⟨m3, by rw [d4], f2.congr rfl ?_, (a3.trans d2).trans f3, by rw [f4, d3, a4]⟩
    clear er1 e01 d1 f2 d4 hl1 b1
    simp only [List.append_nil, List.nil_append, List.append_assoc]
    upd_ext
  | some p =>
    obtain ⟨w, v, qs', d1, d2, d3, d4, d45, d46, d5, d6, d7⟩ := b2
    have hle1 : loc (Loc.root (.loc 0)) ms = loc (.root (.loc 0)) qs' := by
      rw [d3, loc_append]; exact loc_indep d4
    obtain ⟨m3, f1, f2, f3, f4⟩ := d5.moveLink hs0 (xs := vs) (ys := []) (zs := qs') (ws := zs)
      (by rw [upd_ne _ _ hs0, upd_ne _ _ hrs.symm, upd_same]; simp) (by rw [upd_same])
    obtain ⟨m4, g1, g2, g3, g4⟩ := f2.moveLink hr0.symm (xs := qs') (ys := []) (zs := xs ++ w) (ws := us)
      (by rw [upd_same]; simp) (by rw [upd_ne _ _ hr0, upd_ne _ _ hrs, upd_ne _ _ hr0, upd_same]; simp)
    obtain ⟨m5, k1, k2, k3, k4⟩ := g2.moveLink hr0 (xs := xs ++ w) (ys := []) (zs := []) (ws := qs' ++ us)
      (by rw [upd_same]; simp) (by rw [upd_ne _ _ hr0.symm, upd_same]; rfl)
    rw [← hle1] at f1
    rw [← hle1, ← d1] at g1
    rw [← root_loc, ← d1] at k1
    have hne : loc (Loc.root r) (xs ++ ys) ≠ loc (.root s) vs := fun heq => by
      exact hrs (h.loc_inj (xs := xs ++ ys) (ys := us) (by rw [e]; simp) es heq).1
    dsimp only
    rw [if_pos hne, f1, Res.ok_bind, g1, Res.ok_bind, k1, Res.ok_bind]
    have hl2 : loc (Loc.root r) (xs ++ mrg less ys ms) = loc (.root (.loc 0)) ms := by
      rw [← d2, d3, loc_append, loc_append, loc_append _ v]; exact loc_indep d4
    refine ⟨m5, by rw [hl2], k2.congr rfl ?_, (((a3.trans d6).trans f3).trans g3).trans k3, by rw [k4, g4, f4, d7, a4]⟩
    rw [← d2]
    clear er1 e01 d1 d2 d3 d5 f2 hl1 b1 hl2 k2 g2 hle1
    simp only [List.append_nil, List.nil_append, List.append_assoc]
    upd_ext

theorem swapQ_ok {m : Mem T} {q p s : Loc} (hq : Live m q) (hp : Live m p) (hs : Live m s)
    (hqp : q ≠ p) (hsq : s ≠ q) (hsp : s ≠ p) (f : Mem T → Res (Mem T × Option Loc)) :
    (do let m1 ← swapLink m q p
        let m2 ← swapLink m1 q s
        f m2) = f (m.withLink (upd (upd (upd m.link q (m.link s)) s (m.link p)) p (m.link q))) := by
  unfold swapLink
  rw [get_of_live hq, Res.ok_bind, get_of_live hp, Res.ok_bind, set_of_live hq, Res.ok_bind,
    set_of_live (live_upd hp), Res.ok_bind, get_of_live (live_upd (live_upd hq)), Res.ok_bind,
    get_of_live (live_upd (live_upd hs)), Res.ok_bind, set_of_live (live_upd (live_upd hq)), Res.ok_bind,
    set_of_live (live_upd (live_upd (live_upd hs))), Res.ok_bind]
  dsimp only
  rw [upd_ne _ _ hqp, upd_same, upd_ne _ _ hsp, upd_ne _ _ hsq, upd_comm _ _ _ hqp.symm, upd_upd, upd_comm _ _ _ hsp.symm]

/-- what `merge_aux` has done when its loop ends, when the second range comes before the first one in a list -/
def AuxEndB (m m' : Mem T) (L : Root → List (Nat × T)) (less : T → T → Bool)
    (as ys us ms : List (Nat × T)) : Option Loc → Prop
  | none => ys ≠ [] ∧ Rep m' (upd L (.loc 0) (as ++ (mrg less ys ms ++ us))) ∧ Same m m' ∧ m'.fresh = m.fresh ∧
      ∀ p, loc p (mrg less ys ms) = loc p ys
  | some p => ∃ w v ms', p = loc (.root (.loc 0)) (ms' ++ (as ++ w)) ∧ w ++ ms' = mrg less ys ms ∧ ms = v ++ ms' ∧
      ms' ≠ [] ∧ Rep m' (upd L (.loc 0) (ms' ++ (as ++ (w ++ us)))) ∧ Same m m' ∧ m'.fresh = m.fresh

theorem Simple.mergeAuxLoopB_ok (less : T → T → Bool) (k : Nat) {m : Mem T} {L : Root → List (Nat × T)}
    (h : Rep m L) {t : Root} (htr : t ≠ .loc 0) (ht : L t = []) {as ys us ms : List (Nat × T)} {e0 e1 : Loc}
    (e : L (.loc 0) = ms ++ (as ++ (ys ++ us))) (hms : ms ≠ []) (has : as ≠ []) (hk : ys.length < k)
    (he0 : e0 = loc (.root (.loc 0)) (ms ++ (as ++ ys))) (he1 : e1 = loc (.root (.loc 0)) ms) :
    ∃ m' p, Simple.mergeAuxLoop less e0 e1 k m (loc (.root (.loc 0)) (ms ++ as)) = .ok (m', p) ∧
      AuxEndB m m' L less as ys us ms p := by
  induction k generalizing m L as ys ms with
  | zero => omega
  | succ k ih =>
    unfold Simple.mergeAuxLoop
    have e' : L (.loc 0) = (ms ++ as) ++ (ys ++ us) := by rw [e]; simp
    have e'' : L (.loc 0) = (ms ++ (as ++ ys)) ++ us := by rw [e]; simp
    obtain ⟨b, qs, rfl⟩ := List.exists_cons_of_ne_nil hms
    rcases ys with _ | ⟨t', ys⟩
    · rw [if_pos (by rw [he0]; simp)]
      refine ⟨m, _, rfl, [], [], b :: qs, by simp, by simp [mrg], rfl, by simp, h.congr rfl ?_, Same.rfl' m, rfl⟩
      rw [upd_self L (by rw [e])]
    · rw [if_neg (fun heq => by rw [he0] at heq; have := (h.loc_inj e' e'' heq).2; simp at this)]
      have et : L (.loc 0) = (b :: qs ++ as) ++ t' :: (ys ++ us) := e'
      have eb : L (.loc 0) = [] ++ b :: (qs ++ (as ++ (t' :: ys ++ us))) := e
      have hnb : node m (.root (.loc 0)) = .ok b.1 := h.node eb
      rw [h.item et, Res.ok_bind, hnb, Res.ok_bind,
        h.contents (r := .loc 0) (a := b) (by rw [eb]; simp), Res.ok_bind]
      by_cases hl : less b.2 t'.2 = true
      · rw [if_pos hl]
        have hg := Simple.gatherTo_ok less t'.2 (m.fresh + 1) h (r := .loc 0) (xs := [] ++ [b]) (ys := qs)
          (by rw [eb]; rfl) (by have := h.length_le (.loc 0); rw [eb] at this; simp at this; omega)
        rw [show [] ++ [b] ++ qs = b :: qs from rfl, ← he1, loc_snoc] at hg
        rw [hg, Res.ok_bind]
        obtain ⟨gs, hgs⟩ : ∃ gs, gs = qs.takeWhile (fun a => less a.2 t'.2) := ⟨_, rfl⟩
        obtain ⟨rest, hrest⟩ : ∃ rest, rest = qs.dropWhile (fun a => less a.2 t'.2) := ⟨_, rfl⟩
        have hq : qs = gs ++ rest := by rw [hgs, hrest, List.takeWhile_append_dropWhile]
        rw [← hgs]
        have hm : mrg less (t' :: ys) (b :: qs) = b :: gs ++ t' :: mrg less ys rest := by
          rw [mrg_cons]; simp [hl, hgs, hrest]
        have es : L (.loc 0) = (b :: gs) ++ (rest ++ (as ++ (t' :: ys ++ us))) := by rw [e, hq]; simp
        have eg : L (.loc 0) = [] ++ ((b :: gs) ++ ((rest ++ as) ++ (t' :: ys ++ us))) := by rw [es]; simp
        have hne : rest ++ as ≠ [] := by simp [has]
        have hB : loc (Loc.root (.loc 0)) (b :: qs ++ as) = loc (.root (.loc 0)) ([] ++ (b :: gs) ++ (rest ++ as)) := by
          rw [hq]; simp
        have n1 : Loc.root (.loc 0) ≠ loc (.root (.loc 0)) (b :: qs ++ as) := fun heq => by
          have := (h.loc_inj (xs := []) eb et heq).2
          simp at this
        have n2 : loc (Loc.root (.loc 0)) ([] ++ [b] ++ gs) ≠ .root (.loc 0) := fun heq => by
          have := (h.loc_inj (xs := [] ++ [b] ++ gs) (zs := []) es eb heq).2
          simp at this
        have n3 : loc (Loc.root (.loc 0)) ([] ++ [b] ++ gs) ≠ loc (.root (.loc 0)) (b :: qs ++ as) := fun heq => by
          have := (h.loc_inj (xs := [] ++ [b] ++ gs) es et heq).2
          rw [hq] at this
          simp [has] at this
        have hse : loc (Loc.root (.loc 0)) ([] ++ [b] ++ gs) = e1 ↔ rest = [] := by
          rw [he1]
          constructor
          · intro heq
            have := (h.loc_inj (xs := [] ++ [b] ++ gs) es e heq).2
            rw [hq] at this
            simpa using this
          · intro h2; rw [hq, h2]; simp
        rw [swapQ_ok (q := .root (.loc 0)) trivial (h.live et) (h.live (xs := [] ++ [b] ++ gs) es) n1 n2 n3]
        have hrot := h.rotate htr ht (xs := []) (by simp) hne eg
        rw [← hB] at hrot
        obtain ⟨m2, hm2⟩ : ∃ m2 : Mem T, m2 = m.withLink (upd (upd (upd m.link (.root (.loc 0))
          (m.link (loc (Loc.root (Root.loc 0)) ([] ++ b :: gs))))
          (loc (Loc.root (Root.loc 0)) ([] ++ b :: gs)) (m.link (loc (Loc.root (Root.loc 0)) (b :: qs ++ as))))
          (loc (Loc.root (Root.loc 0)) (b :: qs ++ as)) (m.link (.root (.loc 0)))) := ⟨_, rfl⟩
        rw [show [] ++ [b] ++ gs = [] ++ b :: gs from rfl] at hse n2 n3 ⊢
        have hS : Same m m2 := by rw [hm2]; exact ⟨rfl, rfl⟩
        have hF : m2.fresh = m.fresh := by rw [hm2]
        rw [← hm2]
        replace hrot := hrot.congr (show _ = m2 from hm2.symm) rfl
        have hs' : loc (Loc.root (.loc 0)) ([] ++ b :: gs) = loc (.root (.loc 0)) (rest ++ as ++ (b :: gs)) := by
          rw [loc_append _ (rest ++ as)]; exact loc_indep (by simp)
        have er2 : upd L (.loc 0) ([] ++ (rest ++ as ++ (b :: gs ++ (t' :: ys ++ us)))) (.loc 0) =
            (rest ++ as ++ (b :: gs)) ++ t' :: (ys ++ us) := by rw [upd_same]; simp
        by_cases hr : rest = []
        · rw [if_pos (hse.mpr hr)]
          subst hr
          refine ⟨m2, none, rfl, by simp, ?_, hS, hF, fun p => ?_⟩
          · refine hrot.congr rfl ?_
            rw [hm]
            simp [mrg]
          · rw [hm]
            simp [mrg, loc_append, loc]
        · rw [if_neg (fun heq => hr (hse.mp heq)), hs', hrot.advance er2, Res.ok_bind]
          have er3 : upd L (.loc 0) ([] ++ (rest ++ as ++ (b :: gs ++ (t' :: ys ++ us)))) (.loc 0) =
              rest ++ ((as ++ b :: gs ++ [t']) ++ (ys ++ us)) := by
            rw [er2]; simp
          obtain ⟨m3, p, c1, c2⟩ := ih hrot (by rw [upd_ne _ _ htr, ht]) er3 hr (by simp) (by simpa using hk)
            (by rw [he0]; simp [loc_append, loc])
            (by rw [he1, hq, show b :: (gs ++ rest) = (b :: gs) ++ rest from rfl, loc_append]; exact loc_indep hr)
          refine ⟨m3, p, by rw [← c1]; simp, ?_⟩
          cases p with
          | none =>
            obtain ⟨d0, d1, d2, d3, d4⟩ := c2
            refine ⟨by simp, d1.congr rfl ?_, hS.trans d2, by rw [d3, hF], fun p => ?_⟩
            · rw [hm, upd_upd]
              simp
            · rw [hm]
              rw [loc_append]
              exact d4 _
          | some p =>
            obtain ⟨w, v, qs', d1, d2, d3, d4, d5, d6, d7⟩ := c2
            refine ⟨b :: gs ++ t' :: w, b :: gs ++ v, qs', by rw [d1]; simp, ?_, by rw [hq, d3]; simp, d4, 
              d5.congr rfl ?_, hS.trans d6, by rw [d7, hF]⟩
            · rw [hm, ← d2]; simp
            · rw [upd_upd]; simp
      · rw [if_neg hl, h.advance et, Res.ok_bind]
        have hm : mrg less (t' :: ys) (b :: qs) = t' :: mrg less ys (b :: qs) := by
          rw [mrg_cons]; simp [hl]
        have er3 : L (.loc 0) = b :: qs ++ ((as ++ [t']) ++ (ys ++ us)) := by rw [e]; simp
        obtain ⟨m3, p, c1, c2⟩ := ih h ht er3 hms (by simp) (by simpa using hk) (by rw [he0]; simp) he1
        refine ⟨m3, p, by rw [← c1]; simp, ?_⟩
        cases p with
        | none =>
          obtain ⟨d0, d1, d2, d3, d4⟩ := c2
          refine ⟨by simp, d1.congr rfl (by rw [hm]; simp), d2, d3, fun p => ?_⟩
          rw [hm]
          exact d4 _
        | some p =>
          obtain ⟨w, v, qs', d1, d2, d3, d4, d5, d6, d7⟩ := c2
          exact ⟨t' :: w, v, qs', by rw [d1]; simp, by rw [hm, ← d2]; rfl, d3, d4, d5.congr rfl (by simp), d6, d7⟩

/-- `merge_aux` when the second range comes before the first one in a list, with other nodes between them -/
theorem Simple.mergeAux_before (less : T → T → Bool) {m : Mem T} {L : Root → List (Nat × T)}
    (h : Rep m L) {r : Root} (hr0 : r ≠ .loc 0) (h0 : L (.loc 0) = []) (hr1 : r ≠ .loc 1) (h1 : L (.loc 1) = [])
    {xs ys us ms as : List (Nat × T)}
    (e : L r = xs ++ (ms ++ (as ++ (ys ++ us)))) (has : as ≠ []) (hms : ms ≠ []) :
    ∃ m', Simple.mergeAux m (loc (.root r) (xs ++ ms ++ as)) (loc (.root r) (xs ++ ms ++ as ++ ys)) (loc (.root r) xs)
        (loc (.root r) (xs ++ ms)) less = .ok (m', loc (.root r) (xs ++ as ++ mrg less ys ms)) ∧
      Rep m' (upd L r (xs ++ (as ++ (mrg less ys ms ++ us)))) ∧ Same m m' ∧ m'.fresh = m.fresh ∧
      ((ys ≠ [] ∧ loc (.root r) (xs ++ as ++ mrg less ys ms) = loc (.root r) (xs ++ ms ++ as ++ ys)) ∨
        loc (.root r) (xs ++ as ++ mrg less ys ms) = loc (.root r) (xs ++ ms)) := by
  unfold Simple.mergeAux
  have h10 : Root.loc 1 ≠ .loc 0 := by decide
  obtain ⟨m1, a1, a2, a3, a4⟩ := h.moveLink hr0.symm (xs := []) (ys := []) (zs := xs) (ws := ms ++ (as ++ (ys ++ us)))
    h0 e
  rw [← root_loc] at a1
  rw [a1, Res.ok_bind]
  have e01 : upd (upd L (.loc 0) ([] ++ (ms ++ (as ++ (ys ++ us))))) r xs (.loc 0) = ms ++ (as ++ (ys ++ us)) := by
    rw [upd_ne _ _ hr0.symm, upd_same]; rfl
  have hb0 : loc (Loc.root r) (xs ++ ms ++ as) = loc (.root (.loc 0)) (ms ++ as) := by
    rw [List.append_assoc, loc_append _ xs]; exact loc_indep (by simp [hms])
  have he0 : loc (Loc.root r) (xs ++ ms ++ as ++ ys) = loc (.root (.loc 0)) (ms ++ (as ++ ys)) := by
    rw [List.append_assoc, List.append_assoc, loc_append _ xs]; exact loc_indep (by simp [hms])
  have he1 : loc (Loc.root r) (xs ++ ms) = loc (.root (.loc 0)) ms := by
    rw [loc_append _ xs]; exact loc_indep hms
  obtain ⟨m2, p, b1, b2⟩ := Simple.mergeAuxLoopB_ok less (m1.fresh + 1) a2 (t := .loc 1) h10
    (by rw [upd_ne _ _ hr1.symm, upd_ne _ _ h10, h1]) e01 hms has
    (by have := a2.length_le (.loc 0); rw [e01] at this; simp at this; omega) rfl rfl
  rw [hb0, he0, he1, b1, Res.ok_bind]
  cases p with
  | none =>
    obtain ⟨d0, d1, d2, d3, d4⟩ := b2
    obtain ⟨m3, f1, f2, f3, f4⟩ := d1.moveLink hr0 (xs := xs) (ys := []) (zs := [])
      (ws := as ++ (mrg less ys ms ++ us))
      (by rw [upd_ne _ _ hr0, upd_same]; simp) (by rw [upd_same]; rfl)
    rw [← root_loc] at f1
    dsimp only
    rw [f1, Res.ok_bind]
    have hle : loc (Loc.root r) (xs ++ as ++ mrg less ys ms) = loc (.root (.loc 0)) (ms ++ (as ++ ys)) := by
      rw [← he0, loc_append _ (xs ++ as), loc_append _ (xs ++ ms ++ as), d4]; exact loc_indep d0
    refine ⟨m3, by rw [hle], f2.congr rfl ?_, (a3.trans d2).trans f3, by rw [f4, d3, a4], Or.inl ⟨d0, hle⟩⟩
    clear e01 d1 f2 d4 he0 he1 hb0 b1 hle
    upd_ext
  | some p =>
    obtain ⟨w, v, qs', d1, d2, d3, d4, d5, d6, d7⟩ := b2
    have hle1 : loc (Loc.root (.loc 0)) ms = loc (.root (.loc 0)) qs' := by
      rw [d3, loc_append]; exact loc_indep d4
    have hp : p = loc (.root r) (xs ++ (as ++ w)) := by
      rw [d1, loc_append, loc_append _ xs]; exact loc_indep (by simp [has])
    obtain ⟨m3, f1, f2, f3, f4⟩ := d5.moveLink hr0 (xs := xs) (ys := []) (zs := qs') (ws := as ++ (w ++ us))
      (by rw [upd_ne _ _ hr0, upd_same]; simp) (by rw [upd_same])
    obtain ⟨m4, g1, g2, g3, g4⟩ := f2.moveLink hr0.symm (xs := qs') (ys := []) (zs := xs ++ (as ++ w)) (ws := us)
      (by rw [upd_same]; simp) (by rw [upd_ne _ _ hr0, upd_same]; simp)
    obtain ⟨m5, k1, k2, k3, k4⟩ := g2.moveLink hr0 (xs := xs ++ (as ++ w)) (ys := []) (zs := []) (ws := qs' ++ us)
      (by rw [upd_same]; simp) (by rw [upd_ne _ _ hr0.symm, upd_same]; rfl)
    rw [← hle1] at f1
    rw [← hle1, ← hp] at g1
    rw [← root_loc, ← hp] at k1
    have hne : loc (Loc.root (.loc 0)) (ms ++ (as ++ ys)) ≠ loc (.root r) xs := fun heq => by
      rw [← he0] at heq
      have := (h.loc_inj (xs := xs ++ ms ++ as ++ ys) (ys := us) (by rw [e]; simp) e heq).2
      simp [hms] at this
    dsimp only
    rw [if_pos hne, f1, Res.ok_bind, g1, Res.ok_bind, k1, Res.ok_bind]
    have hl2 : loc (Loc.root r) (xs ++ as ++ mrg less ys ms) = loc (.root (.loc 0)) ms := by
      rw [← d2, hle1, ← List.append_assoc, loc_append _ (xs ++ as ++ w)]; exact loc_indep d4
    refine ⟨m5, by rw [hl2], k2.congr rfl ?_, (((a3.trans d6).trans f3).trans g3).trans k3, by rw [k4, g4, f4, d7, a4],
      Or.inr hl2⟩
    rw [← d2]
    clear e01 d1 d2 d3 d5 f2 b1 hl2 k2 g2 he0 he1 hb0 hle1 hp
    simp only [List.append_nil, List.nil_append, List.append_assoc]
    upd_ext

/-! ### Order -/

/-- `less` is a strict weak order -/
structure StrictWeak (less : T → T → Bool) : Prop where
  asymm : ∀ a b, less a b = true → less b a = false
  negTrans : ∀ a b c, less a c = true → less a b = true ∨ less b c = true

/-- the list is sorted -/
def Sorted (less : T → T → Bool) (l : List (Nat × T)) : Prop := l.Pairwise (fun a b => less b.2 a.2 = false)

/-- the nodes whose contents are equivalent to a given value -/
def class' (less : T → T → Bool) (c : T) (l : List (Nat × T)) : List (Nat × T) :=
  l.filter (fun a => !less a.2 c && !less c a.2)

theorem StrictWeak.trans {less : T → T → Bool} (h : StrictWeak less) {a b c : T} (h1 : less b a = false)
    (h2 : less c b = false) : less c a = false := by
  cases h3 : less c a with
  | false => rfl
  | true =>
    rcases h.negTrans c b a h3 with h4 | h4
    · rw [h2] at h4; cases h4
    · rw [h1] at h4; cases h4

theorem mrg_perm (less : T → T → Bool) (ys ms : List (Nat × T)) : (mrg less ys ms).Perm (ys ++ ms) :=
  List.merge_perm_append _

theorem mrg_sorted {less : T → T → Bool} (h : StrictWeak less) {ys ms : List (Nat × T)} (hy : Sorted less ys)
    (hm : Sorted less ms) : Sorted less (mrg less ys ms) := by
  have := List.pairwise_merge (le := fun a b : Nat × T => !less b.2 a.2)
    (fun a b c h1 h2 => by simp only [Bool.not_eq_true'] at *; exact h.trans h1 h2)
    (fun a b => by
      cases h1 : less b.2 a.2 with
      | false => simp
      | true => simp [h.asymm _ _ h1]) ys ms
    (hy.imp (fun h => by simpa using h)) (hm.imp (fun h => by simpa using h))
  exact this.imp (fun h => by simpa using h)

/-- equivalent elements keep their order, those of the first list before those of the second one -/
theorem mrg_stable {less : T → T → Bool} (h : StrictWeak less) (c : T) {ys ms : List (Nat × T)} (hy : Sorted less ys) :
    class' less c (mrg less ys ms) = class' less c ys ++ class' less c ms := by
  induction ys generalizing ms with
  | nil => simp [mrg, class']
  | cons t ys ih =>
    have hy' : Sorted less ys := (List.pairwise_cons.mp hy).2
    induction ms with
    | nil => simp [mrg, class']
    | cons b ms ih2 =>
      unfold mrg
      rw [List.cons_merge_cons]
      by_cases hl : less b.2 t.2 = true
      · rw [if_neg (by simp [hl])]
        have h2 : class' less c (b :: List.merge (t :: ys) ms (fun a b => !less b.2 a.2)) =
          class' less c [b] ++ (class' less c (t :: ys) ++ class' less c ms) := by
          rw [show b :: List.merge (t :: ys) ms (fun a b => !less b.2 a.2) =
            [b] ++ List.merge (t :: ys) ms (fun a b => !less b.2 a.2) from rfl]
          unfold class' at ih2 ⊢
          rw [List.filter_append, ih2]
        have h3 : class' less c (b :: ms) = class' less c [b] ++ class' less c ms := by
          unfold class'
          rw [← List.filter_append]; rfl
        rw [h2, h3]
        by_cases hb : (!less b.2 c && !less c b.2) = true
        · have h4 : class' less c (t :: ys) = [] := by
            unfold class'
            rw [List.filter_eq_nil_iff]
            intro a ha hc
            have h5 : less a.2 t.2 = false := by
              rcases List.mem_cons.mp ha with rfl | ha
              · cases h6 : less a.2 a.2 with
                | false => rfl
                | true => have := h.asymm _ _ h6; rw [h6] at this; cases this
              · exact (List.pairwise_cons.mp hy).1 a ha
            simp only [Bool.and_eq_true, Bool.not_eq_true'] at hb hc
            rcases h.negTrans b.2 c t.2 hl with h6 | h6
            · rw [hb.1] at h6; cases h6
            · rcases h.negTrans c a.2 t.2 h6 with h7 | h7
              · rw [hc.2] at h7; cases h7
              · rw [h5] at h7; cases h7
          rw [h4]; simp
        · have : class' less c [b] = [] := by
            unfold class'
            rw [List.filter_cons, if_neg hb]; rfl
          rw [this]; rfl
      · rw [if_pos (by simpa using hl)]
        have := ih hy' (ms := b :: ms)
        unfold mrg at this
        unfold class' at this ⊢
        rw [List.filter_cons, this, List.filter_cons (x := t)]
        split <;> rfl

/-- `sort_next` -/
theorem Simple.sortNext_ok (less : T → T → Bool) (k n : Nat) {m : Mem T} {L : Root → List (Nat × T)}
    (h : Rep m L) {r : Root} (hr0 : r ≠ .loc 0) (h0 : L (.loc 0) = []) {xs ys zs : List (Nat × T)}
    (e : L r = xs ++ (ys ++ zs)) (hn : ys.length = n) (hpos : 0 < n) (hk : n < k) :
    ∃ m' ws, Simple.sortNext less k m (loc (.root r) xs) n = .ok (m', loc (.root r) (xs ++ ws)) ∧
      Rep m' (upd L r (xs ++ (ws ++ zs))) ∧ Same m m' ∧ m'.fresh = m.fresh ∧ ws.Perm ys ∧
      (StrictWeak less → Sorted less ws ∧ ∀ c, class' less c ws = class' less c ys) := by
  induction k generalizing m L xs ys zs n with
  | zero => omega
  | succ k ih =>
    unfold Simple.sortNext
    by_cases h1 : n = 1
    · rw [if_pos h1]
      obtain ⟨a, rfl⟩ := List.length_eq_one_iff.mp (hn.trans h1)
      rw [h.advance e, Res.ok_bind]
      exact ⟨m, [a], rfl, h.congr rfl (upd_self L e).symm, Same.rfl' m, rfl, List.Perm.refl _,
        fun _ => ⟨List.pairwise_singleton _ _, fun _ => rfl⟩⟩
    · rw [if_neg h1]
      obtain ⟨us, hus⟩ : ∃ us, us = ys.take (n / 2) := ⟨_, rfl⟩
      obtain ⟨vs, hvs⟩ : ∃ vs, vs = ys.drop (n / 2) := ⟨_, rfl⟩
      have hy : ys = us ++ vs := by rw [hus, hvs, List.take_append_drop]
      have hlu : us.length = n / 2 := by rw [hus, List.length_take]; omega
      have hlv : vs.length = n - n / 2 := by rw [hvs, List.length_drop]; omega
      obtain ⟨m1, us', a1, a2, a3, a4, a5, a6⟩ := ih (n / 2) h h0 (xs := xs) (ys := us) (zs := vs ++ zs)
        (by rw [e, hy]; simp) hlu (by omega) (by omega)
      rw [a1, Res.ok_bind]
      dsimp only
      have er1 : upd L r (xs ++ (us' ++ (vs ++ zs))) r = (xs ++ us') ++ (vs ++ zs) := by rw [upd_same]; simp
      have e01 : upd L r (xs ++ (us' ++ (vs ++ zs))) (.loc 0) = [] := by rw [upd_ne _ _ hr0.symm, h0]
      obtain ⟨m2, vs', b1, b2, b3, b4, b5, b6⟩ := ih (n - n / 2) a2 e01 er1 hlv (by omega) (by omega)
      rw [b1, Res.ok_bind]
      dsimp only
      have er2 : upd (upd L r (xs ++ (us' ++ (vs ++ zs)))) r (xs ++ us' ++ (vs' ++ zs)) r = xs ++ (us' ++ (vs' ++ zs)) := by
        rw [upd_same]; simp
      have e02 : upd (upd L r (xs ++ (us' ++ (vs ++ zs)))) r (xs ++ us' ++ (vs' ++ zs)) (.loc 0) = [] := by
        rw [upd_ne _ _ hr0.symm, e01]
      have hv : vs' ≠ [] := by
        intro hc
        have := b5.length_eq
        rw [hc, hlv] at this
        simp at this
        omega
      obtain ⟨m3, c1, c2, c3, c4, _⟩ := Simple.mergeAux_adj less b2 hr0 e02 er2 hv
      refine ⟨m3, mrg less us' vs', c1, c2.congr rfl ?_, (a3.trans b3).trans c3, by rw [c4, b4, a4], ?_, fun hs => ⟨?_, fun c => ?_⟩⟩
      · rw [upd_upd, upd_upd]
      · rw [hy]
        exact (mrg_perm less us' vs').trans (a5.append b5)
      · exact mrg_sorted hs (a6 hs).1 (b6 hs).1
      · rw [mrg_stable hs c (a6 hs).1, (a6 hs).2, (b6 hs).2, hy]
        unfold class'
        rw [List.filter_append]

/-- `sort` -/
theorem Simple.sort_ok (less : T → T → Bool) {m : Mem T} {L : Root → List (Nat × T)}
    (h : Rep m L) {r : Root} (hr0 : r ≠ .loc 0) (h0 : L (.loc 0) = []) :
    ∃ m' ws, Simple.sort m r less = .ok m' ∧
      Rep m' (upd L r ws) ∧ Same m m' ∧ m'.fresh = m.fresh ∧ ws.Perm (L r) ∧
      (StrictWeak less → Sorted less ws ∧ ∀ c, class' less c ws = class' less c (L r)) := by
  unfold Simple.sort
  rw [Simple.length_ok h, Res.ok_bind]
  by_cases hn : (L r).length > 1
  · rw [if_pos hn]
    obtain ⟨m', ws, a1, a2, a3, a4, a5, a6⟩ := Simple.sortNext_ok less ((L r).length + 1) (L r).length h hr0 h0
      (xs := []) (ys := L r) (zs := []) (by simp) rfl (by omega) (by omega)
    rw [← root_loc] at a1
    refine ⟨m', ws, ?_, a2.congr rfl (by simp), a3, a4, a5, a6⟩
    rw [a1]; rfl
  · rw [if_neg hn]
    refine ⟨m, L r, rfl, h.congr rfl (upd_self L rfl).symm, Same.rfl' m, rfl, List.Perm.refl _, fun _ => ⟨?_, fun _ => rfl⟩⟩
    rcases e : L r with _ | ⟨a, _ | ⟨b, ys⟩⟩
    · exact List.Pairwise.nil
    · exact List.pairwise_singleton _ _
    · rw [e] at hn; simp at hn

end Verif.SL
