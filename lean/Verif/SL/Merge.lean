import Verif.SL.Ops3
/-
What the merging functions do to the lists in memory.
-/
namespace Verif.SL
variable {T : Type}

/-- the stable merge of two lists of nodes: a node of the second list comes before one of the first list only if its
contents are less -/
abbrev mrg (less : T → T → Bool) (ys ms : List (Nat × T)) : List (Nat × T) :=
  List.merge ys ms (fun a b => !less b.2 a.2)

theorem mrg_cons (less : T → T → Bool) (t : Nat × T) (ys ms : List (Nat × T)) :
    mrg less (t :: ys) ms = ms.takeWhile (fun a => less a.2 t.2) ++
      t :: mrg less ys (ms.dropWhile (fun a => less a.2 t.2)) := by
  induction ms with
  | nil => simp [mrg]
  | cons a ms ih =>
    unfold mrg at ih ⊢
    rw [List.cons_merge_cons]
    by_cases h : less a.2 t.2 = true
    · simp [h, List.takeWhile_cons, List.dropWhile_cons, ih]
    · simp [h, List.takeWhile_cons, List.dropWhile_cons]

theorem Simple.gatherLoop_ok (less : T → T → Bool) (t : T) (k : Nat) {m : Mem T} {L : Root → List (Nat × T)}
    (h : Rep m L) {r : Root} {xs ys : List (Nat × T)} (e : L r = xs ++ ys) (hk : ys.length < k) :
    Simple.gatherLoop less t k m (loc (.root r) xs) =
      .ok (loc (.root r) (xs ++ ys.takeWhile (fun a => less a.2 t))) := by
  induction k generalizing xs ys with
  | zero => omega
  | succ k ih =>
    unfold Simple.gatherLoop
    rw [h.atEnd e, Res.ok_bind]
    cases ys with
    | nil => simp
    | cons a ys =>
      rw [if_neg (by simp), h.item e, Res.ok_bind]
      by_cases hl : less a.2 t = true
      · rw [if_pos hl, h.advance e, Res.ok_bind, ih (xs := xs ++ [a]) (ys := ys) (by rw [e]; simp) (by simpa using hk)]
        simp [hl]
      · rw [if_neg hl]
        simp [hl]

theorem Simple.gatherTo_ok (less : T → T → Bool) (t : T) (k : Nat) {m : Mem T} {L : Root → List (Nat × T)}
    (h : Rep m L) {r : Root} {xs ys zs : List (Nat × T)} (e : L r = xs ++ (ys ++ zs)) (hk : ys.length < k) :
    Simple.gatherTo less t (loc (.root r) (xs ++ ys)) k m (loc (.root r) xs) =
      .ok (loc (.root r) (xs ++ ys.takeWhile (fun a => less a.2 t))) := by
  induction k generalizing xs ys with
  | zero => omega
  | succ k ih =>
    unfold Simple.gatherTo
    cases ys with
    | nil => simp
    | cons a ys =>
      have e' : L r = (xs ++ a :: ys) ++ zs := by rw [e]; simp
      rw [if_neg (fun heq => by have := (h.loc_inj e e' heq).2; simp at this), h.item e, Res.ok_bind]
      by_cases hl : less a.2 t = true
      · rw [if_pos hl, h.advance e, Res.ok_bind]
        have := ih (xs := xs ++ [a]) (ys := ys) (by rw [e]; simp) (by simpa using hk)
        rw [List.append_assoc] at this
        rw [show xs ++ a :: ys = xs ++ ([a] ++ ys) from rfl, this]
        simp [hl]
      · rw [if_neg hl]
        simp [hl]

/-- what `merge` has done when its loop ends -/
def MergeEnd (m m' : Mem T) (L : Root → List (Nat × T)) (less : T → T → Bool) (r : Root)
    (xs ys qs : List (Nat × T)) : Option Loc → Prop
  | none => Rep m' (upd (upd L r (xs ++ mrg less ys qs)) (.loc 0) []) ∧ Same m m' ∧ m'.fresh = m.fresh ∧
      loc (.root r) (xs ++ mrg less ys qs) = loc (.root r) (xs ++ ys)
  | some p => ∃ w v qs', p = loc (.root r) (xs ++ w) ∧ w ++ qs' = mrg less ys qs ∧ qs = v ++ qs' ∧ qs' ≠ [] ∧
      Rep m' (upd (upd L r (xs ++ w)) (.loc 0) qs') ∧ Same m m' ∧ m'.fresh = m.fresh

theorem Simple.mergeLoop_ok (less : T → T → Bool) (k : Nat) {m : Mem T} {L : Root → List (Nat × T)}
    (h : Rep m L) {r : Root} (hr0 : r ≠ .loc 0) {xs ys qs : List (Nat × T)} {t b : Nat × T}
    (e : L r = xs ++ t :: ys) (e0 : L (.loc 0) = b :: qs) (hk : ys.length < k) :
    ∃ m' p, Simple.mergeLoop less k m (loc (.root r) xs) = .ok (m', p) ∧
      MergeEnd m m' L less r xs (t :: ys) (b :: qs) p := by
  induction k generalizing m L xs ys qs t b with
  | zero => omega
  | succ k ih =>
    unfold Simple.mergeLoop
    rw [h.item e, Res.ok_bind, root_loc (T := T) (.loc 0), h.node (xs := []) e0, Res.ok_bind,
      h.contents (r := .loc 0) (a := b) (by rw [e0]; simp), Res.ok_bind]
    by_cases hl : less b.2 t.2 = true
    · rw [if_pos hl]
      have hg := Simple.gatherLoop_ok less t.2 (m.fresh + 1) h (r := .loc 0) (xs := [] ++ [b]) (ys := qs)
        (by rw [e0]; rfl) (by have := h.length_le (.loc 0); rw [e0] at this; simp at this; omega)
      rw [loc_snoc] at hg
      rw [hg, Res.ok_bind]
      obtain ⟨gs, hgs⟩ : ∃ gs, gs = qs.takeWhile (fun a => less a.2 t.2) := ⟨_, rfl⟩
      obtain ⟨rest, hrest⟩ : ∃ rest, rest = qs.dropWhile (fun a => less a.2 t.2) := ⟨_, rfl⟩
      have hq : qs = gs ++ rest := by rw [hgs, hrest, List.takeWhile_append_dropWhile]
      rw [← hgs]
      have hm : mrg less (t :: ys) (b :: qs) = b :: gs ++ t :: mrg less ys rest := by
        rw [mrg_cons]; simp [hl, hgs, hrest]
      obtain ⟨m1, a1, a2, a3, a4⟩ := h.swapLink hr0.symm (xs := []) (ys := b :: qs) (zs := xs) (ws := t :: ys) e0 e
      rw [a1, Res.ok_bind]
      have hs : loc (Loc.root (.loc 0)) ([] ++ [b] ++ gs) = loc (.root r) (xs ++ (b :: gs)) := by
        rw [loc_append (.root r)]; exact loc_indep (by simp)
      rw [hs]
      have er1 : upd (upd L (.loc 0) ([] ++ t :: ys)) r (xs ++ b :: qs) r = (xs ++ b :: gs) ++ rest := by
        rw [upd_same, hq]; simp
      have e01 : upd (upd L (.loc 0) ([] ++ t :: ys)) r (xs ++ b :: qs) (.loc 0) = [] ++ t :: ys := by
        rw [upd_ne _ _ hr0.symm, upd_same]
      obtain ⟨m2, b1, b2, b3, b4⟩ := a2.swapLink hr0.symm e01 er1
      rw [b1, Res.ok_bind]
      have b2' : Rep m2 (upd (upd L r (xs ++ b :: gs ++ t :: ys)) (.loc 0) rest) := by
        refine b2.congr rfl ?_
        clear er1 e01 hs hm hq hgs hrest hg
        upd_ext
      clear b2
      have er2 : upd (upd L r (xs ++ b :: gs ++ t :: ys)) (.loc 0) rest r = (xs ++ b :: gs) ++ t :: ys := by
        rw [upd_ne _ _ hr0, upd_same]
      have e02 : upd (upd L r (xs ++ b :: gs ++ t :: ys)) (.loc 0) rest (.loc 0) = rest := upd_same ..
      have hlk := b2'.link (r := .loc 0) (xs := []) (ys := rest) e02
      rw [hlk]
      rcases rest with _ | ⟨c, rest⟩
      · rw [if_pos (by simp)]
        refine ⟨m2, none, rfl, ?_, a3.trans b3, by rw [b4, a4], ?_⟩
        · refine b2'.congr rfl ?_
          rw [hm]
          simp [mrg]
        · rw [hm]
          simp [mrg, loc_append, loc]
      · rw [if_neg (by simp), b2'.advance er2, Res.ok_bind]
        have er3 : upd (upd L r (xs ++ b :: gs ++ t :: ys)) (.loc 0) (c :: rest) r = ((xs ++ b :: gs) ++ [t]) ++ ys := by
          rw [er2]; simp
        rw [b2'.atEnd er3, Res.ok_bind]
        rcases ys with _ | ⟨t', ys⟩
        · rw [if_pos (by simp)]
          refine ⟨m2, _, rfl, b :: gs ++ [t], b :: gs, c :: rest, by simp, ?_, by simp [hq], by simp, ?_, a3.trans b3,
            by rw [b4, a4]⟩
          · rw [hm]; simp [mrg]
          · refine b2'.congr rfl ?_
            simp
        · rw [if_neg (by simp)]
          obtain ⟨m3, p, c1, c2⟩ := ih b2' er3 e02 (by simpa using hk)
          refine ⟨m3, p, c1, ?_⟩
          cases p with
          | none =>
            obtain ⟨d1, d2, d3, d4⟩ := c2
            refine ⟨d1.congr rfl ?_, (a3.trans b3).trans d2, by rw [d3, b4, a4], ?_⟩
            · rw [hm]
              clear er1 e01 er2 e02 er3 hs d1 d4
              rw [show xs ++ b :: gs ++ [t] ++ mrg less (t' :: ys) (c :: rest) =
                xs ++ (b :: gs ++ t :: mrg less (t' :: ys) (c :: rest)) by simp]
              upd_ext
            · rw [hm]
              rw [show xs ++ (b :: gs ++ t :: mrg less (t' :: ys) (c :: rest)) =
                xs ++ b :: gs ++ [t] ++ mrg less (t' :: ys) (c :: rest) by simp, d4]
              simp [loc_append, loc]
          | some p =>
            obtain ⟨w, v, qs', d1, d2, d3, d4, d5, d6, d7⟩ := c2
            refine ⟨b :: gs ++ t :: w, b :: gs ++ v, qs', by rw [d1]; simp, ?_, by rw [hq, d3]; simp, d4,
              d5.congr rfl ?_, (a3.trans b3).trans d6, by rw [d7, b4, a4]⟩
            · rw [hm, ← d2]; simp
            · rw [show xs ++ b :: gs ++ [t] ++ w = xs ++ (b :: gs ++ t :: w) by simp]
              clear er1 e01 er2 e02 er3 hs d5 d1 d2 d3
              upd_ext
    · rw [if_neg hl, h.advance e, Res.ok_bind]
      have hm : mrg less (t :: ys) (b :: qs) = t :: mrg less ys (b :: qs) := by
        rw [mrg_cons]; simp [hl]
      have er3 : L r = (xs ++ [t]) ++ ys := by rw [e]; simp
      rw [h.atEnd er3, Res.ok_bind]
      rcases ys with _ | ⟨t', ys⟩
      · rw [if_pos (by simp)]
        refine ⟨m, _, rfl, [t], [], b :: qs, rfl, by rw [hm]; simp [mrg], rfl, by simp, h.congr rfl ?_, Same.rfl' m, rfl⟩
        rw [upd_self L (by rw [e]), upd_self L e0]
      · rw [if_neg (by simp)]
        obtain ⟨m3, p, c1, c2⟩ := ih h er3 e0 (by simpa using hk)
        refine ⟨m3, p, c1, ?_⟩
        cases p with
        | none =>
          obtain ⟨d1, d2, d3, d4⟩ := c2
          refine ⟨d1.congr rfl (by rw [hm]; simp), d2, d3, ?_⟩
          rw [hm]
          have : xs ++ t :: mrg less (t' :: ys) (b :: qs) = xs ++ [t] ++ mrg less (t' :: ys) (b :: qs) := by simp
          rw [this, d4]
          simp
        | some p =>
          obtain ⟨w, v, qs', d1, d2, d3, d4, d5, d6, d7⟩ := c2
          exact ⟨t :: w, v, qs', by rw [d1]; simp, by rw [hm, ← d2]; rfl, d3, d4, d5.congr rfl (by simp), d6, d7⟩

/-- `merge(other)` -/
theorem Simple.merge_ok (less : T → T → Bool) {m : Mem T} {L : Root → List (Nat × T)}
    (h : Rep m L) {r s : Root} (hrs : r ≠ s) (hr0 : r ≠ .loc 0) (hs0 : s ≠ .loc 0) (h0 : L (.loc 0) = []) :
    ∃ m', Simple.merge m r s less = .ok m' ∧
      Rep m' (upd (upd L r (mrg less (L r) (L s))) s []) ∧ Same m m' ∧ m'.fresh = m.fresh := by
  unfold Simple.merge
  rw [Simple.empty_ok h, Simple.empty_ok h]
  rcases es : L s with _ | ⟨b, qs⟩
  · rw [if_pos (by rfl)]
    refine ⟨m, rfl, h.congr rfl ?_, Same.rfl' m, rfl⟩
    rw [show mrg less (L r) [] = L r by simp [mrg], upd_self L rfl, upd_self L es]
  · rw [if_neg (by simp)]
    rcases er : L r with _ | ⟨t, ys⟩
    · rw [if_pos (by rfl)]
      obtain ⟨m1, a1, a2, a3, a4⟩ := h.moveLink hrs (xs := []) (ys := []) (zs := []) (ws := b :: qs) er es
      refine ⟨m1, a1, a2.congr rfl ?_, a3, a4⟩
      rw [show mrg less [] (b :: qs) = b :: qs by simp [mrg]]; rfl
    · rw [if_neg (by simp)]
      obtain ⟨m1, a1, a2, a3, a4⟩ := h.moveLink hs0.symm (xs := []) (ys := []) (zs := []) (ws := b :: qs) h0 es
      have er1 : upd (upd L (.loc 0) ([] ++ b :: qs)) s [] r = [] ++ t :: ys := by
        rw [upd_ne _ _ hrs, upd_ne _ _ hr0, er]; rfl
      have e01 : upd (upd L (.loc 0) ([] ++ b :: qs)) s [] (.loc 0) = b :: qs := by
        rw [upd_ne _ _ hs0.symm, upd_same]; rfl
      obtain ⟨m2, p, b1, b2⟩ := Simple.mergeLoop_ok less (m1.fresh + 1) a2 hr0 er1 e01
        (by have := a2.length_le r; rw [er1] at this; simp at this; omega)
      rw [← root_loc] at a1 b1
      rw [← root_loc] at a1
      rw [a1, Res.ok_bind, b1, Res.ok_bind]
      cases p with
      | none =>
        obtain ⟨d1, d2, d3, _⟩ := b2
        refine ⟨m2, rfl, d1.congr rfl ?_, a3.trans d2, by rw [d3, a4]⟩
        clear er1 e01 d1
        simp only [List.nil_append]
        upd_ext
      | some p =>
        obtain ⟨w, v, qs', d1, d2, d3, d4, d5, d6, d7⟩ := b2
        obtain ⟨m3, f1, f2, f3, f4⟩ := d5.moveLink hr0 (xs := [] ++ w) (ys := []) (zs := []) (ws := qs')
          (by rw [upd_ne _ _ hr0, upd_same]; simp) (by rw [upd_same]; rfl)
        rw [← root_loc, ← d1] at f1
        dsimp only
        refine ⟨m3, f1, f2.congr rfl ?_, (a3.trans d6).trans f3, by rw [f4, d7, a4]⟩
        rw [← d2]
        clear er1 e01 d1 d2 d3 d5 f2
        simp only [List.nil_append]
        upd_ext

end Verif.SL
