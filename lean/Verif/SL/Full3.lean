import Verif.SL.Full2
/-
What the functions of `sl_list` do to the lists in memory, and to the fields `tail` and `node_count`: splicing,
reversal, removal by value, merging and sorting.
-/
namespace Verif.SL
variable {T : Type}

theorem bind_ok_inv {α β : Type} {x : Res α} {f : α → Res β} {y : β} (h : (x >>= f) = .ok y) :
    ∃ a, x = .ok a ∧ f a = .ok y := by
  cases x with
  | ok a => exact ⟨a, rfl, h⟩
  | throw => cases h
  | assertFail => cases h
  | undefined => cases h
  | outOfFuel => cases h

/-- `splice(pos,other)` -/
theorem Full.splice_ok {m : Mem T} {L : Root → List (Nat × T)} (h : Rep m L) {r s : Root} (hrs : r ≠ s)
    (hd : Tidy m r (L r)) (hs : Tidy m s (L s)) {xs ys : List (Nat × T)} (e : L r = xs ++ ys) :
    ∃ m', Full.splice m r (loc (.root r) xs) s = .ok (m', loc (.root r) (xs ++ L s)) ∧
      Rep m' (upd (upd L r (xs ++ (L s ++ ys))) s []) ∧ Tidy m' r (xs ++ (L s ++ ys)) ∧ Tidy m' s [] ∧
      Keep m m' [r, s] ∧ m.fresh ≤ m'.fresh := by
  unfold Full.splice
  rw [Full.empty_ok hs]
  have hkeep : ∀ (m1 m2 : Mem T) (d : Nat), Keep m m1 [r, s] → Same m1 m2 →
      Keep m (SL.setEmpty (SL.addCount m2 r d) s) [r, s] := fun m1 m2 d k1 k2 =>
    (k1.trans (k2.keep _)).trans (((Keep.addCount m2 r d).mono (by simp)).trans ((Keep.setEmpty _ s).mono (by simp)))
  rcases es : L s with _ | ⟨a, zs⟩
  · rw [if_pos (by rfl)]
    refine ⟨m, by simp, h.congr rfl ?_, by rw [e] at hd; simpa using hd, by rw [es] at hs; exact hs, Keep.refl _ _, le_refl _⟩
    rw [upd_self (f := L) (a := r) (by rw [e]; rfl), upd_self L es]
  · rw [if_neg (by simp)]
    have hfin : loc (Loc.root r) (xs ++ a :: zs) = m.tail s := by rw [hs.1, es, loc_append]; exact loc_indep (by simp)
    have hti := h.tail_iff e hd
    dsimp only
    by_cases hy : ys = []
    · subst hy
      rw [if_pos (hti.mpr rfl), Res.ok_bind]
      obtain ⟨m1, a1, a2, a3, a4⟩ := (h.setTail r (m.tail s)).moveLink hrs (xs := xs) (ys := []) (zs := []) (ws := a :: zs) e es
      rw [← root_loc] at a1
      rw [a1, Res.ok_bind]
      have k := hkeep (SL.setTail m r (m.tail s)) m1 (m1.count s) ((Keep.setTail m r _).mono (by simp)) a3
      refine ⟨_, by rw [hfin], ((a2.addCount r _).setEmpty s).congr rfl (by simp), ?_, Tidy.setEmpty _ _, k, a4.ge⟩
      refine hd.add (L s).length ?_ ?_ (by rw [e, es]; simp)
      · show upd m1.tail s _ r = _
        rw [upd_ne _ _ hrs, a3.1]
        show upd m.tail r _ r = _
        rw [upd_same, ← hfin]; simp
      · show upd (upd m1.count r _) s 0 r = _
        rw [upd_ne _ _ hrs, upd_same, a3.2]
        show (m.count r + m.count s) % _ = _
        rw [hs.2]; omega
    · rw [if_neg (fun hc => hy (hti.mp hc)), hs.1]
      obtain ⟨m1, a1, a2, a3, a4⟩ := h.moveLink hrs.symm (xs := L s) (ys := []) (zs := xs) (ws := ys) (by simp) e
      rw [a1, Res.ok_bind]
      obtain ⟨m2, b1, b2, b3, b4⟩ := a2.moveLink hrs (xs := xs) (ys := []) (zs := []) (ws := L s ++ ys)
        (by rw [upd_same]; simp) (by rw [upd_ne _ _ hrs.symm, upd_same]; rfl)
      rw [← root_loc] at b1
      rw [b1, Res.ok_bind]
      have hs12 := a3.trans b3
      have k := hkeep m m2 (m2.count s) (Keep.refl _ _) hs12
      refine ⟨_, by rw [hfin, hs.1], ((b2.addCount r _).setEmpty s).congr rfl ?_, ?_, Tidy.setEmpty _ _, k, ?_⟩
      · rw [es]
        clear k hti a1 b1 a2 b2 hfin hkeep hs hd e
        upd_ext
      · refine hd.add (L s).length ?_ ?_ (by rw [e, es]; simp; omega)
        · show upd m2.tail s _ r = _
          rw [upd_ne _ _ hrs, hs12.1, hd.1, e, loc_last (.root r) xs (xs ++ a :: zs) ys hy]; simp
        · show upd (upd m2.count r _) s 0 r = _
          rw [upd_ne _ _ hrs, upd_same, hs12.2, hs.2]; omega
      · show _ ≤ m2.fresh
        rw [b4]; exact a4.ge

theorem Tidy.counts {m : Mem T} {r : Root} {xs : List (Nat × T)} (h : Tidy m r xs) :
    Tidy (SL.subCount (SL.addCount m r 0) r 0) r xs := by
  refine ⟨h.1, ?_⟩
  show upd (upd m.count r _) r _ r = _
  rw [upd_same]
  show ((upd m.count r _ r) + _) % _ = _
  rw [upd_same, h.2]
  omega

/-- `splice(pos,other,begin,end)` for a range of another list -/
theorem Full.spliceRange_ok {m : Mem T} {L : Root → List (Nat × T)} (h : Rep m L) {r s : Root} (hrs : r ≠ s)
    (hd : Tidy m r (L r)) (hs : Tidy m s (L s))
    {xs ys us ms ws : List (Nat × T)} (e : L r = xs ++ ys) (es : L s = us ++ (ms ++ ws)) :
    ∃ m', Full.spliceRange m r (loc (.root r) xs) s (loc (.root s) us) (loc (.root s) (us ++ ms)) =
        .ok (m', loc (.root r) (xs ++ ms)) ∧
      Rep m' (upd (upd L r (xs ++ (ms ++ ys))) s (us ++ ws)) ∧ Tidy m' r (xs ++ (ms ++ ys)) ∧ Tidy m' s (us ++ ws) ∧
      Keep m m' [r, s] ∧ m.fresh ≤ m'.fresh := by
  unfold Full.spliceRange
  have es' : L s = (us ++ ms) ++ ws := by rw [es]; simp
  by_cases hm : ms = []
  · subst hm
    rw [if_pos (by simp)]
    refine ⟨m, by simp, h.congr rfl ?_, by rw [e] at hd; simpa using hd, by rw [es] at hs; simpa using hs, Keep.refl _ _, le_refl _⟩
    rw [upd_self (f := L) (a := r) (by rw [e]; rfl), upd_self L (by rw [es]; rfl)]
  · have n1 : loc (.root s) us ≠ loc (.root s) (us ++ ms) := fun heq =>
      hm (List.self_eq_append_right.mp (h.loc_inj es es' heq).2)
    have n2 : loc (.root r) xs ≠ loc (.root s) us := fun heq => hrs (h.loc_inj e es heq).1
    rw [if_neg n1, if_neg n2, if_neg hrs, Full.distance_ok (m.fresh + 1) h es
      (by have := h.length_le s; rw [es] at this; simp at this; omega), Res.ok_bind]
    have ht1 := h.tail_iff e hd
    have ht2 := h.tail_iff es' hs
    -- the memory after the changes to the fields `tail`
    obtain ⟨m1, hm1⟩ : ∃ m1 : Mem T, m1 = (if loc (.root s) (us ++ ms) = m.tail s then SL.setTail m s (loc (.root s) us) else m) :=
      ⟨_, rfl⟩
    have h1 : Rep m1 L := by rw [hm1]; split_ifs <;> [exact h.setTail _ _; exact h]
    have f1 : m1.fresh = m.fresh := by rw [hm1]; split_ifs <;> rfl
    have c1 : m1.count = m.count := by rw [hm1]; split_ifs <;> rfl
    have t1 : m1.tail r = m.tail r := by rw [hm1]; split_ifs <;> [exact upd_ne _ _ hrs; rfl]
    have t1s : m1.tail s = loc (.root s) (us ++ ws) := by
      rw [hm1]
      by_cases hw : ws = []
      · rw [if_pos (ht2.mpr hw), hw, List.append_nil]; exact upd_same _ _ _
      · rw [if_neg (fun hc => hw (ht2.mp hc)), hs.1, es', loc_last (.root s) (us ++ ms) us ws hw]
    have k1 : Keep m m1 [r, s] := by
      rw [hm1]; split_ifs <;> [exact (Keep.setTail m s _).mono (by simp); exact Keep.refl _ _]
    dsimp only
    rw [← hm1]
    obtain ⟨m2, hm2⟩ : ∃ m2 : Mem T, m2 = (if loc (.root r) xs = m1.tail r then SL.setTail m1 r (loc (.root s) (us ++ ms)) else m1) :=
      ⟨_, rfl⟩
    have h2 : Rep m2 L := by rw [hm2]; split_ifs <;> [exact h1.setTail _ _; exact h1]
    have f2 : m2.fresh = m.fresh := by rw [hm2]; split_ifs <;> exact f1
    have c2 : m2.count = m.count := by rw [hm2]; split_ifs <;> exact c1
    have hle : loc (Loc.root s) (us ++ ms) = loc (.root r) (xs ++ ms) := by
      rw [loc_append, loc_append]; exact loc_indep hm
    have t2 : m2.tail r = loc (.root r) (xs ++ (ms ++ ys)) := by
      rw [hm2, t1]
      by_cases hy : ys = []
      · rw [if_pos (ht1.mpr hy), hy, List.append_nil, ← hle]; exact upd_same _ _ _
      · rw [if_neg (fun hc => hy (ht1.mp hc)), t1, hd.1, e, loc_last (.root r) xs (xs ++ ms) ys hy, List.append_assoc]
    have t2s : m2.tail s = loc (.root s) (us ++ ws) := by
      rw [← t1s, hm2]; split_ifs <;> [exact upd_ne _ _ hrs.symm; rfl]
    have k2 : Keep m m2 [r, s] := by
      rw [hm2]; split_ifs <;> [exact k1.trans ((Keep.setTail m1 r _).mono (by simp)); exact k1]
    rw [← hm2]
    obtain ⟨m3, a1, a2, a3, a4⟩ := Simple.spliceRange_ok h2 hrs e es
    unfold Simple.spliceRange at a1
    rw [if_neg n1, if_neg n2] at a1
    obtain ⟨m4, b1, b2⟩ := bind_ok_inv a1
    obtain ⟨m5, b3, b4⟩ := bind_ok_inv b2
    injection b4 with b4
    injection b4 with b4 b5
    subst b4
    rw [b1, Res.ok_bind, b3, Res.ok_bind]
    refine ⟨_, by rw [hle], (a2.addCount r ms.length).subCount s ms.length, ?_, ?_, ?_, ?_⟩
    · refine hd.add ms.length ?_ ?_ (by rw [e]; simp; omega)
      · show m5.tail r = _
        rw [a3.1, t2]
      · show upd (upd m5.count r _) s _ r = _
        rw [upd_ne _ _ hrs, upd_same, a3.2, c2]
    · refine hs.sub ms.length ?_ ?_ (by rw [es]; simp; omega)
      · show m5.tail s = _
        rw [a3.1, t2s]
      · show upd (upd m5.count r _) s _ s = _
        rw [upd_same]
        show (upd m5.count r _ s + _) % _ = _
        rw [upd_ne _ _ hrs.symm, a3.2, c2]
    · exact (k2.trans (a3.keep _)).trans (((Keep.addCount m5 r _).mono (by simp)).trans ((Keep.subCount _ s _).mono (by simp)))
    · show _ ≤ m5.fresh
      rw [a4, f2]

/-- `splice(pos,other,begin,end)` for a range of the same list, after the position -/
theorem Full.spliceBefore_ok {m : Mem T} {L : Root → List (Nat × T)} (h : Rep m L) {r t : Root} (htr : t ≠ r)
    (ht : L t = []) (hd : Tidy m r (L r)) {xs ys zs ws : List (Nat × T)} (e : L r = xs ++ (ys ++ (zs ++ ws))) :
    ∃ m', Full.spliceRange m r (loc (.root r) xs) r (loc (.root r) (xs ++ ys)) (loc (.root r) (xs ++ ys ++ zs)) =
        .ok (m', loc (.root r) (xs ++ zs)) ∧
      Rep m' (upd L r (xs ++ (zs ++ (ys ++ ws)))) ∧ Tidy m' r (xs ++ (zs ++ (ys ++ ws))) ∧ Keep m m' [r] ∧
      m.fresh ≤ m'.fresh := by
  unfold Full.spliceRange
  have e' : L r = (xs ++ ys) ++ (zs ++ ws) := by rw [e]; simp
  have e'' : L r = (xs ++ ys ++ zs) ++ ws := by rw [e]; simp
  by_cases hz : zs = []
  · subst hz
    rw [if_pos (by simp)]
    exact ⟨m, by simp, h.congr rfl (upd_self L (by rw [e]; simp)).symm, by rw [e] at hd; simpa using hd, Keep.refl _ _, le_refl _⟩
  · have n2 : loc (.root r) (xs ++ ys) ≠ loc (.root r) (xs ++ ys ++ zs) := fun heq =>
      hz (List.self_eq_append_right.mp (h.loc_inj e' e'' heq).2)
    rw [if_neg n2]
    by_cases hy : ys = []
    · subst hy
      rw [if_pos (by simp)]
      exact ⟨m, by simp, h.congr rfl (upd_self L (by rw [e]; simp)).symm, by rw [e] at hd; simpa using hd, Keep.refl _ _, le_refl _⟩
    · have n1 : loc (.root r) xs ≠ loc (.root r) (xs ++ ys) := fun heq =>
        hy (List.self_eq_append_right.mp (h.loc_inj e e' heq).2)
      rw [if_neg n1, if_pos rfl, Res.ok_bind]
      have ht1 := h.tail_iff e'' hd
      have ht2 := h.tail_iff e hd
      obtain ⟨m1, hm1⟩ : ∃ m1 : Mem T, m1 = (if loc (.root r) (xs ++ ys ++ zs) = m.tail r then SL.setTail m r (loc (.root r) (xs ++ ys)) else m) :=
        ⟨_, rfl⟩
      have h1 : Rep m1 L := by rw [hm1]; split_ifs <;> [exact h.setTail _ _; exact h]
      have f1 : m1.fresh = m.fresh := by rw [hm1]; split_ifs <;> rfl
      have c1 : m1.count = m.count := by rw [hm1]; split_ifs <;> rfl
      have hle : ∀ us : List (Nat × T), loc (Loc.root r) (us ++ ys) = loc (.root r) (xs ++ ys) := fun us => loc_last _ _ _ _ hy
      have t1 : m1.tail r = loc (.root r) (xs ++ (zs ++ (ys ++ ws))) := by
        rw [hm1]
        by_cases hw : ws = []
        · rw [if_pos (ht1.mpr hw), hw, List.append_nil, ← List.append_assoc, hle (xs ++ zs)]; exact upd_same _ _ _
        · rw [if_neg (fun hc => hw (ht1.mp hc)), hd.1, e'', loc_last (.root r) (xs ++ ys ++ zs) (xs ++ zs ++ ys) ws hw]
          simp
      have k1 : Keep m m1 [r] := by rw [hm1]; split_ifs <;> [exact Keep.setTail m r _; exact Keep.refl _ _]
      dsimp only
      rw [← hm1]
      have n3 : loc (.root r) xs ≠ m1.tail r := by
        rw [hm1]
        by_cases hw : ws = []
        · rw [if_pos (ht1.mpr hw)]
          show _ ≠ upd _ r _ r
          rw [upd_same]; exact n1
        · rw [if_neg (fun hc => hw (ht1.mp hc))]
          exact fun hc => hy (List.append_eq_nil_iff.mp (ht2.mp hc)).1
      rw [if_neg n3]
      obtain ⟨m3, a1, a2, a3, a4⟩ := Simple.spliceBefore_ok h1 htr ht e
      unfold Simple.spliceRange at a1
      rw [if_neg n2, if_neg n1] at a1
      obtain ⟨m4, b1, b2⟩ := bind_ok_inv a1
      obtain ⟨m5, b3, b4⟩ := bind_ok_inv b2
      injection b4 with b4
      injection b4 with b4 b5
      subst b4
      rw [b1, Res.ok_bind, b3, Res.ok_bind]
      refine ⟨_, by rw [b5], (a2.addCount r 0).subCount r 0, Tidy.counts ⟨?_, ?_⟩, ?_, ?_⟩
      · rw [a3.1, t1]
      · rw [a3.2, c1, hd.2, e]; simp; omega
      · exact (k1.trans (a3.keep _)).trans ((Keep.addCount m5 r _).trans (Keep.subCount _ r _))
      · show _ ≤ m5.fresh
        rw [a4, f1]

/-- `splice(pos,other,begin,end)` for a range of the same list, before the position, except when the range is at the
end of the list and the position is `end()` -/
theorem Full.spliceAfter_ok {m : Mem T} {L : Root → List (Nat × T)} (h : Rep m L) {r t : Root} (htr : t ≠ r)
    (ht : L t = []) (hd : Tidy m r (L r)) {xs ys zs ws : List (Nat × T)} (e : L r = xs ++ (ys ++ (zs ++ ws)))
    (hy : ys ≠ []) (hzw : zs ++ ws ≠ []) :
    ∃ m', Full.spliceRange m r (loc (.root r) (xs ++ ys ++ zs)) r (loc (.root r) xs) (loc (.root r) (xs ++ ys)) =
        .ok (m', loc (.root r) (xs ++ (zs ++ ys))) ∧
      Rep m' (upd L r (xs ++ (zs ++ (ys ++ ws)))) ∧ Tidy m' r (xs ++ (zs ++ (ys ++ ws))) ∧ Keep m m' [r] ∧
      m.fresh ≤ m'.fresh := by
  unfold Full.spliceRange
  have e' : L r = (xs ++ ys) ++ (zs ++ ws) := by rw [e]; simp
  have e'' : L r = (xs ++ ys ++ zs) ++ ws := by rw [e]; simp
  have n1 : loc (.root r) xs ≠ loc (.root r) (xs ++ ys) := fun heq =>
    hy (List.self_eq_append_right.mp (h.loc_inj e e' heq).2)
  have n3 : loc (.root r) xs ≠ loc (.root r) (xs ++ ys ++ zs) := fun heq => by
    have := (h.loc_inj e e'' heq).2
    rw [List.append_assoc] at this
    exact hy (List.append_eq_nil_iff.mp (List.self_eq_append_right.mp this)).1
  have ht1 := h.tail_iff e'' hd
  have ht2 := h.tail_iff e' hd
  rw [if_neg n1, if_neg n3.symm, if_pos rfl, Res.ok_bind, if_neg (fun hc => hzw (ht2.mp hc))]
  obtain ⟨m1, hm1⟩ : ∃ m1 : Mem T, m1 = (if loc (.root r) (xs ++ ys ++ zs) = m.tail r then SL.setTail m r (loc (.root r) (xs ++ ys)) else m) :=
    ⟨_, rfl⟩
  have h1 : Rep m1 L := by rw [hm1]; split_ifs <;> [exact h.setTail _ _; exact h]
  have f1 : m1.fresh = m.fresh := by rw [hm1]; split_ifs <;> rfl
  have c1 : m1.count = m.count := by rw [hm1]; split_ifs <;> rfl
  have hle : ∀ us : List (Nat × T), loc (Loc.root r) (us ++ ys) = loc (.root r) (xs ++ ys) := fun us => loc_last _ _ _ _ hy
  have t1 : m1.tail r = loc (.root r) (xs ++ (zs ++ (ys ++ ws))) := by
    rw [hm1]
    by_cases hw : ws = []
    · rw [if_pos (ht1.mpr hw), hw, List.append_nil, ← List.append_assoc, hle (xs ++ zs)]; exact upd_same _ _ _
    · rw [if_neg (fun hc => hw (ht1.mp hc)), hd.1, e'', loc_last (.root r) (xs ++ ys ++ zs) (xs ++ zs ++ ys) ws hw]
      simp
  have k1 : Keep m m1 [r] := by rw [hm1]; split_ifs <;> [exact Keep.setTail m r _; exact Keep.refl _ _]
  dsimp only
  rw [← hm1]
  obtain ⟨m3, a1, a2, a3, a4⟩ := Simple.spliceAfter_ok h1 htr ht e hy
  unfold Simple.spliceRange at a1
  rw [if_neg n1, if_neg n3.symm] at a1
  obtain ⟨m4, b1, b2⟩ := bind_ok_inv a1
  obtain ⟨m5, b3, b4⟩ := bind_ok_inv b2
  injection b4 with b4
  injection b4 with b4 b5
  subst b4
  rw [b1, Res.ok_bind, b3, Res.ok_bind]
  refine ⟨_, by rw [b5], (a2.addCount r 0).subCount r 0, Tidy.counts ⟨?_, ?_⟩, ?_, ?_⟩
  · rw [a3.1, t1]
  · rw [a3.2, c1, hd.2, e]; simp; omega
  · exact (k1.trans (a3.keep _)).trans ((Keep.addCount m5 r _).trans (Keep.subCount _ r _))
  · show _ ≤ m5.fresh
    rw [a4, f1]

/-- `reverse(from,to)` -/
theorem Full.reverseRange_ok {m : Mem T} {L : Root → List (Nat × T)} (h : Rep m L) {r : Root}
    (h0 : L (.loc 0) = []) (hr0 : r ≠ .loc 0) (h1 : L (.loc 1) = []) (hr1 : r ≠ .loc 1) (hd : Tidy m r (L r))
    {xs ys zs : List (Nat × T)} (e : L r = xs ++ (ys ++ zs)) :
    ∃ m', Full.reverseRange m r (loc (.root r) xs) (loc (.root r) (xs ++ ys)) =
        .ok (m', loc (.root r) (xs ++ ys.reverse)) ∧
      Rep m' (upd L r (xs ++ (ys.reverse ++ zs))) ∧ Tidy m' r (xs ++ (ys.reverse ++ zs)) ∧ Keep m m' [r] ∧
      m.fresh ≤ m'.fresh := by
  unfold Full.reverseRange
  have e' : L r = (xs ++ ys) ++ zs := by rw [e]; simp
  rcases ys with _ | ⟨a, _ | ⟨b, ys⟩⟩
  · rw [if_pos (by simp)]
    exact ⟨m, by simp, h.congr rfl (upd_self L (by rw [e]; rfl)).symm, by rw [e] at hd; exact hd, Keep.refl _ _, le_refl _⟩
  · rw [if_neg (fun heq => by have := (h.loc_inj e e' heq).2; simp at this), h.advance e, Res.ok_bind, if_pos rfl]
    exact ⟨m, by simp, h.congr rfl (upd_self L (by rw [e]; rfl)).symm, by rw [e] at hd; exact hd, Keep.refl _ _, le_refl _⟩
  · rw [if_neg (fun heq => by have := (h.loc_inj e e' heq).2; simp at this), h.advance e, Res.ok_bind,
      if_neg (fun heq => by
        have := (h.loc_inj (xs := xs ++ [a]) (ys := b :: ys ++ zs) (by rw [e]; simp) e' heq).2
        simp at this), h.node e, Res.ok_bind]
    have ht1 := h.tail_iff e' hd
    dsimp only
    by_cases hz : zs = []
    · rw [if_pos (ht1.mpr hz)]
      obtain ⟨m', a1, a2, a3, a4⟩ := Simple.reverseMain_ok (h.setTail r (.next a.1)) h0 hr0 h1 hr1 e
      refine ⟨m', a1, a2, ⟨?_, ?_⟩, (Keep.setTail m r _).trans (a3.keep _), a4.ge⟩
      · rw [a3.1]
        show upd m.tail r _ r = _
        rw [upd_same, hz, List.append_nil, List.reverse_cons, ← List.append_assoc, loc_snoc]
      · rw [a3.2]
        show m.count r = _
        rw [hd.2, e]; simp; omega
    · rw [if_neg (fun hc => hz (ht1.mp hc))]
      obtain ⟨m', a1, a2, a3, a4⟩ := Simple.reverseMain_ok h h0 hr0 h1 hr1 e
      refine ⟨m', a1, a2, ⟨?_, ?_⟩, a3.keep _, a4.ge⟩
      · rw [a3.1, hd.1, e', loc_last (.root r) (xs ++ a :: b :: ys) (xs ++ (a :: b :: ys).reverse) zs hz,
          List.append_assoc]
      · rw [a3.2, hd.2, e]; simp; omega

/-- `reverse()` -/
theorem Full.reverse_ok {m : Mem T} {L : Root → List (Nat × T)} (h : Rep m L) {r : Root}
    (h0 : L (.loc 0) = []) (hr0 : r ≠ .loc 0) (h1 : L (.loc 1) = []) (hr1 : r ≠ .loc 1) (hd : Tidy m r (L r)) :
    ∃ m', Full.reverse m r = .ok m' ∧ Rep m' (upd L r (L r).reverse) ∧ Tidy m' r (L r).reverse ∧ Keep m m' [r] ∧
      m.fresh ≤ m'.fresh := by
  obtain ⟨m', a1, a2, a3, a4, a5⟩ := Full.reverseRange_ok h h0 hr0 h1 hr1 hd (xs := []) (ys := L r) (zs := []) (by simp)
  rw [List.nil_append, ← hd.1, ← root_loc] at a1
  unfold Full.reverse
  rw [a1, Res.ok_bind]
  exact ⟨m', rfl, a2.congr rfl (by simp), by simpa using a3, a4, a5⟩

theorem Full.removeLoop_ok (pred : T → Bool) (k : Nat) {m : Mem T} {L : Root → List (Nat × T)} (h : Rep m L)
    {r t : Root} (htr : t ≠ r) (ht : L t = []) {xs ys : List (Nat × T)} (e : L r = xs ++ ys) (hk : ys.length < k)
    (hc : m.count r = (L r).length % 2 ^ 64) :
    ∃ m', Full.removeLoop r pred k m (loc (.root r) xs) =
        .ok (m', loc (.root r) (xs ++ ys.filter (fun a => !pred a.2))) ∧
      Rep m' (upd L r (xs ++ ys.filter (fun a => !pred a.2))) ∧
      m'.count r = (xs ++ ys.filter (fun a => !pred a.2)).length % 2 ^ 64 ∧ Keep m m' [r] ∧ m.fresh ≤ m'.fresh := by
  induction k generalizing m L xs ys with
  | zero => omega
  | succ k ih =>
    unfold Full.removeLoop
    rw [h.atEnd e, Res.ok_bind]
    cases ys with
    | nil => exact ⟨m, by simp, h.congr rfl (upd_self L (by rw [e]; rfl)).symm, by rw [hc, e]; rfl, Keep.refl _ _, le_refl _⟩
    | cons a ys =>
      rw [if_neg (by simp), h.node e, Res.ok_bind, h.contents (r := r) (by rw [e]; simp), Res.ok_bind]
      by_cases hp : pred a.2 = true
      · rw [if_pos hp]
        obtain ⟨m1, a1, a2, a3, a4⟩ := h.drop htr ht (xs := xs) (ys := [a]) (zs := ys) e
        rw [loc_snoc] at a1
        rw [a1, Res.ok_bind]
        obtain ⟨m', b1, b2, b3, b4, b5⟩ := ih (a2.subCount r 1) (by rw [upd_ne _ _ htr, ht]) (upd_same ..) (by simpa using hk)
          (by show upd m1.count r _ r = _
              rw [upd_same, upd_same, a3.2, hc, e]; simp; omega)
        refine ⟨m', ?_, b2.congr rfl ?_, ?_, ?_, ?_⟩
        · rw [b1]; simp [hp]
        · rw [upd_upd]; simp [hp]
        · rw [b3]; simp [hp]
        · exact ((a3.keep _).trans (Keep.subCount m1 r 1)).trans b4
        · have : (SL.subCount m1 r 1).fresh = m.fresh := a4
          omega
      · rw [if_neg hp]
        obtain ⟨m', b1, b2, b3, b4, b5⟩ := ih h (xs := xs ++ [a]) (ys := ys) ht (by rw [e]; simp) (by simpa using hk) hc
        rw [loc_snoc] at b1
        refine ⟨m', ?_, b2.congr rfl ?_, ?_, b4, b5⟩
        · rw [b1]; simp [hp]
        · simp [hp]
        · rw [b3]; simp [hp]

/-- `remove_if` -/
theorem Full.removeIf_ok (pred : T → Bool) {m : Mem T} {L : Root → List (Nat × T)} (h : Rep m L)
    {r t : Root} (htr : t ≠ r) (ht : L t = []) (hd : Tidy m r (L r)) :
    ∃ m', Full.removeIf m r pred = .ok m' ∧ Rep m' (upd L r ((L r).filter (fun a => !pred a.2))) ∧
      Tidy m' r ((L r).filter (fun a => !pred a.2)) ∧ Keep m m' [r] ∧ m.fresh ≤ m'.fresh := by
  obtain ⟨m', a1, a2, a3, a4, a5⟩ := Full.removeLoop_ok pred (m.fresh + 1) h htr ht (xs := []) (ys := L r) rfl
    (by have := h.length_le r; omega) hd.2
  rw [← root_loc] at a1
  unfold Full.removeIf
  rw [a1, Res.ok_bind]
  exact ⟨_, rfl, a2.setTail r _, ⟨upd_same _ _ _, a3⟩, a4.trans (Keep.setTail _ _ _), a5⟩

theorem Full.removeValLoop_ok [DecidableEq T] (v : Simple.Arg T) (x : T) (k : Nat) {m : Mem T}
    {L : Root → List (Nat × T)} (h : Rep m L)
    {r t : Root} (htr : t ≠ r) (ht : L t = []) {xs ys : List (Nat × T)} (e : L r = xs ++ ys) (hk : ys.length < k)
    (hc : m.count r = (L r).length % 2 ^ 64) (hv : v.read m = .ok x) (ho : Outside (L r) v) :
    ∃ m', Full.removeValLoop r v k m (loc (.root r) xs) =
        .ok (m', loc (.root r) (xs ++ ys.filter (fun a => !decide (a.2 = x)))) ∧
      Rep m' (upd L r (xs ++ ys.filter (fun a => !decide (a.2 = x)))) ∧
      m'.count r = (xs ++ ys.filter (fun a => !decide (a.2 = x))).length % 2 ^ 64 ∧ Keep m m' [r] ∧ m.fresh ≤ m'.fresh := by
  induction k generalizing m L xs ys with
  | zero => omega
  | succ k ih =>
    unfold Full.removeValLoop
    rw [h.atEnd e, Res.ok_bind]
    cases ys with
    | nil => exact ⟨m, by simp, h.congr rfl (upd_self L (by rw [e]; rfl)).symm, by rw [hc, e]; rfl, Keep.refl _ _, le_refl _⟩
    | cons a ys =>
      rw [if_neg (by simp), h.node e, Res.ok_bind, h.contents (r := r) (by rw [e]; simp), Res.ok_bind, hv, Res.ok_bind]
      by_cases hp : a.2 = x
      · rw [if_pos hp]
        obtain ⟨m1, a1, a2, a3, a4⟩ := h.drop htr ht (xs := xs) (ys := [a]) (zs := ys) e
        rw [loc_snoc] at a1
        rw [a1, Res.ok_bind]
        have hv1 : v.read (SL.subCount m1 r 1) = .ok x := by
          cases v with
          | val y => exact hv
          | elem c =>
            obtain ⟨y, hy⟩ : ∃ y, m.cont c = some y := by
              cases hc : m.cont c with
              | none => simp [Simple.Arg.read, SL.contents, hc] at hv
              | some y => exact ⟨y, rfl⟩
            have hyx : y = x := by
              simp only [Simple.Arg.read, SL.contents, hy] at hv
              exact Res.ok.inj hv
            obtain ⟨s, hs⟩ := h.owned c y hy
            have hsr : s ≠ r := by
              intro hsr
              rw [hsr] at hs
              exact ho _ hs rfl
            have := (a2.subCount r 1).contents (r := s) (a := (c, y)) (by rw [upd_ne _ _ hsr]; exact hs)
            rw [hyx] at this
            exact this
        have ho1 : Outside (upd L r (xs ++ ys) r) v := by
          cases v with
          | val y => trivial
          | elem c =>
            intro b hb
            rw [upd_same] at hb
            refine ho b ?_
            rw [e]
            rcases List.mem_append.mp hb with hb | hb <;> simp [hb]
        obtain ⟨m', b1, b2, b3, b4, b5⟩ := ih (a2.subCount r 1) (by rw [upd_ne _ _ htr, ht]) (upd_same ..) (by simpa using hk)
          (by show upd m1.count r _ r = _
              rw [upd_same, upd_same, a3.2, hc, e]; simp; omega) hv1 ho1
        refine ⟨m', ?_, b2.congr rfl ?_, ?_, ?_, ?_⟩
        · rw [b1]; simp [hp]
        · rw [upd_upd]; simp [hp]
        · rw [b3]; simp [hp]
        · exact ((a3.keep _).trans (Keep.subCount m1 r 1)).trans b4
        · have : (SL.subCount m1 r 1).fresh = m.fresh := a4
          omega
      · rw [if_neg hp]
        obtain ⟨m', b1, b2, b3, b4, b5⟩ := ih h (xs := xs ++ [a]) (ys := ys) ht (by rw [e]; simp) (by simpa using hk) hc hv ho
        rw [loc_snoc] at b1
        refine ⟨m', ?_, b2.congr rfl ?_, ?_, b4, b5⟩
        · rw [b1]; simp [hp]
        · simp [hp]
        · rw [b3]; simp [hp]

/-- `remove`, for a value that is not an element of the list -/
theorem Full.remove_ok [DecidableEq T] (v : Simple.Arg T) (x : T) {m : Mem T} {L : Root → List (Nat × T)} (h : Rep m L)
    {r t : Root} (htr : t ≠ r) (ht : L t = []) (hd : Tidy m r (L r)) (hv : v.read m = .ok x) (ho : Outside (L r) v) :
    ∃ m', Full.remove m r v = .ok m' ∧ Rep m' (upd L r ((L r).filter (fun a => !decide (a.2 = x)))) ∧
      Tidy m' r ((L r).filter (fun a => !decide (a.2 = x))) ∧ Keep m m' [r] ∧ m.fresh ≤ m'.fresh := by
  obtain ⟨m', a1, a2, a3, a4, a5⟩ := Full.removeValLoop_ok v x (m.fresh + 1) h htr ht (xs := []) (ys := L r) rfl
    (by have := h.length_le r; omega) hd.2 hv ho
  rw [← root_loc] at a1
  unfold Full.remove
  rw [a1, Res.ok_bind]
  exact ⟨_, rfl, a2.setTail r _, ⟨upd_same _ _ _, a3⟩, a4.trans (Keep.setTail _ _ _), a5⟩

theorem Full.uniqueLoop_ok (rel : T → T → Bool) (k : Nat) {m : Mem T} {L : Root → List (Nat × T)} (h : Rep m L)
    {r t : Root} (htr : t ≠ r) (ht : L t = []) {xs ys : List (Nat × T)} {a : Nat × T} (e : L r = xs ++ a :: ys)
    (hk : ys.length < k) (hc : m.count r = (L r).length % 2 ^ 64) :
    ∃ m' b, Full.uniqueLoop' r rel k m a.1 = .ok (m', b) ∧
      Rep m' (upd L r (xs ++ ys.destutter' (fun b c => ¬ rel b.2 c.2 = true) a)) ∧
      m'.count r = (xs ++ ys.destutter' (fun b c => ¬ rel b.2 c.2 = true) a).length % 2 ^ 64 ∧
      .next b = loc (.root r) (xs ++ ys.destutter' (fun b c => ¬ rel b.2 c.2 = true) a) ∧
      Keep m m' [r] ∧ m.fresh ≤ m'.fresh := by
  induction k generalizing m L xs ys a with
  | zero => omega
  | succ k ih =>
    unfold Full.uniqueLoop'
    have g := h.get (r := r) (xs := xs ++ [a]) (ys := ys) (by rw [e]; simp)
    rw [loc_snoc] at g
    rw [g, Res.ok_bind]
    cases ys with
    | nil =>
      exact ⟨m, a.1, rfl, h.congr rfl (upd_self L (by rw [e]; rfl)).symm, by rw [hc, e]; rfl, by rw [List.destutter'_nil, loc_snoc], Keep.refl _ _,
        le_refl _⟩
    | cons b ys =>
      dsimp only [List.head?_cons, Option.map_some]
      rw [h.contents (r := r) (a := a) (by rw [e]; simp), Res.ok_bind, h.contents (r := r) (a := b) (by rw [e]; simp),
        Res.ok_bind]
      by_cases hp : rel a.2 b.2 = true
      · rw [if_pos hp]
        obtain ⟨m1, a1, a2, a3, a4⟩ := h.drop htr ht (xs := xs ++ [a]) (ys := [b]) (zs := ys) (by rw [e]; simp)
        rw [loc_snoc, loc_snoc] at a1
        rw [a1, Res.ok_bind]
        obtain ⟨m', c, b1, b2, b3, b4, b5, b6⟩ := ih (a2.subCount r 1) (xs := xs) (ys := ys) (a := a) (by rw [upd_ne _ _ htr, ht])
          (by rw [upd_same]; simp) (by simpa using hk)
          (by show upd m1.count r _ r = _
              rw [upd_same, upd_same, a3.2, hc, e]; simp; omega)
        have hd : (b :: ys).destutter' (fun b c => ¬ rel b.2 c.2 = true) a = ys.destutter' (fun b c => ¬ rel b.2 c.2 = true) a := by
          simp [List.destutter'_cons, hp]
        rw [hd]
        refine ⟨m', c, b1, b2.congr rfl ?_, b3, b4, ((a3.keep _).trans (Keep.subCount m1 r 1)).trans b5, ?_⟩
        · rw [upd_upd]
        · have : (SL.subCount m1 r 1).fresh = m.fresh := a4
          omega
      · rw [if_neg hp]
        obtain ⟨m', c, b1, b2, b3, b4, b5, b6⟩ := ih h (xs := xs ++ [a]) (ys := ys) (a := b) ht (by rw [e]; simp)
          (by simpa using hk) hc
        have hd : (b :: ys).destutter' (fun b c => ¬ rel b.2 c.2 = true) a = a :: ys.destutter' (fun b c => ¬ rel b.2 c.2 = true) b := by
          simp [List.destutter'_cons, hp]
        rw [hd]
        refine ⟨m', c, b1, b2.congr rfl ?_, ?_, ?_, b5, b6⟩
        · simp
        · rw [b3]; simp
        · rw [b4]; simp

/-- `unique` -/
theorem Full.unique_ok (rel : T → T → Bool) {m : Mem T} {L : Root → List (Nat × T)} (h : Rep m L)
    {r t : Root} (htr : t ≠ r) (ht : L t = []) (hd : Tidy m r (L r)) :
    ∃ m', Full.unique m r rel = .ok m' ∧
      Rep m' (upd L r ((L r).destutter (fun b c => ¬ rel b.2 c.2 = true))) ∧
      Tidy m' r ((L r).destutter (fun b c => ¬ rel b.2 c.2 = true)) ∧ Keep m m' [r] ∧ m.fresh ≤ m'.fresh := by
  unfold Full.unique
  have hl := h.link (r := r) (xs := []) (ys := L r) rfl
  rw [root_loc (T := T) r, hl]
  rcases e : L r with _ | ⟨a, ys⟩
  · exact ⟨m, rfl, h.congr rfl (upd_self L (by rw [e]; rfl)).symm, by rw [e] at hd; exact hd, Keep.refl _ _, le_refl _⟩
  · obtain ⟨m', b, a1, a2, a3, a4, a5, a6⟩ := Full.uniqueLoop_ok rel (m.fresh + 1) h htr ht (xs := []) e
      (by have := h.length_le r; rw [e] at this; simp at this; omega) hd.2
    dsimp only [List.head?_cons, Option.map_some]
    rw [a1, Res.ok_bind]
    refine ⟨_, rfl, a2.setTail r _, ⟨?_, a3⟩, a5.trans (Keep.setTail _ _ _), a6⟩
    show upd _ r _ r = _
    rw [upd_same, a4]; rfl

/-- `merge(other)` -/
theorem Full.merge_ok (less : T → T → Bool) {m : Mem T} {L : Root → List (Nat × T)}
    (h : Rep m L) {r s : Root} (hrs : r ≠ s) (hr0 : r ≠ .loc 0) (hs0 : s ≠ .loc 0) (h0 : L (.loc 0) = [])
    (hd : Tidy m r (L r)) (hs : Tidy m s (L s)) :
    ∃ m', Full.merge m r s less = .ok m' ∧
      Rep m' (upd (upd L r (mrg less (L r) (L s))) s []) ∧ Tidy m' r (mrg less (L r) (L s)) ∧ Tidy m' s [] ∧
      Keep m m' [r, s] ∧ m.fresh ≤ m'.fresh := by
  unfold Full.merge
  rw [Full.empty_ok hd, Full.empty_ok hs]
  rcases es : L s with _ | ⟨b, qs⟩
  · rw [if_pos (by rfl)]
    have hm : mrg less (L r) [] = L r := by simp [mrg]
    rw [hm]
    refine ⟨m, rfl, h.congr rfl ?_, hd, by rw [es] at hs; exact hs, Keep.refl _ _, le_refl _⟩
    rw [upd_self L rfl, upd_self L es]
  · rw [if_neg (by simp)]
    rcases er : L r with _ | ⟨t, ys⟩
    · rw [if_pos (by rfl)]
      obtain ⟨m1, a1, a2, a3, a4⟩ := h.moveLink hrs (xs := []) (ys := []) (zs := []) (ws := b :: qs) er es
      rw [← root_loc, ← root_loc] at a1
      rw [a1, Res.ok_bind]
      rw [show mrg less [] (b :: qs) = b :: qs by simp [mrg]]
      refine ⟨_, rfl, ((a2.setTail r _).setCount r _).setEmpty s, ⟨?_, ?_⟩, Tidy.setEmpty _ _, ?_, a4.ge⟩
      · show upd (upd m1.tail r (m1.tail s)) s (.root s) r = _
        rw [upd_ne _ _ hrs, upd_same, a3.1, hs.1, es]; rfl
      · show upd (upd m1.count r (m1.count s)) s 0 r = _
        rw [upd_ne _ _ hrs, upd_same, a3.2, hs.2, es]
      · refine (a3.keep _).trans ((((Keep.setTail m1 r _).mono (by simp)).trans ((Keep.setCount _ r _).mono (by simp))).trans
          ((Keep.setEmpty _ s).mono (by simp)))
    · rw [if_neg (by simp)]
      obtain ⟨m1, a1, a2, a3, a4⟩ := h.moveLink hs0.symm (xs := []) (ys := []) (zs := []) (ws := b :: qs) h0 es
      have er1 : upd (upd L (.loc 0) ([] ++ b :: qs)) s [] r = [] ++ t :: ys := by
        rw [upd_ne _ _ hrs, upd_ne _ _ hr0, er]; rfl
      have e01 : upd (upd L (.loc 0) ([] ++ b :: qs)) s [] (.loc 0) = b :: qs := by
        rw [upd_ne _ _ hs0.symm, upd_same]; rfl
      obtain ⟨n1, hn1⟩ : ∃ n1, n1 = SL.setEmpty (SL.addCount m1 r (m1.count s)) s := ⟨_, rfl⟩
      have a2' : Rep n1 (upd (upd L (.loc 0) ([] ++ b :: qs)) s []) := by rw [hn1]; exact (a2.addCount r (m1.count s)).setEmpty s
      have f1 : n1.fresh = m1.fresh := by rw [hn1]; rfl
      have kn : Keep m n1 [r, s] := by
        rw [hn1]
        exact (a3.keep _).trans (((Keep.addCount m1 r _).mono (by simp)).trans ((Keep.setEmpty _ s).mono (by simp)))
      have tn : n1.tail r = loc (.root r) (t :: ys) := by
        rw [hn1]
        show upd m1.tail s _ r = _
        rw [upd_ne _ _ hrs, a3.1, hd.1, er]
      have cn : n1.count r = (mrg less (t :: ys) (b :: qs)).length % 2 ^ 64 := by
        rw [hn1]
        show upd (upd m1.count r _) s 0 r = _
        rw [upd_ne _ _ hrs, upd_same, a3.2, hd.2, hs.2, er, es, (mrg_perm less _ _).length_eq]
        simp; omega
      have sn : Tidy n1 s [] := by rw [hn1]; exact Tidy.setEmpty _ _
      obtain ⟨m2, p, b1, b2⟩ := Simple.mergeLoop_ok less (n1.fresh + 1) a2' hr0 er1 e01
        (by have := a2'.length_le r; rw [er1] at this; simp at this; omega)
      rw [← root_loc] at a1 b1
      rw [← root_loc] at a1
      rw [a1, Res.ok_bind]
      dsimp only
      rw [← hn1, b1, Res.ok_bind]
      cases p with
      | none =>
        obtain ⟨d1, d2, d3, d4⟩ := b2
        dsimp only
        refine ⟨m2, rfl, d1.congr rfl ?_, ⟨?_, ?_⟩, sn.same d2, kn.trans (d2.keep _), by omega⟩
        · clear er1 e01 d1 d4 hn1 a2' f1 kn tn cn sn b1 a1 a2
          simp only [List.nil_append]
          upd_ext
        · rw [d2.1, tn]; exact d4.symm
        · rw [d2.2, cn]
      | some p =>
        obtain ⟨w, v, qs', d1, d2, d3, d4, d5, d6, d7⟩ := b2
        obtain ⟨m3, f1', f2, f3, f4⟩ := d5.moveLink hr0 (xs := [] ++ w) (ys := []) (zs := []) (ws := qs')
          (by rw [upd_ne _ _ hr0, upd_same]; simp) (by rw [upd_same]; rfl)
        rw [← root_loc, ← d1] at f1'
        dsimp only
        rw [f1', Res.ok_bind]
        have s23 := d6.trans f3
        refine ⟨_, rfl, (f2.congr rfl ?_).setTail r _, ⟨?_, ?_⟩, ?_, ?_, ?_⟩
        · rw [← d2]
          clear er1 e01 d1 d2 d3 d5 f2 hn1 a2' f1 kn tn cn sn b1 a1 a2 f1' s23
          simp only [List.nil_append]
          upd_ext
        · show upd m3.tail r _ r = _
          rw [upd_same]
          show m1.tail s = _
          rw [a3.1, hs.1, es, ← d2, d3, loc_append, loc_append]; exact loc_indep d4
        · show m3.count r = _
          rw [s23.2, cn]
        · exact (sn.same s23).keep (Keep.setTail m3 r _) (by simpa using hrs.symm)
        · exact (kn.trans (s23.keep _)).trans ((Keep.setTail m3 r _).mono (by simp))
        · show _ ≤ m3.fresh
          omega

/-- `sort(less)` -/
theorem Full.sort_ok (less : T → T → Bool) {m : Mem T} {L : Root → List (Nat × T)}
    (h : Rep m L) {r : Root} (hr0 : r ≠ .loc 0) (h0 : L (.loc 0) = []) (hd : Tidy m r (L r)) (hn : (L r).length < 2 ^ 64) :
    ∃ m' ws, Full.sort m r less = .ok m' ∧
      Rep m' (upd L r ws) ∧ Tidy m' r ws ∧ Keep m m' [r] ∧ m.fresh ≤ m'.fresh ∧ ws.Perm (L r) ∧
      (StrictWeak less → Sorted less ws ∧ ∀ c, class' less c ws = class' less c (L r)) := by
  unfold Full.sort
  rw [Full.size_ok hd hn]
  by_cases hn : (L r).length > 1
  · rw [if_pos hn]
    obtain ⟨m', ws, a1, a2, a3, a4, a5, a6⟩ := Simple.sortNext_ok less ((L r).length + 1) (L r).length h hr0 h0
      (xs := []) (ys := L r) (zs := []) (by simp) rfl (by omega) (by omega)
    rw [← root_loc] at a1
    dsimp only
    rw [a1, Res.ok_bind]
    refine ⟨_, ws, rfl, (a2.congr rfl (by simp)).setTail r _, ⟨upd_same _ _ _, ?_⟩, (a3.keep _).trans (Keep.setTail _ _ _),
      a4.ge, a5, a6⟩
    show m'.count r = _
    rw [a3.2, hd.2, a5.length_eq]
  · rw [if_neg hn]
    refine ⟨m, L r, rfl, h.congr rfl (upd_self L rfl).symm, hd, Keep.refl _ _, le_refl _, List.Perm.refl _, fun _ => ⟨?_, fun _ => rfl⟩⟩
    rcases e : L r with _ | ⟨a, _ | ⟨b, ys⟩⟩
    · exact List.Pairwise.nil
    · exact List.pairwise_singleton _ _
    · rw [e] at hn; simp at hn

/-- `sort(from,to,less)` -/
theorem Full.sortRange_ok (less : T → T → Bool) {m : Mem T} {L : Root → List (Nat × T)}
    (h : Rep m L) {r : Root} (hr0 : r ≠ .loc 0) (h0 : L (.loc 0) = []) (hd : Tidy m r (L r))
    {xs ys zs : List (Nat × T)} (e : L r = xs ++ (ys ++ zs)) :
    ∃ m' ws, Full.sortRange m r (loc (.root r) xs) (loc (.root r) (xs ++ ys)) less = .ok (m', loc (.root r) (xs ++ ws)) ∧
      Rep m' (upd L r (xs ++ (ws ++ zs))) ∧ Tidy m' r (xs ++ (ws ++ zs)) ∧ Keep m m' [r] ∧ m.fresh ≤ m'.fresh ∧ ws.Perm ys ∧
      (StrictWeak less → Sorted less ws ∧ ∀ c, class' less c ws = class' less c ys) := by
  unfold Full.sortRange
  rw [Full.distance_ok (m.fresh + 1) h e (by have := h.length_le r; rw [e] at this; simp at this; omega), Res.ok_bind]
  by_cases hn : ys.length > 1
  · rw [if_pos hn]
    obtain ⟨m', ws, a1, a2, a3, a4, a5, a6⟩ := Simple.sortNext_ok less (ys.length + 1) ys.length h hr0 h0
      e rfl (by omega) (by omega)
    rw [a1, Res.ok_bind]
    dsimp only
    rw [a2.atEnd (xs := xs ++ ws) (ys := zs) (by rw [upd_same]; simp), Res.ok_bind]
    have hc : m'.count r = (xs ++ (ws ++ zs)).length % 2 ^ 64 := by
      rw [a3.2, hd.2, e]; simp [a5.length_eq]
    by_cases hz : zs = []
    · rw [if_pos (by rw [hz]; rfl)]
      refine ⟨_, ws, rfl, a2.setTail r _, ⟨?_, hc⟩, (a3.keep _).trans (Keep.setTail _ _ _), a4.ge, a5, a6⟩
      show upd _ r _ r = _
      rw [upd_same, hz, List.append_nil]
    · rw [if_neg (by simpa using hz)]
      refine ⟨_, ws, rfl, a2, ⟨?_, hc⟩, a3.keep _, a4.ge, a5, a6⟩
      rw [a3.1, hd.1, e, ← List.append_assoc, ← List.append_assoc, loc_last _ _ _ _ hz]
  · rw [if_neg hn]
    refine ⟨m, ys, rfl, h.congr rfl (upd_self L e).symm, by rw [e] at hd; exact hd, Keep.refl _ _, le_refl _, List.Perm.refl _, fun _ => ⟨?_, fun _ => rfl⟩⟩
    rcases ys with _ | ⟨a, _ | ⟨b, ys⟩⟩
    · exact List.Pairwise.nil
    · exact List.pairwise_singleton _ _
    · simp at hn

end Verif.SL
