import Verif.SL.Full3
import Mathlib.Algebra.Order.Group.Multiset
import Mathlib.Tactic.Abel
/-
What `sl_list::merge` for ranges does to the list in memory, and to the fields `tail` and `node_count`.
-/
namespace Verif.SL
variable {T : Type}

/-- the location of an iterator into the list of `r` -/
def Into (L : Root → List (Nat × T)) (r : Root) (p : Loc) : Prop := p = .root r ∨ ∃ a ∈ L r, p = .next a.1

theorem Into.prefix {L L' : Root → List (Nat × T)} {r : Root} {us vs : List (Nat × T)} (e : L r = us ++ vs)
    (hp : (L' r).Perm (L r)) : Into L' r (loc (.root r) us) := by
  rcases List.eq_nil_or_concat us with hu | ⟨us, a, hu⟩
  · left; rw [hu]; rfl
  · right
    rw [List.concat_eq_append] at hu
    rw [hu]
    refine ⟨a, hp.mem_iff.mpr (by rw [e, hu]; simp), ?_⟩
    rw [loc_snoc]

theorem Rep.atEnd_into {m : Mem T} {L : Root → List (Nat × T)} (h : Rep m L) {r : Root} {p : Loc} (hp : Into L r p) :
    ∃ b, SL.atEnd m p = .ok b ∧ (b = true ↔ loc (.root r) (L r) = p) := by
  obtain ⟨us, vs, e, hpl⟩ : ∃ us vs, L r = us ++ vs ∧ p = loc (.root r) us := by
    rcases hp with hp | ⟨a, ha, hp⟩
    · exact ⟨[], L r, rfl, hp⟩
    · obtain ⟨us, vs, e⟩ := List.append_of_mem ha
      exact ⟨us ++ [a], vs, by rw [e]; simp, by rw [loc_snoc, hp]⟩
  refine ⟨_, by rw [hpl, h.atEnd e], ?_⟩
  rw [List.isEmpty_iff, hpl]
  constructor
  · intro hv; rw [e, hv, List.append_nil]
  · intro heq
    have := (h.loc_inj (xs := L r) (ys := []) (by simp) e heq).2
    rw [e] at this
    exact List.append_right_eq_self.mp this

/-- the part of `merge(b0,e0,b1,e1)` after the call of `merge_aux` -/
theorem Full.mergeMain_ok (less : T → T → Bool) {m m' : Mem T} {L L' : Root → List (Nat × T)} (h : Rep m' L') {r : Root}
    (hd : Tidy m r (L r)) {b0 e0 b1 e1 q : Loc} (ha : Simple.mergeAux m b0 e0 b1 e1 less = .ok (m', q))
    (hs : Same m m') (hp : (L' r).Perm (L r)) (hb1 : Into L' r b1) (he1 : Into L' r e1)
    (c1 : m.tail r = e1 → loc (.root r) (L' r) = b1 ∨ loc (.root r) (L' r) = e1)
    (c2 : m.tail r ≠ e1 → m.tail r = e0 → loc (.root r) (L' r) = e1 ∨ loc (.root r) (L' r) = e0)
    (c3 : m.tail r ≠ e1 → m.tail r ≠ e0 → loc (.root r) (L' r) = m.tail r) :
    ∃ m'', Full.mergeMain m r b0 e0 b1 e1 less = .ok (m'', q) ∧ Rep m'' L' ∧ Tidy m'' r (L' r) ∧ Keep m m'' [r] ∧
      m''.fresh = m'.fresh := by
  unfold Full.mergeMain
  rw [ha, Res.ok_bind]
  dsimp only
  have hc : m'.count r = (L' r).length % 2 ^ 64 := by rw [hs.2, hd.2, hp.length_eq]
  have ht : m'.tail r = m.tail r := by rw [hs.1]
  obtain ⟨b, x1, x2⟩ := h.atEnd_into hb1
  obtain ⟨c, y1, y2⟩ := h.atEnd_into he1
  rw [ht]
  by_cases t1 : m.tail r = e1
  · rw [if_pos t1, x1, Res.ok_bind]
    by_cases hb : b = true
    · rw [if_pos hb]
      exact ⟨_, rfl, h.setTail r _, ⟨by show upd _ r _ r = _; rw [upd_same, x2.mp hb], hc⟩,
        (hs.keep _).trans (Keep.setTail _ _ _), rfl⟩
    · rw [if_neg hb]
      exact ⟨_, rfl, h, ⟨by rw [ht, t1]; exact ((c1 t1).resolve_left (fun hx => hb (x2.mpr hx))).symm, hc⟩, hs.keep _, rfl⟩
  · rw [if_neg t1]
    by_cases t0 : m.tail r = e0
    · rw [if_pos t0, y1, Res.ok_bind]
      by_cases hb : c = true
      · rw [if_pos hb]
        exact ⟨_, rfl, h.setTail r _, ⟨by show upd _ r _ r = _; rw [upd_same, y2.mp hb], hc⟩,
          (hs.keep _).trans (Keep.setTail _ _ _), rfl⟩
      · rw [if_neg hb]
        exact ⟨_, rfl, h, ⟨by rw [ht, t0]; exact ((c2 t1 t0).resolve_left (fun hx => hb (y2.mpr hx))).symm, hc⟩,
          hs.keep _, rfl⟩
    · rw [if_neg t0]
      exact ⟨_, rfl, h, ⟨by rw [ht, c3 t1 t0], hc⟩, hs.keep _, rfl⟩

/-- `merge(b0,e0,b1,e1)` for a first range that is followed by other nodes, or none, and then by the second range -/
theorem Full.mergeFwd_ok (less : T → T → Bool) {m : Mem T} {L : Root → List (Nat × T)}
    (h : Rep m L) {r : Root} (hr0 : r ≠ .loc 0) (h0 : L (.loc 0) = []) (hd : Tidy m r (L r))
    {xs ys us ms zs : List (Nat × T)} (e : L r = xs ++ (ys ++ (us ++ (ms ++ zs)))) (hms : ms ≠ []) :
    ∃ m', Full.mergeMain m r (loc (.root r) xs) (loc (.root r) (xs ++ ys)) (loc (.root r) (xs ++ ys ++ us))
        (loc (.root r) (xs ++ ys ++ us ++ ms)) less = .ok (m', loc (.root r) (xs ++ mrg less ys ms)) ∧
      Rep m' (upd L r (xs ++ (mrg less ys ms ++ (us ++ zs)))) ∧ Tidy m' r (xs ++ (mrg less ys ms ++ (us ++ zs))) ∧
      Keep m m' [r] ∧ m.fresh ≤ m'.fresh := by
  have hperm : (xs ++ (mrg less ys ms ++ (us ++ zs))).Perm (L r) := by
    rw [e]
    refine List.Perm.append_left _ (((mrg_perm less ys ms).append_right _).trans ?_)
    rw [List.append_assoc]
    refine List.Perm.append_left _ ?_
    rw [← List.append_assoc, ← List.append_assoc]
    exact List.perm_append_comm.append_right _
  have e3 : L r = (xs ++ ys ++ us ++ ms) ++ zs := by rw [e]; simp
  have e1 : L r = (xs ++ ys) ++ (us ++ (ms ++ zs)) := by rw [e]; simp
  have e2 : L r = (xs ++ ys ++ us) ++ (ms ++ zs) := by rw [e]; simp
  have hte := h.tail_iff e3 hd
  have ht0 : m.tail r ≠ loc (.root r) (xs ++ ys) := fun hc => by
    have := (h.tail_iff e1 hd).mp hc.symm
    exact hms (List.append_eq_nil_iff.mp (List.append_eq_nil_iff.mp this).2).1
  have hend : zs ≠ [] → loc (.root r) (upd L r (xs ++ (mrg less ys ms ++ (us ++ zs))) r) = m.tail r := fun hz => by
    rw [upd_same, hd.1, e3, ← List.append_assoc, ← List.append_assoc, loc_last _ _ _ _ hz]
  have fin : ∀ m1, Simple.mergeAux m (loc (.root r) xs) (loc (.root r) (xs ++ ys)) (loc (.root r) (xs ++ ys ++ us))
        (loc (.root r) (xs ++ ys ++ us ++ ms)) less = .ok (m1, loc (.root r) (xs ++ mrg less ys ms)) →
      Rep m1 (upd L r (xs ++ (mrg less ys ms ++ (us ++ zs)))) → Same m m1 → m1.fresh = m.fresh →
      (zs = [] → loc (.root r) (upd L r (xs ++ (mrg less ys ms ++ (us ++ zs))) r) = loc (.root r) (xs ++ ys ++ us) ∨
        loc (.root r) (upd L r (xs ++ (mrg less ys ms ++ (us ++ zs))) r) = loc (.root r) (xs ++ ys ++ us ++ ms)) →
      ∃ m', Full.mergeMain m r (loc (.root r) xs) (loc (.root r) (xs ++ ys)) (loc (.root r) (xs ++ ys ++ us))
          (loc (.root r) (xs ++ ys ++ us ++ ms)) less = .ok (m', loc (.root r) (xs ++ mrg less ys ms)) ∧
        Rep m' (upd L r (xs ++ (mrg less ys ms ++ (us ++ zs)))) ∧ Tidy m' r (xs ++ (mrg less ys ms ++ (us ++ zs))) ∧
        Keep m m' [r] ∧ m.fresh ≤ m'.fresh := fun m1 a1 a2 a3 a4 a5 => by
    obtain ⟨m', b1, b2, b3, b4, b5⟩ := Full.mergeMain_ok (L := L) less a2 hd a1 a3 (by rw [upd_same]; exact hperm)
      (Into.prefix e2 (by rw [upd_same]; exact hperm)) (Into.prefix e3 (by rw [upd_same]; exact hperm))
      (fun hc => a5 (hte.mp hc.symm)) (fun _ hc => absurd hc ht0)
      (fun hc _ => hend (fun hz => hc (hte.mpr hz).symm))
    rw [upd_same] at b3
    exact ⟨m', b1, b2, b3, b4, by omega⟩
  by_cases hus : us = []
  · subst hus
    obtain ⟨m1, a1, a2, a3, a4, a5⟩ := Simple.mergeAux_adj less h hr0 h0 (xs := xs) (ys := ys) (ms := ms) (zs := zs)
      (by rw [e]; simp) hms
    simp only [List.append_nil, List.nil_append] at fin ⊢
    exact fin m1 a1 a2 a3 a4 (fun hz => by rw [upd_same, hz, List.append_nil]; exact a5)
  · obtain ⟨m1, a1, a2, a3, a4⟩ := Simple.mergeAux_gap less h hr0 h0 e hus hms
    refine fin m1 a1 a2 a3 a4 (fun hz => Or.inl ?_)
    rw [upd_same, hz, List.append_nil, ← List.append_assoc, loc_last _ _ _ _ hus]

/-- `merge(b0,e0,b1,e1)` when the second range comes before the first one, with other nodes between them -/
theorem Full.mergeBwd_ok (less : T → T → Bool) {m : Mem T} {L : Root → List (Nat × T)}
    (h : Rep m L) {r : Root} (hr0 : r ≠ .loc 0) (h0 : L (.loc 0) = []) (hr1 : r ≠ .loc 1) (h1 : L (.loc 1) = [])
    (hd : Tidy m r (L r)) {xs ys us ms as : List (Nat × T)}
    (e : L r = xs ++ (ms ++ (as ++ (ys ++ us)))) (has : as ≠ []) (hms : ms ≠ []) :
    ∃ m', Full.mergeMain m r (loc (.root r) (xs ++ ms ++ as)) (loc (.root r) (xs ++ ms ++ as ++ ys)) (loc (.root r) xs)
        (loc (.root r) (xs ++ ms)) less = .ok (m', loc (.root r) (xs ++ as ++ mrg less ys ms)) ∧
      Rep m' (upd L r (xs ++ (as ++ (mrg less ys ms ++ us)))) ∧ Tidy m' r (xs ++ (as ++ (mrg less ys ms ++ us))) ∧
      Keep m m' [r] ∧ m.fresh ≤ m'.fresh := by
  have hperm : (xs ++ (as ++ (mrg less ys ms ++ us))).Perm (L r) := by
    rw [e]
    refine List.Perm.append_left _ ?_
    refine (List.Perm.append_left _ ((mrg_perm less ys ms).append_right _)).trans ?_
    rw [← Multiset.coe_eq_coe]
    simp only [← Multiset.coe_add]
    abel
  obtain ⟨m1, a1, a2, a3, a4, a5⟩ := Simple.mergeAux_before less h hr0 h0 hr1 h1 e has hms
  have e1 : L r = (xs ++ ms) ++ (as ++ (ys ++ us)) := by rw [e]; simp
  have e0 : L r = (xs ++ ms ++ as ++ ys) ++ us := by rw [e]; simp
  have ht0 := h.tail_iff e0 hd
  obtain ⟨m', b1, b2, b3, b4, b5⟩ := Full.mergeMain_ok (L := L) less a2 hd a1 a3 (by rw [upd_same]; exact hperm)
    (Into.prefix e (by rw [upd_same]; exact hperm)) (Into.prefix e1 (by rw [upd_same]; exact hperm))
    (fun hc => absurd (List.append_eq_nil_iff.mp ((h.tail_iff e1 hd).mp hc.symm)).1 has)
    (fun _ hc => by
      rw [upd_same, ht0.mp hc.symm, List.append_nil, ← List.append_assoc]
      exact a5.symm.imp id And.right)
    (fun _ hc => by
      have hu : us ≠ [] := fun hu => hc (ht0.mpr hu).symm
      rw [upd_same, hd.1, e0, ← List.append_assoc, ← List.append_assoc, loc_last _ _ _ _ hu])
  rw [upd_same] at b3
  exact ⟨m', b1, b2, b3, b4, by omega⟩

/-- `merge(b0,e0,b1,e1)` with an empty second range -/
theorem Full.mergeRanges_none (less : T → T → Bool) (m : Mem T) (r : Root) (b0 e0 b1 : Loc) :
    Full.mergeRanges m r b0 e0 b1 b1 less = .ok (m, e0) := by
  unfold Full.mergeRanges
  rw [if_pos rfl]

/-- `merge(b0,e0,b1,e1)` with the second range after the first one -/
theorem Full.mergeRanges_after (less : T → T → Bool) {m : Mem T} {L : Root → List (Nat × T)}
    (h : Rep m L) {r : Root} (hr0 : r ≠ .loc 0) (h0 : L (.loc 0) = []) (hd : Tidy m r (L r))
    {xs ys us ms zs : List (Nat × T)} (e : L r = xs ++ (ys ++ (us ++ (ms ++ zs)))) (hms : ms ≠ []) :
    ∃ m', Full.mergeRanges m r (loc (.root r) xs) (loc (.root r) (xs ++ ys)) (loc (.root r) (xs ++ ys ++ us))
        (loc (.root r) (xs ++ ys ++ us ++ ms)) less = .ok (m', loc (.root r) (xs ++ mrg less ys ms)) ∧
      Rep m' (upd L r (xs ++ (mrg less ys ms ++ (us ++ zs)))) ∧ Tidy m' r (xs ++ (mrg less ys ms ++ (us ++ zs))) ∧
      Keep m m' [r] ∧ m.fresh ≤ m'.fresh := by
  unfold Full.mergeRanges
  have e3 : L r = (xs ++ ys ++ us ++ ms) ++ zs := by rw [e]; simp
  have e2 : L r = (xs ++ ys ++ us) ++ (ms ++ zs) := by rw [e]; simp
  rw [if_neg (fun hc => hms (List.self_eq_append_right.mp (h.loc_inj e2 e3 hc).2)),
    if_neg (fun hc => by
      have := (h.loc_inj e e3 hc).2
      rw [List.append_assoc, List.append_assoc] at this
      have := List.self_eq_append_right.mp this
      exact hms (List.append_eq_nil_iff.mp (List.append_eq_nil_iff.mp this).2).2)]
  exact Full.mergeFwd_ok less h hr0 h0 hd e hms

/-- `merge(b0,e0,b1,e1)` with the second range before the first one, and other nodes between them -/
theorem Full.mergeRanges_before (less : T → T → Bool) {m : Mem T} {L : Root → List (Nat × T)}
    (h : Rep m L) {r : Root} (hr0 : r ≠ .loc 0) (h0 : L (.loc 0) = []) (hr1 : r ≠ .loc 1) (h1 : L (.loc 1) = [])
    (hd : Tidy m r (L r)) {xs ys us ms as : List (Nat × T)}
    (e : L r = xs ++ (ms ++ (as ++ (ys ++ us)))) (has : as ≠ []) (hms : ms ≠ []) :
    ∃ m', Full.mergeRanges m r (loc (.root r) (xs ++ ms ++ as)) (loc (.root r) (xs ++ ms ++ as ++ ys)) (loc (.root r) xs)
        (loc (.root r) (xs ++ ms)) less = .ok (m', loc (.root r) (xs ++ as ++ mrg less ys ms)) ∧
      Rep m' (upd L r (xs ++ (as ++ (mrg less ys ms ++ us)))) ∧ Tidy m' r (xs ++ (as ++ (mrg less ys ms ++ us))) ∧
      Keep m m' [r] ∧ m.fresh ≤ m'.fresh := by
  unfold Full.mergeRanges
  have e1 : L r = (xs ++ ms) ++ (as ++ (ys ++ us)) := by rw [e]; simp
  have e2 : L r = (xs ++ ms ++ as) ++ (ys ++ us) := by rw [e]; simp
  rw [if_neg (fun hc => hms (List.self_eq_append_right.mp (h.loc_inj e e1 hc).2)),
    if_neg (fun hc => has (List.append_right_eq_self.mp (h.loc_inj e2 e1 hc).2))]
  exact Full.mergeBwd_ok less h hr0 h0 hr1 h1 hd e has hms

/-- `merge(b0,e0,b1,e1)` with the first range immediately after the second one: the ranges change roles -/
theorem Full.mergeRanges_swap (less : T → T → Bool) {m : Mem T} {L : Root → List (Nat × T)}
    (h : Rep m L) {r : Root} (hr0 : r ≠ .loc 0) (h0 : L (.loc 0) = []) (hd : Tidy m r (L r))
    {xs ys ms zs : List (Nat × T)} (e : L r = xs ++ (ms ++ (ys ++ zs))) (hms : ms ≠ []) :
    ∃ m', Full.mergeRanges m r (loc (.root r) (xs ++ ms)) (loc (.root r) (xs ++ ms ++ ys)) (loc (.root r) xs)
        (loc (.root r) (xs ++ ms)) less = .ok (m', loc (.root r) (xs ++ mrg less ms ys)) ∧
      Rep m' (upd L r (xs ++ (mrg less ms ys ++ zs))) ∧ Tidy m' r (xs ++ (mrg less ms ys ++ zs)) ∧
      Keep m m' [r] ∧ m.fresh ≤ m'.fresh := by
  unfold Full.mergeRanges
  have e1 : L r = (xs ++ ms) ++ (ys ++ zs) := by rw [e]; simp
  have e2 : L r = (xs ++ ms ++ ys) ++ zs := by rw [e]; simp
  rw [if_neg (fun hc => hms (List.self_eq_append_right.mp (h.loc_inj e e1 hc).2)), if_pos rfl]
  by_cases hy : ys = []
  · subst hy
    rw [if_pos (by simp)]
    have hm : mrg less ms [] = ms := by simp [mrg]
    rw [hm]
    exact ⟨m, rfl, h.congr rfl (upd_self L (by rw [e]; rfl)).symm, by rw [e] at hd; exact hd, Keep.refl _ _, le_refl _⟩
  · rw [if_neg (fun hc => hy (List.self_eq_append_right.mp (h.loc_inj e1 e2 hc).2)),
      if_neg (fun hc => by
        have := (h.loc_inj e e2 hc).2
        rw [List.append_assoc] at this
        exact hms (List.append_eq_nil_iff.mp (List.self_eq_append_right.mp this)).1)]
    have := Full.mergeFwd_ok less h hr0 h0 hd (xs := xs) (ys := ms) (us := []) (ms := ys) (zs := zs)
      (by rw [e]; simp) hy
    simpa using this

end Verif.SL
