import Verif.SL.Steps
/-
Further steps of the list model, within one list.  The proofs use a link field outside nodes that holds null, in
which they place a part of the list that the program keeps in no variable.
-/
namespace Verif.SL
variable {T : Type}

theorem Rep.congr {m m' : Mem T} {L L' : Root → List (Nat × T)} (h : Rep m L) (hm : m = m') (hL : L = L') :
    Rep m' L' := by subst hm; subst hL; exact h

/-- the position after some nodes does not depend on where they start -/
theorem loc_indep {p q : Loc} {ys : List (Nat × T)} (h : ys ≠ []) : loc p ys = loc q ys := by
  cases ys with
  | nil => exact absurd rfl h
  | cons a t => rfl

theorem Rep.swapMem {m : Mem T} {L : Root → List (Nat × T)} (h : Rep m L) {r s : Root} (hrs : r ≠ s)
    {xs ys zs ws : List (Nat × T)} (e : L r = xs ++ ys) (e' : L s = zs ++ ws) :
    Rep (m.withLink (upd (upd m.link (loc (.root r) xs) (m.link (loc (.root s) zs)))
      (loc (.root s) zs) (m.link (loc (.root r) xs)))) (upd (upd L r (xs ++ ws)) s (zs ++ ys)) :=
  h.exchange hrs e e' rfl rfl rfl

/-- `p.reset(q.release())` for two positions of one list: the nodes between them are destroyed -/
theorem Rep.drop {m : Mem T} {L : Root → List (Nat × T)} (h : Rep m L) {r t : Root} (htr : t ≠ r) (ht : L t = [])
    {xs ys zs : List (Nat × T)} (e : L r = xs ++ (ys ++ zs)) :
    ∃ m', SL.moveLink m (loc (.root r) xs) (loc (.root r) (xs ++ ys)) = .ok m' ∧
      Rep m' (upd L r (xs ++ zs)) ∧ Same m m' ∧ m'.fresh = m.fresh := by
  have e' : L r = (xs ++ ys) ++ zs := by rw [e, List.append_assoc]
  have hlp := h.live e
  have hlq := h.live e'
  unfold SL.moveLink SL.reset
  rw [get_of_live hlq, Res.ok_bind, set_of_live hlq, Res.ok_bind,
    get_of_live (live_upd hlp), Res.ok_bind, set_of_live (live_upd hlp), Res.ok_bind]
  by_cases hy : ys = []
  · subst hy
    rw [List.append_nil]
    dsimp only
    rw [upd_same]
    refine ⟨m, ?_, ?_, ⟨rfl, rfl⟩, rfl⟩
    · rw [upd_upd, upd_self _ rfl]; rfl
    · exact h.congr rfl (upd_self _ (by rw [e]; rfl)).symm
  · have hpq : loc (.root r) xs ≠ loc (.root r) (xs ++ ys) := fun heq => by
      have := (h.loc_inj e e' heq).2
      exact hy (List.self_eq_append_right.mp this)
    have hpt : loc (.root r) xs ≠ .root t := (root_ne htr xs).symm
    have hqt : loc (.root r) (xs ++ ys) ≠ .root t := (root_ne htr _).symm
    have hq : loc (.root t) ys = loc (.root r) (xs ++ ys) := by rw [loc_append]; exact loc_indep hy
    have h1 := h.swapMem (r := r) (s := t) htr.symm e (zs := []) (ws := []) (by rw [ht]; rfl)
    have e1 : upd (upd L r (xs ++ [])) t ([] ++ (ys ++ zs)) r = xs ++ [] := by rw [upd_ne _ _ htr.symm, upd_same]
    have e2 : upd (upd L r (xs ++ [])) t ([] ++ (ys ++ zs)) t = ys ++ zs := upd_same ..
    have h2 := h1.swapMem (r := r) (s := t) htr.symm (xs := xs) (ys := []) e1 e2
    rw [hq] at h2
    have e3 : ∀ M : Root → List (Nat × T), upd M t (ys ++ []) t = [] ++ ys := by
      intro M; rw [upd_same]; simp
    obtain ⟨m', h3, h4, h5, h6⟩ := h2.cut (m2 := m.withLink (upd (upd m.link (loc (.root r) (xs ++ ys)) none)
        (loc (.root r) xs) (m.link (loc (.root r) (xs ++ ys))))) (e3 _) (by
          show upd (upd m.link (loc (.root r) (xs ++ ys)) none) (loc (.root r) xs) (m.link (loc (.root r) (xs ++ ys)))
            = upd _ (.root t) none
          have hlt : m.link (.root t) = none := h.link (r := t) (xs := []) (ys := []) ht
          show _ = upd (upd (upd (upd (upd m.link (loc (.root r) xs) (m.link (.root t))) (.root t)
            (m.link (loc (.root r) xs))) (loc (.root r) xs) _) (loc (.root r) (xs ++ ys)) _) (.root t) none
          funext x
          by_cases hx1 : x = .root t
          · subst hx1
            rw [upd_same, upd_ne _ _ hpt.symm, upd_ne _ _ hqt.symm, hlt]
          · rw [upd_ne _ _ hx1]
            by_cases hx2 : x = loc (.root r) (xs ++ ys)
            · subst hx2
              rw [upd_ne _ _ hpq.symm, upd_same, upd_same]
              dsimp only [Mem.withLink, loc]
              rw [upd_ne _ _ hpt, upd_same, hlt]
            · rw [upd_ne _ _ hx2]
              by_cases hx3 : x = loc (.root r) xs
              · subst hx3
                rw [upd_same, upd_same]
                dsimp only [Mem.withLink, loc]
                rw [upd_ne _ _ hqt, upd_ne _ _ hpq.symm]
              · rw [upd_ne _ _ hx3, upd_ne _ _ hx2, upd_ne _ _ hx3, upd_ne _ _ hx1, upd_ne _ _ hx3]) rfl rfl
    refine ⟨m', ?_, h4.congr rfl ?_, h5, h6⟩
    · rw [← h3]
      dsimp only
      rw [upd_ne _ _ hpq]
      congr 1
      show m.link (loc (.root r) xs) = upd (upd (upd (upd m.link (loc (.root r) xs) _) (.root t)
            (m.link (loc (.root r) xs))) (loc (.root r) xs) _) (loc (.root r) (xs ++ ys)) _ (.root t)
      rw [upd_ne _ _ hqt.symm, upd_ne _ _ hpt.symm, upd_same]
    · funext x
      by_cases hx1 : x = t
      · subst hx1; rw [upd_same, upd_ne _ _ htr, ht]
      · rw [upd_ne _ _ hx1, upd_ne _ _ hx1]
        by_cases hx2 : x = r
        · subst hx2; rw [upd_same, upd_same]
        · rw [upd_ne _ _ hx2, upd_ne _ _ hx1, upd_ne _ _ hx2, upd_ne _ _ hx2]

/-- the cyclic exchange of the pointers at three positions of a list -/
theorem Rep.rotate {m : Mem T} {L : Root → List (Nat × T)} (h : Rep m L) {r t : Root} (htr : t ≠ r) (ht : L t = [])
    {xs ys zs ws : List (Nat × T)} (hy : ys ≠ []) (hz : zs ≠ []) (e : L r = xs ++ (ys ++ (zs ++ ws))) :
    Rep (m.withLink (upd (upd (upd m.link (loc (.root r) xs) (m.link (loc (.root r) (xs ++ ys))))
      (loc (.root r) (xs ++ ys)) (m.link (loc (.root r) (xs ++ ys ++ zs))))
      (loc (.root r) (xs ++ ys ++ zs)) (m.link (loc (.root r) xs)))) (upd L r (xs ++ (zs ++ (ys ++ ws)))) := by
  have e' : L r = (xs ++ ys) ++ (zs ++ ws) := by rw [e]; simp
  have e'' : L r = (xs ++ ys ++ zs) ++ ws := by rw [e]; simp
  have h12 : loc (.root r) xs ≠ loc (.root r) (xs ++ ys) := fun heq =>
    hy (List.self_eq_append_right.mp (h.loc_inj e e' heq).2)
  have h23 : loc (.root r) (xs ++ ys) ≠ loc (.root r) (xs ++ ys ++ zs) := fun heq =>
    hz (List.self_eq_append_right.mp (h.loc_inj e' e'' heq).2)
  have h13 : loc (.root r) xs ≠ loc (.root r) (xs ++ ys ++ zs) := fun heq => by
    have := (h.loc_inj e e'' heq).2
    rw [List.append_assoc] at this
    exact hy (List.append_eq_nil_iff.mp (List.self_eq_append_right.mp this)).1
  have h1t : loc (.root r) xs ≠ .root t := (root_ne htr xs).symm
  have h2t : loc (.root r) (xs ++ ys) ≠ .root t := (root_ne htr _).symm
  have h3t : loc (.root r) (xs ++ ys ++ zs) ≠ .root t := (root_ne htr _).symm
  have hq : loc (.root t) ys = loc (.root r) (xs ++ ys) := by rw [loc_append]; exact loc_indep hy
  have hq' : loc (.root r) (xs ++ zs) = loc (.root r) (xs ++ ys ++ zs) := by
    rw [loc_append, loc_append]; exact loc_indep hz
  have hlt : m.link (.root t) = none := h.link (r := t) (xs := []) (ys := []) ht
  have a1 := h.swapMem (r := r) (s := t) htr.symm e (zs := []) (ws := []) (by rw [ht]; rfl)
  have a2 := a1.swapMem (r := r) (s := t) htr.symm (xs := xs) (ys := []) (zs := ys) (ws := zs ++ ws)
    (by rw [upd_ne _ _ htr.symm, upd_same]) (by rw [upd_same]; simp)
  have a3 := a2.swapMem (r := r) (s := t) htr.symm (xs := xs ++ zs) (ys := ws) (zs := ys) (ws := [])
    (by rw [upd_ne _ _ htr.symm, upd_same]; simp) (by rw [upd_same])
  have a4 := a3.swapMem (r := r) (s := t) htr.symm (xs := xs ++ zs) (ys := []) (zs := []) (ws := ys ++ ws)
    (by rw [upd_ne _ _ htr.symm, upd_same]) (by rw [upd_same]; simp)
  rw [hq, hq'] at a4
  refine a4.congr ?_ ?_
  · show Mem.mk _ _ _ _ _ = Mem.mk _ _ _ _ _
    congr 1
    generalize loc (.root r) xs = p1 at *
    generalize loc (.root r) (xs ++ ys) = p2 at *
    generalize loc (.root r) (xs ++ ys ++ zs) = p3 at *
    show upd (upd (upd (upd (upd (upd (upd (upd m.link p1 _) (.root t) _) p1 _) p2 _) p3 _) p2 _) p3 _) (.root t) _ = _
    dsimp only [loc]
    funext x
    by_cases hx0 : x = .root t
    · subst hx0
      simp [upd, h1t, h2t, h3t, h12, h13, h23, h12.symm, h13.symm, h23.symm, h1t.symm, h2t.symm, h3t.symm, hlt]
    · by_cases hx1 : x = p1
      · subst hx1
        simp [upd, h1t, h2t, h3t, h12, h13, h23, h12.symm, h13.symm, h23.symm, h1t.symm, h2t.symm, h3t.symm, hlt]
      · by_cases hx2 : x = p2
        · subst hx2
          simp [upd, h1t, h2t, h3t, h12, h13, h23, h12.symm, h13.symm, h23.symm, h1t.symm, h2t.symm, h3t.symm, hlt]
        · by_cases hx3 : x = p3
          · subst hx3
            simp [upd, h1t, h2t, h3t, h12, h13, h23, h12.symm, h13.symm, h23.symm, h1t.symm, h2t.symm, h3t.symm, hlt]
          · simp [upd, hx0, hx1, hx2, hx3]
  · funext x
    by_cases hx1 : x = t
    · subst hx1; rw [upd_same, upd_ne _ _ htr, ht]; rfl
    · rw [upd_ne _ _ hx1]
      by_cases hx2 : x = r
      · subst hx2; rw [upd_same, upd_same]; simp
      · rw [upd_ne _ _ hx2, upd_ne _ _ hx1, upd_ne _ _ hx2, upd_ne _ _ hx1, upd_ne _ _ hx2, upd_ne _ _ hx1,
          upd_ne _ _ hx2, upd_ne _ _ hx2]

/-- the memory after allocation of a node, with a pointer to it -/
def allocMem (m : Mem T) (t : Root) (x : T) : Mem T :=
  { m with link := upd (upd m.link (.next m.fresh) none) (.root t) (some m.fresh),
           cont := upd m.cont m.fresh (some x), fresh := m.fresh + 1 }

/-- a new node, to which a link field outside nodes points that held null -/
theorem Rep.alloc {m : Mem T} {L : Root → List (Nat × T)} (h : Rep m L) {t : Root} (ht : L t = []) (x : T) :
    Rep (allocMem m t x) (upd L t [(m.fresh, x)]) := by
  have hnf : ∀ r, ∀ a ∈ L r, a.1 ≠ m.fresh := fun r a ha e => by
    have := h.bound a.1 (by rw [h.cont ha]; rfl)
    omega
  have hnl : ∀ p, Live m p → m.link p ≠ some m.fresh := by
    intro p hp hc
    obtain ⟨b, hb⟩ : ∃ b, m.cont m.fresh = some b := by
      cases p with
      | root r =>
        have := Seg_head (h.chain r)
        rw [hc] at this
        cases hL : L r with
        | nil => rw [hL] at this; cases this
        | cons a u =>
          rw [hL] at this
          have ha := hnf r a (by rw [hL]; simp)
          exact absurd (Option.some.inj this).symm ha
      | next a =>
        obtain ⟨y, hy⟩ := Option.isSome_iff_exists.mp hp
        obtain ⟨r, hr⟩ := h.owned a y hy
        obtain ⟨us, vs, e⟩ := List.append_of_mem hr
        have e' : L r = (us ++ [(a, y)]) ++ vs := by rw [e]; simp
        have := h.link e'
        rw [loc_snoc, hc] at this
        cases hv : vs with
        | nil => rw [hv] at this; cases this
        | cons b u =>
          rw [hv] at this
          have hb := hnf r b (by rw [e, hv]; simp)
          exact absurd (Option.some.inj this).symm hb
    have := h.bound m.fresh (by rw [hb]; rfl)
    omega
  refine ⟨?_, ?_, ?_, ?_⟩
  · intro r
    by_cases hr : r = t
    · subst hr
      rw [upd_same]
      refine ⟨by simp [allocMem], by simp [allocMem], ?_⟩
      show upd (upd m.link (.next m.fresh) none) (.root r) (some m.fresh) (.next m.fresh) = none
      rw [upd_ne _ _ (by simp), upd_same]
    · rw [upd_ne _ _ hr]
      show Seg _ (upd (upd m.link (.next m.fresh) none) (.root t) (some m.fresh) (.root r)) _ _
      rw [upd_ne _ _ (fun ee => hr (Loc.root.inj ee)), upd_ne _ _ (by simp)]
      refine Seg_congr (h.chain r) (fun a ha => ?_) (fun a ha => ?_)
      · show upd (upd m.link (.next m.fresh) none) (.root t) (some m.fresh) (.next a.1) = _
        rw [upd_ne _ _ (by simp), upd_ne _ _ (fun ee => hnf r a ha (Loc.next.inj ee))]
      · exact upd_ne _ _ (hnf r a ha)
  · have key : ∀ p a, Live (allocMem m t x) p →
        upd (upd m.link (.next m.fresh) none) (.root t) (some m.fresh) p = some a →
        (p = .root t ∧ a = m.fresh) ∨ (p ≠ .root t ∧ Live m p ∧ m.link p = some a) := by
      intro p a hp ha
      by_cases h1 : p = .root t
      · subst h1; rw [upd_same] at ha; exact Or.inl ⟨rfl, (Option.some.inj ha).symm⟩
      · rw [upd_ne _ _ h1] at ha
        by_cases h2 : p = .next m.fresh
        · subst h2; rw [upd_same] at ha; cases ha
        · rw [upd_ne _ _ h2] at ha
          refine Or.inr ⟨h1, ?_, ha⟩
          cases p with
          | root r => trivial
          | next c =>
            have hp' : (upd m.cont m.fresh (some x) c).isSome = true := hp
            rw [upd_ne _ _ (fun ee => h2 (by rw [ee]))] at hp'
            exact hp'
    intro p q a hp hq h1 h2
    rcases key p a hp h1 with ⟨k1, k2⟩ | ⟨k1, k2, k3⟩
    · rcases key q a hq h2 with ⟨j1, _⟩ | ⟨_, j2, j3⟩
      · rw [k1, j1]
      · rw [k2] at j3; exact absurd j3 (hnl q j2)
    · rcases key q a hq h2 with ⟨_, j2⟩ | ⟨_, j2, j3⟩
      · rw [j2] at k3; exact absurd k3 (hnl p k2)
      · exact h.inj p q a k2 j2 k3 j3
  · intro a y ha
    have ha' : upd m.cont m.fresh (some x) a = some y := ha
    by_cases hf : a = m.fresh
    · subst hf
      rw [upd_same] at ha'
      exact ⟨t, by rw [upd_same]; simp [Option.some.inj ha']⟩
    · rw [upd_ne _ _ hf] at ha'
      obtain ⟨r, hr⟩ := h.owned a y ha'
      refine ⟨r, ?_⟩
      rw [upd_ne _ _ (fun ee => by rw [ee, ht] at hr; cases hr)]
      exact hr
  · intro a ha
    have ha' : (upd m.cont m.fresh (some x) a).isSome = true := ha
    by_cases hf : a = m.fresh
    · subst hf; exact Nat.lt_succ_self _
    · rw [upd_ne _ _ hf] at ha'
      exact Nat.lt_succ_of_lt (h.bound a ha')

/-- the memory after insertion of a node at a position -/
def insMem (m : Mem T) (p : Loc) (x : T) : Mem T :=
  { m with link := upd (upd m.link (.next m.fresh) (m.link p)) p (some m.fresh),
           cont := upd m.cont m.fresh (some x), fresh := m.fresh + 1 }

theorem Rep.insMem {m : Mem T} {L : Root → List (Nat × T)} (h : Rep m L) {r t : Root} (htr : t ≠ r) (ht : L t = [])
    {xs ys : List (Nat × T)} (e : L r = xs ++ ys) (x : T) :
    Rep (insMem m (loc (.root r) xs) x) (upd L r (xs ++ (m.fresh, x) :: ys)) := by
  have hne : loc (.root r) xs ≠ .next m.fresh := by
    intro ee
    have := h.live e
    rw [ee] at this
    have hb := h.bound m.fresh this
    omega
  have hpt : loc (.root r) xs ≠ .root t := (root_ne htr xs).symm
  have hlt : m.link (.root t) = none := h.link (r := t) (xs := []) (ys := []) ht
  have a1 := h.alloc ht x
  have a2 := a1.swapMem (r := r) (s := t) htr.symm (xs := xs) (ys := ys) (zs := [(m.fresh, x)]) (ws := [])
    (by rw [upd_ne _ _ htr.symm, e]) (by rw [upd_same]; rfl)
  have a3 := a2.swapMem (r := r) (s := t) htr.symm (xs := xs) (ys := []) (zs := []) (ws := (m.fresh, x) :: ys)
    (by rw [upd_ne _ _ htr.symm, upd_same]) (by rw [upd_same]; rfl)
  refine a3.congr ?_ ?_
  · show Mem.mk _ _ _ _ _ = Mem.mk _ _ _ _ _
    congr 1
    generalize loc (.root r) xs = p at *
    have hft : (Loc.next m.fresh) ≠ .root t := by simp
    dsimp only [loc, allocMem]
    funext y
    by_cases hx0 : y = .root t
    · subst hx0
      simp [upd, hpt, hne, hpt.symm, hne.symm, hlt]
    · by_cases hx1 : y = p
      · subst hx1
        simp [upd, hpt, hne, hpt.symm, hne.symm, hlt]
      · by_cases hx2 : y = .next m.fresh
        · subst hx2
          simp [upd, hpt, hne, hpt.symm, hne.symm, hlt]
        · simp [upd, hx0, hx1, hx2]
  · funext y
    by_cases hx1 : y = t
    · subst hx1; rw [upd_same, upd_ne _ _ htr, ht]; rfl
    · rw [upd_ne _ _ hx1]
      by_cases hx2 : y = r
      · subst hx2; rw [upd_same, upd_same]
      · rw [upd_ne _ _ hx2, upd_ne _ _ hx1, upd_ne _ _ hx2, upd_ne _ _ hx1, upd_ne _ _ hx2]

/-- assignment to the contents of a node -/
theorem Rep.setItem {m : Mem T} {L : Root → List (Nat × T)} (h : Rep m L) {r : Root}
    {xs ys : List (Nat × T)} {a : Nat × T} (e : L r = xs ++ a :: ys) (x : T) :
    ∃ m', setItem m (loc (.root r) xs) x = .ok m' ∧ Rep m' (upd L r (xs ++ (a.1, x) :: ys)) ∧ Same m m' ∧
      m'.fresh = m.fresh := by
  unfold SL.setItem
  rw [h.node e, Res.ok_bind]
  have hxy : ∀ b ∈ xs ++ ys, b.1 ≠ a.1 := by
    intro b hb hba
    have hn := h.nodup r
    rw [e, List.map_append, List.map_cons, List.nodup_append, List.nodup_cons] at hn
    rcases List.mem_append.mp hb with hb | hb
    · exact hn.2.2 b.1 (List.mem_map_of_mem hb) a.1 (by simp) hba
    · exact hn.2.1.1 (by rw [← hba]; exact List.mem_map_of_mem hb)
  refine ⟨_, rfl, ⟨?_, ?_, ?_, ?_⟩, ⟨rfl, rfl⟩, rfl⟩
  · intro s
    by_cases hs : s = r
    · subst hs
      have hc := h.chain s
      rw [e, Seg_append] at hc
      obtain ⟨u, h1, h2, _, h4⟩ := hc
      rw [upd_same, Seg_append]
      refine ⟨u, Seg_congr h1 (fun _ _ => rfl) (fun b hb => upd_ne _ _ (hxy b (by simp [hb]))), h2, by simp, ?_⟩
      exact Seg_congr h4 (fun _ _ => rfl) (fun b hb => upd_ne _ _ (hxy b (by simp [hb])))
    · rw [upd_ne _ _ hs]
      refine Seg_congr (h.chain s) (fun _ _ => rfl) (fun b hb => upd_ne _ _ ?_)
      exact h.disj hs hb (by rw [e]; simp)
  · intro p q b hp hq h1 h2
    have ca := h.cont (r := r) (a := a) (by rw [e]; simp)
    have hlive : ∀ p, Live { m with cont := upd m.cont a.1 (some x) } p → Live m p := by
      intro p hp
      cases p with
      | root _ => trivial
      | next c =>
        by_cases hc : c = a.1
        · subst hc; simp [Live, ca]
        · have hp' : (upd m.cont a.1 (some x) c).isSome = true := hp
          rw [upd_ne _ _ hc] at hp'; exact hp'
    exact h.inj p q b (hlive p hp) (hlive q hq) h1 h2
  · intro b y hb
    have hb' : upd m.cont a.1 (some x) b = some y := hb
    by_cases hba : b = a.1
    · subst hba
      rw [upd_same] at hb'
      exact ⟨r, by rw [upd_same]; simp [Option.some.inj hb']⟩
    · rw [upd_ne _ _ hba] at hb'
      obtain ⟨s, hs⟩ := h.owned b y hb'
      refine ⟨s, ?_⟩
      by_cases hsr : s = r
      · subst hsr
        rw [upd_same]
        rw [e] at hs
        rcases List.mem_append.mp hs with hs | hs
        · simp [hs]
        · rcases List.mem_cons.mp hs with hs | hs
          · exact absurd (by rw [← hs]) hba
          · simp [hs]
      · rw [upd_ne _ _ hsr]; exact hs
  · intro b hb
    have hb' : (upd m.cont a.1 (some x) b).isSome = true := hb
    by_cases hba : b = a.1
    · subst hba; exact h.bound _ (by rw [h.cont (r := r) (a := a) (by rw [e]; simp)]; rfl)
    · rw [upd_ne _ _ hba] at hb'; exact h.bound b hb'

end Verif.SL
