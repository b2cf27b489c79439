import Verif.SL.Rep
import Mathlib.Logic.Equiv.Basic
/-
The elementary steps of the list model: what they do to the lists in memory.
-/
namespace Verif.SL
variable {T : Type}

/-- exchanging the pointers in two link fields keeps link fields different -/
theorem inj_swap {m m' : Mem T} {p q : Loc} (hp : Live m p) (hq : Live m q)
    (h : ∀ x y a, Live m x → Live m y → m.link x = some a → m.link y = some a → x = y) (hc : m'.cont = m.cont)
    (hl : m'.link = upd (upd m.link p (m.link q)) q (m.link p)) :
    ∀ x y a, Live m' x → Live m' y → m'.link x = some a → m'.link y = some a → x = y := by
  have hlive : ∀ x, Live m' x ↔ Live m x := by intro x; cases x <;> simp [Live, hc]
  have hsw : ∀ x, m'.link x = m.link (Equiv.swap p q x) := by
    intro x
    rw [hl, Equiv.swap_apply_def]
    by_cases hxq : x = q
    · subst hxq; rw [upd_same]; by_cases hxp : x = p
      · simp [hxp]
      · simp [hxp]
    · rw [upd_ne _ _ hxq]
      by_cases hxp : x = p
      · subst hxp; rw [upd_same]; simp
      · rw [upd_ne _ _ hxp, if_neg hxp, if_neg hxq]
  have hl' : ∀ x, Live m x → Live m (Equiv.swap p q x) := by
    intro x hx
    rw [Equiv.swap_apply_def]
    split_ifs
    · exact hq
    · exact hp
    · exact hx
  intro x y a hx hy h1 h2
  rw [hsw] at h1 h2
  exact (Equiv.swap p q).injective
    (h _ _ a (hl' x ((hlive x).mp hx)) (hl' y ((hlive y).mp hy)) h1 h2)

/-- exchanging the tails of two lists -/
theorem Rep.exchange {m m' : Mem T} {L : Root → List (Nat × T)} (h : Rep m L) {r s : Root} (hrs : r ≠ s)
    {xs ys zs ws : List (Nat × T)} (e : L r = xs ++ ys) (e' : L s = zs ++ ws) (hc : m'.cont = m.cont)
    (hf : m'.fresh = m.fresh)
    (hl : m'.link = upd (upd m.link (loc (.root r) xs) (m.link (loc (.root s) zs)))
      (loc (.root s) zs) (m.link (loc (.root r) xs))) :
    Rep m' (upd (upd L r (xs ++ ws)) s (zs ++ ys)) := by
  have hpq : loc (.root r) xs ≠ loc (.root s) zs := fun heq => hrs (h.loc_inj e e' heq).1
  have hlp : m'.link (loc (.root r) xs) = m.link (loc (.root s) zs) := by rw [hl, upd_ne _ _ hpq, upd_same]
  have hlq : m'.link (loc (.root s) zs) = m.link (loc (.root r) xs) := by rw [hl, upd_same]
  have hlo : ∀ x, x ≠ loc (.root r) xs → x ≠ loc (.root s) zs → m'.link x = m.link x := by
    intro x h1 h2; rw [hl, upd_ne _ _ h2, upd_ne _ _ h1]
  have hcc : ∀ a, m'.cont a = m.cont a := fun a => by rw [hc]
  have hr := h.chain r
  have hs := h.chain s
  rw [e, Seg_append] at hr
  rw [e', Seg_append] at hs
  obtain ⟨u, hr1, hr2⟩ := hr
  obtain ⟨v, hs1, hs2⟩ := hs
  have hu := Seg_end hr1
  have hv := Seg_end hs1
  have nr := h.nodup r
  have ns := h.nodup s
  rw [e, List.map_append, List.nodup_append] at nr
  rw [e', List.map_append, List.nodup_append] at ns
  have mx : ∀ a ∈ xs, a ∈ L r := fun a ha => by rw [e]; simp [ha]
  have my : ∀ a ∈ ys, a ∈ L r := fun a ha => by rw [e]; simp [ha]
  have mz : ∀ a ∈ zs, a ∈ L s := fun a ha => by rw [e']; simp [ha]
  have mw : ∀ a ∈ ws, a ∈ L s := fun a ha => by rw [e']; simp [ha]
  have segx : Seg m' (m'.link (.root r)) xs v := by
    refine Seg_setEnd hr1 nr.1 (fun hx => ?_) (fun a ha hne => ?_) (by rw [hlp, hv]) (fun a _ => hcc _)
    · exact hlo _ (root_ne_of_ne_nil hx) (root_ne hrs _)
    · exact hlo _ hne (h.ne_other e' (mx a ha) hrs)
  have segz : Seg m' (m'.link (.root s)) zs u := by
    refine Seg_setEnd hs1 ns.1 (fun hx => ?_) (fun a ha hne => ?_) (by rw [hlq, hu]) (fun a _ => hcc _)
    · exact hlo _ (root_ne hrs.symm _) (root_ne_of_ne_nil hx)
    · exact hlo _ (h.ne_other e (mz a ha) hrs.symm) hne
  have segy : Seg m' u ys none := Seg_congr hr2
    (fun a ha => hlo _ (h.ne_after e ha) (h.ne_other e' (my a ha) hrs)) (fun a _ => hcc _)
  have segw : Seg m' v ws none := Seg_congr hs2
    (fun a ha => hlo _ (h.ne_other e (mw a ha) hrs.symm) (h.ne_after e' ha)) (fun a _ => hcc _)
  refine ⟨?_, inj_swap (h.live e) (h.live e') h.inj hc hl, ?_, ?_⟩
  · intro t
    by_cases hts : t = s
    · subst hts; rw [upd_same, Seg_append]; exact ⟨u, segz, segy⟩
    · rw [upd_ne _ _ hts]
      by_cases htr : t = r
      · subst htr; rw [upd_same, Seg_append]; exact ⟨v, segx, segw⟩
      · rw [upd_ne _ _ htr, hlo _ (root_ne htr _) (root_ne hts _)]
        exact Seg_congr (h.chain t) (fun a ha => hlo _ (h.ne_other e ha htr) (h.ne_other e' ha hts))
          (fun a _ => hcc _)
  · intro a x ha
    rw [hcc] at ha
    obtain ⟨t, ht⟩ := h.owned a x ha
    by_cases hts : t = s
    · subst hts
      rw [e', List.mem_append] at ht
      rcases ht with ht | ht
      · exact ⟨t, by rw [upd_same]; simp [ht]⟩
      · exact ⟨r, by rw [upd_ne _ _ hrs, upd_same]; simp [ht]⟩
    · by_cases htr : t = r
      · subst htr
        rw [e, List.mem_append] at ht
        rcases ht with ht | ht
        · exact ⟨t, by rw [upd_ne _ _ hrs, upd_same]; simp [ht]⟩
        · exact ⟨s, by rw [upd_same]; simp [ht]⟩
      · exact ⟨t, by rw [upd_ne _ _ hts, upd_ne _ _ htr]; exact ht⟩
  · intro a ha
    rw [hcc] at ha
    rw [hf]; exact h.bound a ha

theorem live_upd {m : Mem T} {p q : Loc} {v : Option Nat} (h : Live m p) :
    Live { m with link := upd m.link q v } p := by cases p <;> exact h

/-- `swap` of the link fields at positions of two lists -/
theorem Rep.swapLink {m : Mem T} {L : Root → List (Nat × T)} (h : Rep m L) {r s : Root} (hrs : r ≠ s)
    {xs ys zs ws : List (Nat × T)} (e : L r = xs ++ ys) (e' : L s = zs ++ ws) :
    ∃ m', swapLink m (loc (.root r) xs) (loc (.root s) zs) = .ok m' ∧
      Rep m' (upd (upd L r (xs ++ ws)) s (zs ++ ys)) ∧ Same m m' ∧ m'.fresh = m.fresh := by
  unfold SL.swapLink
  rw [get_of_live (h.live e), Res.ok_bind, get_of_live (h.live e'), Res.ok_bind, set_of_live (h.live e), Res.ok_bind,
    set_of_live (live_upd (h.live e'))]
  exact ⟨_, rfl, h.exchange hrs e e' rfl rfl rfl, ⟨rfl, rfl⟩, rfl⟩

/-! ### Destruction -/

theorem free_ok {m : Mem T} {a : Nat} (h : (m.cont a).isSome) :
    free m a = .ok { m with cont := upd m.cont a none } := by simp [free, h]

theorem destroyLoop_ok (k : Nat) (m : Mem T) (a : Nat × T) (xs : List (Nat × T))
    (h : Seg m (some a.1) (a :: xs) none) (hn : ((a :: xs).map Prod.fst).Nodup) (hk : xs.length < k) :
    ∃ m', destroyLoop k m a.1 = .ok m' ∧ (∀ c ∈ a :: xs, m'.cont c.1 = none) ∧
      (∀ c, (∀ d ∈ a :: xs, d.1 ≠ c) → m'.cont c = m.cont c) ∧
      (∀ p, (∀ d ∈ a :: xs, Loc.next d.1 ≠ p) → m'.link p = m.link p) ∧ Same m m' ∧ m'.fresh = m.fresh := by
  induction k generalizing m xs with
  | zero => omega
  | succ k ih =>
    have hca : m.cont a.1 = some a.2 := h.2.1
    cases xs with
    | nil =>
      have hl : m.link (.next a.1) = none := h.2.2
      refine ⟨{ m with cont := upd m.cont a.1 none }, ?_, ?_, ?_, ?_, ⟨rfl, rfl⟩, rfl⟩
      · unfold destroyLoop
        rw [get_of_live (by simp [Live, hca]), hl, Res.ok_bind]
        exact free_ok (by simp [hca])
      · intro c hc
        rw [List.mem_singleton] at hc
        subst hc; simp
      · intro c hc
        exact upd_ne _ _ (fun e => hc a (by simp) e.symm)
      · intro p _; rfl
    | cons b t =>
      have hl : m.link (.next a.1) = some b.1 := h.2.2.1
      have hcb : m.cont b.1 = some b.2 := h.2.2.2.1
      have hab : a.1 ≠ b.1 := by
        rw [List.map_cons, List.map_cons, List.nodup_cons] at hn
        intro e; exact hn.1 (by rw [e]; simp)
      let m1 : Mem T := { m with link := upd m.link (.next b.1) none }
      let m2 : Mem T := { m1 with link := upd m1.link (.next a.1) (m.link (.next b.1)) }
      let m3 : Mem T := { m2 with cont := upd m2.cont b.1 none }
      have la : Live m (.next a.1) := by simp [Live, hca]
      have lb : Live m (.next b.1) := by simp [Live, hcb]
      have hstep : destroyLoop (k + 1) m a.1 = destroyLoop k m3 a.1 := by
        conv_lhs => unfold destroyLoop
        rw [get_of_live la, hl, Res.ok_bind]
        dsimp only
        rw [get_of_live lb, Res.ok_bind, set_of_live lb, Res.ok_bind, set_of_live (live_upd la), Res.ok_bind,
          free_ok (by simp [hcb]), Res.ok_bind]
      have hnn := hn
      rw [List.map_cons, List.map_cons, List.nodup_cons, List.nodup_cons] at hnn
      have hat : ∀ d ∈ t, d.1 ≠ a.1 := fun d hd e => hnn.1 (by
        rw [← e]; exact List.mem_cons_of_mem _ (List.mem_map_of_mem hd))
      have hbt : ∀ d ∈ t, d.1 ≠ b.1 := fun d hd e => hnn.2.1 (by rw [← e]; exact List.mem_map_of_mem hd)
      have hseg : Seg m3 (some a.1) (a :: t) none := by
        refine ⟨rfl, ?_, ?_⟩
        · show upd m.cont b.1 none a.1 = some a.2
          rw [upd_ne _ _ hab]; exact hca
        · have : m3.link (.next a.1) = m.link (.next b.1) := by
            show upd m1.link (.next a.1) (m.link (.next b.1)) (.next a.1) = _
            rw [upd_same]
          rw [this]
          refine Seg_congr h.2.2.2.2 (fun d hd => ?_) (fun d hd => ?_)
          · show upd m1.link (.next a.1) (m.link (.next b.1)) (.next d.1) = _
            rw [upd_ne _ _ (fun e => hat d hd (Loc.next.inj e))]
            exact upd_ne _ _ (fun e => hbt d hd (Loc.next.inj e))
          · exact upd_ne _ _ (hbt d hd)
      have hnod : ((a :: t).map Prod.fst).Nodup := by
        rw [List.map_cons, List.nodup_cons]
        refine ⟨fun hm => hnn.1 (List.mem_cons_of_mem _ hm), hnn.2.2⟩
      obtain ⟨m', h1, h2, h3, h4, h5, h6⟩ := ih m3 t hseg hnod (by simpa using hk)
      refine ⟨m', hstep.trans h1, ?_, ?_, ?_, h5, h6⟩
      · intro c hc
        rcases List.mem_cons.mp hc with ec | hc
        · exact h2 c (by simp [ec])
        · rcases List.mem_cons.mp hc with ec | hc
          · rw [ec, h3 b.1]
            · show upd m.cont b.1 none b.1 = none
              simp
            · intro d hd
              rcases List.mem_cons.mp hd with ed | hd
              · rw [ed]; exact hab
              · exact hbt d hd
          · exact h2 c (by simp [hc])
      · intro c hc
        rw [h3 c (fun d hd => hc d (by
          rcases List.mem_cons.mp hd with ed | hd
          · simp [ed]
          · simp [hd]))]
        exact upd_ne _ _ (fun ec => hc b (by simp) ec.symm)
      · intro p hp
        rw [h4 p (fun d hd => hp d (by
          rcases List.mem_cons.mp hd with ed | hd
          · simp [ed]
          · simp [hd]))]
        show upd m1.link (.next a.1) (m.link (.next b.1)) p = _
        rw [upd_ne _ _ (fun ec => hp a (by simp) ec.symm)]
        exact upd_ne _ _ (fun ec => hp b (by simp) ec.symm)

/-- destruction of the nodes of a segment that belongs to no list any more -/
theorem destroy_ok (m : Mem T) (v : Option Nat) (xs : List (Nat × T)) (h : Seg m v xs none)
    (hn : (xs.map Prod.fst).Nodup) (hk : xs.length ≤ m.fresh) :
    ∃ m', destroy m v = .ok m' ∧ (∀ c ∈ xs, m'.cont c.1 = none) ∧
      (∀ c, (∀ d ∈ xs, d.1 ≠ c) → m'.cont c = m.cont c) ∧
      (∀ p, (∀ d ∈ xs, Loc.next d.1 ≠ p) → m'.link p = m.link p) ∧ Same m m' ∧ m'.fresh = m.fresh := by
  cases xs with
  | nil =>
    have : v = none := h
    subst this
    exact ⟨m, rfl, by simp, by simp, by simp, ⟨rfl, rfl⟩, rfl⟩
  | cons a t =>
    have : v = some a.1 := h.1
    subst this
    exact destroyLoop_ok (m.fresh + 1) m a t h hn (by simp at hk; omega)

/-- destruction of the tail of a list, after its link field has been set to null -/
theorem Rep.cut {m m2 : Mem T} {L : Root → List (Nat × T)} (h : Rep m L) {s : Root} {zs ws : List (Nat × T)}
    (e : L s = zs ++ ws) (hl : m2.link = upd m.link (loc (.root s) zs) none) (hc : m2.cont = m.cont)
    (hf : m2.fresh = m.fresh) :
    ∃ m', destroy m2 (m.link (loc (.root s) zs)) = .ok m' ∧ Rep m' (upd L s zs) ∧ Same m2 m' ∧
      m'.fresh = m2.fresh := by
  have hlo : ∀ x, x ≠ loc (.root s) zs → m2.link x = m.link x := by
    intro x h2; rw [hl, upd_ne _ _ h2]
  have hle : m2.link (loc (.root s) zs) = none := by rw [hl, upd_same]
  have hs := h.chain s
  rw [e, Seg_append] at hs
  obtain ⟨v, hs1, hs2⟩ := hs
  have hv := Seg_end hs1
  have ns := h.nodup s
  rw [e, List.map_append, List.nodup_append] at ns
  have mz : ∀ a ∈ zs, a ∈ L s := fun a ha => by rw [e]; simp [ha]
  have mw : ∀ a ∈ ws, a ∈ L s := fun a ha => by rw [e]; simp [ha]
  have hlen := h.length_le s
  rw [e, List.length_append] at hlen
  have hseg : Seg m2 v ws none := Seg_congr hs2 (fun a ha => hlo _ (h.ne_after e ha)) (fun a _ => by rw [hc])
  obtain ⟨m', h1, h2, h3, h4, h5, h6⟩ := destroy_ok m2 v ws hseg ns.2.1 (by rw [hf]; omega)
  have hzw : ∀ a ∈ zs, ∀ d ∈ ws, d.1 ≠ a.1 := fun a ha d hd ee =>
    ns.2.2 a.1 (List.mem_map_of_mem ha) d.1 (List.mem_map_of_mem hd) ee.symm
  have cz : ∀ a ∈ zs, m'.cont a.1 = m.cont a.1 := fun a ha => by rw [h3 _ (hzw a ha), hc]
  have lz : ∀ a ∈ zs, m'.link (.next a.1) = m2.link (.next a.1) := fun a ha =>
    h4 _ (fun d hd ee => hzw a ha d hd (Loc.next.inj ee))
  have lr : ∀ t, m'.link (.root t) = m2.link (.root t) := fun t => h4 _ (fun d _ ee => nomatch ee)
  refine ⟨m', by rw [hv]; exact h1, ⟨?_, ?_, ?_, ?_⟩, h5, h6⟩
  · intro t
    by_cases hts : t = s
    · subst hts
      rw [upd_same]
      refine Seg_setEnd hs1 ns.1 (fun hx => ?_) (fun a ha hne => ?_) ?_ (fun a ha => cz a ha)
      · rw [lr, hlo _ (root_ne_of_ne_nil hx)]
      · rw [lz a ha, hlo _ hne]
      · rw [← hle]
        rcases loc_cases (Loc.root t) zs with ⟨_, h7⟩ | ⟨us, a, h7, h8⟩
        · rw [h7]; exact lr t
        · rw [h8]; exact lz a (by rw [h7]; simp)
    · rw [upd_ne _ _ hts, lr, hlo _ (root_ne hts _)]
      have hd : ∀ a ∈ L t, ∀ d ∈ ws, d.1 ≠ a.1 := fun a ha d hd => h.disj (fun ee => hts ee.symm) (mw d hd) ha
      refine Seg_congr (h.chain t) (fun a ha => ?_) (fun a ha => ?_)
      · rw [h4 _ (fun d hd' ee => hd a ha d hd' (Loc.next.inj ee)), hlo _ (h.ne_other e ha hts)]
      · rw [h3 _ (hd a ha), hc]
  · intro p q a hp hq h7 h8
    have hall : ∀ x, Live m' x → ∀ b, m'.link x = some b → Live m x ∧ m.link x = some b := by
      intro x hx b hb
      have hlive : Live m x := by
        cases x with
        | root t => trivial
        | next c =>
          have hx' : (m'.cont c).isSome = true := hx
          by_cases hcw : ∃ d ∈ ws, d.1 = c
          · obtain ⟨d, hd, ed⟩ := hcw
            rw [← ed, h2 d hd] at hx'; cases hx'
          · rw [h3 c (fun d hd ee => hcw ⟨d, hd, ee⟩), hc] at hx'
            exact hx'
      refine ⟨hlive, ?_⟩
      have hx2 : m'.link x = m2.link x := by
        apply h4
        intro d hd ee
        rw [← ee] at hx
        have hx' : (m'.cont d.1).isSome = true := hx
        rw [h2 d hd] at hx'; cases hx'
      rw [hx2] at hb
      rw [← hlo x (fun ee => by rw [ee, hle] at hb; cases hb)]
      exact hb
    obtain ⟨a1, a2⟩ := hall p hp a h7
    obtain ⟨b1, b2⟩ := hall q hq a h8
    exact h.inj p q a a1 b1 a2 b2
  · intro a x ha
    have hcw : ∀ d ∈ ws, d.1 ≠ a := fun d hd ee => by rw [← ee, h2 d hd] at ha; cases ha
    rw [h3 a hcw, hc] at ha
    obtain ⟨t, ht⟩ := h.owned a x ha
    refine ⟨t, ?_⟩
    by_cases hts : t = s
    · subst hts
      rw [e, List.mem_append] at ht
      rcases ht with ht | ht
      · rw [upd_same]; exact ht
      · exact absurd rfl (hcw _ ht)
    · rw [upd_ne _ _ hts]; exact ht
  · intro a ha
    have hcw : ∀ d ∈ ws, d.1 ≠ a := fun d hd ee => by rw [← ee, h2 d hd] at ha; cases ha
    rw [h3 a hcw, hc] at ha
    rw [h6, hf]; exact h.bound a ha

/-- `reset()` at a position of a list -/
theorem Rep.reset {m : Mem T} {L : Root → List (Nat × T)} (h : Rep m L) {r : Root} {xs ys : List (Nat × T)}
    (e : L r = xs ++ ys) :
    ∃ m', reset m (loc (.root r) xs) none = .ok m' ∧ Rep m' (upd L r xs) ∧ Same m m' ∧ m'.fresh = m.fresh := by
  unfold SL.reset
  rw [get_of_live (h.live e), Res.ok_bind, set_of_live (h.live e), Res.ok_bind]
  obtain ⟨m', h1, h2, h3, h4⟩ := h.cut (m2 := { m with link := upd m.link (loc (.root r) xs) none }) e rfl rfl rfl
  exact ⟨m', h1, h2, h3, h4⟩

theorem upd_comm {α β : Type} [DecidableEq α] (f : α → β) {a c : α} (b d : β) (h : a ≠ c) :
    upd (upd f a b) c d = upd (upd f c d) a b := by
  funext x
  by_cases h1 : x = c
  · subst h1; rw [upd_same, upd_ne _ _ h.symm, upd_same]
  · by_cases h2 : x = a
    · subst h2; rw [upd_ne _ _ h, upd_same, upd_same]
    · rw [upd_ne _ _ h1, upd_ne _ _ h2, upd_ne _ _ h2, upd_ne _ _ h1]

theorem upd_upd {α β : Type} [DecidableEq α] (f : α → β) (a : α) (b d : β) : upd (upd f a b) a d = upd f a d := by
  funext x
  by_cases h1 : x = a
  · subst h1; rw [upd_same, upd_same]
  · rw [upd_ne _ _ h1, upd_ne _ _ h1, upd_ne _ _ h1]

/-- `p.reset(q.release())` for positions of two lists: the tail of the second one replaces that of the first one,
which is destroyed -/
theorem Rep.moveLink {m : Mem T} {L : Root → List (Nat × T)} (h : Rep m L) {r s : Root} (hrs : r ≠ s)
    {xs ys zs ws : List (Nat × T)} (e : L r = xs ++ ys) (e' : L s = zs ++ ws) :
    ∃ m', moveLink m (loc (.root r) xs) (loc (.root s) zs) = .ok m' ∧
      Rep m' (upd (upd L r (xs ++ ws)) s zs) ∧ Same m m' ∧ m'.fresh = m.fresh := by
  have hpq : loc (.root r) xs ≠ loc (.root s) zs := fun heq => hrs (h.loc_inj e e' heq).1
  unfold SL.moveLink SL.reset
  rw [get_of_live (h.live e'), Res.ok_bind, set_of_live (h.live e'), Res.ok_bind,
    get_of_live (live_upd (h.live e)), Res.ok_bind, set_of_live (live_upd (h.live e)), Res.ok_bind]
  have hx := h.exchange (m' := m.withLink (upd (upd m.link (loc (.root r) xs) (m.link (loc (.root s) zs)))
      (loc (.root s) zs) (m.link (loc (.root r) xs)))) hrs e e' rfl rfl rfl
  have e2 : upd (upd L r (xs ++ ws)) s (zs ++ ys) s = zs ++ ys := upd_same ..
  obtain ⟨m', h1, h2, h3, h4⟩ := hx.cut (m2 := m.withLink (upd (upd m.link (loc (.root s) zs) none)
      (loc (.root r) xs) (m.link (loc (.root s) zs)))) e2 (by
        dsimp only
        rw [upd_upd, upd_comm _ _ _ hpq]) rfl rfl
  dsimp only at h1
  rw [upd_same] at h1
  rw [upd_upd] at h2
  refine ⟨m', ?_, h2, h3, h4⟩
  dsimp only
  rw [upd_ne _ _ hpq]
  exact h1

end Verif.SL
