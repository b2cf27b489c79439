import Verif.KL.Column

/-! Completion of a column from its extremal entries, and the list of nonzero mu. -/

set_option linter.unusedSectionVars false

namespace Verif.KL

open Polynomial

variable {B : Type} [Fintype B] [DecidableEq B]
variable {bt : Block} {b : Blk B} {D : Mod B → Mod B} {P : B → B → ℕ[X]} {el : ℕ → B} {M : ℕ}

/-! ### The elements below `y` -/

theorem sortDedup (l : List ℕ) :
    ((l.mergeSort (fun a c => decide (a ≤ c))).dedup).Pairwise (· < ·) ∧
      ∀ x, x ∈ (l.mergeSort (fun a c => decide (a ≤ c))).dedup ↔ x ∈ l := by
  refine ⟨?_, fun x => by rw [List.mem_dedup, List.mem_mergeSort]⟩
  have h1 := List.pairwise_mergeSort (le := fun a c : ℕ => decide (a ≤ c))
    (fun a c d => by simp only [decide_eq_true_eq]; omega)
    (fun a c => by simp only [Bool.or_eq_true, decide_eq_true_eq]; omega) l
  have h2 := h1.sublist (List.dedup_sublist _)
  have h3 := List.nodup_dedup (l.mergeSort (fun a c => decide (a ≤ c)))
  refine (h2.and h3).imp ?_
  rintro a c ⟨h4, h5⟩
  have : a ≤ c := by simpa using h4
  omega

theorem downSetFrom_ok (hc : Ctx bt b D P el M) {y : ℕ} (hy : y < bt.size) :
    ∀ (l acc : List ℕ), (∀ s ∈ l, s < b.rank ∧ (b.st s (el y)).isDescent = true) →
      ∃ ds, bt.downSetFrom y l acc = .ok ds ∧ ds.Pairwise (· < ·) ∧
        ∀ x, x ∈ ds ↔ x ∈ acc ∨ (x < bt.size ∧ ∃ s ∈ l, el y ∈ up b s (el x)) := by
  intro l
  induction l with
  | nil =>
    intro acc _
    obtain ⟨h1, h2⟩ := sortDedup acc
    exact ⟨_, rfl, h1, fun x => by rw [h2]; simp⟩
  | cons s l ih =>
    intro acc hl
    obtain ⟨hs, hd⟩ := hl s (by simp)
    have hl' : ∀ s ∈ l, s < b.rank ∧ (b.st s (el y)).isDescent = true :=
      fun s h => hl s (by simp [h])
    have hrel := hc.data.wf s hs (el y)
    have hst := hc.st hs hy
    have hinv : bt.inverseCayley s y = bt.cayleyImage s y := by
      rw [Block.inverseCayley, if_pos (by rw [hst, isDescent_eq]; exact hd)]
    have hmu : ∀ w : B, el y ∈ up b s w ↔ _ := fun w => mem_up hc.data.wf hs (y := w) hd
    rw [Block.downSetFrom]
    cases hv : b.st s (el y) <;> rw [hv] at hd <;>
      simp only [Status.isDescent, Bool.false_eq_true] at hd <;> simp only [hv] at hmu <;>
      rw [hst, hv] <;> simp only [Blk.Rel, hv] at hrel
    · obtain ⟨ds, h1, h2, h3⟩ := ih acc hl'
      refine ⟨ds, h1, h2, fun x => ?_⟩
      rw [h3]
      simp [hmu]
    · obtain ⟨j, h1, h2, h3⟩ := hc.down_num hy (hc.cross hs hy) ⟨s, hs, (hmu _).2 rfl⟩
      rw [h1]
      obtain ⟨ds, h4, h5, h6⟩ := ih (j :: acc) hl'
      refine ⟨ds, h4, h5, fun x => ?_⟩
      rw [h6]
      simp only [List.mem_cons, exists_eq_or_imp, hmu, ← h3]
      constructor
      · rintro ((e | h) | h)
        · subst e; exact Or.inr ⟨h2, Or.inl rfl⟩
        · exact Or.inl h
        · exact Or.inr ⟨h.1, Or.inr h.2⟩
      · rintro (h | ⟨h7, h8 | h8⟩)
        · exact Or.inl (Or.inr h)
        · exact Or.inl (Or.inl (hc.rep.inj _ _ h2 h7 h8).symm)
        · exact Or.inr ⟨h7, h8⟩
    · obtain ⟨j, h1, h2, h3⟩ := hc.down_num hy (hc.cay1 hs hy (by simp [hv]))
        ⟨s, hs, (hmu _).2 rfl⟩
      dsimp only
      rw [hinv, h1]
      obtain ⟨ds, h4, h5, h6⟩ := ih (j :: acc) hl'
      refine ⟨ds, h4, h5, fun x => ?_⟩
      rw [h6]
      simp only [List.mem_cons, exists_eq_or_imp, hmu, ← h3]
      constructor
      · rintro ((e | h) | h)
        · subst e; exact Or.inr ⟨h2, Or.inl rfl⟩
        · exact Or.inl h
        · exact Or.inr ⟨h.1, Or.inr h.2⟩
      · rintro (h | ⟨h7, h8 | h8⟩)
        · exact Or.inl (Or.inr h)
        · exact Or.inl (Or.inl (hc.rep.inj _ _ h2 h7 h8).symm)
        · exact Or.inr ⟨h7, h8⟩
    · obtain ⟨j, h1, h2, h3⟩ := hc.down_num hy (hc.cay1 hs hy (by simp [hv]))
        ⟨s, hs, (hmu _).2 (Or.inl rfl)⟩
      obtain ⟨k, k1, k2, k3⟩ := hc.down_num hy (hc.cay2 hs hy (by simp [hv]))
        ⟨s, hs, (hmu _).2 (Or.inr rfl)⟩
      dsimp only
      have e : bt.cayleyImage s y = (some j, some k) := by rw [← h1, ← k1]
      rw [hinv, e]
      obtain ⟨ds, h4, h5, h6⟩ := ih (k :: j :: acc) hl'
      refine ⟨ds, h4, h5, fun x => ?_⟩
      rw [h6]
      simp only [List.mem_cons, exists_eq_or_imp, hmu, ← h3, ← k3]
      constructor
      · rintro ((e | e | h) | h)
        · subst e; exact Or.inr ⟨k2, Or.inl (Or.inr rfl)⟩
        · subst e; exact Or.inr ⟨h2, Or.inl (Or.inl rfl)⟩
        · exact Or.inl h
        · exact Or.inr ⟨h.1, Or.inr h.2⟩
      · rintro (h | ⟨h7, (h8 | h8) | h8⟩)
        · exact Or.inl (Or.inr (Or.inr h))
        · exact Or.inl (Or.inr (Or.inl (hc.rep.inj _ _ h2 h7 h8).symm))
        · exact Or.inl (Or.inl (hc.rep.inj _ _ k2 h7 h8).symm)
        · exact Or.inr ⟨h7, h8⟩

/-- `down_set` gives the elements below `y`, in increasing order -/
theorem downSet_ok (hc : Ctx bt b D P el M) {y : ℕ} (hy : y < bt.size) :
    ∃ ds, bt.downSet y = .ok ds ∧ ds.Pairwise (· < ·) ∧
      ∀ x, x ∈ ds ↔ x < bt.size ∧ Down b (el x) (el y) := by
  obtain ⟨ds, h1, h2, h3⟩ := downSetFrom_ok hc hy (bt.descentSet y) []
    (fun s h => (mem_descentSet hc.rep hy).1 h)
  refine ⟨ds, h1, h2, fun x => ?_⟩
  rw [h3]
  constructor
  · rintro (h | ⟨h, s, hs, hup⟩)
    · simp at h
    · exact ⟨h, s, ((mem_descentSet hc.rep hy).1 hs).1, hup⟩
  · rintro ⟨h, s, hs, hup⟩
    exact Or.inr ⟨h, s, (mem_descentSet hc.rep hy).2 ⟨hs, (up_len hc.data.wf hs hup).2.1⟩, hup⟩

theorem down_not_extremal (hc : Ctx bt b D P el M) {x y : B} (h : Down b x y) : ¬ Extremal b x y := by
  obtain ⟨s, hs, hup⟩ := h
  obtain ⟨_, h1, h2⟩ := up_len hc.data.wf hs hup
  intro he
  rw [he s hs h1] at h2
  cases h2

theorem mu_cases (hc : Ctx bt b D P el M) {x y : B} (h : mu b P x y ≠ 0) :
    Extremal b x y ∨ Down b x y := by
  by_cases he : Extremal b x y
  · exact Or.inl he
  · right
    unfold Extremal at he
    push Not at he
    obtain ⟨s, hs, h1, h2⟩ := he
    exact hc.data.mu_down hs h1 (by simpa using h2) h

/-! ### The list of nonzero mu -/

/-- the pairs for extremal elements from `m` on -/
def MuFrom (b : Blk B) (P : B → B → ℕ[X]) (el : ℕ → B) (y f m : ℕ) (l : List (ℕ × ℕ)) : Prop :=
  (l.map Prod.fst).Pairwise (· < ·) ∧ ∀ z c, (z, c) ∈ l ↔ m ≤ z ∧ z < f ∧
    Extremal b (el z) (el y) ∧ c = mu b P (el z) (el y) ∧ c ≠ 0

theorem muTest (hc : Ctx bt b D P el M) {x y : ℕ} (hx : x < bt.size) (hy : y < bt.size)
    (hl : bt.length x < bt.length y) {p : Pol} (hp : Is M p (P (el x) (el y))) :
    ((¬ p.isEmpty = true ∧ bt.length y = bt.length x + 2 * (p.length - 1) + 1) ↔
      mu b P (el x) (el y) ≠ 0) ∧
    (mu b P (el x) (el y) ≠ 0 → p.getD (p.length - 1) 0 = mu b P (el x) (el y)) := by
  have hlx := hc.rep.len x hx
  have hly := hc.rep.len y hy
  have hne : el x ≠ el y := by intro e; rw [e] at hlx; omega
  have back : mu b P (el x) (el y) ≠ 0 →
      (¬ p.isEmpty = true ∧ bt.length y = bt.length x + 2 * (p.length - 1) + 1) ∧
      p.getD (p.length - 1) 0 = mu b P (el x) (el y) := by
    intro h
    obtain ⟨m1, m2, m3, m4⟩ := mu_ne b P h
    have he : ¬ p.isEmpty = true := fun e => m4 (hp.isEmpty_iff.1 e)
    obtain ⟨l1, l2, l3⟩ := hp.lead (by simpa using he)
    have h1 := l3 _ (by rw [m3]; exact h)
    have h2 := hc.data.klv.deg _ _ hne _ l1
    have h3 : p.length - 1 = (b.len (el y) - b.len (el x) - 1) / 2 := by omega
    exact ⟨⟨he, by omega⟩, by rw [← l2, h3, m3]⟩
  refine ⟨⟨?_, fun h => (back h).1⟩, fun h => (back h).2⟩
  rintro ⟨he, h⟩
  obtain ⟨l1, l2, l3⟩ := hp.lead (by simpa using he)
  rw [mu, if_pos (by omega), show (b.len (el y) - b.len (el x) - 1) / 2 = p.length - 1 by omega]
  exact l1

theorem muMerge_ok (hc : Ctx bt b D P el M) {y f : ℕ} (hy : y < bt.size) (hfl : Floor bt y f)
    {l : List (ℕ × ℕ)} (hl : MuFrom b P el y f 0 l) {ds : List ℕ} (h1 : ds.Pairwise (· < ·))
    (h2 : ∀ x, x ∈ ds ↔ x < bt.size ∧ Down b (el x) (el y)) :
    MuList bt b P el y (l.merge (ds.map (fun x => (x, 1))) (fun a c => decide (a.1 ≤ c.1))) := by
  constructor
  · have hs := List.pairwise_merge (le := fun a c : ℕ × ℕ => decide (a.1 ≤ c.1))
      (fun a c d => by simp only [decide_eq_true_eq]; omega)
      (fun a c => by simp only [Bool.or_eq_true, decide_eq_true_eq]; omega) l
      (ds.map (fun x => (x, 1)))
      ((List.pairwise_map.1 hl.1).imp (fun h => by simp only [decide_eq_true_eq]; omega))
      (List.pairwise_map.2 (h1.imp (fun h => by simp only [decide_eq_true_eq]; omega)))
    have hn : ((l.merge (ds.map (fun x => (x, 1))) (fun a c => decide (a.1 ≤ c.1))).map
        Prod.fst).Nodup := by
      have hp := (List.merge_perm_append (xs := l) (ys := ds.map (fun x => (x, 1)))
        (le := fun a c : ℕ × ℕ => decide (a.1 ≤ c.1))).map Prod.fst
      rw [hp.nodup_iff, List.map_append, List.nodup_append]
      refine ⟨hl.1.imp (fun h => Nat.ne_of_lt h), ?_, ?_⟩
      · rw [List.map_map]
        have : (Prod.fst ∘ fun x : ℕ => (x, 1)) = id := rfl
        rw [this, List.map_id]
        exact h1.imp (fun h => Nat.ne_of_lt h)
      · rintro a ha c hc' e
        subst e
        obtain ⟨⟨z, c⟩, h3, rfl⟩ := List.mem_map.1 ha
        rw [List.map_map] at hc'
        have : (Prod.fst ∘ fun x : ℕ => (x, 1)) = id := rfl
        rw [this, List.map_id] at hc'
        exact down_not_extremal hc ((h2 z).1 hc').2 ((hl.2 z c).1 h3).2.2.1
    rw [List.pairwise_map]
    rw [List.Nodup, List.pairwise_map] at hn
    refine (hs.and hn).imp ?_
    rintro a c ⟨h4, h5⟩
    have : a.1 ≤ c.1 := by simpa using h4
    omega
  · intro z c
    rw [List.mem_merge, hl.2]
    have hlen : ∀ z, z < bt.size → (b.len (el z) < b.len (el y) ↔ z < f) := by
      intro z hz
      rw [hfl.2 z hz, hc.rep.len z hz, hc.rep.len y hy]
    constructor
    · rintro (⟨_, h3, _, h4, h5⟩ | h)
      · exact ⟨by have := hfl.1; omega, h4, h5⟩
      · obtain ⟨x, hx, e⟩ := List.mem_map.1 h
        cases e
        obtain ⟨h3, h4⟩ := (h2 z).1 hx
        exact ⟨h3, (hc.data.down_mu h4).2.1.symm, one_ne_zero⟩
    · rintro ⟨h3, h4, h5⟩
      rcases mu_cases hc (h4 ▸ h5) with h | h
      · exact Or.inl ⟨by omega, (hlen z h3).1 (mu_ne b P (h4 ▸ h5)).1, h, h4, h5⟩
      · right
        rw [(hc.data.down_mu h).2.1] at h4
        rw [h4]
        exact List.mem_map.2 ⟨z, (h2 z).2 ⟨h3, h⟩, rfl⟩

/-! ### The loop -/

theorem primsDown_succ (A : List ℕ) (m : ℕ) :
    primsDown bt A (m + 1) =
      if bt.isPrimitive m A then m :: primsDown bt A m else primsDown bt A m := by
  unfold primsDown
  rw [List.range_succ, List.filter_append, List.reverse_append]
  by_cases h : bt.isPrimitive m A = true <;> simp [h]

theorem extList_succ (y m : ℕ) : (extList bt y (m + 1)).reverse =
    if bt.isExtremal m (bt.descentSet y) then m :: (extList bt y m).reverse
    else (extList bt y m).reverse := by
  unfold extList
  rw [List.range_succ, List.filter_append, List.reverse_append]
  by_cases h : bt.isExtremal m (bt.descentSet y) = true <;> simp [h]

theorem ascentDescent_some (hc : Ctx bt b D P el M) {x y : ℕ} (hx : x < bt.size) (hy : y < bt.size)
    {s : ℕ} (h : bt.ascentDescent x y = some s) :
    s < b.rank ∧ (b.st s (el y)).isDescent = true ∧ (b.st s (el x)).isDescent = false := by
  have h1 := List.mem_of_mem_head? (Option.mem_def.2 h)
  obtain ⟨h2, h3⟩ := List.mem_filter.1 h1
  obtain ⟨h4, h5⟩ := (mem_descentSet hc.rep hy).1 h2
  refine ⟨h4, h5, ?_⟩
  have h6 : s ∉ bt.descentSet x := by simpa using h3
  rw [mem_descentSet hc.rep hx] at h6
  by_contra hcon
  exact h6 ⟨h4, by simpa using hcon⟩

theorem ascentDescent_none (hc : Ctx bt b D P el M) {x y : ℕ} (hx : x < bt.size) (hy : y < bt.size)
    (h : bt.ascentDescent x y = none) : Extremal b (el x) (el y) := by
  rw [Block.ascentDescent, List.head?_eq_none_iff, List.filter_eq_nil_iff] at h
  intro s hs hd
  have := h s ((mem_descentSet hc.rep hy).2 ⟨hs, hd⟩)
  simp only [decide_eq_true_eq, not_not] at this
  exact ((mem_descentSet hc.rep hx).1 this).2

/-- at a primitive element an ascent that is a descent for `y` is imaginary type II; the two
Cayley transforms have larger numbers -/
theorem prim_i2 (hc : Ctx bt b D P el M) {x y s : ℕ} (hx : x < bt.size) (hy : y < bt.size)
    (hp : bt.isPrimitive x (bt.descentSet y) = true) (hs : s < b.rank)
    (h1 : (b.st s (el y)).isDescent = true) (h2 : (b.st s (el x)).isDescent = false) :
    b.st s (el x) = .imaginaryTypeII := by
  rcases (isPrimitive_iff hc.rep hx hy).1 hp s hs h1 with h | h
  · rw [h] at h2; cases h2
  · exact h

theorem i2_up (hc : Ctx bt b D P el M) {x s : ℕ} (hx : x < bt.size) (hs : s < b.rank)
    (h : b.st s (el x) = .imaginaryTypeII) :
    (∀ j, (bt.cayley s x).1 = some j → j < bt.size ∧ x < j) ∧
    (∀ j, (bt.cayley s x).2 = some j → j < bt.size ∧ x < j) ∧
    Names bt.size el (bt.cayley s x).1 (b.cay s (el x)).1 ∧
    Names bt.size el (bt.cayley s x).2 (b.cay s (el x)).2 := by
  have e : bt.cayley s x = bt.cayleyImage s x := by
    rw [Block.cayley, if_pos (by rw [hc.st hs hx, h]; rfl)]
  have h1 := hc.cay1 hs hx (Or.inr (Or.inl h))
  have h2 := hc.cay2 hs hx (Or.inl h)
  have hrel := hc.data.wf s hs (el x)
  simp only [Blk.Rel, h] at hrel
  rw [e]
  refine ⟨?_, ?_, h1, h2⟩
  · intro j hj
    rw [hj] at h1
    exact ⟨h1.1, hc.gt hx h1.1 (by rw [h1.2]; omega)⟩
  · intro j hj
    rw [hj] at h2
    exact ⟨h2.1, hc.gt hx h2.1 (by rw [h2.2]; omega)⟩

theorem ColFrom.set {t : Table} {y m f : ℕ} {col : List Pol}
    (hy : y < t.kl.length)
    (hf : bt.lengthFloor y = .ok f) (hfl : Floor bt y f) (hk : t.kl[y]? = some col)
    (hcol : ColFrom bt P el M t y (m + 1)) (hm : m < f)
    (hp : bt.isPrimitive m (bt.descentSet y) = true) {p : Pol} (hpI : Is M p (P (el m) (el y))) :
    ColFrom bt P el M (t.setCol y (col.set (pcount bt (bt.descentSet y) m) p)) y m := by
  obtain ⟨f', col', h1, h2, h3, h4, h5⟩ := hcol
  rw [hf] at h1; cases h1
  rw [hk] at h3; cases h3
  refine ⟨f, col.set (pcount bt (bt.descentSet y) m) p, hf, hfl, ?_, by rw [List.length_set]; exact h4,
    ?_⟩
  · rw [Table.setCol]; simp [hy]
  · intro x hmx hxf hpx
    by_cases e : x = m
    · subst e
      exact ⟨p, List.getElem?_set_self (by rw [h4]; exact pcount_lt hp hxf), hpI⟩
    · obtain ⟨p', h6, h7⟩ := h5 x (by omega) hxf hpx
      refine ⟨p', ?_, h7⟩
      rw [List.getElem?_set_ne (by have := pcount_lt hp (show m < x by omega); omega)]
      exact h6

theorem ColFrom.skip {t : Table} {y m : ℕ} (hcol : ColFrom bt P el M t y (m + 1))
    (hp : ¬ bt.isPrimitive m (bt.descentSet y) = true) : ColFrom bt P el M t y m := by
  obtain ⟨f, col, h1, h2, h3, h4, h5⟩ := hcol
  refine ⟨f, col, h1, h2, h3, h4, fun x hmx hxf hpx => ?_⟩
  by_cases e : x = m
  · subst e; exact absurd hpx hp
  · exact h5 x (by omega) hxf hpx

theorem completeLoop_ok (hc : Ctx bt b D P el M) (nd : Bool) {y f : ℕ} (hy : y < bt.size)
    (hf : bt.lengthFloor y = .ok f) (hfl : Floor bt y f) :
    ∀ (m : ℕ) (t : Table) (klv : List Pol) (mus : List (ℕ × ℕ)), m ≤ f → t.kl.length = bt.size →
      (∃ r, t.prim.lookup (bt.descentSet y) = some r ∧ RecOK bt P el (bt.descentSet y) r) →
      ColFrom bt P el M t y m →
      List.Forall₂ (fun x p => Is M p (P (el x) (el y))) (extList bt y m).reverse klv →
      MuFrom b P el y f m mus →
      Ok (Small P M) (completeLoop nd M bt y (primsDown bt (bt.descentSet y) m) t
        (pcount bt (bt.descentSet y) m) klv mus)
        (fun r => r.2.1 = 0 ∧ r.2.2.1 = [] ∧ ColFrom bt P el M r.1 y 0 ∧
          MuFrom b P el y f 0 r.2.2.2 ∧ ∃ col, r.1 = t.setCol y col) := by
  intro m
  induction m with
  | zero =>
    intro t klv mus _ hlen _ hcol hklv hmus
    have e : klv = [] := by cases hklv; rfl
    subst e
    obtain ⟨f', col, h1, h2, h3, h4, h5⟩ := id hcol
    refine Ok.ret ⟨rfl, rfl, hcol, hmus, col, ?_⟩
    rw [Table.setCol]
    have : t.kl.set y col = t.kl := by
      apply List.ext_getElem?
      intro i
      by_cases e : i = y
      · subst e; rw [List.getElem?_set_self (by omega), h3]
      · rw [List.getElem?_set_ne (Ne.symm e)]
    show t = { t with kl := t.kl.set y col }
    rw [this]
  | succ m ih =>
    intro t klv mus hm hlen hrec hcol hklv hmus
    have hms : m < bt.size := by have := hfl.1; omega
    have hlm := (hfl.2 m hms).1 (by omega)
    rw [primsDown_succ, pcount_succ]
    rw [extList_succ] at hklv
    by_cases hp : bt.isPrimitive m (bt.descentSet y) = true
    · rw [if_pos hp, if_pos hp]
      obtain ⟨f', col, h1, h2, h3, h4, h5⟩ := id hcol
      rw [hf] at h1; cases h1
      unfold completeLoop
      simp only [h3]
      have hback : ∀ (t' : Table) (klv' : List Pol) (mus' : List (ℕ × ℕ)) (p : Pol),
          t' = t.setCol y (col.set (pcount bt (bt.descentSet y) m) p) →
          Is M p (P (el m) (el y)) →
          List.Forall₂ (fun x p => Is M p (P (el x) (el y))) (extList bt y m).reverse klv' →
          MuFrom b P el y f m mus' →
          Ok (Small P M) (completeLoop nd M bt y (primsDown bt (bt.descentSet y) m) t'
            (pcount bt (bt.descentSet y) m) klv' mus')
            (fun r => r.2.1 = 0 ∧ r.2.2.1 = [] ∧ ColFrom bt P el M r.1 y 0 ∧
            MuFrom b P el y f 0 r.2.2.2 ∧ ∃ col, r.1 = t.setCol y col) := by
        intro t' klv' mus' p e hpI hk' hm'
        subst e
        refine (ih (t.setCol y (col.set (pcount bt (bt.descentSet y) m) p)) klv' mus' (by omega)
          (by rw [Table.setCol]; simp [hlen]) hrec
          (hcol.set (by omega) hf hfl h3 (by omega) hp hpI) hk' hm').mono ?_
        rintro r ⟨g1, g2, g3, g4, col', g5⟩
        refine ⟨g1, g2, g3, g4, col', ?_⟩
        rw [g5, Table.setCol, Table.setCol, Table.setCol]
        simp
      by_cases hext : bt.isExtremal m (bt.descentSet y) = true
      · rw [if_pos hext] at hklv ⊢
        cases hklv with
        | cons hpI hrest =>
          rename_i p klv
          dsimp only
          apply hback _ _ _ p rfl hpI hrest
          obtain ⟨t1, t2⟩ := muTest hc hms hy hlm hpI
          have hE := (isExtremal_iff hc.rep hms hy).1 hext
          by_cases hmu : mu b P (el m) (el y) ≠ 0
          · have hcnd := t1.2 hmu
            rw [if_pos (by simpa using hcnd), t2 hmu]
            refine ⟨?_, fun z c => ?_⟩
            · rw [List.map_cons, List.pairwise_cons]
              refine ⟨fun z hz => ?_, hmus.1⟩
              obtain ⟨⟨z', c⟩, h6, rfl⟩ := List.mem_map.1 hz
              have := ((hmus.2 z' c).1 h6).1
              show m < z'
              omega
            · rw [List.mem_cons, hmus.2, Prod.mk.injEq]
              constructor
              · rintro (⟨rfl, rfl⟩ | ⟨g1, g2⟩)
                · exact ⟨le_refl _, by omega, hE, rfl, hmu⟩
                · exact ⟨by omega, g2⟩
              · rintro ⟨g1, g2, g3, g4, g5⟩
                by_cases e : z = m
                · subst e; exact Or.inl ⟨rfl, g4⟩
                · exact Or.inr ⟨by omega, g2, g3, g4, g5⟩
          · have hcnd := t1.not.2 hmu
            rw [if_neg (by simpa using hcnd)]
            refine ⟨hmus.1, fun z c => ?_⟩
            rw [hmus.2]
            constructor
            · rintro ⟨g1, g2⟩; exact ⟨by omega, g2⟩
            · rintro ⟨g1, g2, g3, g4, g5⟩
              refine ⟨?_, g2, g3, g4, g5⟩
              by_contra hcon
              have e : z = m := by omega
              subst e; rw [g4] at g5; exact hmu g5
      · rw [if_neg hext] at hklv ⊢
        have hnE : ¬ Extremal b (el m) (el y) := fun h => hext ((isExtremal_iff hc.rep hms hy).2 h)
        cases had : bt.ascentDescent m y with
        | none => exact absurd (ascentDescent_none hc hms hy had) hnE
        | some s =>
          obtain ⟨hs, hd1, hd2⟩ := ascentDescent_some hc hms hy had
          have hi2 := prim_i2 hc hms hy hp hs hd1 hd2
          obtain ⟨u1, u2, u3, u4⟩ := i2_up hc hms hs hi2
          obtain ⟨r, hr1, hr2⟩ := hrec
          obtain ⟨p1, q1, q2⟩ := klPol_ok hc nd hr1 hr2 hy hcol (bt.cayley s m).1
            (fun j e => ⟨(u1 j e).1, (u1 j e).2⟩)
          obtain ⟨p2, q3, q4⟩ := klPol_ok hc nd hr1 hr2 hy hcol (bt.cayley s m).2
            (fun j e => ⟨(u2 j e).1, (u2 j e).2⟩)
          rw [hc.names hy u3] at q2
          rw [hc.names hy u4] at q4
          dsimp only
          rw [Res.assertIn_bind nd (by rw [hc.st hs hms, hi2]; rfl), q1, Res.ok_bind, q3, Res.ok_bind]
          have heq : P (b.cay s (el m)).1 (el y) + X ^ 0 * P (b.cay s (el m)).2 (el y) =
              P (el m) (el y) := by rw [pow_zero, one_mul, hc.data.easy_i2 hs hd1 hi2]
          refine Ok.bind (addTo_ok hc.two q2 q4 0 (fun hsm i => ?_)) (fun p hpI => ?_)
          · rw [heq]; have := hsm (el m) (el y) i; omega
          · rw [heq] at hpI
            apply hback _ _ _ p rfl hpI hklv
            refine ⟨hmus.1, fun z c => ?_⟩
            rw [hmus.2]
            constructor
            · rintro ⟨g1, g2⟩; exact ⟨by omega, g2⟩
            · rintro ⟨g1, g2, g3, g4⟩
              refine ⟨?_, g2, g3, g4⟩
              by_contra hcon
              have e : z = m := by omega
              subst e; exact hnE g3
    · rw [if_neg hp, if_neg hp, Nat.add_zero]
      have hne : ¬ bt.isExtremal m (bt.descentSet y) = true := fun h => hp
        (extremal_primitive hc.rep hms hy ((isExtremal_iff hc.rep hms hy).1 h))
      rw [if_neg hne] at hklv
      apply ih t klv mus (by omega) hlen hrec (hcol.skip hp) hklv
      refine ⟨hmus.1, fun z c => ?_⟩
      rw [hmus.2]
      constructor
      · rintro ⟨g1, g2⟩; exact ⟨by omega, g2⟩
      · rintro ⟨g1, g2, g3, g4⟩
        refine ⟨?_, g2, g3, g4⟩
        by_contra hcon
        have e : z = m := by omega
        subst e; exact hne ((isExtremal_iff hc.rep hms hy).2 g3)

/-- what one call changes: the column of `y` in the two tables -/
def Changed (t t' : Table) (y : ℕ) : Prop :=
  t'.prim = t.prim ∧ t'.holes = t.holes ∧ (∃ col, t'.kl = t.kl.set y col) ∧
    ∃ l, t'.mu = t.mu.set y l ∧ (l.map Prod.fst).Pairwise (· < ·)

theorem completePrimitives_ok (hc : Ctx bt b D P el M) (nd : Bool) {t : Table} {y f : ℕ}
    (hy : y < bt.size) (hf : bt.lengthFloor y = .ok f) (hfl : Floor bt y f)
    (hk : t.kl.length = bt.size) (hm : t.mu.length = bt.size)
    (hrec : ∃ r, t.prim.lookup (bt.descentSet y) = some r ∧ RecOK bt P el (bt.descentSet y) r)
    {klv : List Pol}
    (hklv : List.Forall₂ (fun x p => Is M p (P (el x) (el y))) (extList bt y f) klv) :
    Ok (Small P M) (completePrimitives nd M bt t klv y)
      (fun t' => Filled bt b P el M t' y ∧ Changed t t' y) := by
  obtain ⟨r, hr1, hr2⟩ := id hrec
  rw [completePrimitives, colSize_ok hc nd hr1 hr2 hf hfl, Res.ok_bind, hf, Res.ok_bind]
  refine Ok.bind (completeLoop_ok hc nd hy hf hfl f _ klv.reverse [] (le_refl _) ?_ hrec ?_ ?_ ?_) ?_
  · rw [Table.setCol]; simp [hk]
  · refine ⟨f, List.replicate (pcount bt (bt.descentSet y) f) [], hf, hfl,
      by rw [Table.setCol]; simp [hk, hy], by simp, ?_⟩
    intro x h1 h2; omega
  · have := List.rel_reverse hklv
    exact this
  · refine ⟨by simp, fun z c => ?_⟩
    simp only [List.not_mem_nil, false_iff]
    rintro ⟨g1, g2, _⟩; omega
  · rintro ⟨t', pos, klv', mus⟩ ⟨g1, g2, g3, g4, col, g5⟩
    dsimp only at g1 g2 g3 g4 g5 ⊢
    rw [Res.assertIn_bind nd (by simpa using g1), Res.assertIn_bind nd (by rw [g2]; rfl)]
    obtain ⟨ds, d1, d2, d3⟩ := downSet_ok hc hy
    rw [d1, Res.ok_bind]
    have hmu := muMerge_ok hc hy hfl g4 d2 d3
    refine Ok.ret ⟨⟨?_, ⟨_, ?_, hmu.weak hc.rep⟩, ?_⟩, ?_⟩
    · obtain ⟨f', col', k1, k2, k3, k4, k5⟩ := g3
      exact ⟨f', col', k1, k2, k3, k4, k5⟩
    · rw [g5]; simp [Table.setCol, hm, hy]
    · rw [g5]; exact hrec
    · rw [g5]
      refine ⟨rfl, rfl, ⟨col, ?_⟩, ⟨_, rfl, hmu.1⟩⟩
      simp [Table.setCol]

end Verif.KL
