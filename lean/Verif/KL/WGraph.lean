import Verif.KL.WGraphModel
import Verif.KL.Fill

/-!
# The W-graph of a block
-/

set_option linter.unusedSectionVars false

namespace Verif.KL

open Polynomial

variable {B : Type} [Fintype B] [DecidableEq B]
variable {bt : Block} {b : Blk B} {D : Mod B → Mod B} {P : B → B → ℕ[X]} {el : ℕ → B} {M : ℕ}

theorem pushEdges_spec (y : ℕ) : ∀ (l : List (ℕ × ℕ)) (E : List (List (ℕ × ℕ))),
    y < E.length → (∀ p ∈ l, p.1 < E.length ∧ p.1 ≠ y) →
    ∃ E', pushEdges y l E = .ok E' ∧ E'.length = E.length ∧ E'[y]? = E[y]?.map (· ++ l) ∧
      ∀ v, v ≠ y → E'[v]? = E[v]?.map
        (· ++ (l.filter (fun p => decide (p.1 = v))).map (fun p => (y, p.2))) := by
  intro l
  induction l with
  | nil =>
    intro E _ _
    refine ⟨E, rfl, rfl, ?_, fun v _ => ?_⟩
    · cases E[y]? <;> simp
    · cases E[v]? <;> simp
  | cons p l ih =>
    intro E hy hl
    obtain ⟨x, c⟩ := p
    obtain ⟨hx, hne⟩ := hl (x, c) (by simp)
    simp only at hx hne
    have hx1 : x < (E.set y (E[y] ++ [(x, c)])).length := by simpa using hx
    obtain ⟨E', h1, h2, h3, h4⟩ := ih
      ((E.set y (E[y] ++ [(x, c)])).set x ((E.set y (E[y] ++ [(x, c)]))[x] ++ [(y, c)]))
      (by simpa using hy) (fun p hp => by simpa using hl p (by simp [hp]))
    have hex : (E.set y (E[y] ++ [(x, c)]))[x] = E[x] := by
      rw [List.getElem_set_ne (Ne.symm hne)]
    refine ⟨E', ?_, by simpa using h2, ?_, fun v hv => ?_⟩
    · rw [pushEdges, Vec.get_ok hy, Res.ok_bind, Vec.put_ok hy, Res.ok_bind, Vec.get_ok hx1,
        Res.ok_bind, Vec.put_ok hx1, Res.ok_bind, h1]
    · rw [h3, List.getElem?_set_ne hne, List.getElem?_set_self hy, List.getElem?_eq_getElem hy]
      simp
    · rw [h4 v hv]
      by_cases hxv : x = v
      · subst hxv
        rw [List.getElem?_set_self hx1, hex, List.getElem?_eq_getElem hx]
        simp
      · rw [List.getElem?_set_ne hxv, List.getElem?_set_ne (Ne.symm hv)]
        simp [hxv]

/-- the edges at `v` that have been found when the columns of elements less than `y` have been
treated -/
def EdgesUpTo (bt : Block) (b : Blk B) (P : B → B → ℕ[X]) (el : ℕ → B) (y v : ℕ)
    (l : List (ℕ × ℕ)) : Prop :=
  (l.map Prod.fst).Pairwise (· < ·) ∧ ∀ u c, (u, c) ∈ l ↔ u < bt.size ∧ c ≠ 0 ∧
    ((v < y ∧ c = mu b P (el u) (el v)) ∨ (u < y ∧ c = mu b P (el v) (el u)))

theorem mu_lt (hr : Represents bt b el) {x y : ℕ} (hx : x < bt.size)
    (h : mu b P (el x) (el y) ≠ 0) : x < y := by
  by_contra hn
  obtain ⟨h1, _⟩ := mu_ne b P h
  have := hr.mono y x (by omega) hx
  rw [hr.len y (by omega), hr.len x hx] at this
  omega

theorem edges_step (hr : Represents bt b el) {y : ℕ} (hy : y < bt.size) {l : List (ℕ × ℕ)}
    (hl : MuList bt b P el y l) {E E' : List (List (ℕ × ℕ))}
    (h : ∀ v, v < bt.size → ∃ e, E[v]? = some e ∧ EdgesUpTo bt b P el y v e)
    (h3 : E'[y]? = E[y]?.map (· ++ l))
    (h4 : ∀ v, v ≠ y → E'[v]? = E[v]?.map
        (· ++ (l.filter (fun p => decide (p.1 = v))).map (fun p => (y, p.2)))) :
    ∀ v, v < bt.size → ∃ e, E'[v]? = some e ∧ EdgesUpTo bt b P el (y + 1) v e := by
  intro v hv
  obtain ⟨e, he, hs, hm⟩ := h v hv
  by_cases hvy : v = y
  · subst hvy
    have hemp : e = [] := by
      rw [List.eq_nil_iff_forall_not_mem]
      rintro ⟨u, c⟩ hu
      obtain ⟨g1, g2, g3⟩ := (hm u c).1 hu
      rcases g3 with ⟨g3, _⟩ | ⟨g3, g4⟩
      · omega
      · have := mu_lt (b := b) (P := P) hr hv (by rw [← g4]; exact g2); omega
    subst hemp
    refine ⟨l, by rw [h3, he]; simp, hl.1, fun u c => ?_⟩
    rw [hl.2]
    constructor
    · rintro ⟨g1, g2, g3⟩; exact ⟨g1, g3, .inl ⟨by omega, g2⟩⟩
    · rintro ⟨g1, g2, ⟨_, g3⟩ | ⟨g3, g4⟩⟩
      · exact ⟨g1, g3, g2⟩
      · have := mu_lt (b := b) (P := P) hr hv (by rw [← g4]; exact g2); omega
  · refine ⟨_, by rw [h4 v hvy, he]; rfl, ?_, ?_⟩
    · rw [List.map_append, List.pairwise_append]
      refine ⟨hs, ?_, ?_⟩
      · have hnd : (l.filter (fun p => decide (p.1 = v))).length ≤ 1 := by
          have hp : ((l.filter (fun p => decide (p.1 = v))).map Prod.fst).Pairwise (· < ·) :=
            hl.1.sublist (List.filter_sublist.map _)
          by_contra hcon
          match hq : l.filter (fun p => decide (p.1 = v)) with
          | [] => rw [hq] at hcon; simp at hcon
          | [a] => rw [hq] at hcon; simp at hcon
          | a :: a' :: r =>
            rw [hq] at hp
            have ha : a ∈ l.filter (fun p => decide (p.1 = v)) := by rw [hq]; simp
            have ha' : a' ∈ l.filter (fun p => decide (p.1 = v)) := by rw [hq]; simp
            rw [List.mem_filter] at ha ha'
            have e1 : a.1 = v := by simpa using ha.2
            have e2 : a'.1 = v := by simpa using ha'.2
            simp only [List.map_cons, List.pairwise_cons, List.mem_cons] at hp
            have := hp.1 a'.1 (.inl rfl)
            omega
        match hq : l.filter (fun p => decide (p.1 = v)) with
        | [] => simp [hq]
        | [a] => simp [hq]
        | a :: a' :: r => rw [hq] at hnd; simp at hnd
      · intro u hu w hw
        rw [List.mem_map] at hu hw
        obtain ⟨⟨u', c⟩, hu, rfl⟩ := hu
        obtain ⟨p, hw, rfl⟩ := hw
        rw [List.mem_map] at hw
        obtain ⟨⟨x, d⟩, hw, rfl⟩ := hw
        rw [List.mem_filter] at hw
        have e1 : x = v := by simpa using hw.2
        subst e1
        obtain ⟨k1, k2, k3⟩ := (hl.2 x d).1 hw.1
        have hxy := mu_lt (b := b) (P := P) hr k1 (by rw [← k2]; exact k3)
        obtain ⟨g1, g2, ⟨g3, g4⟩ | ⟨g3, g4⟩⟩ := (hm u' c).1 hu
        · have := mu_lt (b := b) (P := P) hr g1 (by rw [← g4]; exact g2)
          simp only; omega
        · exact g3
    · intro u c
      rw [List.mem_append, hm, List.mem_map]
      constructor
      · rintro (⟨g1, g2, ⟨g3, g4⟩ | ⟨g3, g4⟩⟩ | ⟨⟨x, d⟩, hp, e⟩)
        · exact ⟨g1, g2, .inl ⟨by omega, g4⟩⟩
        · exact ⟨g1, g2, .inr ⟨by omega, g4⟩⟩
        · rw [List.mem_filter] at hp
          have e1 : x = v := by simpa using hp.2
          subst e1
          obtain ⟨k1, k2, k3⟩ := (hl.2 x d).1 hp.1
          injection e with e2 e3
          simp only at e2 e3
          subst e2 e3
          exact ⟨hy, k3, .inr ⟨by omega, k2⟩⟩
      · rintro ⟨g1, g2, ⟨g3, g4⟩ | ⟨g3, g4⟩⟩
        · exact .inl ⟨g1, g2, .inl ⟨by omega, g4⟩⟩
        · by_cases huy : u = y
          · subst huy
            refine .inr ⟨(v, c), ?_, rfl⟩
            rw [List.mem_filter]
            exact ⟨(hl.2 v c).2 ⟨hv, g4, g2⟩, by simp⟩
          · exact .inl ⟨g1, g2, .inr ⟨by omega, g4⟩⟩

theorem wGraphLoop_spec (hr : Represents bt b el) {t : Table}
    (ht : ∀ y, y < bt.size → ∃ l, t.mu[y]? = some l ∧ MuList bt b P el y l) :
    ∀ (n y : ℕ) (tau : List (List ℕ)) (E : List (List (ℕ × ℕ))), y + n = bt.size →
    tau = (List.range y).map bt.descentSet → E.length = bt.size →
    (∀ v, v < bt.size → ∃ e, E[v]? = some e ∧ EdgesUpTo bt b P el y v e) →
    ∃ E', wGraphLoop bt t y n tau E = .ok ((List.range bt.size).map bt.descentSet, E') ∧
      E'.length = bt.size ∧
      ∀ v, v < bt.size → ∃ e, E'[v]? = some e ∧ EdgesUpTo bt b P el bt.size v e := by
  intro n
  induction n with
  | zero =>
    intro y tau E hy h1 h2 h3
    have : y = bt.size := by omega
    subst this
    exact ⟨E, by rw [wGraphLoop, h1], h2, h3⟩
  | succ n ih =>
    intro y tau E hy h1 h2 h3
    obtain ⟨l, g1, g2⟩ := ht y (by omega)
    obtain ⟨E', k1, k2, k3, k4⟩ := pushEdges_spec y l E (by omega) (by
      rintro ⟨x, c⟩ hp
      obtain ⟨m1, m2, m3⟩ := (g2.2 x c).1 hp
      have := mu_lt (b := b) (P := P) hr m1 (by rw [← m2]; exact m3)
      simp only; omega)
    obtain ⟨E2, j1, j2, j3⟩ := ih (y + 1) (tau ++ [bt.descentSet y]) E' (by omega)
      (by rw [h1, List.range_succ, List.map_append]; rfl) (by omega)
      (edges_step hr (by omega) g2 h3 k3 k4)
    refine ⟨E2, ?_, j2, j3⟩
    have : Vec.get t.mu y = .ok l := by rw [Vec.get, g1]
    rw [wGraphLoop, this, Res.ok_bind, k1, Res.ok_bind, j1]

/-- the edges of a W-graph with their labels, `(target, coefficient)`, at vertex `x` -/
def WGraph.labelled (w : WGraph) (x : ℕ) : List (ℕ × ℕ) :=
  (w.graph.getD x []).zip (w.coef.getD x [])

theorem zip_map_map {α β γ : Type} (f : α → β) (g : α → γ) (l : List α) :
    (l.map f).zip (l.map g) = l.map (fun a => (f a, g a)) := by
  induction l with
  | nil => rfl
  | cons a l ih => simp [ih]

/-- the value of `wGraph` on a complete table -/
theorem wGraph_spec (hr : Represents bt b el) (nd : Bool) {t : Table}
    (ht : ∀ y, y < bt.size → ∃ l, t.mu[y]? = some l ∧ MuList bt b P el y l) :
    ∃ w, wGraph nd bt t = .ok w ∧ w.rank = bt.rank ∧ w.graph.length = bt.size ∧
      w.coef.length = bt.size ∧ w.desc = (List.range bt.size).map bt.descentSet ∧
      (∀ x, x < bt.size → (w.graph.getD x []).length = (w.coef.getD x []).length) ∧
      (∀ x, x < bt.size → (w.graph.getD x []).Pairwise (· < ·)) ∧
      ∀ x, x < bt.size → ∃ l, EdgesUpTo bt b P el bt.size x l ∧
        w.labelled x = l.map (fun p => (p.1, p.2 % 65536)) ∧ w.graph.getD x [] = l.map Prod.fst := by
  obtain ⟨E, h1, h2, h3⟩ := wGraphLoop_spec (P := P) hr ht bt.size 0 [] (List.replicate bt.size [])
    (by omega) rfl (by simp) (by
      intro v hv
      refine ⟨[], by simp [hv], by simp, fun u c => ?_⟩
      simp)
  refine ⟨⟨bt.rank, E.map (fun l => l.map Prod.fst), E.map (fun l => l.map (fun p => p.2 % 65536)),
    (List.range bt.size).map bt.descentSet⟩, ?_, rfl, by simpa using h2, by simpa using h2, rfl,
    ?_, ?_, ?_⟩
  · rw [wGraph, h1, Res.ok_bind]
    dsimp only
    rw [WGraph.make, Res.assertIn_bind nd (by simp [h2])]
  all_goals
    intro x hx
    obtain ⟨e, g1, g2⟩ := h3 x hx
    have k1 : (E.map (fun l => l.map Prod.fst)).getD x [] = e.map Prod.fst := by
      rw [List.getD_eq_getElem?_getD, List.getElem?_map, g1]; rfl
    have k2 : (E.map (fun l => l.map (fun p => p.2 % 65536))).getD x [] =
        e.map (fun p => p.2 % 65536) := by
      rw [List.getD_eq_getElem?_getD, List.getElem?_map, g1]; rfl
  · show ((E.map (fun l => l.map Prod.fst)).getD x []).length = _
    rw [k1]
    show _ = ((E.map (fun l => l.map (fun p => p.2 % 65536))).getD x []).length
    rw [k2]; simp
  · show ((E.map (fun l => l.map Prod.fst)).getD x []).Pairwise _
    rw [k1]; exact g2.1
  · refine ⟨e, g2, ?_, k1⟩
    show ((E.map (fun l => l.map Prod.fst)).getD x []).zip
      ((E.map (fun l => l.map (fun p => p.2 % 65536))).getD x []) = _
    rw [k1, k2, zip_map_map]

/-! ### The action of the Hecke algebra -/

/-- the coefficient of `C_z` in `(T_s+1) C_y` in terms of the symmetric mu -/
theorem Data.recCoef_eq (h : Data b D P) {s : ℕ} (hs : s < b.rank) {y z : B}
    (hy : (b.st s y).isDescent = false) (hz : (b.st s z).isDescent = true) :
    toL (recCoef b P s y z) = ((mu b P z y + mu b P y z : ℕ) : L) *
      LaurentPolynomial.T (((b.len y : ℤ) - b.len z + 1) / 2) := by
  unfold recCoef
  rw [if_pos hz]
  by_cases hu : z ∈ up b s y
  · obtain ⟨_, h2, h3⟩ := h.down_mu ⟨s, hs, hu⟩
    rw [if_pos hu, h2, mu_zero (by omega), map_one]
    have : ((b.len y : ℤ) - b.len z + 1) / 2 = 0 := by omega
    rw [this, LaurentPolynomial.T_zero]
    simp
  · rw [if_neg hu]
    have h0 : mu b P y z = 0 := by
      by_contra hne
      exact hu (h.mu_up hs hz hy hne)
    rw [h0, Nat.add_zero, map_mul, toL_X_pow]
    have hC : toL (Polynomial.C (mu b P z y)) = ((mu b P z y : ℕ) : L) := by
      rw [show (Polynomial.C (mu b P z y) : ℕ[X]) = ((mu b P z y : ℕ) : ℕ[X]) from
        (Polynomial.C_eq_natCast _), map_natCast]
    rw [hC]
    by_cases hm : mu b P z y = 0
    · rw [hm]; simp
    · obtain ⟨k1, k2, _⟩ := mu_ne b P hm
      congr 2
      omega

/-- the term of `T_s C_y` for the edge `p` from `y` -/
noncomputable def edgeTerm (b : Blk B) (P : B → B → ℕ[X]) (el : ℕ → B) (y : ℕ) (p : ℕ × ℕ) :
    Mod B :=
  ((p.2 : L) * LaurentPolynomial.T (((b.len (el y) : ℤ) - b.len (el p.1) + 1) / 2)) •
    cvec P (el p.1)

theorem edges_action (hd : Data b D P) (hr : Represents bt b el)
    (hfull : ∀ z : B, ∃ j, j < bt.size ∧ el j = z) {s y : ℕ} (hs : s < b.rank) (hy : y < bt.size)
    (hys : (b.st s (el y)).isDescent = false) {l : List (ℕ × ℕ)}
    (hl : EdgesUpTo bt b P el bt.size y l) (desc : ℕ → List ℕ)
    (hdesc : ∀ z, z < bt.size → (s ∈ desc z ↔ (b.st s (el z)).isDescent = true)) :
    b.T s (cvec P (el y)) = - cvec P (el y) +
      ((l.filter (fun p => decide (s ∈ desc p.1))).map (edgeTerm b P el y)).sum := by
  have hmem : ∀ p ∈ l, p.1 < bt.size ∧ p.2 ≠ 0 ∧
      p.2 = mu b P (el p.1) (el y) + mu b P (el y) (el p.1) := by
    rintro ⟨u, c⟩ hp
    obtain ⟨g1, g2, ⟨g3, g4⟩ | ⟨g3, g4⟩⟩ := (hl.2 u c).1 hp
    · refine ⟨g1, g2, ?_⟩
      have := mu_ne b P (by rw [← g4]; exact g2 : mu b P (el u) (el y) ≠ 0)
      simp only
      rw [mu_zero (b := b) (P := P) (z := el y) (by omega), g4, Nat.add_zero]
    · refine ⟨g1, g2, ?_⟩
      have := mu_ne b P (by rw [← g4]; exact g2 : mu b P (el y) (el u) ≠ 0)
      simp only
      rw [mu_zero (b := b) (P := P) (z := el u) (by omega), g4, Nat.zero_add]
  have hnd : l.Nodup := List.Nodup.of_map _ (hl.1.imp (fun h => Nat.ne_of_lt h))
  rw [eq_neg_add_iff_add_eq, add_comm, hd.klv.recursion hd.wf hd.dual hs hys, comb,
    ← List.sum_toFinset _ (hnd.filter _)]
  symm
  apply Finset.sum_of_injOn (fun p : ℕ × ℕ => el p.1)
  · intro p hp p' hp' e
    simp only [List.coe_toFinset, Set.mem_setOf_eq, List.mem_filter] at hp hp'
    have e1 := hr.inj _ _ (hmem p hp.1).1 (hmem p' hp'.1).1 e
    apply Prod.ext e1
    rw [(hmem p hp.1).2.2, (hmem p' hp'.1).2.2, e1]
  · intro p _; simp
  · intro z _ hz
    by_cases hzd : (b.st s z).isDescent = true
    · obtain ⟨j, hj, rfl⟩ := hfull z
      rw [hd.recCoef_eq hs hys hzd]
      have : mu b P (el j) (el y) + mu b P (el y) (el j) = 0 := by
        by_contra hne
        apply hz
        refine ⟨(j, mu b P (el j) (el y) + mu b P (el y) (el j)), ?_, rfl⟩
        simp only [List.coe_toFinset, Set.mem_setOf_eq, List.mem_filter]
        refine ⟨(hl.2 _ _).2 ⟨hj, hne, ?_⟩, by simpa using (hdesc j hj).2 hzd⟩
        by_cases h0 : mu b P (el j) (el y) = 0
        · exact .inr ⟨hj, by rw [h0, Nat.zero_add]⟩
        · refine .inl ⟨hy, ?_⟩
          have := mu_ne b P h0
          rw [mu_zero (b := b) (P := P) (z := el y) (by omega), Nat.add_zero]
      rw [this]; simp
    · unfold recCoef; rw [if_neg hzd]; simp
  · intro p hp
    rw [List.mem_toFinset, List.mem_filter] at hp
    obtain ⟨g1, g2, g3⟩ := hmem p hp.1
    have hzd := (hdesc p.1 g1).1 (by simpa using hp.2)
    rw [hd.recCoef_eq hs hys hzd, edgeTerm, g3]

end Verif.KL
