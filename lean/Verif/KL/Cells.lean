import Verif.KL.WGraph
import Verif.Graph.Props
import Verif.Part.IterProps

/-!
# The cells of a W-graph
-/

namespace Verif.KL

open Verif.Graph (Edge Proper Reach)
open Verif.Part (Partition)

/-- a W-graph whose vectors have matching sizes, with edges between its vertices, and coefficients
that fit an `unsigned short`; this is what the constructors make -/
structure WGraph.WF (w : WGraph) : Prop where
  proper : ∀ (x : ℕ) (row : List ℕ), w.graph[x]? = some row → ∀ y ∈ row, y < w.graph.length
  coef : w.coef.length = w.graph.length
  desc : w.desc.length = w.graph.length
  row : ∀ x, x < w.graph.length → (w.coef.getD x []).length = (w.graph.getD x []).length
  small : ∀ row ∈ w.coef, ∀ c ∈ row, c < 65536

/-- the edges that `oriented_graph` keeps -/
def WGraph.keep (w : WGraph) (x y : ℕ) : Bool :=
  !(w.desc.getD x []).all (fun s => decide (s ∈ w.desc.getD y []))

theorem orientedRow_spec (w : WGraph) (x : ℕ) : ∀ row : List ℕ, (∀ y ∈ row, y < w.desc.length) →
    w.orientedRow (w.desc.getD x []) row = .ok (row.filter (w.keep x)) := by
  intro row
  induction row with
  | nil => intro _; rfl
  | cons y row ih =>
    intro h
    have hy : y < w.desc.length := h y (by simp)
    have hg : Vec.get w.desc y = .ok (w.desc.getD y []) := by
      rw [Vec.get_ok hy, List.getD_eq_getElem _ _ hy]
    rw [WGraph.orientedRow, hg, Res.ok_bind, ih (fun z hz => h z (by simp [hz])), Res.ok_bind]
    congr 1
    by_cases hk : (w.desc.getD x []).all (fun s => decide (s ∈ w.desc.getD y [])) = true
    · rw [if_pos hk, List.filter_cons_of_neg]
      unfold WGraph.keep; rw [hk]; simp
    · rw [if_neg hk, List.filter_cons_of_pos]
      unfold WGraph.keep
      rw [Bool.not_eq_true] at hk; rw [hk]; rfl

theorem orientedRows_spec (w : WGraph) : ∀ (rows : Graph.Edges) (x : ℕ), x + rows.length ≤ w.desc.length →
    (∀ row ∈ rows, ∀ y ∈ row, y < w.desc.length) →
    ∃ g, w.orientedRows x rows = .ok g ∧ g.length = rows.length ∧
      ∀ i : ℕ, g[i]? = rows[i]?.map (fun row : List ℕ => row.filter (w.keep (x + i))) := by
  intro rows
  induction rows with
  | nil => intro x _ _; exact ⟨[], rfl, rfl, fun i => by simp⟩
  | cons row rows ih =>
    intro x hx h
    simp only [List.length_cons] at hx
    have hg : Vec.get w.desc x = .ok (w.desc.getD x []) := by
      rw [Vec.get_ok (by omega), List.getD_eq_getElem _ _ (by omega)]
    obtain ⟨g, h1, h2, h3⟩ := ih (x + 1) (by omega) (fun r hr => h r (by simp [hr]))
    refine ⟨row.filter (w.keep x) :: g, ?_, by simp [h2], fun i => ?_⟩
    · rw [WGraph.orientedRows, hg, Res.ok_bind, orientedRow_spec w x row (h row (by simp)),
        Res.ok_bind, h1, Res.ok_bind]
    · cases i with
      | zero => simp
      | succ i =>
        rw [List.getElem?_cons_succ, List.getElem?_cons_succ, h3, show x + 1 + i = x + (i + 1) by omega]

/-- an edge that `oriented_graph` keeps: an edge from `x` to `y` such that the descent set of `x` is
not contained in that of `y` -/
def WGraph.Arrow (w : WGraph) (x y : ℕ) : Prop :=
  y ∈ w.graph.getD x [] ∧ ¬ ∀ s ∈ w.desc.getD x [], s ∈ w.desc.getD y []

theorem WGraph.keep_iff (w : WGraph) (x y : ℕ) :
    w.keep x y = true ↔ ¬ ∀ s ∈ w.desc.getD x [], s ∈ w.desc.getD y [] := by
  unfold WGraph.keep
  rw [Bool.not_eq_true', Bool.eq_false_iff, Ne, List.all_eq_true]
  simp

theorem oriented_spec {w : WGraph} (hw : w.WF) :
    ∃ g, w.oriented = .ok g ∧ g.length = w.graph.length ∧ Proper g ∧
      (∀ (x : ℕ) (row : List ℕ), g[x]? = some row → ∃ r, w.graph[x]? = some r ∧ row = r.filter (w.keep x)) ∧
      ∀ x y, Edge g x y ↔ w.Arrow x y := by
  obtain ⟨g, h1, h2, h3⟩ := orientedRows_spec w w.graph 0 (by rw [hw.desc]; omega) (by
    intro row hrow y hy
    obtain ⟨x, hx⟩ := List.getElem?_of_mem hrow
    rw [hw.desc]
    exact hw.proper x row hx y hy)
  have hE : ∀ x y, Edge g x y ↔ w.Arrow x y := by
    intro x y
    unfold Edge WGraph.Arrow
    rw [h3 x, Nat.zero_add, List.getD_eq_getElem?_getD]
    cases hx : w.graph[x]? with
    | none => simp
    | some row =>
      simp only [Option.map_some, Option.some.injEq, exists_eq_left', List.mem_filter,
        Option.getD_some, w.keep_iff]
  refine ⟨g, h1, h2, ?_, ?_, hE⟩
  · intro x y he
    obtain ⟨h, _⟩ := (hE x y).1 he
    rw [h2]
    rw [List.getD_eq_getElem?_getD] at h
    cases hx : w.graph[x]? with
    | none => rw [hx] at h; simp at h
    | some row => rw [hx] at h; exact hw.proper x row hx y h
  · intro x row hx
    rw [h3 x, Nat.zero_add] at hx
    cases hr : w.graph[x]? with
    | none => rw [hr] at hx; simp at hx
    | some r => rw [hr] at hx; exact ⟨r, rfl, by simpa using hx.symm⟩

theorem setRel_spec : ∀ (vs : List ℕ) (i : ℕ) (r : List ℕ), vs.Nodup → (∀ v ∈ vs, v < r.length) →
    ∃ r', WGraph.setRel vs i r = .ok r' ∧ r'.length = r.length ∧
      (∀ v, v ∉ vs → r'[v]? = r[v]?) ∧ ∀ v ∈ vs, r'[v]? = some (i + vs.idxOf v) := by
  intro vs
  induction vs with
  | nil => intro i r _ _; exact ⟨r, rfl, rfl, fun _ _ => rfl, fun v hv => by simp at hv⟩
  | cons v vs ih =>
    intro i r hnd hlt
    rw [List.nodup_cons] at hnd
    have hv : v < r.length := hlt v (by simp)
    obtain ⟨r', h1, h2, h3, h4⟩ := ih (i + 1) (r.set v i) hnd.2 (fun u hu => by
      rw [List.length_set]; exact hlt u (by simp [hu]))
    refine ⟨r', ?_, by rw [h2, List.length_set], fun u hu => ?_, fun u hu => ?_⟩
    · rw [WGraph.setRel, Vec.put_ok hv, Res.ok_bind, h1]
    · rw [List.mem_cons, not_or] at hu
      rw [h3 u hu.2, List.getElem?_set_ne (Ne.symm hu.1)]
    · by_cases hu' : u = v
      · subst hu'
        rw [h3 u hnd.1, List.getElem?_set_self hv]
        simp
      · have hmem : u ∈ vs := by
          rcases List.mem_cons.1 hu with h | h
          · exact absurd h hu'
          · exact h
        rw [h4 u hmem, List.idxOf_cons_ne _ (Ne.symm hu')]
        congr 1; omega

/-- the edges of `y` that stay in the class, with their coefficients -/
theorem cellRow_spec {w : WGraph} {pi : Partition} {relno cell cs : List ℕ} {y : ℕ}
    (hcs : Vec.get w.coef y = .ok cs) (n : ℕ)
    (htot : ∀ x, x < n → ∃ c, pi.classOf x = .ok c) (hy : y < n)
    (hcell : ∀ x, x < n → (pi.classOf x = pi.classOf y ↔ x ∈ cell))
    (hrel : ∀ v ∈ cell, relno[v]? = some (cell.idxOf v)) :
    ∀ (xs : List ℕ) (i : ℕ), (∀ x ∈ xs, x < n) → i + xs.length = cs.length →
    w.cellRow pi relno y i xs = .ok (((xs.zip (cs.drop i)).filter
      (fun p => decide (p.1 ∈ cell))).map (fun p => (cell.idxOf p.1, p.2))) := by
  intro xs
  induction xs with
  | nil => intro i _ _; simp [WGraph.cellRow]
  | cons x xs ih =>
    intro i hlt hlen
    simp only [List.length_cons] at hlen
    have hi : i < cs.length := by omega
    obtain ⟨cx, hcx⟩ := htot x (hlt x (by simp))
    obtain ⟨cy, hcy⟩ := htot y hy
    have hih := ih (i + 1) (fun z hz => hlt z (by simp [hz])) (by omega)
    have hdrop : cs.drop i = cs[i] :: cs.drop (i + 1) := by
      rw [List.drop_eq_getElem_cons hi]
    rw [WGraph.cellRow, hcx, Res.ok_bind, hcy, Res.ok_bind, hdrop, List.zip_cons_cons]
    have hiff := hcell x (hlt x (by simp))
    rw [hcx, hcy] at hiff
    by_cases he : cx = cy
    · have hx : x ∈ cell := hiff.1 (by rw [he])
      have hg : Vec.get relno x = .ok (cell.idxOf x) := by rw [Vec.get, hrel x hx]
      rw [if_pos he, hg, Res.ok_bind, hcs, Res.ok_bind, Vec.get_ok hi, Res.ok_bind, hih,
        Res.ok_bind, List.filter_cons_of_pos (by simpa using hx), List.map_cons]
    · have hx : x ∉ cell := fun hx => he (by have := hiff.2 hx; injection this)
      rw [if_neg he, hih, List.filter_cons_of_neg (by simpa using hx)]

/-- the edges of vertex `y` within a cell, renumbered -/
def cellEdges (w : WGraph) (cell : List ℕ) (y : ℕ) : List (ℕ × ℕ) :=
  ((w.labelled y).filter (fun p => decide (p.1 ∈ cell))).map (fun p => (cell.idxOf p.1, p.2))

theorem cellRows_spec {w : WGraph} (hw : w.WF) {pi : Partition} {relno cell : List ℕ}
    (htot : ∀ x, x < w.graph.length → ∃ c, pi.classOf x = .ok c) (k : ℕ)
    (hcell : ∀ x, x ∈ cell ↔ x < w.graph.length ∧ pi.classOf x = .ok k)
    (hrel : ∀ v ∈ cell, relno[v]? = some (cell.idxOf v)) :
    ∀ (ys part : List ℕ), (∀ y ∈ ys, y ∈ cell) → part.length = w.graph.length →
    ∃ part', w.cellRows pi relno ys part = .ok (part', ys.map (fun y => w.desc.getD y []),
        ys.map (cellEdges w cell)) ∧ part'.length = part.length ∧
      ∀ v : ℕ, part'[v]? = if v ∈ ys then some k else part[v]? := by
  intro ys
  induction ys with
  | nil => intro part _ _; exact ⟨part, rfl, rfl, fun v => by simp⟩
  | cons y ys ih =>
    intro part hys hlen
    obtain ⟨hy, hcy⟩ := (hcell y).1 (hys y (by simp))
    obtain ⟨part', h1, h2, h3⟩ := ih (part.set y k) (fun z hz => hys z (by simp [hz])) (by simpa using hlen)
    have hyd : y < w.desc.length := by rw [hw.desc]; exact hy
    have hyc : y < w.coef.length := by rw [hw.coef]; exact hy
    have hd : Vec.get w.desc y = .ok (w.desc.getD y []) := by
      rw [Vec.get_ok hyd, List.getD_eq_getElem _ _ hyd]
    have hg : Vec.get w.graph y = .ok (w.graph.getD y []) := by
      rw [Vec.get_ok hy, List.getD_eq_getElem _ _ hy]
    have hcs : Vec.get w.coef y = .ok (w.coef.getD y []) := by
      rw [Vec.get_ok hyc, List.getD_eq_getElem _ _ hyc]
    have hrow : w.cellRow pi relno y 0 (w.graph.getD y []) = .ok (cellEdges w cell y) := by
      have h0 := cellRow_spec (cell := cell) hcs w.graph.length htot hy
        (fun x hx => by rw [hcell x, hcy]; exact ⟨fun h => ⟨hx, h⟩, fun h => h.2⟩) hrel
        (w.graph.getD y []) 0 (by
          intro x hx
          apply hw.proper y (w.graph.getD y []) _ x hx
          rw [List.getD_eq_getElem _ _ hy, List.getElem?_eq_getElem hy])
        (by rw [hw.row y hy, Nat.zero_add])
      rw [h0, List.drop_zero]; rfl
    refine ⟨part', ?_, by rw [h2, List.length_set], fun v => ?_⟩
    · rw [WGraph.cellRows, hcy, Res.ok_bind, Vec.put_ok (by omega), Res.ok_bind, hd, Res.ok_bind,
        hg, Res.ok_bind, hrow, Res.ok_bind, h1, Res.ok_bind]
      rfl
    · rw [h3]
      by_cases hv : v ∈ ys
      · rw [if_pos hv, if_pos (by simp [hv])]
      · rw [if_neg hv]
        by_cases hvy : v = y
        · subst hvy
          rw [List.getElem?_set_self (by omega), if_pos (by simp)]
        · rw [List.getElem?_set_ne (Ne.symm hvy), if_neg (by simp [hv, hvy])]

/-- the W-graph on a cell -/
def cellGraph (w : WGraph) (cell : List ℕ) : WGraph :=
  ⟨w.rank, cell.map (fun y => (cellEdges w cell y).map Prod.fst),
    cell.map (fun y => (cellEdges w cell y).map Prod.snd), cell.map (fun y => w.desc.getD y [])⟩

theorem labelled_small {w : WGraph} (hw : w.WF) {y : ℕ} {p : ℕ × ℕ} (h : p ∈ w.labelled y) :
    p.2 < 65536 ∧ p.1 ∈ w.graph.getD y [] := by
  have h2 := (List.of_mem_zip (show (p.1, p.2) ∈ _ from h))
  refine ⟨?_, h2.1⟩
  have h3 := h2.2
  rw [List.getD_eq_getElem?_getD] at h3
  cases hx : w.coef[y]? with
  | none => rw [hx] at h3; simp at h3
  | some row => rw [hx] at h3; exact hw.small row (List.mem_of_getElem? hx) _ h3

theorem make_cell {w : WGraph} (hw : w.WF) (nd : Bool) (cell : List ℕ) :
    WGraph.make nd w.rank (cell.map (fun y => w.desc.getD y [])) (cell.map (cellEdges w cell)) =
      .ok (cellGraph w cell) := by
  rw [WGraph.make, Res.assertIn_bind nd (by simp), cellGraph, List.map_map, List.map_map]
  congr 2
  apply List.map_congr_left
  intro y _
  apply List.map_congr_left
  intro p hp
  unfold cellEdges at hp
  rw [List.mem_map] at hp
  obtain ⟨p', hp', rfl⟩ := hp
  exact Nat.mod_eq_of_lt (labelled_small hw (List.mem_filter.1 hp').1).1

theorem cellsLoop_spec {w : WGraph} (hw : w.WF) (nd : Bool) {pi : Partition}
    (htot : ∀ x, x < w.graph.length → ∃ c, pi.classOf x = .ok c) :
    ∀ (bs : List (List ℕ)) (relno part : List ℕ), relno.length = w.graph.length →
    part.length = w.graph.length →
    (∀ cell ∈ bs, cell.Nodup ∧ ∃ k, ∀ x, x ∈ cell ↔ x < w.graph.length ∧ pi.classOf x = .ok k) →
    ∃ part', WGraph.cellsLoop nd w pi bs relno part = .ok (part', bs.map (cellGraph w)) ∧
      part'.length = part.length ∧
      ∀ v : ℕ, (∀ cell ∈ bs, v ∈ cell → ∃ k, part'[v]? = some k ∧ pi.classOf v = .ok k) ∧
        ((∀ cell ∈ bs, v ∉ cell) → part'[v]? = part[v]?) := by
  intro bs
  induction bs with
  | nil => intro relno part _ _ _; exact ⟨part, rfl, rfl, fun v => ⟨fun c hc => by simp at hc, fun _ => rfl⟩⟩
  | cons cell bs ih =>
    intro relno part hr hp h
    obtain ⟨hnd, k, hk⟩ := h cell (by simp)
    obtain ⟨r', a1, a2, a3, a4⟩ := setRel_spec cell 0 relno hnd (fun v hv => by rw [hr]; exact ((hk v).1 hv).1)
    obtain ⟨p', b1, b2, b3⟩ := cellRows_spec hw htot k hk (relno := r')
      (fun v hv => by rw [a4 v hv, Nat.zero_add]) cell part (fun _ h => h) hp
    obtain ⟨p2, c1, c2, c3⟩ := ih r' p' (by omega) (by omega) (fun c hc => h c (by simp [hc]))
    refine ⟨p2, ?_, by omega, fun v => ⟨fun c hc hv => ?_, fun hv => ?_⟩⟩
    · rw [WGraph.cellsLoop, a1, Res.ok_bind, b1, Res.ok_bind]
      dsimp only
      rw [make_cell hw nd cell, Res.ok_bind, c1, Res.ok_bind]
      rfl
    · by_cases hex : ∃ c' ∈ bs, v ∈ c'
      · obtain ⟨c', hc', hv'⟩ := hex
        exact (c3 v).1 c' hc' hv'
      · have hv2 : v ∈ cell := by
          rcases List.mem_cons.1 hc with rfl | hc
          · exact hv
          · exact absurd ⟨c, hc, hv⟩ hex
        refine ⟨k, ?_, ((hk v).1 hv2).2⟩
        rw [(c3 v).2 (fun c' hc' hv' => hex ⟨c', hc', hv'⟩), b3, if_pos hv2]
    · rw [(c3 v).2 (fun c' hc' => hv c' (by simp [hc'])), b3, if_neg (hv cell (by simp))]

theorem onto_of_cells {g : Graph.Edges} {pi : Partition} (h : Graph.IsCells g pi) :
    Part.Onto g.length pi :=
  ⟨h.size, h.total, fun c hc => by obtain ⟨x, _, _, h2⟩ := h.reps c hc; exact ⟨x, h2⟩⟩

/-- both functions that find cells, in terms of a partition into strong components -/
theorem decompose_spec {w : WGraph} (hw : w.WF) (nd : Bool) :
    ∃ (g : Graph.Edges) (pi : Partition) (h : Graph.Edges) (part : List ℕ),
      Decomposed.make nd w = .ok ⟨(Part.blocks pi w.graph.length).map (cellGraph w), part,
        Part.blocks pi w.graph.length, h⟩ ∧
      (∀ x y, Edge g x y ↔ w.Arrow x y) ∧ g.length = w.graph.length ∧ Graph.IsCells g pi ∧
      part.length = w.graph.length ∧
      (∀ v, v < w.graph.length → ∃ k, part[v]? = some k ∧ pi.classOf v = .ok k) ∧
      h.length = pi.classCount ∧
      (∀ (c : ℕ) (row : List ℕ), h[c]? = some row → row.Pairwise (· < ·)) ∧
      ∀ c d, Edge h c d ↔ c ≠ d ∧ ∃ x y, Edge g x y ∧ pi.classOf x = .ok c ∧ pi.classOf y = .ok d := by
  obtain ⟨g, h1, h2, h3, _, h5⟩ := oriented_spec hw
  obtain ⟨pi, gr, k1, k2, k3, k4⟩ := Graph.C32_cells nd g h3 true
  obtain ⟨h, rfl⟩ := Option.isSome_iff_exists.1 k3
  obtain ⟨j1, j2, j3⟩ := k4 h rfl
  have hon : Part.Onto w.graph.length pi := by rw [← h2]; exact onto_of_cells k2
  have htr : Part.traverse pi = .ok (Part.blocks pi w.graph.length) := Part.C27_iterator_any hon
  have htot : ∀ x, x < w.graph.length → ∃ c, pi.classOf x = .ok c :=
    fun x hx => by obtain ⟨c, hc, _⟩ := hon.total x hx; exact ⟨c, hc⟩
  obtain ⟨part, m1, m2, m3⟩ := cellsLoop_spec hw nd htot (Part.blocks pi w.graph.length)
    (List.replicate w.graph.length 0) (List.replicate w.graph.length 0) (by simp) (by simp) (by
      intro cell hc
      obtain ⟨c, _, rfl⟩ := List.mem_map.1 hc
      exact ⟨List.nodup_range.filter _, c, fun x => Part.mem_members⟩)
  refine ⟨g, pi, h, part, ?_, h5, h2, k2, by simpa using m2, ?_, j1, j2, j3⟩
  · rw [Decomposed.make, h1, Res.ok_bind, k1, Res.ok_bind]
    dsimp only
    rw [htr, Res.ok_bind, m1, Res.ok_bind]
    rfl
  · intro v hv
    obtain ⟨c, hc, hcc⟩ := hon.total v hv
    exact (m3 v).1 (Part.members pi w.graph.length c) (List.mem_map_of_mem (List.mem_range.2 hcc))
      (Part.mem_members.2 ⟨hv, hc⟩)

theorem cells_spec {w : WGraph} (hw : w.WF) (nd : Bool) :
    ∃ (g : Graph.Edges) (pi : Partition),
      WGraph.cells nd w = .ok ((Part.blocks pi w.graph.length).map (cellGraph w)) ∧
      (∀ x y, Edge g x y ↔ w.Arrow x y) ∧ g.length = w.graph.length ∧ Graph.IsCells g pi := by
  obtain ⟨g, h1, h2, h3, _, h5⟩ := oriented_spec hw
  obtain ⟨pi, gr, k1, k2, k3, k4⟩ := Graph.C32_cells nd g h3 false
  have hon : Part.Onto w.graph.length pi := by rw [← h2]; exact onto_of_cells k2
  have htr : Part.traverse pi = .ok (Part.blocks pi w.graph.length) := Part.C27_iterator_any hon
  have htot : ∀ x, x < w.graph.length → ∃ c, pi.classOf x = .ok c :=
    fun x hx => by obtain ⟨c, hc, _⟩ := hon.total x hx; exact ⟨c, hc⟩
  obtain ⟨part, m1, m2, m3⟩ := cellsLoop_spec hw nd htot (Part.blocks pi w.graph.length)
    (List.replicate w.graph.length 0) (List.replicate w.graph.length 0) (by simp) (by simp) (by
      intro cell hc
      obtain ⟨c, _, rfl⟩ := List.mem_map.1 hc
      exact ⟨List.nodup_range.filter _, c, fun x => Part.mem_members⟩)
  refine ⟨g, pi, ?_, h5, h2, k2⟩
  rw [WGraph.cells, h1, Res.ok_bind, k1, Res.ok_bind]
  dsimp only
  rw [htr, Res.ok_bind, m1, Res.ok_bind]

end Verif.KL
