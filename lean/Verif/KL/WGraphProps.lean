import Verif.KL.Cells
import Verif.KL.Props

/-!
# W-graphs (C62) and cells (C63)
-/

set_option linter.unusedSectionVars false

namespace Verif.KL

open Polynomial

section Block
variable {B : Type} [Fintype B] [DecidableEq B]
variable {bt : Block} {b : Blk B} {D : Mod B → Mod B} {P : B → B → ℕ[X]} {el : ℕ → B} {M : ℕ}

theorem complete_mu (hc : Ctx bt b D P el M) {nd : Bool} {limits : List ℕ} {t : Table}
    (h : fills nd M bt limits (Table.new bt) = .ok t) (hf : t.holes = []) :
    ∀ y, y < bt.size → ∃ l, t.mu[y]? = some l ∧ MuList bt b P el y l := by
  rcases fills_ok hc nd limits (Table.new bt) TableOK.new with ⟨t', h1, h2, h3⟩ | ⟨h1, h2⟩
  · rw [h] at h1; cases h1
    intro y hy
    obtain ⟨l, g1, g2⟩ := (h2.filled y hy (by rw [hf]; simp)).mu
    exact ⟨l, g1, h3.2 MuSorted.new y hy (by rw [hf]; simp) l g1, g2.2⟩
  · rw [h] at h1; cases h1

/-- the edges of the finished graph, in terms of both values of mu -/
theorem edges_mem {x : ℕ} (hx : x < bt.size) {l : List (ℕ × ℕ)}
    (hl : EdgesUpTo bt b P el bt.size x l) (y c : ℕ) : (y, c) ∈ l ↔
      y < bt.size ∧ c ≠ 0 ∧ c = mu b P (el x) (el y) + mu b P (el y) (el x) := by
  rw [hl.2 y c]
  constructor
  · rintro ⟨g1, g2, ⟨g3, g4⟩ | ⟨g3, g4⟩⟩
    · refine ⟨g1, g2, ?_⟩
      have := mu_ne b P (by rw [← g4]; exact g2 : mu b P (el y) (el x) ≠ 0)
      rw [mu_zero (b := b) (P := P) (z := el x) (by omega), g4, Nat.zero_add]
    · refine ⟨g1, g2, ?_⟩
      have := mu_ne b P (by rw [← g4]; exact g2 : mu b P (el x) (el y) ≠ 0)
      rw [mu_zero (b := b) (P := P) (z := el y) (by omega), g4, Nat.add_zero]
  · rintro ⟨g1, g2, g3⟩
    refine ⟨g1, g2, ?_⟩
    by_cases h0 : mu b P (el y) (el x) = 0
    · exact .inr ⟨g1, by rw [g3, h0, Nat.add_zero]⟩
    · have := mu_ne b P h0
      rw [mu_zero (b := b) (P := P) (z := el x) (by omega), Nat.zero_add] at g3
      exact .inl ⟨hx, g3⟩

/-- **C62**: the W-graph made from a complete table: vertices are the block elements, labelled by
their tau invariants; `x` and `y` are joined, in both directions, if `mu(x,y)` or `mu(y,x)` is not
zero, and the edge is labelled by it (converted to 16 bits); edge lists are in increasing order. -/
theorem C62_wgraph (hc : Ctx bt b D P el M) (nd : Bool) {limits : List ℕ} {t : Table}
    (h : fills nd M bt limits (Table.new bt) = .ok t) (hf : t.holes = []) :
    ∃ w, wGraph nd bt t = .ok w ∧ w.WF ∧ w.rank = b.rank ∧ w.graph.length = bt.size ∧
      (∀ y, y < bt.size → ∀ s, s ∈ w.desc.getD y [] ↔
        s < b.rank ∧ (b.st s (el y)).isDescent = true) ∧
      (∀ x, x < bt.size → (w.graph.getD x []).Pairwise (· < ·)) ∧
      ∀ x, x < bt.size → ∀ y c, (y, c) ∈ w.labelled x ↔ y < bt.size ∧
        mu b P (el x) (el y) + mu b P (el y) (el x) ≠ 0 ∧
        c = (mu b P (el x) (el y) + mu b P (el y) (el x)) % 65536 := by
  obtain ⟨w, h1, h2, h3, h4, h5, h6, h7, h8⟩ := wGraph_spec (P := P) hc.rep nd (complete_mu hc h hf)
  have hmem : ∀ x, x < bt.size → ∀ y c, (y, c) ∈ w.labelled x ↔ y < bt.size ∧
        mu b P (el x) (el y) + mu b P (el y) (el x) ≠ 0 ∧
        c = (mu b P (el x) (el y) + mu b P (el y) (el x)) % 65536 := by
    intro x hx y c
    obtain ⟨l, g1, g2, g3⟩ := h8 x hx
    rw [g2, List.mem_map]
    constructor
    · rintro ⟨⟨u, d⟩, hu, e⟩
      obtain ⟨k1, k2, k3⟩ := (edges_mem hx g1 u d).1 hu
      injection e with e1 e2
      simp only at e1 e2
      subst e1
      exact ⟨k1, by rw [← k3]; exact k2, by rw [← e2, k3]⟩
    · rintro ⟨k1, k2, k3⟩
      exact ⟨(y, mu b P (el x) (el y) + mu b P (el y) (el x)),
        (edges_mem hx g1 _ _).2 ⟨k1, k2, rfl⟩, by rw [k3]⟩
  refine ⟨w, h1, ⟨?_, by rw [h4, h3], by rw [h5]; simp [h3], ?_, ?_⟩, by rw [h2, hc.rep.rank], h3,
    ?_, h7, hmem⟩
  · intro x row hx y hy
    have hxl : x < bt.size := by
      rw [← h3]; exact (List.getElem?_eq_some_iff.1 hx).1
    obtain ⟨l, g1, g2, g3⟩ := h8 x hxl
    rw [List.getD_eq_getElem?_getD, hx] at g3
    simp only [Option.getD_some] at g3
    rw [g3, List.mem_map] at hy
    obtain ⟨⟨u, c⟩, hu, rfl⟩ := hy
    rw [h3]
    exact ((edges_mem hxl g1 u c).1 hu).1
  · intro x hx; rw [h3] at hx; exact (h6 x hx).symm
  · intro row hrow c hcr
    obtain ⟨x, hx⟩ := List.getElem?_of_mem hrow
    have hxl : x < bt.size := by
      rw [← h4]; exact (List.getElem?_eq_some_iff.1 hx).1
    have hg : w.coef.getD x [] = row := by rw [List.getD_eq_getElem?_getD, hx]; rfl
    obtain ⟨l, g1, g2, g3⟩ := h8 x hxl
    have : row = (w.labelled x).map Prod.snd := by
      rw [WGraph.labelled, List.map_snd_zip, hg]
      rw [h6 x hxl]
    rw [this, g2, List.map_map, List.mem_map] at hcr
    obtain ⟨p, _, rfl⟩ := hcr
    exact Nat.mod_lt _ (by decide)
  · intro y hy s
    rw [h5, List.getD_eq_getElem?_getD, List.getElem?_map, List.getElem?_range hy]
    exact mem_descentSet hc.rep hy

/-- **C62**: every edge occurs in both directions with the same coefficient -/
theorem C62_symmetric (hc : Ctx bt b D P el M) (nd : Bool) {limits : List ℕ} {t : Table}
    (h : fills nd M bt limits (Table.new bt) = .ok t) (hf : t.holes = []) {w : WGraph}
    (hw : wGraph nd bt t = .ok w) {x y c : ℕ} (hx : x < bt.size) (hy : y < bt.size) :
    (y, c) ∈ w.labelled x ↔ (x, c) ∈ w.labelled y := by
  obtain ⟨w', h1, _, _, _, _, _, h8⟩ := C62_wgraph hc nd h hf
  rw [hw] at h1; cases h1
  rw [h8 x hx, h8 y hy, Nat.add_comm (mu b P (el y) (el x))]
  exact ⟨fun ⟨_, h2⟩ => ⟨hx, h2⟩, fun ⟨_, h2⟩ => ⟨hy, h2⟩⟩

/-- **C62**: the W-graph of a complete block describes the Hecke algebra module in the basis of the
`C_y`, if no mu exceeds 16 bits: `T_s C_y = q C_y` if `s` is in the label of `y`, and otherwise
`T_s C_y = - C_y + Σ mu q^{(l(y)-l(z)+1)/2} C_z`, over the edges from `y` to vertices `z` that have
`s` in their label. -/
theorem C62_action (hc : Ctx bt b D P el M) (nd : Bool) {limits : List ℕ} {t : Table}
    (h : fills nd M bt limits (Table.new bt) = .ok t) (hf : t.holes = [])
    (hfull : ∀ z : B, ∃ j, j < bt.size ∧ el j = z) (h16 : ∀ x y, mu b P x y < 65536) {w : WGraph}
    (hw : wGraph nd bt t = .ok w) {s y : ℕ} (hs : s < w.rank) (hy : y < bt.size) :
    b.T s (cvec P (el y)) =
      if s ∈ w.desc.getD y [] then q • cvec P (el y)
      else - cvec P (el y) + (((w.labelled y).filter (fun p => decide (s ∈ w.desc.getD p.1 []))).map
        (fun p => ((p.2 : L) * LaurentPolynomial.T (((b.len (el y) : ℤ) - b.len (el p.1) + 1) / 2)) •
          cvec P (el p.1))).sum := by
  obtain ⟨w', h1, h2, h3, h4, h5, h6, h7, h8⟩ :=
    wGraph_spec (P := P) hc.rep nd (complete_mu hc h hf)
  rw [hw] at h1; cases h1
  have hs' : s < b.rank := by rw [← hc.rep.rank, ← h2]; exact hs
  have hdesc : ∀ z, z < bt.size → (s ∈ w.desc.getD z [] ↔ (b.st s (el z)).isDescent = true) := by
    intro z hz
    rw [h5, List.getD_eq_getElem?_getD, List.getElem?_map, List.getElem?_range hz]
    have := mem_descentSet hc.rep hz (s := s)
    simp only [Option.map_some, Option.getD_some]
    rw [this]; exact ⟨fun g => g.2, fun g => ⟨hs', g⟩⟩
  by_cases hd : s ∈ w.desc.getD y []
  · rw [if_pos hd]
    exact hc.data.klv.plus hc.data.wf hc.data.dual hs' ((hdesc y hy).1 hd)
  · rw [if_neg hd]
    obtain ⟨l, g1, g2, g3⟩ := h8 y hy
    have hl : w.labelled y = l := by
      rw [g2]
      conv_rhs => rw [← List.map_id l]
      apply List.map_congr_left
      rintro ⟨u, c⟩ hu
      obtain ⟨_, _, ⟨_, k3⟩ | ⟨_, k3⟩⟩ := (g1.2 u c).1 hu
      · rw [Nat.mod_eq_of_lt (by rw [k3]; exact h16 _ _)]; rfl
      · rw [Nat.mod_eq_of_lt (by rw [k3]; exact h16 _ _)]; rfl
    rw [hl]
    have hyd : (b.st s (el y)).isDescent = false := by
      cases he : (b.st s (el y)).isDescent with
      | false => rfl
      | true => exact absurd ((hdesc y hy).2 he) hd
    exact edges_action hc.data hc.rep hfull hs' hy hyd g1 (fun z => w.desc.getD z []) hdesc

end Block

/-! ### Cells -/

/-- `c` is the W-graph induced on the vertices `ids`: the vertex `i` of `c` has the label of `ids[i]`,
and its edges are those from `ids[i]` to members of `ids`, in the same order with the same
coefficients -/
structure IsCell (w : WGraph) (ids : List ℕ) (c : WGraph) : Prop where
  rank : c.rank = w.rank
  size : c.graph.length = ids.length
  wf : c.WF
  desc : ∀ (i v : ℕ), ids[i]? = some v → c.desc[i]? = w.desc[v]?
  edges : ∀ (i v : ℕ), ids[i]? = some v →
    (c.labelled i).map (fun p => (ids.getD p.1 0, p.2)) =
      (w.labelled v).filter (fun p => decide (p.1 ∈ ids))

/-- `ids` lists the vertices of the cells: increasing nonempty lists that contain each vertex once,
with `x` and `y` in the same one if there are paths both ways, along the edges that do not lead to
a label containing that of their origin.  Such edges never lead to a later cell. -/
structure AreCells (w : WGraph) (ids : List (List ℕ)) : Prop where
  sorted : ∀ c ∈ ids, c ≠ [] ∧ c.Pairwise (· < ·)
  once : ids.flatten.Perm (List.range w.graph.length)
  same : ∀ x y, x < w.graph.length → y < w.graph.length → ((∃ c ∈ ids, x ∈ c ∧ y ∈ c) ↔
    Relation.ReflTransGen w.Arrow x y ∧ Relation.ReflTransGen w.Arrow y x)
  order : ∀ x y (i j : ℕ) c d, w.Arrow x y → ids[i]? = some c → x ∈ c → ids[j]? = some d →
    y ∈ d → j ≤ i

theorem isCell_cellGraph {w : WGraph} (hw : w.WF) {cell : List ℕ}
    (hlt : ∀ v ∈ cell, v < w.graph.length) : IsCell w cell (cellGraph w cell) := by
  have hget : ∀ (f : ℕ → List ℕ) (i : ℕ), (cell.map f).getD i [] = (cell[i]?.map f).getD [] := by
    intro f i; rw [List.getD_eq_getElem?_getD, List.getElem?_map]
  have hidx : ∀ y, ∀ p ∈ cellEdges w cell y, p.1 < cell.length ∧ p.2 < 65536 := by
    intro y p hp
    unfold cellEdges at hp
    rw [List.mem_map] at hp
    obtain ⟨p', hp', rfl⟩ := hp
    rw [List.mem_filter] at hp'
    exact ⟨List.idxOf_lt_length_iff.2 (by simpa using hp'.2), (labelled_small hw hp'.1).1⟩
  refine ⟨rfl, by simp [cellGraph], ⟨?_, by simp [cellGraph], by simp [cellGraph], ?_, ?_⟩, ?_, ?_⟩
  · intro x row hx y hy
    simp only [cellGraph, List.length_map] at hx ⊢
    rw [List.getElem?_map] at hx
    cases hv : cell[x]? with
    | none => rw [hv] at hx; simp at hx
    | some v =>
      rw [hv] at hx
      simp only [Option.map_some, Option.some.injEq] at hx
      rw [← hx, List.mem_map] at hy
      obtain ⟨p, hp, rfl⟩ := hy
      exact (hidx v p hp).1
  · intro x _
    simp only [cellGraph]
    rw [hget, hget]
    cases cell[x]? <;> simp
  · intro row hrow c hcr
    simp only [cellGraph, List.mem_map] at hrow
    obtain ⟨v, _, rfl⟩ := hrow
    rw [List.mem_map] at hcr
    obtain ⟨p, hp, rfl⟩ := hcr
    exact (hidx v p hp).2
  · intro i v hi
    simp only [cellGraph]
    have hv : v < w.desc.length := by rw [hw.desc]; exact hlt v (List.mem_of_getElem? hi)
    rw [List.getElem?_map, hi, Option.map_some, List.getD_eq_getElem _ _ hv,
      List.getElem?_eq_getElem hv]
  · intro i v hi
    have hl : (cellGraph w cell).labelled i = cellEdges w cell v := by
      unfold WGraph.labelled cellGraph
      simp only
      rw [hget, hget, hi]
      simp only [Option.map_some, Option.getD_some]
      rw [zip_map_map]
      simp
    rw [hl, cellEdges, List.map_map]
    conv_rhs => rw [← List.map_id (List.filter _ _)]
    apply List.map_congr_left
    intro p hp
    rw [List.mem_filter] at hp
    have hm : p.1 ∈ cell := by simpa using hp.2
    have : cell.getD (cell.idxOf p.1) 0 = p.1 := by
      rw [List.getD_eq_getElem _ _ (List.idxOf_lt_length_iff.2 hm), List.getElem_idxOf]
    simp only [Function.comp, id]
    rw [this]

theorem areCells_blocks {w : WGraph} {g : Graph.Edges} {pi : Part.Partition}
    (hE : ∀ x y, Graph.Edge g x y ↔ w.Arrow x y) (hl : g.length = w.graph.length)
    (h : Graph.IsCells g pi) : AreCells w (Part.blocks pi w.graph.length) := by
  have hon : Part.Onto w.graph.length pi := by rw [← hl]; exact onto_of_cells h
  have hEE : Graph.Edge g = w.Arrow := by funext x y; exact propext (hE x y)
  have hblk : ∀ (i : ℕ) (c : List ℕ), (Part.blocks pi w.graph.length)[i]? = some c →
      i < pi.classCount ∧ c = Part.members pi w.graph.length i := by
    intro i c hi
    rw [Part.blocks, List.getElem?_map] at hi
    cases hr : (List.range pi.classCount)[i]? with
    | none => rw [hr] at hi; simp at hi
    | some j =>
      rw [hr] at hi
      obtain ⟨h1, h2⟩ := List.getElem?_eq_some_iff.1 hr
      rw [List.getElem_range] at h2
      subst h2
      exact ⟨by simpa using h1, by simpa using hi.symm⟩
  refine ⟨?_, ?_, ?_, ?_⟩
  · intro c hc
    obtain ⟨k, hk, rfl⟩ := List.mem_map.1 hc
    refine ⟨?_, List.Pairwise.filter _ List.pairwise_lt_range⟩
    obtain ⟨j, hj⟩ := hon.inhab k (List.mem_range.1 hk)
    intro e
    have : j ∈ Part.members pi w.graph.length k :=
      Part.mem_members.2 ⟨by rw [← hon.size]; exact Part.lt_of_get? (Part.classOf_iff.1 hj), hj⟩
    rw [e] at this; cases this
  · rw [← Part.sort_eq hon]; exact List.mergeSort_perm _ _
  · intro x y hx hy
    have hs := h.same x (by omega) y (by omega)
    unfold Graph.Reach at hs
    rw [hEE] at hs
    rw [← hs]
    constructor
    · rintro ⟨c, hc, h1, h2⟩
      obtain ⟨k, _, rfl⟩ := List.mem_map.1 hc
      rw [(Part.mem_members.1 h1).2, (Part.mem_members.1 h2).2]
    · intro e
      obtain ⟨k, h1, h2⟩ := hon.total x hx
      exact ⟨_, List.mem_map_of_mem (List.mem_range.2 h2), Part.mem_members.2 ⟨hx, h1⟩,
        Part.mem_members.2 ⟨hy, by rw [← e, h1]⟩⟩
  · intro x y i j c d ha hi hx hj hy
    obtain ⟨_, rfl⟩ := hblk i c hi
    obtain ⟨_, rfl⟩ := hblk j d hj
    exact h.order x y i j ((hE x y).2 ha) (Part.mem_members.1 hx).2 (Part.mem_members.1 hy).2

/-- **C63**: `cells` gives the W-graphs of the strong components -/
theorem C63_cells {w : WGraph} (hw : w.WF) (nd : Bool) :
    ∃ cs ids, WGraph.cells nd w = .ok cs ∧ AreCells w ids ∧ List.Forall₂ (IsCell w) ids cs := by
  obtain ⟨g, pi, h1, h2, h3, h4⟩ := cells_spec hw nd
  refine ⟨_, _, h1, areCells_blocks h2 h3 h4, ?_⟩
  rw [List.forall₂_map_right_iff, List.forall₂_same]
  intro cell hc
  obtain ⟨k, _, rfl⟩ := List.mem_map.1 hc
  exact isCell_cellGraph hw (fun v hv => (Part.mem_members.1 hv).1)

/-- **C63**: a `DecomposedWGraph` contains the cells with their vertices, the number of the cell of
each vertex, and the graph on the cells that is induced by the directed edges, with edge lists in
increasing order and without loops -/
theorem C63_decomposed {w : WGraph} (hw : w.WF) (nd : Bool) :
    ∃ d, Decomposed.make nd w = .ok d ∧ AreCells w d.id ∧ List.Forall₂ (IsCell w) d.id d.cell ∧
      d.part.length = w.graph.length ∧
      (∀ k x : ℕ, d.part[x]? = some k ↔ ∃ c, d.id[k]? = some c ∧ x ∈ c) ∧
      d.induced.length = d.id.length ∧
      (∀ (k : ℕ) (row : List ℕ), d.induced[k]? = some row → row.Pairwise (· < ·)) ∧
      ∀ k l, (∃ row, d.induced[k]? = some row ∧ l ∈ row) ↔
        k ≠ l ∧ ∃ x y, w.Arrow x y ∧ d.part[x]? = some k ∧ d.part[y]? = some l := by
  obtain ⟨g, pi, h, part, h1, h2, h3, h4, h5, h6, h7, h8, h9⟩ := decompose_spec hw nd
  have hon : Part.Onto w.graph.length pi := by rw [← h3]; exact onto_of_cells h4
  have hpart : ∀ x k, part[x]? = some k ↔ x < w.graph.length ∧ pi.classOf x = .ok k := by
    intro x k
    constructor
    · intro hx
      have hxl : x < w.graph.length := by rw [← h5]; exact (List.getElem?_eq_some_iff.1 hx).1
      obtain ⟨k', a1, a2⟩ := h6 x hxl
      rw [hx] at a1; cases a1
      exact ⟨hxl, a2⟩
    · rintro ⟨hx, hk⟩
      obtain ⟨k', a1, a2⟩ := h6 x hx
      rw [hk] at a2; cases a2
      exact a1
  have hcls : ∀ x k, pi.classOf x = .ok k → x < w.graph.length := by
    intro x k hx
    rw [← hon.size]; exact Part.lt_of_get? (Part.classOf_iff.1 hx)
  refine ⟨_, h1, areCells_blocks h2 h3 h4, ?_, h5, ?_, by simp [Part.blocks, h7], h8, ?_⟩
  · simp only
    rw [List.forall₂_map_right_iff, List.forall₂_same]
    intro cell hc
    obtain ⟨k, _, rfl⟩ := List.mem_map.1 hc
    exact isCell_cellGraph hw (fun v hv => (Part.mem_members.1 hv).1)
  · intro k x
    simp only
    rw [hpart]
    constructor
    · rintro ⟨hx, hk⟩
      obtain ⟨k', a1, a2⟩ := hon.total x hx
      rw [hk] at a1; cases a1
      exact ⟨Part.members pi w.graph.length k, by
        rw [Part.blocks, List.getElem?_map, List.getElem?_range a2]; rfl, Part.mem_members.2 ⟨hx, hk⟩⟩
    · rintro ⟨c, hc, hx⟩
      rw [Part.blocks, List.getElem?_map] at hc
      cases hr : (List.range pi.classCount)[k]? with
      | none => rw [hr] at hc; simp at hc
      | some j =>
        rw [hr] at hc
        obtain ⟨b1, b2⟩ := List.getElem?_eq_some_iff.1 hr
        rw [List.getElem_range] at b2
        subst b2
        simp only [Option.map_some, Option.some.injEq] at hc
        subst hc
        exact Part.mem_members.1 hx
  · intro k l
    have := h9 k l
    unfold Graph.Edge at this
    simp only
    rw [this]
    constructor
    · rintro ⟨a1, x, y, a2, a3, a4⟩
      exact ⟨a1, x, y, (h2 x y).1 a2, (hpart x k).2 ⟨hcls x k a3, a3⟩, (hpart y l).2 ⟨hcls y l a4, a4⟩⟩
    · rintro ⟨a1, x, y, a2, a3, a4⟩
      exact ⟨a1, x, y, (h2 x y).2 a2, ((hpart x k).1 a3).2, ((hpart y l).1 a4).2⟩

/-! ### Cases that meet the hypotheses -/

/-- the W-graph of the block of `SL(3,R)`: the table can be completed, all elements have a number,
and no mu exceeds 16 bits -/
example : (∃ t, fills false (2 ^ 32) Example.bt [0] (Table.new Example.bt) = .ok t ∧ t.holes = []) ∧
    (∀ z : Fin 6, ∃ j, j < Example.bt.size ∧ Example.el j = z) ∧
    ∀ x y, mu Example.b Example.P x y < 65536 := by
  refine ⟨?_, by decide, fun x y => ?_⟩
  · rcases C60_fill Example.ctx false [0] with ⟨t, h1, h2, h3⟩ | ⟨_, x, y, i, h⟩
    · refine ⟨t, h1, ?_⟩
      rw [List.eq_nil_iff_forall_not_mem]
      intro y hy
      rw [h2] at hy
      have := hy.2 0 (by simp)
      rw [if_pos rfl] at this
      omega
    · have := Example.small x y i; omega
  · unfold mu Example.P
    by_cases h : Example.le x y = true
    · rw [if_pos h]
      by_cases h' : Example.b.len x < Example.b.len y ∧ (Example.b.len y - Example.b.len x) % 2 = 1
      · rw [if_pos h', Polynomial.coeff_one]
        split <;> decide
      · rw [if_neg h']; decide
    · rw [if_neg h]; simp

/-- a W-graph with five vertices, whose cells have the vertices 0, then 1 and 3, then 2 and 4 -/
def exampleW : WGraph :=
  ⟨2, [[1], [0, 2, 3], [1, 4], [1, 4], [2, 3]], [[1], [1, 2, 1], [2, 1], [1, 3], [1, 3]],
    [[], [0], [0], [1], [1]]⟩

example : exampleW.WF := by
  refine ⟨?_, rfl, rfl, ?_, by decide⟩
  · intro x row hx y hy
    rcases x with _ | _ | _ | _ | _ | x <;> simp [exampleW] at hx <;> subst hx <;>
      simp at hy <;> simp [exampleW] <;> omega
  · intro x hx
    have : x < 5 := hx
    revert x
    decide

end Verif.KL
