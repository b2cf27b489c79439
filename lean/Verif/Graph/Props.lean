import Verif.Graph.Loop
/-
C32: `cells` finds the strong components, in an order such that edges never lead to a higher class, and the induced
graph; `reverseEdges` and `reverseNumbering`.
-/
namespace Verif.Graph
open Verif Relation

variable {n : Nat} {G : Nat → List Nat}

/-- the edge lists as a function -/
def adj (g : Edges) (v : Nat) : List Nat := g.getD v []

theorem eq_tab_adj (g : Edges) : g = tab g.length (adj g) := by
  apply List.ext_getElem?
  intro i
  rw [tab_get?]
  by_cases h : i < g.length
  · rw [if_pos h, adj, List.getD_eq_getElem?_getD, List.getElem?_eq_getElem h]; rfl
  · rw [if_neg h, List.getElem?_eq_none (by omega)]

theorem edge_iff {g : Edges} {x y : Nat} : Edge g x y ↔ Arc g.length (adj g) x y := by
  unfold Edge Arc adj
  constructor
  · rintro ⟨e, he, hy⟩
    have hx := (List.getElem?_eq_some_iff.1 he).1
    exact ⟨hx, by rw [List.getD_eq_getElem?_getD, he]; exact hy⟩
  · rintro ⟨hx, hy⟩
    refine ⟨g[x], List.getElem?_eq_getElem hx, ?_⟩
    rwa [List.getD_eq_getElem?_getD, List.getElem?_eq_getElem hx] at hy

theorem edge_eq (g : Edges) : Edge g = Arc g.length (adj g) := by
  funext x y
  exact propext edge_iff

/-- all that holds between passes of the loop over `x0` -/
structure CInv (n : Nat) (G : Nat → List Nat) (x0 : Nat) (rk cf : Nat → Nat) (rep : List Nat) (gr : Option Edges) : Prop where
  good : ∀ v < n, ∀ y ∈ G v, y < n
  ranks : ∀ v < n, rk v = 0 ∨ rk v = n + 1
  done : ∀ v < n, v < x0 → rk v = n + 1
  closed : ∀ v < n, rk v = n + 1 → ∀ y ∈ G v, rk y = n + 1
  classes : SInv n G rk cf rep gr

theorem TInv.start {rk cf : Nat → Nat} {rep : List Nat} {gr : Option Edges} {x0 : Nat} (h : CInv n G x0 rk cf rep gr) (hx : x0 < n) (h0 : rk x0 = 0) :
    TInv n G 1 (Function.update (fun _ => ⟨0, 0, 0, 0⟩) 0 ⟨x0, n, 0, 1⟩) (Function.update rk x0 1) 2 [0] := by
  have hA : ∀ j < 1, Function.update (fun _ => (⟨0, 0, 0, 0⟩ : Info)) 0 ⟨x0, n, 0, 1⟩ j = ⟨x0, n, 0, 1⟩ := by
    intro j hj
    rw [show j = 0 by omega, Function.update_self]
  generalize Function.update (fun _ => (⟨0, 0, 0, 0⟩ : Info)) 0 ⟨x0, n, 0, 1⟩ = A at hA
  have hr : Function.update rk x0 1 x0 = 1 := Function.update_self ..
  have hr' : ∀ v, v ≠ x0 → Function.update rk x0 1 v = rk v := fun v hv => Function.update_of_ne hv _ _
  generalize Function.update rk x0 1 = rk' at hr hr'
  refine ⟨h.good, ?_, ?_, ?_, ?_, ?_, ?_, ?_, rfl, ?_, by simp, ?_, ?_, ?_, ?_, ?_, ?_⟩
  · intro j hj; rw [hA j hj]; exact hx
  · intro j hj; rw [hA j hj]; simp only; omega
  · intro i j hij hj; omega
  · intro v hv
    by_cases hvx : v = x0
    · exact .inr (.inr ⟨0, by omega, by rw [hA 0 (by omega), hvx]⟩)
    · rw [hr' v hvx]
      rcases h.ranks v hv with h1 | h1
      · exact .inl h1
      · exact .inr (.inl h1)
  · have : 0 < ((Finset.range n).filter (fun v => rk' v ≠ 0)).card :=
      Finset.card_pos.2 ⟨x0, by rw [Finset.mem_filter, Finset.mem_range]; exact ⟨hx, by omega⟩⟩
    omega
  · intro j hj h0j; omega
  · intro _; rw [hA 0 (by omega)]
  · intro q hq; rw [List.mem_singleton] at hq; omega
  · intro q hq j hqj hj; omega
  · intro j hj; rw [hA j hj]; exact Nat.zero_le _
  · intro j hj e y he; rw [hA j hj] at he; simp at he
  · intro j hj
    exact ⟨j, Nat.le_refl _, by rw [hA j hj]; exact hr.symm, .refl⟩
  · intro j hj hn
    exact absurd (List.mem_singleton.2 (by omega)) hn
  · intro v hv hrv y hy
    have hvx : v ≠ x0 := fun e => by rw [e, hr] at hrv; omega
    rw [hr' v hvx] at hrv
    have h1 := h.closed v hv hrv y hy
    have hyx : y ≠ x0 := fun e => by rw [e, h0] at h1; omega
    rw [hr' y hyx]; exact h1

theorem bound_eq (g : Edges) : bound g = ∑ v ∈ Finset.range g.length, ((adj g v).length + 1) := by
  have key : ∀ (n : Nat) (f : Nat → List Nat), ((tab n f).map List.length).sum = ∑ v ∈ Finset.range n, (f v).length := by
    intro n f
    induction n with
    | zero => rfl
    | succ n ih =>
      rw [Finset.sum_range_succ, ← ih]
      unfold tab
      rw [List.range_succ, List.map_append, List.map_append, List.sum_append]
      simp
  unfold bound
  rw [Finset.sum_add_distrib, ← key, ← eq_tab_adj]
  simp
  omega

theorem cellsLoop_spec (nd : Bool) (g : Edges) : ∀ (m x0 : Nat) (rk cf : Nat → Nat) (count : Nat) (rep : List Nat) (gr : Option Edges),
    x0 + m = g.length → CInv g.length (adj g) x0 rk cf rep gr →
    ∃ rk' cf' count' rep' gr', cellsLoop nd g x0 m ⟨tab g.length rk, [], count, ⟨tab g.length cf, rep⟩, gr⟩ =
        .ok ⟨tab g.length rk', [], count', ⟨tab g.length cf', rep'⟩, gr'⟩ ∧ gr'.isSome = gr.isSome ∧
      CInv g.length (adj g) g.length rk' cf' rep' gr' := by
  intro m
  induction m with
  | zero =>
    intro x0 rk cf count rep gr hm h
    have : x0 = g.length := by omega
    subst this
    exact ⟨rk, cf, count, rep, gr, rfl, rfl, h⟩
  | succ m ih =>
    intro x0 rk cf count rep gr hm h
    have hx : x0 < g.length := by omega
    rw [cellsLoop]
    simp only
    rw [tab_get hx, Res.ok_bind]
    by_cases h0 : rk x0 < g.length + 1
    · have hz : rk x0 = 0 := by rcases h.ranks x0 hx with h1 | h1 <;> omega
      rw [if_pos h0, tab_put hx, Res.ok_bind]
      have hT := TInv.start h hx hz
      have hS : SInv g.length (adj g) (Function.update rk x0 1) cf rep gr := by
        have hS := h.classes
        have e : ∀ v, (Function.update rk x0 1 v = g.length + 1) ↔ rk v = g.length + 1 := by
          intro v
          by_cases hvy : v = x0
          · rw [hvy, Function.update_self, hz]; omega
          · rw [Function.update_of_ne hvy]
        refine ⟨fun v hv hr => hS.clt v hv ((e v).1 hr), fun u hu w hw h1 h2 => hS.same u hu w hw ((e u).1 h1) ((e w).1 h2),
          fun u hu h1 => hS.down u hu ((e u).1 h1), fun d hd => ?_, fun h' hh' => ?_⟩
        · obtain ⟨v, a, b, d⟩ := hS.reps d hd
          exact ⟨v, a, (e v).2 b, d⟩
        · obtain ⟨a, b⟩ := hS.ind h' hh'
          refine ⟨a, fun d row hd => ?_⟩
          simp only [e]
          exact b d row hd
      have hact : (([] : List Info) ++ [⟨x0, g.length, 0, 1⟩]) = tab 1 (Function.update (fun _ => ⟨0, 0, 0, 0⟩) 0 ⟨x0, g.length, 0, 1⟩) := by
        rfl
      rw [hact]
      obtain ⟨rk', count', cf', rep', gr', A', e1, e2, e3, e4, e5⟩ :=
        loop_spec g (eq_tab_adj g) (bound g + 1) 1 _ _ 2 [0] cf rep gr (by
          unfold todo
          rw [bound_eq]
          have hle : (∑ v ∈ (Finset.range g.length).filter (fun v => rk v = 0), ((adj g v).length + 1)) ≤
              ∑ v ∈ Finset.range g.length, ((adj g v).length + 1) := Finset.sum_le_sum_of_subset (Finset.filter_subset _ _)
          rw [sum_fresh hx hz (x := 1) (by omega)] at hle
          simp only [List.map_cons, List.map_nil, List.sum_cons, List.sum_nil, Function.update_self]
          omega) hT hS
      rw [show curOf g.length [0] = 0 from rfl] at e1
      rw [e1, Res.ok_bind, Res.assertIn_bind nd (by rfl), Res.ok_bind]
      have hC : CInv g.length (adj g) (x0 + 1) rk' cf' rep' gr' := by
        have hrk : ∀ v < g.length, rk' v = 0 ∨ rk' v = g.length + 1 := by
          intro v hv
          rcases e3.cover v hv with h1 | h1 | ⟨j, hj, -⟩
          · exact .inl h1
          · exact .inr h1
          · omega
        refine ⟨h.good, hrk, ?_, e3.closed, e4⟩
        intro v hv hvx
        have hne : rk' v ≠ 0 := by
          apply e5 v hv
          by_cases hvx' : v = x0
          · rw [hvx', Function.update_self]; omega
          · rw [Function.update_of_ne hvx', h.done v hv (by omega)]; omega
        rcases hrk v hv with h1 | h1
        · exact absurd h1 hne
        · exact h1
      obtain ⟨a1, a2, a3, a4, a5, b1, b2, b3⟩ := ih (x0 + 1) rk' cf' count' rep' gr' (by omega) hC
      exact ⟨a1, a2, a3, a4, a5, b1, by rw [b2, e2], b3⟩
    · rw [if_neg h0, Res.ok_bind]
      apply ih (x0 + 1) rk cf count rep gr (by omega)
      refine ⟨h.good, h.ranks, fun v hv hvx => ?_, h.closed, h.classes⟩
      by_cases hvx' : v = x0
      · rw [hvx']
        rcases h.ranks x0 hx with h1 | h1 <;> omega
      · exact h.done v hv (by omega)

/-- `P` is a partition of the vertices into strong components: each vertex has a class, each class has a
representative, and two vertices have the same class exactly if there are paths both ways between them.  Classes are
numbered such that an edge never leads to a class with a higher number. -/
structure IsCells (g : Edges) (P : Part.Partition) : Prop where
  size : P.cls.length = g.length
  total : ∀ x < g.length, ∃ c, P.classOf x = .ok c ∧ c < P.classCount
  reps : ∀ c < P.classCount, ∃ x < g.length, P.classRep c = .ok x ∧ P.classOf x = .ok c
  same : ∀ x < g.length, ∀ y < g.length, P.classOf x = P.classOf y ↔ Reach g x y ∧ Reach g y x
  order : ∀ x y c d, Edge g x y → P.classOf x = .ok c → P.classOf y = .ok d → d ≤ c

/-- **C32**: `cells` finds the strong components, ordered such that edges never go up, and never fails.  If requested
the induced graph is made: its vertices are the classes, the edges from `c` lead, in increasing order, to the classes
other than `c` that edges from members of `c` lead to. -/
theorem C32_cells (nd : Bool) (g : Edges) (hg : Proper g) (wantGraph : Bool) :
    ∃ P gr, cells nd g wantGraph = .ok (P, gr) ∧ IsCells g P ∧ gr.isSome = wantGraph ∧
      ∀ h, gr = some h → h.length = P.classCount ∧
        (∀ (c : Nat) (row : List Nat), h[c]? = some row → row.Pairwise (· < ·)) ∧
        ∀ c d, Edge h c d ↔ c ≠ d ∧ ∃ x y, Edge g x y ∧ P.classOf x = .ok c ∧ P.classOf y = .ok d := by
  have hgood : ∀ v < g.length, ∀ y ∈ adj g v, y < g.length := fun v hv y hy => hg v y (edge_iff.2 ⟨hv, hy⟩)
  have hrep : ∀ (m : Nat), List.replicate m 0 = tab m (fun _ => 0) := by
    intro m
    apply List.ext_getElem?
    intro i
    rw [tab_get?, List.getElem?_replicate]
  have hinit : CInv g.length (adj g) 0 (fun _ => 0) (fun _ => 0) [] (if wantGraph then some [] else none) := by
    refine ⟨hgood, fun _ _ => .inl rfl, fun v _ hv => by omega, fun v _ hv => by simp at hv, ?_⟩
    refine ⟨fun v _ hv => by simp at hv, fun u _ w _ hu => by simp at hu, fun u _ hu => by simp at hu, fun d hd => by simp at hd, ?_⟩
    intro h hh
    cases wantGraph with
    | false => simp at hh
    | true => simp at hh; subst hh; simp
  obtain ⟨rk, cf, count, rep, gr, h1, h2, h3⟩ := cellsLoop_spec nd g g.length 0 (fun _ => 0) (fun _ => 0) 0 [] _ (by omega) hinit
  have hset : ∀ v < g.length, rk v = g.length + 1 := fun v hv => h3.done v hv hv
  have hS := h3.classes
  have hcls : ∀ v c, (⟨tab g.length cf, rep⟩ : Part.Partition).classOf v = .ok c ↔ v < g.length ∧ cf v = c := by
    intro v c
    unfold Part.Partition.classOf Vec.get
    simp only
    rw [tab_get?]
    by_cases hv : v < g.length
    · simp [hv]
    · simp [hv]
  have hcls' : ∀ v < g.length, (⟨tab g.length cf, rep⟩ : Part.Partition).classOf v = .ok (cf v) := fun v hv => (hcls v _).2 ⟨hv, rfl⟩
  refine ⟨⟨tab g.length cf, rep⟩, gr, ?_, ⟨tab_length, ?_, ?_, ?_, ?_⟩, ?_, ?_⟩
  · unfold cells Part.Partition.sized
    rw [hrep, h1]
    rfl
  · intro x hx
    exact ⟨cf x, hcls' x hx, hS.clt x hx (hset x hx)⟩
  · intro c hc
    obtain ⟨v, a1, a2, a3, a4⟩ := hS.reps c hc
    exact ⟨v, a1, by unfold Part.Partition.classRep Vec.get; simp only; rw [a3], by rw [hcls' v a1, a4]⟩
  · intro x hx y hy
    rw [hcls' x hx, hcls' y hy]
    unfold Reach
    rw [edge_eq, ← hS.same x hx y hy (hset x hx) (hset y hy)]
    simp
  · intro x y c d he hxc hyd
    obtain ⟨hx, hy⟩ := edge_iff.1 he
    obtain ⟨-, rfl⟩ := (hcls x c).1 hxc
    obtain ⟨-, rfl⟩ := (hcls y d).1 hyd
    exact hS.down x hx (hset x hx) y hy
  · rw [h2]; cases wantGraph <;> rfl
  · intro h hh
    obtain ⟨b1, b2⟩ := hS.ind h hh
    refine ⟨b1, fun c row hc => (b2 c row hc).1, ?_⟩
    intro c d
    constructor
    · rintro ⟨row, hrow, hd⟩
      obtain ⟨a1, u, a2, a3, a4, w, a5, a6⟩ := ((b2 c row hrow).2 d).1 hd
      exact ⟨a1.symm, u, w, edge_iff.2 ⟨a2, a5⟩, by rw [hcls' u a2, a4], by rw [hcls' w (hgood u a2 w a5), a6]⟩
    · rintro ⟨hne, x, y, he, hc, hd⟩
      obtain ⟨hx, hy⟩ := edge_iff.1 he
      obtain ⟨-, rfl⟩ := (hcls x c).1 hc
      obtain ⟨-, rfl⟩ := (hcls y d).1 hd
      have hlt : cf x < h.length := by rw [b1]; exact hS.clt x hx (hset x hx)
      exact ⟨h[cf x], List.getElem?_eq_getElem hlt, ((b2 _ _ (List.getElem?_eq_getElem hlt)).2 _).2
        ⟨hne.symm, x, hx, hset x hx, rfl, y, hy, rfl⟩⟩

/-- consequence: classes are numbered compatibly with reachability -/
theorem C32_cells_order (nd : Bool) (g : Edges) (hg : Proper g) (wantGraph : Bool) (P : Part.Partition) (gr : Option Edges)
    (h : cells nd g wantGraph = .ok (P, gr)) (x y c d : Nat) (hr : Reach g x y) (hx : P.classOf x = .ok c) (hy : P.classOf y = .ok d) :
    d ≤ c := by
  obtain ⟨P', gr', h1, h2, -⟩ := C32_cells nd g hg wantGraph
  rw [h1] at h
  cases h
  induction hr generalizing d with
  | refl => rw [hx] at hy; cases hy; exact Nat.le_refl _
  | @tail b z _ hbz ih =>
    have hb := (edge_iff.1 hbz).1
    obtain ⟨e, he, -⟩ := h2.total b hb
    exact (h2.order b z e d hbz he hy).trans (ih e he)

/-- a graph with two components of more than one vertex, edges between components and a loop -/
example : Proper [[1, 2], [0, 3], [4], [3, 2], [2, 5], []] := by
  rintro x y ⟨e, he, hy⟩
  rcases x with _ | _ | _ | _ | _ | _ | x <;> simp at he <;> subst he <;> simp at hy <;> simp <;> omega

example : cells false [[1, 2], [0, 3], [4], [3, 2], [2, 5], []] true =
    .ok (⟨[3, 3, 1, 2, 1, 0], [5, 2, 3, 0]⟩, some [[], [0], [1], [1, 2]]) := by decide +kernel

/-! ### Reversals -/

theorem pushLoop_spec (x : Nat) : ∀ (e : List Nat) (r : Edges), (∀ y ∈ e, y < r.length) →
    ∃ r', pushLoop x e r = .ok r' ∧ r'.length = r.length ∧
      ∀ (y : Nat) (l : List Nat), r[y]? = some l → r'[y]? = some (l ++ List.replicate (e.count y) x) := by
  intro e
  induction e with
  | nil => intro r _; exact ⟨r, rfl, rfl, fun y l h => by simpa using h⟩
  | cons z e ih =>
    intro r he
    have hz := he z List.mem_cons_self
    obtain ⟨r', h1, h2, h3⟩ := ih (r.set z (r[z] ++ [x])) (fun y hy => by rw [List.length_set]; exact he y (List.mem_cons_of_mem _ hy))
    refine ⟨r', ?_, by rw [h2, List.length_set], ?_⟩
    · rw [pushLoop, Vec.get_ok hz, Res.ok_bind, Vec.put_ok hz, Res.ok_bind, h1]
    · intro y l hy
      by_cases hyz : z = y
      · subst hyz
        rw [List.getElem?_eq_getElem hz] at hy
        cases hy
        rw [h3 z _ (List.getElem?_set_self hz), List.count_cons_self, List.replicate_succ, List.append_assoc]
        rfl
      · rw [h3 y l (by rw [List.getElem?_set_ne hyz]; exact hy), List.count_cons_of_ne hyz]

theorem reverseLoop_spec : ∀ (l : Edges) (x : Nat) (r : Edges), (∀ e ∈ l, ∀ y ∈ e, y < r.length) →
    ∃ r', reverseLoop x l r = .ok r' ∧ r'.length = r.length ∧
      ∀ (y : Nat) (s : List Nat), r[y]? = some s → r'[y]? = some (s ++ (l.zipIdx x).flatMap fun p => List.replicate (p.1.count y) p.2) := by
  intro l
  induction l with
  | nil => intro x r _; exact ⟨r, rfl, rfl, fun y s h => by simpa using h⟩
  | cons e l ih =>
    intro x r hl
    obtain ⟨r1, h1, h2, h3⟩ := pushLoop_spec x e r (hl e List.mem_cons_self)
    obtain ⟨r2, g1, g2, g3⟩ := ih (x + 1) r1 (fun e' he' => by rw [h2]; exact hl e' (List.mem_cons_of_mem _ he'))
    refine ⟨r2, by rw [reverseLoop, h1, Res.ok_bind, g1], by rw [g2, h2], ?_⟩
    intro y s hs
    rw [g3 y _ (h3 y s hs), List.zipIdx_cons, List.flatMap_cons, List.append_assoc]

/-- **C32**: `reverseEdges` gives the opposite graph: there is an edge from `y` to `x` for every edge from `x` to `y`,
and as many; the edge lists become (weakly) increasing -/
theorem C32_reverseEdges (g : Edges) (hg : Proper g) :
    ∃ r, reverseEdges g = .ok r ∧ r.length = g.length ∧ Proper r ∧ (∀ x y, Edge r y x ↔ Edge g x y) ∧
      (∀ (x y : Nat) (e l : List Nat), g[x]? = some e → r[y]? = some l → l.count x = e.count y) ∧
      ∀ (y : Nat) (l : List Nat), r[y]? = some l → l.Pairwise (· ≤ ·) := by
  obtain ⟨r, h1, h2, h3⟩ := reverseLoop_spec g 0 (List.replicate g.length []) (by
    intro e he y hy
    obtain ⟨x, hx, rfl⟩ := List.getElem_of_mem he
    rw [List.length_replicate]
    exact hg x y ⟨_, List.getElem?_eq_getElem hx, hy⟩)
  rw [List.length_replicate] at h2
  have hrow : ∀ (y : Nat) (l : List Nat), r[y]? = some l → l = (g.zipIdx 0).flatMap fun p => List.replicate (p.1.count y) p.2 := by
    intro y l hl
    have hy : y < g.length := by rw [← h2]; exact (List.getElem?_eq_some_iff.1 hl).1
    have := h3 y [] (by rw [List.getElem?_replicate, if_pos hy])
    rw [this] at hl
    simpa using hl.symm
  have hcount : ∀ (y : Nat) (l : Edges) (o x : Nat), ((l.zipIdx o).flatMap fun p => List.replicate (p.1.count y) p.2).count x =
      if h : o ≤ x ∧ x - o < l.length then (l[x - o]'h.2).count y else 0 := by
    intro y l
    induction l with
    | nil => intro o x; simp
    | cons e l ih =>
      intro o x
      rw [List.zipIdx_cons, List.flatMap_cons, List.count_append, ih, List.count_replicate]
      by_cases hox : o = x
      · subst hox
        rw [dif_neg (by omega), dif_pos (by simp)]
        simp
      · by_cases hlt : o < x
        · by_cases hl : x - (o + 1) < l.length
          · rw [dif_pos ⟨by omega, hl⟩, dif_pos ⟨by omega, by rw [List.length_cons]; omega⟩]
            have : x - o = (x - (o + 1)) + 1 := by omega
            simp only [this, List.getElem_cons_succ]
            simp [hox]
          · rw [dif_neg (by omega), dif_neg (by rw [List.length_cons]; omega)]
            simp [hox]
        · rw [dif_neg (by omega), dif_neg (by omega)]
          simp [hox]
  have hcnt : ∀ (x y : Nat) (e l : List Nat), g[x]? = some e → r[y]? = some l → l.count x = e.count y := by
    intro x y e l he hl
    rw [hrow y l hl, hcount y g 0 x]
    obtain ⟨hx, hxe⟩ := List.getElem?_eq_some_iff.1 he
    rw [dif_pos ⟨Nat.zero_le _, by simpa using hx⟩]
    simp only [Nat.sub_zero, hxe]
  have hmem : ∀ (y : Nat) (l : List Nat), r[y]? = some l → ∀ x ∈ l, x < g.length := by
    intro y l hl x hx
    have h0 := List.count_pos_iff.2 hx
    rw [hrow y l hl, hcount y g 0 x] at h0
    by_contra hn
    rw [dif_neg (by omega)] at h0
    omega
  have hedge : ∀ x y, Edge r y x ↔ Edge g x y := by
    intro x y
    constructor
    · rintro ⟨l, hl, hx⟩
      have hxl := hmem y l hl x hx
      refine ⟨g[x], List.getElem?_eq_getElem hxl, ?_⟩
      rw [← List.count_pos_iff, ← hcnt x y _ l (List.getElem?_eq_getElem hxl) hl]
      exact List.count_pos_iff.2 hx
    · rintro ⟨e, he, hy⟩
      have hyl : y < r.length := by rw [h2]; exact hg x y ⟨e, he, hy⟩
      refine ⟨r[y], List.getElem?_eq_getElem hyl, ?_⟩
      rw [← List.count_pos_iff, hcnt x y e _ he (List.getElem?_eq_getElem hyl)]
      exact List.count_pos_iff.2 hy
  refine ⟨r, h1, h2, ?_, hedge, hcnt, ?_⟩
  · rintro y x ⟨l, hl, hx⟩
    rw [h2]; exact hmem y l hl x hx
  · intro y l hl
    rw [hrow y l hl]
    have key : ∀ (l : Edges) (o : Nat), ((l.zipIdx o).flatMap fun p => List.replicate (p.1.count y) p.2).Pairwise (· ≤ ·) ∧
        ∀ x ∈ ((l.zipIdx o).flatMap fun p => List.replicate (p.1.count y) p.2), o ≤ x := by
      intro l
      induction l with
      | nil => intro o; simp
      | cons e l ih =>
        intro o
        obtain ⟨i1, i2⟩ := ih (o + 1)
        rw [List.zipIdx_cons, List.flatMap_cons]
        refine ⟨?_, ?_⟩
        · rw [List.pairwise_append]
          refine ⟨?_, i1, ?_⟩
          · rw [List.pairwise_replicate]; right; exact Nat.le_refl _
          · intro a ha b hb
            rw [List.mem_replicate] at ha
            have := i2 b hb
            omega
        · intro x hx
          rcases List.mem_append.1 hx with hx | hx
          · rw [List.mem_replicate] at hx; omega
          · have := i2 x hx; omega
    exact (key g 0).1

/-- consequence: reversing twice keeps the edges -/
theorem C32_reverseEdges_twice (g : Edges) (hg : Proper g) :
    ∃ r r', reverseEdges g = .ok r ∧ reverseEdges r = .ok r' ∧ ∀ x y, Edge r' x y ↔ Edge g x y := by
  obtain ⟨r, h1, -, h2, h3, -⟩ := C32_reverseEdges g hg
  obtain ⟨r', g1, -, -, g3, -⟩ := C32_reverseEdges r h2
  exact ⟨r, r', h1, g1, fun x y => by rw [g3, h3]⟩

example : reverseEdges [[1, 2], [0, 2, 2], []] = .ok [[1], [0], [0, 1, 1]] := by decide

theorem renumberLoop_spec (last : Nat) : ∀ (l : Edges) (x : Nat) (r : Edges), x + l.length = last + 1 → r.length = last + 1 →
    ∃ r', renumberLoop last x l r = .ok r' ∧ r'.length = r.length ∧
      (∀ (i : Nat) (e : List Nat), l[i]? = some e → r'[last - (x + i)]? = some (e.reverse.map fun y => (last + 4294967296 - y) % 4294967296)) ∧
      ∀ j, last < j + x → r'[j]? = r[j]? := by
  intro l
  induction l with
  | nil => intro x r _ _; exact ⟨r, rfl, rfl, fun i e h => by simp at h, fun _ _ => rfl⟩
  | cons e l ih =>
    intro x r hx hr
    rw [List.length_cons] at hx
    have hput : last - x < r.length := by omega
    obtain ⟨r', h1, h2, h3, h4⟩ := ih (x + 1) (r.set (last - x) (e.reverse.map fun y => (last + 4294967296 - y) % 4294967296)) (by omega)
      (by rw [List.length_set]; exact hr)
    refine ⟨r', by rw [renumberLoop, Vec.put_ok hput, Res.ok_bind, h1], by rw [h2, List.length_set], ?_, ?_⟩
    · intro i e' he'
      match i with
      | 0 =>
        simp only [List.getElem?_cons_zero, Option.some.injEq] at he'
        subst he'
        rw [Nat.add_zero, h4 (last - x) (by omega), List.getElem?_set_self hput]
      | i + 1 =>
        rw [List.getElem?_cons_succ] at he'
        rw [← h3 i e' he']
        congr 2
        omega
    · intro j hj
      rw [h4 j (by omega), List.getElem?_set_ne (by omega)]

/-- **C32**: `reverseNumbering` gives the same graph with vertices numbered in the opposite order; each edge list is
reversed -/
theorem C32_reverseNumbering (g : Edges) (hg : Proper g) (hlen : g.length ≤ 4294967296) :
    ∃ r, reverseNumbering g = .ok r ∧ r.length = g.length ∧
      (∀ (x : Nat) (e : List Nat), g[x]? = some e → r[g.length - 1 - x]? = some (e.reverse.map fun y => g.length - 1 - y)) ∧
      ∀ x < g.length, ∀ y < g.length, Edge r (g.length - 1 - x) (g.length - 1 - y) ↔ Edge g x y := by
  by_cases h0 : g.length = 0
  · rw [List.length_eq_zero_iff] at h0
    subst h0
    exact ⟨[], rfl, rfl, fun x e h => by simp at h, fun x hx => by simp at hx⟩
  have hlast : (g.length + 4294967295) % 4294967296 = g.length - 1 := by omega
  obtain ⟨r, h1, h2, h3, -⟩ := renumberLoop_spec (g.length - 1) g 0 (List.replicate g.length []) (by omega) (by rw [List.length_replicate]; omega)
  rw [List.length_replicate] at h2
  have hrow : ∀ (x : Nat) (e : List Nat), g[x]? = some e → r[g.length - 1 - x]? = some (e.reverse.map fun y => g.length - 1 - y) := by
    intro x e he
    have := h3 x e he
    rw [Nat.zero_add] at this
    rw [this, Option.some.injEq]
    apply List.map_congr_left
    intro y hy
    have := hg x y ⟨e, he, List.mem_reverse.1 hy⟩
    omega
  refine ⟨r, by rw [reverseNumbering, hlast, h1], h2, hrow, ?_⟩
  intro x hx y hy
  have hr := hrow x g[x] (List.getElem?_eq_getElem hx)
  constructor
  · rintro ⟨l, hl, hm⟩
    rw [hr] at hl
    cases hl
    obtain ⟨z, hz, hzy⟩ := List.mem_map.1 hm
    have hz' := List.mem_reverse.1 hz
    have := hg x z ⟨_, List.getElem?_eq_getElem hx, hz'⟩
    have : z = y := by omega
    subst this
    exact ⟨_, List.getElem?_eq_getElem hx, hz'⟩
  · rintro ⟨l, hl, hm⟩
    rw [List.getElem?_eq_getElem hx] at hl
    cases hl
    exact ⟨_, hr, List.mem_map.2 ⟨y, List.mem_reverse.2 hm, rfl⟩⟩

example : reverseNumbering [[1, 2], [0], [], [0]] = .ok [[3], [], [3], [1, 2]] := by decide

end Verif.Graph
