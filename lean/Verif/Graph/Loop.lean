import Verif.Graph.Inv
/-
The classes found so far, and correctness of the main loop.
-/
namespace Verif.Graph
open Verif Relation

variable {n : Nat} {G : Nat → List Nat} {k : Nat} {A : Nat → Info} {rk cf : Nat → Nat} {count : Nat} {c : Nat}
  {path rest : List Nat} {rep : List Nat} {gr : Option Edges}

theorem mem_setInsert {x y : Nat} {l : List Nat} : y ∈ setInsert x l ↔ y = x ∨ y ∈ l := by
  induction l with
  | nil => simp [setInsert]
  | cons z l ih =>
    unfold setInsert
    by_cases h1 : x < z
    · rw [if_pos h1]; simp
    · rw [if_neg h1]
      by_cases h2 : x = z
      · rw [if_pos h2, h2]; simp
      · rw [if_neg h2, List.mem_cons, ih, List.mem_cons]; tauto

theorem sorted_setInsert {x : Nat} {l : List Nat} (h : l.Pairwise (· < ·)) : (setInsert x l).Pairwise (· < ·) := by
  induction l with
  | nil => simp [setInsert]
  | cons z l ih =>
    rw [List.pairwise_cons] at h
    unfold setInsert
    by_cases h1 : x < z
    · rw [if_pos h1, List.pairwise_cons, List.pairwise_cons]
      refine ⟨fun a ha => ?_, h⟩
      rcases List.mem_cons.1 ha with rfl | ha
      · exact h1
      · exact h1.trans (h.1 a ha)
    · rw [if_neg h1]
      by_cases h2 : x = z
      · rw [if_pos h2, List.pairwise_cons]; exact h
      · rw [if_neg h2, List.pairwise_cons]
        refine ⟨fun a ha => ?_, ih h.2⟩
        rcases mem_setInsert.1 ha with rfl | ha
        · omega
        · exact h.1 a ha

theorem classesLoop_spec (cf : Nat → Nat) (rep : List Nat) (e : List Nat) (he : ∀ y ∈ e, y < n) :
    ∀ seen : List Nat, seen.Pairwise (· < ·) → ∃ out, classesLoop ⟨tab n cf, rep⟩ e seen = .ok out ∧ out.Pairwise (· < ·) ∧
      ∀ d, d ∈ out ↔ d ∈ seen ∨ ∃ w ∈ e, cf w = d := by
  induction e with
  | nil => intro seen hs; exact ⟨seen, rfl, hs, by simp⟩
  | cons y e ih =>
    intro seen hs
    obtain ⟨out, h1, h2, h3⟩ := ih (fun z hz => he z (List.mem_cons_of_mem _ hz)) (setInsert (cf y) seen) (sorted_setInsert hs)
    refine ⟨out, ?_, h2, ?_⟩
    · rw [classesLoop, Part.Partition.classOf, tab_get (he y List.mem_cons_self), Res.ok_bind, h1]
    · intro d
      rw [h3, mem_setInsert]
      constructor
      · rintro ((rfl | h) | ⟨w, hw, h⟩)
        · exact .inr ⟨y, List.mem_cons_self, rfl⟩
        · exact .inl h
        · exact .inr ⟨w, List.mem_cons_of_mem _ hw, h⟩
      · rintro (h | ⟨w, hw, h⟩)
        · exact .inl (.inr h)
        · rcases List.mem_cons.1 hw with rfl | hw
          · exact .inl (.inl h.symm)
          · exact .inr ⟨w, hw, h⟩

theorem linksLoop_spec (cf : Nat → Nat) (rep : List Nat) (o : List (List Nat)) (ho : ∀ e ∈ o, ∀ y ∈ e, y < n) :
    ∀ seen : List Nat, seen.Pairwise (· < ·) → ∃ out, linksLoop ⟨tab n cf, rep⟩ o seen = .ok out ∧ out.Pairwise (· < ·) ∧
      ∀ d, d ∈ out ↔ d ∈ seen ∨ ∃ e ∈ o, ∃ w ∈ e, cf w = d := by
  induction o with
  | nil => intro seen hs; exact ⟨seen, rfl, hs, by simp⟩
  | cons e o ih =>
    intro seen hs
    obtain ⟨s1, g1, g2, g3⟩ := classesLoop_spec cf rep e (ho e List.mem_cons_self) seen hs
    obtain ⟨out, h1, h2, h3⟩ := ih (fun z hz => ho z (List.mem_cons_of_mem _ hz)) s1 g2
    refine ⟨out, by rw [linksLoop, g1, Res.ok_bind, h1], h2, ?_⟩
    intro d
    rw [h3, g3]
    simp only [List.mem_cons, exists_eq_or_imp]
    rw [or_assoc]

theorem addLinks_spec (cf : Nat → Nat) (rep : List Nat) (gr : Edges) (o : List (List Nat)) (ho : ∀ e ∈ o, ∀ y ∈ e, y < n) :
    ∃ row, addLinks gr o ⟨tab n cf, rep⟩ = .ok (gr ++ [row]) ∧ row.Pairwise (· < ·) ∧
      ∀ d, d ∈ row ↔ d ≠ gr.length ∧ ∃ e ∈ o, ∃ w ∈ e, cf w = d := by
  obtain ⟨out, h1, h2, h3⟩ := linksLoop_spec cf rep o ho [] List.Pairwise.nil
  refine ⟨out.filter (· ≠ gr.length), by rw [addLinks, h1]; rfl, h2.filter _, ?_⟩
  intro d
  rw [List.mem_filter, h3]
  simp [and_comm]

theorem settleLoop_spec (g : Edges) (hg : g = tab n G) (x : Nat) (rep : List Nat) : ∀ (l : List Info), (∀ a ∈ l, a.v < n) →
    ∀ rk cf : Nat → Nat, settleLoop g x l (tab n rk) ⟨tab n cf, rep⟩ =
      .ok (tab n (fun v => if v ∈ l.map Info.v then n + 1 else rk v), ⟨tab n (fun v => if v ∈ l.map Info.v then x else cf v), rep⟩,
        l.map (fun a => G a.v)) := by
  intro l
  induction l with
  | nil => intro _ rk cf; simp [settleLoop]
  | cons a l ih =>
    intro hl rk cf
    have ha := hl a List.mem_cons_self
    have hlen : g.length = n := by rw [hg, tab_length]
    rw [settleLoop, Part.Partition.addToClass]
    simp only
    rw [tab_put ha, Res.ok_bind, Res.pure_eq, Res.ok_bind, tab_put ha, Res.ok_bind]
    conv_lhs => rw [hg, tab_get ha, Res.ok_bind]
    rw [← hg, ih (fun b hb => hl b (List.mem_cons_of_mem _ hb)), Res.ok_bind]
    have key : ∀ (f : Nat → Nat) (z : Nat), (fun v => if v ∈ l.map Info.v then z else Function.update f a.v z v) =
        fun v => if v ∈ (a :: l).map Info.v then z else f v := by
      intro f z
      funext v
      by_cases h1 : v ∈ l.map Info.v
      · rw [if_pos h1, if_pos (by rw [List.map_cons]; exact List.mem_cons_of_mem _ h1)]
      · rw [if_neg h1]
        by_cases h2 : v = a.v
        · rw [if_pos (by rw [h2]; exact List.mem_cons_self), h2, Function.update_self]
        · rw [Function.update_of_ne h2, if_neg (by rw [List.map_cons, List.mem_cons]; tauto)]
    rw [hlen, key, key]
    rfl

/-- the classes of the settled vertices -/
structure SInv (n : Nat) (G : Nat → List Nat) (rk cf : Nat → Nat) (rep : List Nat) (gr : Option Edges) : Prop where
  clt : ∀ v < n, rk v = n + 1 → cf v < rep.length
  same : ∀ u < n, ∀ w < n, rk u = n + 1 → rk w = n + 1 →
    (cf u = cf w ↔ ReflTransGen (Arc n G) u w ∧ ReflTransGen (Arc n G) w u)
  down : ∀ u < n, rk u = n + 1 → ∀ w ∈ G u, cf w ≤ cf u
  reps : ∀ d < rep.length, ∃ v < n, rk v = n + 1 ∧ rep[d]? = some v ∧ cf v = d
  ind : ∀ h, gr = some h → h.length = rep.length ∧ ∀ (d : Nat) (row : List Nat), h[d]? = some row → row.Pairwise (· < ·) ∧
    ∀ e, e ∈ row ↔ e ≠ d ∧ ∃ u < n, rk u = n + 1 ∧ cf u = d ∧ ∃ w ∈ G u, cf w = e

/-- what is reached from a settled vertex is settled -/
theorem TInv.reach (h : TInv n G k A rk count path) {u w : Nat} (hr : ReflTransGen (Arc n G) u w) (hu : u < n ∧ rk u = n + 1) :
    w < n ∧ rk w = n + 1 := by
  induction hr with
  | refl => exact hu
  | @tail b d _ hbd ih => exact ⟨h.good b ih.1 d hbd.2, h.closed b ih.1 ih.2 d hbd.2⟩

theorem SInv.settle (hS : SInv n G rk cf rep gr) (h : TInv n G k A rk count (c :: rest)) (hn : (A c).next = (G (A c).v).length)
    (hm : (A c).min = rk (A c).v)
    (rk' : Nat → Nat) (hC : ∀ v, Comp k A c v → rk' v = n + 1) (hN : ∀ v, ¬ Comp k A c v → rk' v = rk v)
    (cf' : Nat → Nat) (hC' : ∀ v, Comp k A c v → cf' v = rep.length) (hN' : ∀ v, ¬ Comp k A c v → cf' v = cf v)
    (gr' : Option Edges) (hg : ∀ h', gr' = some h' → ∃ h0 row, gr = some h0 ∧ h' = h0 ++ [row] ∧ row.Pairwise (· < ·) ∧
      ∀ d, d ∈ row ↔ d ≠ rep.length ∧ ∃ u, Comp k A c u ∧ ∃ w ∈ G u, cf' w = d) :
    SInv n G rk' cf' (rep ++ [(A c).v]) gr' := by
  have hc : c < k := h.pathlt c List.mem_cons_self
  have hI := h.isComp hn hm
  have hcn : ∀ v, Comp k A c v → v < n ∧ rk v ≠ n + 1 := by
    rintro v ⟨j, -, hj, rfl⟩
    exact ⟨h.vlt j hj, (h.active hj).2.1⟩
  have hold : ∀ v, rk v = n + 1 → ¬ Comp k A c v := fun v hv hcv => (hcn v hcv).2 hv
  have hs : ∀ v, rk' v = n + 1 → Comp k A c v ∨ (¬ Comp k A c v ∧ rk v = n + 1) := by
    intro v hv
    by_cases hcv : Comp k A c v
    · exact .inl hcv
    · exact .inr ⟨hcv, by rw [← hN v hcv]; exact hv⟩
  have hcc : Comp k A c (A c).v := ⟨c, Nat.le_refl _, hc, rfl⟩
  refine ⟨?_, ?_, ?_, ?_, ?_⟩
  · intro v hv hrv
    rw [List.length_append, List.length_singleton]
    rcases hs v hrv with h1 | ⟨h1, h2⟩
    · rw [hC' v h1]; omega
    · rw [hN' v h1]; have := hS.clt v hv h2; omega
  · intro u hu w hw hru hrw
    rcases hs u hru with h1 | ⟨h1, h2⟩ <;> rcases hs w hrw with h3 | ⟨h3, h4⟩
    · rw [hC' u h1, hC' w h3]
      exact ⟨fun _ => ⟨(hI.back u h1).trans (hI.into w h3), (hI.back w h3).trans (hI.into u h1)⟩, fun _ => rfl⟩
    · rw [hC' u h1, hN' w h3]
      have := hS.clt w hw h4
      refine ⟨fun he => by omega, fun hr => absurd (h.reach hr.2 ⟨hw, h4⟩).2 (hcn u h1).2⟩
    · rw [hN' u h1, hC' w h3]
      have := hS.clt u hu h2
      refine ⟨fun he => by omega, fun hr => absurd (h.reach hr.1 ⟨hu, h2⟩).2 (hcn w h3).2⟩
    · rw [hN' u h1, hN' w h3]
      exact hS.same u hu w hw h2 h4
  · intro u hu hru w hw
    rcases hs u hru with h1 | ⟨h1, h2⟩
    · rw [hC' u h1]
      rcases hI.edge u h1 w hw with h3 | h3
      · rw [hC' w h3]
      · rw [hN' w (hold w h3)]
        exact (hS.clt w (h.good u hu w hw) h3).le
    · rw [hN' u h1, hN' w (hold w (h.closed u hu h2 w hw))]
      exact hS.down u hu h2 w hw
  · intro d hd
    rw [List.length_append, List.length_singleton] at hd
    by_cases hde : d = rep.length
    · refine ⟨(A c).v, h.vlt c hc, hC _ hcc, ?_, by rw [hC' _ hcc, hde]⟩
      rw [hde, List.getElem?_append_right (Nat.le_refl _)]; simp
    · obtain ⟨v, h1, h2, h3, h4⟩ := hS.reps d (by omega)
      exact ⟨v, h1, by rw [hN v (hold v h2)]; exact h2, by rw [List.getElem?_append_left (by omega)]; exact h3,
        by rw [hN' v (hold v h2)]; exact h4⟩
  · intro h' hh'
    obtain ⟨h0, row, e1, e2, e3, e4⟩ := hg h' hh'
    obtain ⟨g1, g2⟩ := hS.ind h0 e1
    refine ⟨by rw [e2, List.length_append, List.length_append, g1]; rfl, ?_⟩
    intro d rw' hd
    rw [e2] at hd
    by_cases hdl : d < h0.length
    · rw [List.getElem?_append_left hdl] at hd
      obtain ⟨g3, g4⟩ := g2 d rw' hd
      refine ⟨g3, fun e => ?_⟩
      rw [g4]
      constructor
      · rintro ⟨a1, u, a2, a3, a4, w, a5, a6⟩
        refine ⟨a1, u, a2, by rw [hN u (hold u a3)]; exact a3, by rw [hN' u (hold u a3)]; exact a4, w, a5, ?_⟩
        rw [hN' w (hold w (h.closed u a2 a3 w a5))]; exact a6
      · rintro ⟨a1, u, a2, a3, a4, w, a5, a6⟩
        rcases hs u a3 with b1 | ⟨b1, b2⟩
        · rw [hC' u b1] at a4; omega
        · rw [hN' u b1] at a4
          rw [hN' w (hold w (h.closed u a2 b2 w a5))] at a6
          exact ⟨a1, u, a2, b2, a4, w, a5, a6⟩
    · rw [List.getElem?_append_right (by omega)] at hd
      have hdd : d = h0.length := by
        have := (List.getElem?_eq_some_iff.1 hd).1
        simp at this; omega
      rw [hdd, Nat.sub_self] at hd
      simp only [List.getElem?_cons_zero, Option.some.injEq] at hd
      subst hd
      refine ⟨e3, fun e => ?_⟩
      rw [e4, hdd, g1]
      constructor
      · rintro ⟨a1, u, a2, w, a5, a6⟩
        exact ⟨a1, u, (hcn u a2).1, hC u a2, hC' u a2, w, a5, a6⟩
      · rintro ⟨a1, u, a2, a3, a4, w, a5, a6⟩
        refine ⟨a1, u, ?_, w, a5, a6⟩
        rcases hs u a3 with b1 | ⟨b1, b2⟩
        · exact b1
        · rw [hN' u b1] at a4
          have := hS.clt u a2 b2
          omega

/-! ### Measure of the main loop -/

/-- what is left to do: edges of vertices not yet seen, and edges left for the vertices on the path -/
def todo (n : Nat) (G : Nat → List Nat) (A : Nat → Info) (rk : Nat → Nat) (path : List Nat) : Nat :=
  (∑ v ∈ (Finset.range n).filter (fun v => rk v = 0), ((G v).length + 1)) +
    (path.map fun q => (G (A q).v).length - (A q).next + 1).sum

theorem todo_congr_path {A' : Nat → Info} (h : ∀ q ∈ path, (A' q).v = (A q).v ∧ (A' q).next = (A q).next) :
    (path.map fun q => (G (A' q).v).length - (A' q).next + 1) = path.map fun q => (G (A q).v).length - (A q).next + 1 := by
  apply List.map_congr_left
  intro q hq
  rw [(h q hq).1, (h q hq).2]

theorem sum_fresh {y : Nat} (hy : y < n) (h0 : rk y = 0) {x : Nat} (hx : x ≠ 0) :
    (∑ v ∈ (Finset.range n).filter (fun v => rk v = 0), ((G v).length + 1)) =
      (∑ v ∈ (Finset.range n).filter (fun v => Function.update rk y x v = 0), ((G v).length + 1)) + ((G y).length + 1) := by
  have : (Finset.range n).filter (fun v => rk v = 0) =
      Insert.insert y ((Finset.range n).filter (fun v => Function.update rk y x v = 0)) := by
    ext v
    rw [Finset.mem_insert, Finset.mem_filter, Finset.mem_filter, Finset.mem_range]
    by_cases hvy : v = y
    · rw [hvy]; simp [hy, h0]
    · rw [Function.update_of_ne hvy]; simp [hvy]
  rw [this, Finset.sum_insert (by simp [hx]), Nat.add_comm]

theorem sum_mono {rk' : Nat → Nat} (h : ∀ v < n, rk v ≠ 0 → rk' v ≠ 0) :
    (∑ v ∈ (Finset.range n).filter (fun v => rk' v = 0), ((G v).length + 1)) ≤
      ∑ v ∈ (Finset.range n).filter (fun v => rk v = 0), ((G v).length + 1) := by
  apply Finset.sum_le_sum_of_subset
  intro v hv
  rw [Finset.mem_filter, Finset.mem_range] at hv ⊢
  refine ⟨hv.1, ?_⟩
  by_contra hn
  exact h v hv.1 hn hv.2

/-! ### The main loop -/

theorem settle_spec (g : Edges) (hgl : g = tab n G) (h : TInv n G k A rk count (c :: rest)) (hS : SInv n G rk cf rep gr)
    (hn : (A c).next = (G (A c).v).length) (hm : (A c).min = rk (A c).v) :
    ∃ rk' cf' rep' gr', Graph.settle g c (A c) ⟨tab n rk, tab k A, count, ⟨tab n cf, rep⟩, gr⟩ =
        .ok ⟨tab n rk', tab c A, count, ⟨tab n cf', rep'⟩, gr'⟩ ∧ gr'.isSome = gr.isSome ∧
      TInv n G c A rk' count rest ∧ SInv n G rk' cf' rep' gr' ∧
      (rest = [] → (A c).parent = n) ∧ (∀ p l, rest = p :: l → (A c).parent = p) ∧ (∀ v < n, rk v ≠ 0 → rk' v ≠ 0) := by
  have hc : c < k := h.pathlt c List.mem_cons_self
  have hgn : g.length = n := by rw [hgl, tab_length]
  have hmem : ∀ v, v ∈ ((tab k A).drop c).map Info.v ↔ Comp k A c v := by
    intro v
    rw [List.mem_map]
    constructor
    · rintro ⟨a, ha, rfl⟩
      obtain ⟨j, h1, h2, rfl⟩ := mem_drop_tab.1 ha
      exact ⟨j, h1, h2, rfl⟩
    · rintro ⟨j, h1, h2, rfl⟩
      exact ⟨A j, mem_drop_tab.2 ⟨j, h1, h2, rfl⟩, rfl⟩
  have hlt : ∀ a ∈ (tab k A).drop c, a.v < n := by
    intro a ha
    obtain ⟨j, h1, h2, rfl⟩ := mem_drop_tab.1 ha
    exact h.vlt j h2
  have hcomp : Comp k A c (A c).v := ⟨c, Nat.le_refl _, hc, rfl⟩
  have hloop := settleLoop_spec g hgl rep.length (rep ++ [(A c).v]) _ hlt rk (Function.update cf (A c).v rep.length)
  have hcfeq : (fun v => if v ∈ ((tab k A).drop c).map Info.v then rep.length else Function.update cf (A c).v rep.length v) =
      fun v => if v ∈ ((tab k A).drop c).map Info.v then rep.length else cf v := by
    funext v
    by_cases h1 : v ∈ ((tab k A).drop c).map Info.v
    · rw [if_pos h1, if_pos h1]
    · rw [if_neg h1, if_neg h1, Function.update_of_ne]
      rintro rfl
      exact h1 ((hmem _).2 hcomp)
  rw [hcfeq] at hloop
  have hC : ∀ v, Comp k A c v → (fun v => if v ∈ ((tab k A).drop c).map Info.v then n + 1 else rk v) v = n + 1 :=
    fun v hv => if_pos ((hmem v).2 hv)
  have hN : ∀ v, ¬ Comp k A c v → (fun v => if v ∈ ((tab k A).drop c).map Info.v then n + 1 else rk v) v = rk v :=
    fun v hv => if_neg (fun hh => hv ((hmem v).1 hh))
  have hC' : ∀ v, Comp k A c v → (fun v => if v ∈ ((tab k A).drop c).map Info.v then rep.length else cf v) v = rep.length :=
    fun v hv => if_pos ((hmem v).2 hv)
  have hN' : ∀ v, ¬ Comp k A c v → (fun v => if v ∈ ((tab k A).drop c).map Info.v then rep.length else cf v) v = cf v :=
    fun v hv => if_neg (fun hh => hv ((hmem v).1 hh))
  generalize (fun v => if v ∈ ((tab k A).drop c).map Info.v then n + 1 else rk v) = rk' at hloop hC hN
  generalize (fun v => if v ∈ ((tab k A).drop c).map Info.v then rep.length else cf v) = cf' at hloop hC' hN'
  obtain ⟨t1, t2, t3⟩ := h.settle hn hm rk' hC hN
  have hout : ∀ e ∈ ((tab k A).drop c).map (fun a => G a.v), ∀ y ∈ e, y < n := by
    intro e he
    obtain ⟨a, ha, rfl⟩ := List.mem_map.1 he
    exact h.good _ (hlt a ha)
  have hpos : ∀ v < n, rk v ≠ 0 → rk' v ≠ 0 := by
    intro v _ h0
    by_cases hcv : Comp k A c v
    · rw [hC v hcv]; omega
    · rw [hN v hcv]; exact h0
  unfold Graph.settle Part.Partition.newClass
  simp only
  rw [tab_put (h.vlt c hc), Res.ok_bind, Res.pure_eq, Res.ok_bind]
  simp only
  rw [hloop, Res.ok_bind, tab_take hc.le]
  match gr, hS with
  | none, hS =>
    refine ⟨rk', cf', rep ++ [(A c).v], none, rfl, rfl, t1, ?_, t2, t3, hpos⟩
    exact hS.settle h hn hm rk' hC hN cf' hC' hN' none (fun _ hh => by cases hh)
  | some h0, hS =>
    obtain ⟨row, r1, r2, r3⟩ := addLinks_spec cf' (rep ++ [(A c).v]) h0 _ hout
    refine ⟨rk', cf', rep ++ [(A c).v], some (h0 ++ [row]), by simp only; rw [r1]; rfl, rfl, t1, ?_, t2, t3, hpos⟩
    refine hS.settle h hn hm rk' hC hN cf' hC' hN' _ (fun h' hh' => ?_)
    cases hh'
    refine ⟨h0, row, rfl, rfl, r2, fun d => ?_⟩
    rw [r3, (hS.ind h0 rfl).1]
    have : ∀ d, (∃ e ∈ ((tab k A).drop c).map (fun a => G a.v), ∃ w ∈ e, cf' w = d) ↔ ∃ u, Comp k A c u ∧ ∃ w ∈ G u, cf' w = d := by
      intro d
      constructor
      · rintro ⟨e, he, w, hw, hd⟩
        obtain ⟨a, ha, rfl⟩ := List.mem_map.1 he
        exact ⟨a.v, (hmem _).1 (List.mem_map.2 ⟨a, ha, rfl⟩), w, hw, hd⟩
      · rintro ⟨u, hu, w, hw, hd⟩
        obtain ⟨a, ha, rfl⟩ := List.mem_map.1 ((hmem _).2 hu)
        exact ⟨_, List.mem_map.2 ⟨a, ha, rfl⟩, w, hw, hd⟩
    rw [this]

/-- the current position -/
def curOf (n : Nat) : List Nat → Nat
  | [] => n
  | c :: _ => c

theorem loop_spec (g : Edges) (hgl : g = tab n G) : ∀ (f k : Nat) (A : Nat → Info) (rk : Nat → Nat) (count : Nat) (path : List Nat)
    (cf : Nat → Nat) (rep : List Nat) (gr : Option Edges), todo n G A rk path < f →
    TInv n G k A rk count path → SInv n G rk cf rep gr →
    ∃ rk' count' cf' rep' gr' A', loop g f (curOf n path) ⟨tab n rk, tab k A, count, ⟨tab n cf, rep⟩, gr⟩ =
        .ok ⟨tab n rk', [], count', ⟨tab n cf', rep'⟩, gr'⟩ ∧ gr'.isSome = gr.isSome ∧
      TInv n G 0 A' rk' count' [] ∧ SInv n G rk' cf' rep' gr' ∧ (∀ v < n, rk v ≠ 0 → rk' v ≠ 0) := by
  have hgn : g.length = n := by rw [hgl, tab_length]
  intro f
  induction f with
  | zero => intro k A rk count path cf rep gr hf; omega
  | succ f ih =>
    intro k A rk count path cf rep gr hf h hS
    match path, h, hf with
    | [], h, hf =>
      have hk := h.empty rfl
      subst hk
      exact ⟨rk, count, cf, rep, gr, A, by rw [loop, hgn, curOf, if_pos rfl]; rfl, rfl, h, hS, fun _ _ hh => hh⟩
    | c :: rest, h, hf =>
    have hc : c < k := h.pathlt c List.mem_cons_self
    have hcn := h.pos_lt hc
    have hv := h.vlt c hc
    rw [loop, curOf, hgn, if_neg (by omega)]
    simp only
    rw [tab_get hc, Res.ok_bind]
    have hge : Vec.get g (A c).v = .ok (G (A c).v) := by rw [hgl, tab_get hv]
    rw [hge, Res.ok_bind]
    by_cases hnx : (A c).next < (G (A c).v).length
    · rw [if_pos hnx, Vec.get_ok hnx, Res.ok_bind]
      have hsome : (G (A c).v)[(A c).next]? = some (G (A c).v)[(A c).next] := List.getElem?_eq_getElem hnx
      generalize (G (A c).v)[(A c).next] = y at hsome ⊢
      have hy : y < n := h.good _ hv y (List.mem_of_getElem? hsome)
      rw [tab_get hy, Res.ok_bind]
      by_cases h0 : rk y = 0
      · rw [if_pos h0, tab_put hc, Res.ok_bind, tab_put hy, Res.ok_bind, tab_push, tab_length]
        have hstep := h.fresh hsome h0
        have hc1 : count ≠ 0 := by have := h.rlt c hc; omega
        have hS' : SInv n G (Function.update rk y count) cf rep gr := by
          have hcl := h.count_lt hy h0
          have e : ∀ v, (Function.update rk y count v = n + 1) ↔ rk v = n + 1 := by
            intro v
            by_cases hvy : v = y
            · rw [hvy, Function.update_self, h0]; omega
            · rw [Function.update_of_ne hvy]
          refine ⟨fun v hv hr => hS.clt v hv ((e v).1 hr), fun u hu w hw h1 h2 => hS.same u hu w hw ((e u).1 h1) ((e w).1 h2),
            fun u hu h1 => hS.down u hu ((e u).1 h1), fun d hd => ?_, fun h' hh' => ?_⟩
          · obtain ⟨v, a, b, d⟩ := hS.reps d hd
            exact ⟨v, a, (e v).2 b, d⟩
          · obtain ⟨a, b⟩ := hS.ind h' hh'
            refine ⟨a, fun d row hd => ?_⟩
            simp only [e]
            exact b d row hd
        have hkc : k ≠ c := by omega
        have := ih (k + 1) _ _ (count + 1) (k :: c :: rest) cf rep gr ?_ hstep hS'
        · obtain ⟨rk', count', cf', rep', gr', A', e1, e2, e3, e4, e5⟩ := this
          refine ⟨rk', count', cf', rep', gr', A', e1, e2, e3, e4, fun v hvn hr => e5 v hvn ?_⟩
          by_cases hvy : v = y
          · rw [hvy, Function.update_self]; exact hc1
          · rw [Function.update_of_ne hvy]; exact hr
        · unfold todo at hf ⊢
          rw [sum_fresh hy h0 hc1] at hf
          rw [List.map_cons, List.sum_cons] at hf
          rw [List.map_cons, List.sum_cons, List.map_cons, List.sum_cons]
          rw [todo_congr_path (A := A) (path := rest)]
          · rw [Function.update_self, Function.update_of_ne hkc.symm, Function.update_self]
            simp only
            omega
          · intro q hq
            have := h.rest_lt q hq
            rw [Function.update_of_ne (by omega), Function.update_of_ne (by omega)]
            exact ⟨rfl, rfl⟩
      · rw [if_neg h0]
        have hrec : (if rk y < (A c).min then { A c with next := (A c).next + 1, min := rk y } else { A c with next := (A c).next + 1 }) =
            ({ A c with next := (A c).next + 1, min := if rk y < (A c).min then rk y else (A c).min } : Info) := by
          split <;> rfl
        rw [hrec, tab_put hc, Res.ok_bind]
        have hstep := h.cross hsome h0 rfl
        have := ih k _ _ count (c :: rest) cf rep gr ?_ hstep hS
        · exact this
        · unfold todo at hf ⊢
          rw [List.map_cons, List.sum_cons] at hf ⊢
          rw [todo_congr_path (A := A) (path := rest)]
          · rw [Function.update_self]
            simp only
            omega
          · intro q hq
            have := h.rest_lt q hq
            rw [Function.update_of_ne (by omega)]
            exact ⟨rfl, rfl⟩
    · rw [if_neg hnx]
      have hfull : (A c).next = (G (A c).v).length := by have := h.nle c hc; omega
      rw [tab_get hv, Res.ok_bind]
      by_cases hm : (A c).min = rk (A c).v
      · rw [if_pos hm]
        obtain ⟨rk1, cf1, rep1, gr1, s1, s2, s3, s4, s5, s6, s7⟩ := settle_spec g hgl h hS hfull hm
        rw [s1, Res.ok_bind]
        have hcur : (A c).parent = curOf n rest := by
          match rest, s5, s6 with
          | [], s5, _ => exact s5 rfl
          | p :: l, _, s6 => exact s6 p l rfl
        rw [hcur]
        obtain ⟨rk', count', cf', rep', gr', A', e1, e2, e3, e4, e5⟩ := ih c A rk1 count rest cf1 rep1 gr1 (by
          unfold todo at hf ⊢
          rw [List.map_cons, List.sum_cons] at hf
          have := sum_mono (G := G) s7
          omega) s3 s4
        exact ⟨rk', count', cf', rep', gr', A', e1, by rw [e2, s2], e3, e4, fun v hvn hr => e5 v hvn (s7 v hvn hr)⟩
      · rw [if_neg hm]
        obtain ⟨p, l, hr, hpar, hpk, hstep⟩ := h.mature hfull hm
        rw [hpar, tab_get hpk, Res.ok_bind]
        have hrec : (if (A c).min < (A p).min then { A p with min := (A c).min } else A p) =
            ({ A p with min := if (A c).min < (A p).min then (A c).min else (A p).min } : Info) := by
          split <;> rfl
        rw [hrec, tab_put hpk, Res.ok_bind]
        have := ih k _ _ count rest cf rep gr ?_ (hstep _ rfl) hS
        · rw [hr] at this
          exact this
        · unfold todo at hf ⊢
          rw [List.map_cons, List.sum_cons] at hf
          rw [todo_congr_path (A := A) (path := rest)]
          · omega
          · intro q hq
            by_cases hqp : q = p
            · rw [hqp, Function.update_self]; exact ⟨rfl, rfl⟩
            · rw [Function.update_of_ne hqp]; exact ⟨rfl, rfl⟩

end Verif.Graph
