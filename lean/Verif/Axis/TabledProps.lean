import Verif.Axis.TabledDefs
import Verif.Axis.TabledMerge
/-
C79: equality of types with user-defined (possibly recursive) types.
-/
namespace Verif.Axis
open Verif Relation

set_option maxRecDepth 20000

/-- a table for examples: `tree = [tree]`, `pair = (tree,int)` -/
def exTab : TMap := [⟨some 7, 0, true, .row (.tabled 0 [])⟩, ⟨some 8, 0, false, .tuple [.tabled 0 [], .prim 0]⟩]

/-- it arises from the definitions -/
theorem exTab_made (nd : Bool) : addTypedefs nd 9 [] [(7, .row (.tabled 0 []))] 0 = .ok ([0], exTab.take 1) ∧
    addSimple nd 9 (exTab.take 1) 8 (.tuple [.tabled 0 [], .prim 0]) 0 = .ok (1, exTab) := by
  cases nd <;> exact ⟨rfl, rfl⟩

theorem exTab_wf : WF exTab where
  complete := by
    intro b hb
    simp only [exTab, List.mem_cons, List.not_mem_nil, or_false] at hb
    rcases hb with rfl | rfl <;> simp [Closed, ClosedL, Plain, PlainL, TT.isTabled, exTab]
  marked := by
    intro n b hb h
    have r0 : ∀ n k, Refers exTab n k → k = 0 := fun n k ⟨b, hb, ho⟩ => by
      have hb := List.mem_of_getElem? hb
      simp only [exTab, List.mem_cons, List.not_mem_nil, or_false] at hb
      rcases hb with rfl | rfl <;> simp_all [Occurs, OccursL]
    have : n = 0 := by
      cases h with
      | single h => exact r0 _ _ h
      | tail _ h => exact r0 _ _ h
    subst this
    cases hb
    rfl
  flat := by
    intro b hb hr c hc
    simp only [exTab, List.mem_cons, List.not_mem_nil, or_false] at hb
    rcases hb with rfl | rfl
    · simp only [TT.comps, List.mem_cons, List.not_mem_nil, or_false] at hc
      subst hc
      rfl
    · cases hr

/-- **C79** (comparison ends; equal types can be made identical by expanding definitions; conversely unless different recursive types of the table can): in a well-formed table -/
theorem C79_decides (nd : Bool) (m : TMap) (h : WF m) (x y : TT) (hx : Plain m.length x) (hy : Plain m.length y) :
    ∃ b K, (∀ k, K ≤ k → eqT nd m k x y = .ok b) ∧ (b = true → Equiv m x y) ∧ (NoTwins m → Equiv m x y → b = true) :=
  decided nd h hx hy

example (nd : Bool) : ∃ b K, ∀ k, K ≤ k → eqT nd exTab k (.tabled 1 []) (.tuple [.row (.tabled 0 []), .prim 0]) = .ok b := by
  obtain ⟨b, K, h, _⟩ := C79_decides nd exTab exTab_wf (.tabled 1 []) (.tuple [.row (.tabled 0 []), .prim 0]) (by simp [Plain, exTab]) (by simp [Plain, PlainL, exTab])
  exact ⟨b, K, h⟩

example (nd : Bool) : eqT nd exTab 9 (.tabled 1 []) (.tuple [.row (.tabled 0 []), .prim 0]) = .ok true ∧ eqT nd exTab 9 (.tabled 1 []) (.tuple [.row (.prim 0), .prim 0]) = .ok false := by
  cases nd <;> exact ⟨rfl, rfl⟩

/-- every type equals itself -/
theorem eqT_refl (nd : Bool) (m : TMap) (n : Nat) (x : TT) : Plain n x → ∃ K, ∀ k, K ≤ k → eqT nd m k x x = .ok true := by
  have hs : ∀ k x, eqT nd m (k + 1) x x = eqKinds (eqT nd m k) nd m x x := fun k x => by rw [eqT_succ, if_neg (by simp)]
  have fin : ∀ x K, (∀ k, K ≤ k → eqKinds (eqT nd m k) nd m x x = .ok true) → ∃ K, (∀ k, K ≤ k → eqT nd m k x x = .ok true) := fun x K h => ⟨K + 1, fun k hk => by
    obtain ⟨k, rfl⟩ : ∃ j, k = j + 1 := ⟨k - 1, by omega⟩
    rw [hs, h k (by omega)]⟩
  have hL : ∀ l : List TT, (∀ t ∈ l, Plain n t → ∃ K, ∀ k, K ≤ k → eqT nd m k t t = .ok true) → PlainL n l → ∃ K, ∀ k, K ≤ k → eqList (eqT nd m k) l l = .ok true := by
    intro l
    induction l with
    | nil => intro _ _; exact ⟨0, fun _ _ => rfl⟩
    | cons a l ih =>
      intro h hp
      obtain ⟨K, h1⟩ := h a (by simp) hp.1
      obtain ⟨K', h2⟩ := ih (fun t ht => h t (by simp [ht])) hp.2
      exact ⟨max K K', fun k hk => by rw [eqList, h1 k (by omega), Res.ok_bind, if_pos rfl, h2 k (by omega)]⟩
  induction x using TT.ind with
  | undet => intro _; exact fin _ 0 fun _ _ => rfl
  | prim a => intro _; exact fin _ 0 fun _ _ => by simp [eqKinds]
  | var a => intro _; exact fin _ 0 fun _ _ => by simp [eqKinds]
  | func a r ha hr =>
    intro hp
    obtain ⟨K, h1⟩ := ha hp.1
    obtain ⟨K', h2⟩ := hr hp.2
    exact fin _ (max K K') fun k hk => by rw [eqKinds, h1 k (by omega), Res.ok_bind, if_pos rfl, h2 k (by omega)]
  | row c hc =>
    intro hp
    obtain ⟨K, h1⟩ := hc hp
    exact fin _ K fun k hk => h1 k hk
  | tuple l hl =>
    intro hp
    obtain ⟨K, h1⟩ := hL l hl hp
    exact fin _ K fun k hk => h1 k hk
  | union l hl =>
    intro hp
    obtain ⟨K, h1⟩ := hL l hl hp
    exact fin _ K fun k hk => h1 k hk
  | tabled j args _ =>
    intro hp
    obtain ⟨_, rfl⟩ := hp
    exact fin _ 0 fun k _ => by rw [eqKinds, if_neg (by simp)]; rfl

/-- **C79** (reflexive) -/
theorem C79_reflexive (nd : Bool) (m : TMap) (x : TT) (hx : Plain m.length x) : ∃ K, ∀ k, K ≤ k → eqT nd m k x x = .ok true := eqT_refl nd m m.length x hx

example : Plain exTab.length (.tabled 1 []) := by simp [Plain, exTab]

theorem eqList_symm {f : TT → TT → Res Bool} : ∀ {l l' : List TT}, (∀ x ∈ l, ∀ y ∈ l', f x y = f y x) → eqList f l l' = eqList f l' l
  | [], [], _ => rfl
  | [], _ :: _, _ => rfl
  | _ :: _, [], _ => rfl
  | a :: l, b :: l', h => by
    rw [eqList, eqList, h a (by simp) b (by simp), eqList_symm fun x hx y hy => h x (by simp [hx]) y (by simp [hy])]

/-- **C79** (symmetric): the outcome does not depend on the order, for any depth of recursion -/
theorem C79_symmetric (nd : Bool) (m : TMap) (h : WF m) (k : Nat) (x y : TT) (hx : Plain m.length x) (hy : Plain m.length y) : eqT nd m k x y = eqT nd m k y x := by
  induction k generalizing x y with
  | zero => rfl
  | succ k ih =>
    have hdef : ∀ n, n < m.length → ∃ b : Binding, m[n]? = some b ∧ Plain m.length b.tp := fun n hn =>
      ⟨_, List.getElem?_eq_getElem hn, (h.complete _ (List.getElem_mem hn)).2.2.1⟩
    rw [eqT_succ, eqT_succ]
    by_cases ht : x.tag = y.tag
    · rw [if_neg (by simp [ht]), if_neg (by simp [ht])]
      cases x with
      | undet => cases y <;> rfl
      | prim a =>
        cases y with
        | prim b => simp only [eqKinds]; rw [Bool.beq_comm]
        | _ => simp [TT.tag] at ht
      | var a =>
        cases y with
        | var b => simp only [eqKinds]; rw [Bool.beq_comm]
        | _ => simp [TT.tag] at ht
      | func a r =>
        cases y with
        | func a' r' => simp only [eqKinds]; rw [ih a a' hx.1 hy.1, ih r r' hx.2 hy.2]
        | _ => simp [TT.tag] at ht
      | row c =>
        cases y with
        | row c' => exact ih c c' hx hy
        | _ => simp [TT.tag] at ht
      | tuple l =>
        cases y with
        | tuple l' => exact eqList_symm fun x hx' y hy' => ih x y (plainL_iff.1 hx x hx') (plainL_iff.1 hy y hy')
        | _ => simp [TT.tag] at ht
      | union l =>
        cases y with
        | union l' => exact eqList_symm fun x hx' y hy' => ih x y (plainL_iff.1 hx x hx') (plainL_iff.1 hy y hy')
        | _ => simp [TT.tag] at ht
      | tabled n args =>
        cases y with
        | tabled n' args' =>
          obtain ⟨hn, rfl⟩ := hx
          obtain ⟨hn', rfl⟩ := hy
          obtain ⟨b, hb, hp⟩ := hdef n hn
          obtain ⟨b', hb', hp'⟩ := hdef n' hn'
          by_cases he : n = n'
          · subst he
            rfl
          · simp only [eqKinds]
            rw [if_pos he, if_pos (Ne.symm he), Vec.get, hb, Res.ok_bind, Vec.get, hb', Res.ok_bind, Res.ok_bind, Res.ok_bind, expanded_ok nd h hb, expanded_ok nd h hb', Res.ok_bind,
              Res.ok_bind, Res.ok_bind, Res.ok_bind, ih _ _ hp hp', Bool.and_comm]
        | _ => simp [TT.tag] at ht
    · rw [if_pos ht, if_pos (Ne.symm ht)]
      cases hxt : x.isTabled with
      | true =>
        have hyt : y.isTabled = false := by
          cases x with
          | tabled n args =>
            cases y with
            | tabled n' args' => exact absurd rfl ht
            | _ => rfl
          | _ => simp [TT.isTabled] at hxt
        rw [if_pos rfl, hyt, if_neg (by decide), if_pos rfl]
        cases x with
        | tabled n args =>
          obtain ⟨hn, rfl⟩ := hx
          obtain ⟨b, hb, hp⟩ := hdef n hn
          rw [expanded_ok nd h hb, Res.ok_bind, Res.ok_bind, ih _ _ hp hy]
        | _ => simp [TT.isTabled] at hxt
      | false =>
        rw [if_neg (by decide)]
        cases hyt : y.isTabled with
        | false => rfl
        | true =>
          rw [if_pos rfl, if_pos rfl]
          cases y with
          | tabled n args =>
            obtain ⟨hn, rfl⟩ := hy
            obtain ⟨b, hb, hp⟩ := hdef n hn
            rw [expanded_ok nd h hb, Res.ok_bind, Res.ok_bind, ih _ _ hx hp]
          | _ => simp [TT.isTabled] at hyt

/-- the comparison finds the types equal -/
def FoundEqual (nd : Bool) (m : TMap) (x y : TT) : Prop := ∃ k, eqT nd m k x y = .ok true

/-- more fuel does not change the outcome -/
theorem foundEqual_iff (nd : Bool) {m : TMap} (h : WF m) (hn : NoTwins m) {x y : TT} (hx : Plain m.length x) (hy : Plain m.length y) : FoundEqual nd m x y ↔ Equiv m x y := by
  obtain ⟨b, K, h1, h2, h3⟩ := C79_decides nd m h x y hx hy
  constructor
  · rintro ⟨k, hk⟩
    by_cases hb : b = true
    · exact h2 hb
    · exfalso
      have up : ∀ d, eqT nd m (k + d) x y = .ok true := by
        intro d
        induction d with
        | zero => exact hk
        | succ d ihd => exact eqT_mono nd m _ _ _ _ ihd
      have e1 := h1 (k + K) (by omega)
      rw [up K] at e1
      cases e1
      exact hb rfl
  · intro he
    exact ⟨K, by rw [h1 K (le_refl _), h3 hn he]⟩

/-- **C79** (partial: missing that different recursive types can be identified, which they are not): when no two different recursive types of a well-formed table can be made identical, the
comparison finds exactly the types equal that can be made identical, and so it is an equivalence relation -/
theorem C79_equivalence_partial (nd : Bool) (m : TMap) (h : WF m) (hn : NoTwins m) :
    (∀ x y, Plain m.length x → Plain m.length y → (FoundEqual nd m x y ↔ Equiv m x y)) ∧
    (∀ x y z, Plain m.length x → Plain m.length y → Plain m.length z → FoundEqual nd m x y → FoundEqual nd m y z → FoundEqual nd m x z) :=
  ⟨fun _ _ hx hy => foundEqual_iff nd h hn hx hy, fun _ _ _ hx hy hz h1 h2 =>
    (foundEqual_iff nd h hn hx hz).2 (equiv_trans ((foundEqual_iff nd h hn hx hy).1 h1) ((foundEqual_iff nd h hn hy hz).1 h2))⟩

example : WF exTab ∧ NoTwins exTab := by
  refine ⟨exTab_wf, fun n n' b b' hb hb' hr hr' _ => ?_⟩
  have key : ∀ n (b : Binding), exTab[n]? = some b → b.recursive = true → n = 0 := fun n b hb hr => by
    match n, hb with
    | 0, _ => rfl
    | 1, hb => cases hb; cases hr
    | n + 2, hb => simp [exTab] at hb
  rw [key n b hb hr, key n' b' hb' hr']

/-- **C79** (simple definitions): keep the table well formed and add to it only; the type defined has the name given, and can be made identical to the right hand side, also when an earlier
definition is found to be the same -/
theorem C79_simple (nd : Bool) (fuel : Nat) (m : TMap) (h : WF m) (id : Nat) (tp : TT) (hc : Closed tp) (hp : Plain m.length tp) (i : Nat) (m' : TMap)
    (hr : addSimple nd fuel m id tp 0 = .ok (i, m')) : WF m' ∧ (∃ es, m' = m ++ es) ∧ (∃ b, m'[i]? = some b ∧ b.name = some id) ∧ Equiv m' (.tabled i []) tp :=
  simple_spec nd fuel h id hc hp hr

example (nd : Bool) : Closed (.row (.tabled 1 [])) ∧ Plain exTab.length (.row (.tabled 1 [])) ∧
    addSimple nd 9 exTab 9 (.row (.tabled 1 [])) 0 = .ok (2, exTab ++ [⟨some 9, 0, false, .row (.tabled 1 [])⟩]) := by
  refine ⟨by simp [Closed], by simp [Plain, exTab], by cases nd <;> rfl⟩

/-- **C79** (grouped definitions; partial: missing the case that parts of the right hand sides are found to be in the table already): when all composite parts of the right hand sides get an
entry, the table remains well formed, the types defined have the names given and the next numbers, and each can be made identical to its right hand side -/
theorem C79_group_partial (nd : Bool) (fuel : Nat) (m : TMap) (h : WF m) (defs : List (Nat × TT)) (hg : GroupOk m defs) (nrs : List Nat) (m' : TMap)
    (hr : addTypedefs nd fuel m defs 0 = .ok (nrs, m')) : m'.length ≤ m.length + groupSize defs ∧ (m'.length = m.length + groupSize defs →
      WF m' ∧ (∃ es, m' = m ++ es) ∧ nrs = (List.range defs.length).map (m.length + ·) ∧
      ∀ (i : Nat) (d : Nat × TT), defs[i]? = some d → (∃ b, m'[m.length + i]? = some b ∧ b.name = some d.1) ∧ Equiv m' (.tabled (m.length + i) []) d.2) :=
  group_spec nd fuel h hg hr

/-- `list = (|void,(int,list))`, a type with a part that is recursive too -/
def listDefs : List (Nat × TT) := [(3, .union [.tuple [], .tuple [.prim 0, .tabled 0 []]])]

def listTab : TMap := [⟨some 3, 0, true, .union [.tuple [], .tabled 1 []]⟩, ⟨none, 0, true, .tuple [.prim 0, .tabled 0 []]⟩]

theorem listDefs_ok : GroupOk [] listDefs where
  rhs := by
    intro d hd
    simp only [listDefs, List.mem_cons, List.not_mem_nil, or_false] at hd
    subst hd
    simp [Closed, ClosedL, Plain, PlainL, TT.isTabled, listDefs]
  size := by decide

theorem wf_nil : WF [] := ⟨by simp, by simp, by simp⟩

example (nd : Bool) : WF [] ∧ GroupOk [] listDefs ∧ addTypedefs nd 9 [] listDefs 0 = .ok ([0], listTab) ∧ listTab.length = ([] : TMap).length + groupSize listDefs :=
  ⟨wf_nil, listDefs_ok, by cases nd <;> rfl, by decide⟩

/-- **C79** (grouped definitions, in general): the table is extended, and what is added has expanded definitions; for each equation of the group a number is returned, whose entry has the name given,
and has the same complete expansion as the right hand side, in which the types defined by the group are referred to by the numbers returned -/
theorem C79_merge (nd : Bool) (fuel : Nat) (m : TMap) (h : WF m) (defs : List (Nat × TT)) (hg : GroupOk m defs) (nrs : List Nat) (m' : TMap)
    (hr : addTypedefs nd fuel m defs 0 = .ok (nrs, m')) : (∃ es, m' = m ++ es) ∧ (∀ b ∈ m', b.arity = 0 ∧ b.tp.isTabled = false) ∧ nrs.length = defs.length ∧
      ∀ (i : Nat) (d : Nat × TT), defs[i]? = some d →
        ∃ n b, nrs[i]? = some n ∧ m'[n]? = some b ∧ b.name = some d.1 ∧ SameTree m' (.tabled n []) (d.2.renum (groupNr m.length nrs)) :=
  merge_spec nd fuel h hg hr

/-- the table after `set_type [pt=[(int,int)]]` -/
def ptTab : TMap := [⟨some 5, 0, false, .row (.tabled 1 [])⟩, ⟨none, 0, false, .tuple [.prim 0, .prim 0]⟩]

/-- `pt=[(int,int)]` again, and `q=((int,int),q,[bool])` -/
def ptDefs : List (Nat × TT) := [(5, .row (.tuple [.prim 0, .prim 0])), (6, .tuple [.tuple [.prim 0, .prim 0], .tabled 3 [], .row (.prim 1)])]

theorem ptTab_wf : WF ptTab := by
  refine ((C79_group_partial true 9 [] wf_nil [(5, .row (.tuple [.prim 0, .prim 0]))] ⟨?_, by decide⟩ [0] ptTab rfl).2 (by decide)).1
  intro d hd
  simp only [List.mem_cons, List.not_mem_nil, or_false] at hd
  subst hd
  simp [Closed, ClosedL, Plain, PlainL, TT.isTabled]

theorem ptDefs_ok : GroupOk ptTab ptDefs where
  rhs := by
    intro d hd
    simp only [ptDefs, List.mem_cons, List.not_mem_nil, or_false] at hd
    rcases hd with rfl | rfl <;> simp [Closed, ClosedL, Plain, PlainL, TT.isTabled, ptDefs, ptTab]
  size := by decide

set_option maxHeartbeats 8000000 in
/-- three of the five new entries are found in the table already; the types get numbers 0 and 2 -/
example (nd : Bool) : WF ptTab ∧ GroupOk ptTab ptDefs ∧ addTypedefs nd 9 ptTab ptDefs 0 =
    .ok ([0, 2], ptTab ++ [⟨some 6, 0, true, .tuple [.tabled 1 [], .tabled 2 [], .tabled 3 []]⟩, ⟨none, 0, false, .row (.prim 1)⟩]) :=
  ⟨ptTab_wf, ptDefs_ok, by cases nd <;> rfl⟩

/-- **C79** (partial: missing grouped definitions with parts that are in the table already, and type parameters): whatever types have been defined, recursive ones included, comparison of two types ends,
and types found equal can be made identical -/
theorem C79_history_partial (nd : Bool) (m : TMap) (h : Defined nd m) : WF m ∧ ∀ x y, Plain m.length x → Plain m.length y →
    ∃ b K, (∀ k, K ≤ k → eqT nd m k x y = .ok b) ∧ (b = true → Equiv m x y) := by
  have hw : WF m := by
    induction h with
    | empty => exact wf_nil
    | simple _ h1 h2 h3 ih => exact (C79_simple nd _ _ ih _ _ h1 h2 _ _ h3).1
    | group _ h1 h2 h3 ih => exact ((C79_group_partial nd _ _ ih _ h1 _ _ h2).2 h3).1
  refine ⟨hw, fun x y hx hy => ?_⟩
  obtain ⟨b, K, h1, h2, _⟩ := C79_decides nd m hw x y hx hy
  exact ⟨b, K, h1, h2⟩

example (nd : Bool) : Defined nd (listTab ++ [⟨some 4, 0, false, .row (.tabled 0 [])⟩]) :=
  .simple (fuel := 9) (id := 4) (i := 2) (tp := .row (.tabled 0 [])) (.group (fuel := 9) .empty listDefs_ok (by cases nd <;> rfl : addTypedefs nd 9 [] listDefs 0 = .ok ([0], listTab)) (by decide))
    (by simp [Closed]) (by simp [Plain, listTab]) (by cases nd <;> rfl)

/-! ### Where it goes wrong -/

/-- `A=(A,B)`, `B=(A,B)` -/
def twinDefs : List (Nat × TT) := [(1, .tuple [.tabled 0 [], .tabled 1 []]), (2, .tuple [.tabled 0 [], .tabled 1 []])]

def twinTab : TMap := [⟨some 1, 0, true, .tuple [.tabled 0 [], .tabled 1 []]⟩, ⟨some 2, 0, true, .tuple [.tabled 0 [], .tabled 1 []]⟩]

set_option maxHeartbeats 1000000 in
theorem twinTab_made (nd : Bool) : addTypedefs nd 9 [] twinDefs 0 = .ok ([0, 1], twinTab) := by
  cases nd <;> rfl

/-- **C79** (not transitive in general): after `set_type [A=(A,B), B=(A,B)]`, `A` is found equal to `(A,B)`, `(A,B)` to `B`, but `A` not to `B`, although one expansion of each makes them
identical -/
theorem C79_transitive_false (nd : Bool) : ∃ m, addTypedefs nd 9 [] twinDefs 0 = .ok ([0, 1], m) ∧ FoundEqual nd m (.tabled 0 []) (.tuple [.tabled 0 [], .tabled 1 []]) ∧
    FoundEqual nd m (.tuple [.tabled 0 [], .tabled 1 []]) (.tabled 1 []) ∧ (∀ k, eqT nd m (k + 1) (.tabled 0 []) (.tabled 1 []) = .ok false) ∧ Equiv m (.tabled 0 []) (.tabled 1 []) := by
  refine ⟨twinTab, twinTab_made nd, ⟨9, by cases nd <;> rfl⟩, ⟨9, by cases nd <;> rfl⟩, fun k => by cases nd <;> rfl, ?_⟩
  exact ⟨.tuple [.tabled 0 [], .tabled 1 []], .single (Expand.here (b := ⟨some 1, 0, true, .tuple [.tabled 0 [], .tabled 1 []]⟩) rfl),
    .single (Expand.here (b := ⟨some 2, 0, true, .tuple [.tabled 0 [], .tabled 1 []]⟩) rfl)⟩

/-- **C79** (comparison may not end): after `set_type pp<a>=[[a]]`, `set_type [A=pp<A>]`, `set_type [B=pp<B>]`, comparing `A` with `[B]` does not end -/
theorem C79_loop_false (nd : Bool) : ∃ m1 m2 m3, addSimple nd 9 [] 8 (.row (.row (.var 0))) 1 = .ok (0, m1) ∧ addTypedefs nd 9 m1 [(1, .tabled 0 [.tabled 1 []])] 0 = .ok ([1], m2) ∧
    addTypedefs nd 9 m2 [(2, .tabled 0 [.tabled 2 []])] 0 = .ok ([2], m3) ∧ ∀ k, eqT nd m3 k (.tabled 1 []) (.row (.tabled 2 [])) = .outOfFuel := by
  refine ⟨[⟨some 8, 1, false, .row (.row (.var 0))⟩], [⟨some 8, 1, false, .row (.row (.var 0))⟩, ⟨some 1, 0, true, .row (.row (.tabled 1 []))⟩],
    [⟨some 8, 1, false, .row (.row (.var 0))⟩, ⟨some 1, 0, true, .row (.row (.tabled 1 []))⟩, ⟨some 2, 0, true, .row (.row (.tabled 2 []))⟩], ?_, ?_, ?_, ?_⟩
  · cases nd <;> rfl
  · cases nd <;> rfl
  · cases nd <;> rfl
  · intro k
    induction k using Nat.strong_induction_on with
    | _ k ih =>
      match k with
      | 0 => rfl
      | 1 => cases nd <;> rfl
      | 2 => cases nd <;> rfl
      | 3 => cases nd <;> rfl
      | k + 4 =>
        refine Eq.trans ?_ (ih k (by omega))
        cases nd <;> rfl

/-- **C79** (reloading a script): after `set_type [tree=[tree]]` and `set_type pair=(tree,int)`, both a second time, the last definition does not end -/
theorem C79_reload_false (nd : Bool) : ∃ m, addTypedefs nd 9 exTab [(7, .row (.tabled 2 []))] 0 = .ok ([2], m) ∧ ∀ k, addSimple nd k m 8 (.tuple [.tabled 2 [], .prim 0]) 0 = .outOfFuel := by
  refine ⟨exTab ++ [⟨some 7, 0, true, .row (.tabled 2 [])⟩], by cases nd <;> rfl, ?_⟩
  have key : ∀ k, textEq nd (exTab ++ [⟨some 7, 0, true, .row (.tabled 2 [])⟩]) k (.tabled 0 []) (.tabled 2 []) = .outOfFuel := by
    intro k
    induction k using Nat.strong_induction_on with
    | _ k ih =>
      match k with
      | 0 => rfl
      | 1 => cases nd <;> rfl
      | k + 2 =>
        refine Eq.trans ?_ (ih k (by omega))
        cases nd <;> rfl
  intro k
  match k with
  | 0 => cases nd <;> rfl
  | k + 1 =>
    have e : addSimple nd (k + 1) (exTab ++ [⟨some 7, 0, true, .row (.tabled 2 [])⟩]) 8 (.tuple [.tabled 2 [], .prim 0]) 0 =
        ((textEq nd (exTab ++ [⟨some 7, 0, true, .row (.tabled 2 [])⟩]) k (.tabled 0 []) (.tabled 2 []) >>= fun c =>
          if c then eqList (textEq nd (exTab ++ [⟨some 7, 0, true, .row (.tabled 2 [])⟩]) k) [.prim 0] [.prim 0] else .ok false) >>= fun c =>
          (if c then .ok (some 1) else findEntry nd (exTab ++ [⟨some 7, 0, true, .row (.tabled 2 [])⟩]) (k + 1) 8 (.tuple [.tabled 2 [], .prim 0]) [⟨some 7, 0, true, .row (.tabled 2 [])⟩] 2)) >>= fun r =>
          match r with
          | some i => .ok (i, exTab ++ [⟨some 7, 0, true, .row (.tabled 2 [])⟩])
          | none => .ok (3, exTab ++ [⟨some 7, 0, true, .row (.tabled 2 [])⟩] ++ [⟨some 8, 0, false, .tuple [.tabled 2 [], .prim 0]⟩]) := by
      cases nd <;> rfl
    rw [e, key]
    rfl

/-- **C79** (a type defined as itself): after `set_type idc<a>=a`, `set_type [A=idc<A>]` fails an assertion; without assertions the entry for `A` in the table is `A` itself, and comparing it
with `int` does not end -/
theorem C79_definiens_false : (∀ nd, ∃ m1, addSimple nd 9 [] 8 (.var 0) 1 = .ok (0, m1) ∧ addTypedefs false 9 m1 [(1, .tabled 0 [.tabled 1 []])] 0 = .assertFail ∧
    ∃ m2, addTypedefs true 9 m1 [(1, .tabled 0 [.tabled 1 []])] 0 = .ok ([1], m2) ∧ ∀ k, eqT true m2 k (.tabled 1 []) (.prim 0) = .outOfFuel) := by
  intro nd
  refine ⟨[⟨some 8, 1, false, .var 0⟩], by cases nd <;> rfl, rfl, [⟨some 8, 1, false, .var 0⟩, ⟨some 1, 0, true, .tabled 1 []⟩], rfl, fun k => ?_⟩
  induction k with
  | zero => rfl
  | succ k ih => exact Eq.trans rfl ih

end Verif.Axis
