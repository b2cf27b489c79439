import Verif.Cmd.Run
import Verif.Cmd.CommandsProps
/-
C90: execution of commands.
-/
namespace Verif.Cmd
open Verif

/-- the modes on the stack: the root, and above each mode one of its descendants -/
inductive Chain (root : Tree) : List (List Nat) → Prop
  | base : Chain root [[]]
  | up {m : List Nat} {l : List (List Nat)} (i : Nat) : Chain root (m :: l) → (root.sub (m ++ [i])).isSome → Chain root ((m ++ [i]) :: m :: l)

theorem sub_append : ∀ (p q : List Nat) (t : Tree), t.sub (p ++ q) = (t.sub p).bind fun u => u.sub q
  | [], q, t => rfl
  | i :: p, q, t => by
    rw [List.cons_append, Tree.sub, Tree.sub]
    cases t.desc[i]? with
    | none => rfl
    | some u => exact sub_append p q u

theorem sub_node (c : List (Name × Nat)) (d : List Tree) (i : Nat) (q : List Nat) : (Tree.node c d).sub (i :: q) = (d[i]?).bind fun u => u.sub q := by
  rw [Tree.sub]
  show (match d[i]? with | none => none | some u => u.sub q) = _
  cases d[i]? <;> rfl

mutual
theorem has_iff : ∀ (t : Tree) (here w : List Nat), t.hasDescendant here w = true ↔ ∃ q, w = here ++ q ∧ (t.sub q).isSome
  | .node c d, here, w => by
    rw [Tree.hasDescendant, Bool.or_eq_true, decide_eq_true_eq]
    have hc := childWith_spec d 0 here w
    constructor
    · rintro (rfl | h)
      · exact ⟨[], by simp, rfl⟩
      · obtain ⟨⟨i, u⟩, hi⟩ := Option.isSome_iff_exists.1 h
        rw [hi] at hc
        obtain ⟨j, q, h1, h2, h3, h4⟩ := hc
        refine ⟨i :: q, h3, ?_⟩
        rw [sub_node, show i = j by omega, h2]
        exact h4
    · rintro ⟨q, rfl, hq⟩
      cases q with
      | nil => simp
      | cons i q =>
        right
        rw [sub_node] at hq
        cases hd : d[i]? with
        | none => rw [hd] at hq; cases hq
        | some u =>
          rw [hd] at hq
          cases hcw : childWith d 0 here (here ++ i :: q) with
          | some _ => rfl
          | none =>
            rw [hcw] at hc
            exact (hc i u q hd (by simp) hq).elim
theorem childWith_spec : ∀ (l : List Tree) (i : Nat) (here w : List Nat),
    match childWith l i here w with
    | none => ∀ (j : Nat) (u : Tree) (q : List Nat), l[j]? = some u → w = here ++ (i + j) :: q → (u.sub q).isSome → False
    | some (k, u) => ∃ j q, k = i + j ∧ l[j]? = some u ∧ w = here ++ k :: q ∧ (u.sub q).isSome
  | [], i, here, w => by
    rw [childWith]
    intro j u q h
    simp at h
  | t :: l, i, here, w => by
    rw [childWith]
    have ht := has_iff t (here ++ [i]) w
    by_cases h : t.hasDescendant (here ++ [i]) w = true
    · rw [if_pos h]
      obtain ⟨q, h1, h2⟩ := ht.1 h
      exact ⟨0, q, rfl, rfl, by rw [h1]; simp, h2⟩
    · rw [if_neg h]
      have hl := childWith_spec l (i + 1) here w
      cases hc : childWith l (i + 1) here w with
      | none =>
        rw [hc] at hl
        intro j u q h1 h2 h3
        cases j with
        | zero =>
          simp only [List.getElem?_cons_zero, Option.some.injEq] at h1
          subst h1
          exact h (ht.2 ⟨q, by rw [h2]; simp, h3⟩)
        | succ j =>
          exact hl j u q (by simpa using h1) (by rw [h2]; congr 2; omega) h3
      | some v =>
        obtain ⟨k, u⟩ := v
        rw [hc] at hl
        obtain ⟨j, q, h1, h2, h3, h4⟩ := hl
        exact ⟨j + 1, q, by omega, by simpa using h2, h3, h4⟩
end

/-- the modes to be entered on the way from `m` along the path `q`, in order -/
def way (m : List Nat) : List Nat → List (List Nat)
  | [] => []
  | i :: q => (m ++ [i]) :: way (m ++ [i]) q

theorem enter_spec (ent : List Nat → Bool) : ∀ (q : List Nat) (fuel : Nat) (t : Tree) (m : List Nat) (stack : List (List Nat)), (t.sub q).isSome → q.length < fuel →
    enterLoop ent (m ++ q) fuel t m stack = .ok (decide (∀ p ∈ way m q, ent p = true), ((way m q).takeWhile ent).reverse ++ stack)
  | [], fuel, t, m, stack, _, hf => by
    obtain ⟨k, rfl⟩ : ∃ k, fuel = k + 1 := ⟨fuel - 1, by simp at hf; omega⟩
    rw [enterLoop, if_pos (by simp)]
    simp [way]
  | i :: q, fuel, t, m, stack, hs, hf => by
    obtain ⟨k, rfl⟩ : ∃ k, fuel = k + 1 := ⟨fuel - 1, by simp at hf; omega⟩
    cases t with
    | node c d =>
      rw [sub_node] at hs
      cases hd : d[i]? with
      | none => rw [hd] at hs; cases hs
      | some u =>
        rw [hd] at hs
        rw [enterLoop, if_neg (by simp)]
        have hc := childWith_spec d 0 m (m ++ i :: q)
        have : childWith (Tree.node c d).desc 0 m (m ++ i :: q) = some (i, u) := by
          show childWith d 0 m (m ++ i :: q) = some (i, u)
          cases hcw : childWith d 0 m (m ++ i :: q) with
          | none =>
            rw [hcw] at hc
            exact (hc i u q hd (by simp) hs).elim
          | some v =>
            obtain ⟨k, u'⟩ := v
            rw [hcw] at hc
            obtain ⟨j, q', h1, h2, h3, _⟩ := hc
            rw [List.append_cancel_left_eq, List.cons.injEq] at h3
            have : j = i := by omega
            rw [this, hd] at h2
            rw [h3.1]
            simp only [Option.some.injEq] at h2
            rw [h2]
        rw [this]
        simp only
        by_cases he : ent (m ++ [i]) = true
        · rw [if_pos he]
          have := enter_spec ent q k u (m ++ [i]) ((m ++ [i]) :: stack) hs (by simp at hf; omega)
          rw [List.append_assoc, List.singleton_append] at this
          rw [this, way, List.takeWhile_cons_of_pos he]
          simp [he]
        · rw [if_neg he, way, List.takeWhile_cons_of_neg he]
          simp [he]

mutual
/-- a bound for the depth of a mode -/
def Tree.height : Tree → Nat
  | .node _ d => heightList d + 1
def heightList : List Tree → Nat
  | [] => 0
  | t :: l => max t.height (heightList l)
end

theorem height_le : ∀ {l : List Tree} {u : Tree}, u ∈ l → u.height ≤ heightList l
  | t :: l, u, h => by
    rw [heightList]
    rcases List.mem_cons.1 h with rfl | h
    · omega
    · have := height_le h
      omega

theorem sub_height : ∀ (q : List Nat) (t : Tree), (t.sub q).isSome → q.length < t.height
  | [], .node c d, _ => by rw [Tree.height]; simp
  | i :: q, .node c d, h => by
    rw [sub_node] at h
    cases hd : d[i]? with
    | none => rw [hd] at h; cases h
    | some u =>
      rw [hd] at h
      have h1 := sub_height q u h
      have h2 := height_le (List.mem_of_getElem? hd)
      rw [Tree.height, List.length_cons]
      omega

mutual
theorem entries_here : ∀ (t : Tree) (a b : List Nat), t.entries (a ++ b) = (t.entries b).map fun e => (a ++ e.1, e.2)
  | .node c d, a, b => by
    rw [Tree.entries, Tree.entries, List.map_append, List.map_map, entriesList_here d 0 a b]
    rfl
theorem entriesList_here : ∀ (l : List Tree) (i : Nat) (a b : List Nat), entriesList l i (a ++ b) = (entriesList l i b).map fun e => (a ++ e.1, e.2)
  | [], _, _, _ => rfl
  | t :: l, i, a, b => by
    rw [entriesList, entriesList, List.map_append, List.append_assoc, entries_here t a (b ++ [i]), entriesList_here l (i + 1) a b]
end

mutual
theorem entries_sub : ∀ (t : Tree) (here p : List Nat) (e : Name × Nat), (p, e) ∈ t.entries here → ∃ q u, p = here ++ q ∧ t.sub q = some u ∧ e ∈ u.cmds
  | .node c d, here, p, e, h => by
    rw [Tree.entries] at h
    rcases List.mem_append.1 h with h | h
    · obtain ⟨x, hx, hxe⟩ := List.mem_map.1 h
      simp only [Prod.mk.injEq] at hxe
      exact ⟨[], .node c d, by simp [hxe.1], rfl, by rw [← hxe.2]; exact hx⟩
    · obtain ⟨j, q, u, v, h1, h2, h3, h4⟩ := entriesList_sub d 0 here p e h
      refine ⟨j :: q, v, by simpa using h1, ?_, h4⟩
      rw [sub_node, h2]
      exact h3
theorem entriesList_sub : ∀ (l : List Tree) (i : Nat) (here p : List Nat) (e : Name × Nat), (p, e) ∈ entriesList l i here → ∃ j q u v, p = here ++ (i + j) :: q ∧ l[j]? = some u ∧ u.sub q = some v ∧ e ∈ v.cmds
  | [], _, _, _, _, h => by simp [entriesList] at h
  | t :: l, i, here, p, e, h => by
    rw [entriesList] at h
    rcases List.mem_append.1 h with h | h
    · obtain ⟨q, v, h1, h2, h3⟩ := entries_sub t (here ++ [i]) p e h
      exact ⟨0, q, t, v, by rw [h1]; simp, rfl, h2, h3⟩
    · obtain ⟨j, q, u, v, h1, h2, h3, h4⟩ := entriesList_sub l (i + 1) here p e h
      exact ⟨j + 1, q, u, v, by rw [h1]; congr 2; omega, by simpa using h2, h3, h4⟩
end

theorem sub_mode : ∀ (q : List Nat) {t u : Tree}, t.sub q = some u → Mode u t
  | [], t, u, h => by
    rw [Tree.sub] at h
    cases h
    exact .self t
  | i :: q, .node c d, u, h => by
    rw [sub_node] at h
    cases hd : d[i]? with
    | none => rw [hd] at h; cases h
    | some v =>
      rw [hd] at h
      exact .desc (List.mem_of_getElem? hd) (sub_mode q h)

theorem look_here {root u : Tree} {m : List Nat} (hb : Built root) (hu : root.sub m = some u) (name : Name) {st : Status} (wh : Option (List Nat)) (hst : st ≠ .found) :
    u.lookUp name m st wh = answer name ((u.matches name).map fun e => (m ++ e.1, e.2)) st wh := by
  rw [lookUp_eq name u m st wh (mode_good (sub_mode m hu) (built_good hb).1 (built_good hb).2).1 hst]
  have := entries_here u m []
  rw [List.append_nil] at this
  rw [this, sel, List.filter_map, Tree.matches]
  congr 2
  refine List.filter_congr fun e _ => ?_
  show isInitial name e.2.1 = _
  rw [Bool.eq_iff_iff, isInitial_iff, decide_eq_true_eq]

/-- the command that `name` stands for in a mode: the first one with that name, or without such the only one whose name it starts -/
def Chosen (u : Tree) (name : Name) (q : List Nat) (e : Name × Nat) : Prop :=
  (e.1 = name ∧ ∃ pre post, u.entries [] = pre ++ (q, e) :: post ∧ ∀ d ∈ pre, d.2.1 ≠ name) ∨ ((∀ d ∈ u.entries [], d.2.1 ≠ name) ∧ u.matches name = [(q, e)])

theorem find_map (name : Name) (m : List Nat) (l : List (List Nat × Name × Nat)) :
    (l.map fun e => (m ++ e.1, e.2)).find? (fun e => e.2.1 = name) = (l.find? fun e => e.2.1 = name).map fun e => (m ++ e.1, e.2) := by
  rw [List.find?_map]
  rfl

theorem chosen_answer {u : Tree} {name : Name} {q : List Nat} {e : Name × Nat} (h : Chosen u name q e) (m : List Nat) (wh : Option (List Nat)) :
    ∃ st, (st = .found ∨ st = .partialMatch) ∧ answer name ((u.matches name).map fun e => (m ++ e.1, e.2)) .notFound wh = ⟨some e, st, some (m ++ q)⟩ := by
  rcases h with ⟨rfl, pre, post, h1, h2⟩ | ⟨h1, h2⟩
  · refine ⟨.found, .inl rfl, ?_⟩
    have : (u.matches e.1).find? (fun d => d.2.1 = e.1) = some (q, e) := by
      rw [Tree.matches, h1, List.filter_append, List.find?_append, List.find?_eq_none.2, List.filter_cons_of_pos (by simp)]
      · simp
      · intro d hd
        simpa using h2 d (List.mem_filter.1 hd).1
    exact answer_found (e := (m ++ q, e)) (by rw [find_map, this]; rfl)
  · refine ⟨.partialMatch, .inr rfl, ?_⟩
    have := find_none h1
    rw [h2] at this ⊢
    unfold answer
    rw [find_map, this]
    rfl

theorem chosen_sub {u : Tree} {name : Name} {q : List Nat} {e : Name × Nat} (h : Chosen u name q e) : name <+: e.1 ∧ ∃ v, u.sub q = some v ∧ e ∈ v.cmds := by
  have hm : (q, e) ∈ u.entries [] ∧ name <+: e.1 := by
    rcases h with ⟨rfl, pre, post, h1, h2⟩ | ⟨h1, h2⟩
    · exact ⟨by rw [h1]; simp, List.prefix_refl _⟩
    · have : (q, e) ∈ u.matches name := by rw [h2]; simp
      have := List.mem_filter.1 this
      exact ⟨this.1, by simpa using this.2⟩
  obtain ⟨q', v, h1, h2, h3⟩ := entries_sub u [] q e hm.1
  rw [List.nil_append] at h1
  subst h1
  exact ⟨hm.2, v, h2, h3⟩

/-- what follows when the command is `e`, found at the path `q` from the mode `m` -/
def result (ent : List Nat → Bool) (m q : List Nat) (e : Name × Nat) (stack : List (List Nat)) : Outcome × List (List Nat) :=
  (if ∀ p ∈ way m q, ent p = true then .executed e else .entryFailed, ((way m q).takeWhile ent).reverse ++ stack)

theorem foundCase_eq (ent : List Nat → Bool) {fuel : Nat} {t : Tree} {m q : List Nat} {stack : List (List Nat)} {e : Name × Nat} {st : Status} (hs : (t.sub q).isSome) (hf : q.length < fuel) :
    foundCase ent fuel t m stack ⟨some e, st, some (m ++ q)⟩ = .ok (result ent m q e stack) := by
  rw [foundCase]
  simp only
  rw [enter_spec ent q fuel t m stack hs hf, Res.ok_bind]
  simp [result, Res.pure_eq]

theorem chain_sub {root : Tree} {l : List (List Nat)} (h : Chain root l) : ∀ m ∈ l, (root.sub m).isSome := by
  induction h with
  | base => intro m hm; simp at hm; subst hm; rfl
  | up i _ hs ih =>
    intro x hx
    rcases List.mem_cons.1 hx with rfl | hx
    · exact hs
    · exact ih x hx

theorem chain_len {root : Tree} {l : List (List Nat)} (h : Chain root l) : l.Pairwise fun a b => b.length < a.length := by
  induction h with
  | base => exact List.pairwise_singleton _ _
  | @up m l i _ hs ih =>
    refine List.pairwise_cons.2 ⟨?_, ih⟩
    intro b hb
    rw [List.length_append, List.length_singleton]
    rcases List.mem_cons.1 hb with rfl | hb
    · omega
    · have := (List.pairwise_cons.1 ih).1 b hb
      omega

theorem chain_tail {root : Tree} : ∀ {pre : List (List Nat)} {m : List Nat} {l : List (List Nat)}, Chain root (pre ++ m :: l) → Chain root (m :: l)
  | [], _, _, h => h
  | [a], m, l, h => by
    cases h with
    | up i h _ => exact h
  | a :: b :: pre, m, l, h => by
    cases h with
    | up i h _ => exact chain_tail (pre := b :: pre) h

theorem drop_eq {m : List Nat} {l : List (List Nat)} : ∀ {pre : List (List Nat)}, m ∉ pre → dropTo m (pre ++ m :: l) = .ok (m :: l)
  | [], _ => by rw [List.nil_append, dropTo, if_pos rfl]
  | a :: pre, h => by
    rw [List.cons_append, dropTo, if_neg (fun k => h (by simp [k]))]
    exact drop_eq fun k => h (by simp [k])

theorem chain_drop {root : Tree} {pre : List (List Nat)} {m : List Nat} {l : List (List Nat)} (h : Chain root (pre ++ m :: l)) : dropTo m (pre ++ m :: l) = .ok (m :: l) := by
  refine drop_eq fun k => ?_
  have := (List.pairwise_append.1 (chain_len h)).2.2 m k m (by simp)
  omega

theorem chain_way {root : Tree} (ent : List Nat → Bool) : ∀ (q m : List Nat) (l : List (List Nat)), Chain root (m :: l) → (root.sub (m ++ q)).isSome → Chain root (((way m q).takeWhile ent).reverse ++ m :: l)
  | [], m, l, h, _ => h
  | i :: q, m, l, h, hs => by
    rw [way]
    by_cases he : ent (m ++ [i]) = true
    · rw [List.takeWhile_cons_of_pos he, List.reverse_cons, List.append_assoc]
      have e1 : m ++ i :: q = (m ++ [i]) ++ q := by simp
      refine chain_way ent q (m ++ [i]) (m :: l) (.up i h ?_) (by rw [← e1]; exact hs)
      rw [e1, sub_append] at hs
      cases hr : root.sub (m ++ [i]) with
      | none => rw [hr] at hs; cases hs
      | some _ => rfl
    · rw [List.takeWhile_cons_of_neg he]
      exact h

theorem answer_none {name : Name} {u : Tree} (h : ∀ d ∈ u.entries [], ¬ name <+: d.2.1) (m : List Nat) (st : Status) (wh : Option (List Nat)) :
    answer name ((u.matches name).map fun e => (m ++ e.1, e.2)) st wh = ⟨none, st, wh⟩ := by
  have : u.matches name = [] := by
    rw [Tree.matches, List.filter_eq_nil_iff]
    simpa using h
  rw [this]
  rfl

/-- no command of these modes and their descendants starts with `name` -/
def NoMatch (root : Tree) (name : Name) (l : List (List Nat)) : Prop := ∀ m ∈ l, ∀ u, root.sub m = some u → ∀ d ∈ u.entries [], ¬ name <+: d.2.1

theorem ancestors_skip (ent : List Nat → Bool) (fuel : Nat) {root : Tree} (hb : Built root) (name : Name) (full : List (List Nat)) (wh : Option (List Nat)) : ∀ (pre l : List (List Nat)), (∀ m ∈ pre, (root.sub m).isSome) → NoMatch root name pre →
    ancestors ent fuel root name full (pre ++ l) .notFound wh = ancestors ent fuel root name full l .notFound wh
  | [], _, _, _ => rfl
  | m :: pre, l, hs, hn => by
    obtain ⟨u, hu⟩ := Option.isSome_iff_exists.1 (hs m (by simp))
    rw [List.cons_append, ancestors, hu]
    simp only
    rw [look_here hb hu name wh (by simp), answer_none (hn m (by simp) u hu), if_neg (by simp)]
    exact ancestors_skip ent fuel hb name full wh pre l (fun x hx => hs x (by simp [hx])) fun x hx => hn x (by simp [hx])

/-- C90, a command that is found: the modes that do not know it are left, the modes on the way to it are entered in order as long as their entry functions succeed, and it is executed if they all do -/
theorem C90_executes (root : Tree) (hb : Built root) (ent : List Nat → Bool) (name : Name) (pre : List (List Nat)) (m : List Nat) (l : List (List Nat)) (hc : Chain root (pre ++ m :: l)) (hn : NoMatch root name pre)
    (u : Tree) (hu : root.sub m = some u) (q : List Nat) (e : Name × Nat) (h : Chosen u name q e) (fuel : Nat) (hf : root.height ≤ fuel) :
    runOnce ent fuel root name (pre ++ m :: l) = .ok (if ∀ p ∈ way m q, ent p = true then .executed e else .entryFailed, ((way m q).takeWhile ent).reverse ++ m :: l) := by
  obtain ⟨-, v, hv, -⟩ := chosen_sub h
  have hq : q.length < fuel := by
    have := sub_height (m ++ q) root (by rw [sub_append, hu]; simp [hv])
    rw [List.length_append] at this
    omega
  have hs : (u.sub q).isSome := by rw [hv]; rfl
  cases pre with
  | nil =>
    obtain ⟨st, h1, h2⟩ := chosen_answer h m none
    rw [List.nil_append, runOnce]
    simp only [hu]
    rw [look_here hb hu name none (by simp), h2]
    rcases h1 with rfl | rfl
    · exact foundCase_eq ent hs hq
    · exact foundCase_eq ent hs hq
  | cons a pre =>
    have hsub := chain_sub hc
    obtain ⟨w, hw⟩ := Option.isSome_iff_exists.1 (hsub a (by simp))
    have hd := chain_drop hc
    rw [List.cons_append] at hd ⊢
    rw [runOnce]
    simp only [hw]
    rw [look_here hb hw name none (by simp), answer_none (hn a (by simp) w hw)]
    simp only
    rw [ancestors_skip ent fuel hb name _ none pre (m :: l) (fun x hx => hsub x (by simp [hx])) (fun x hx => hn x (by simp [hx])), ancestors]
    simp only [hu]
    obtain ⟨st, h1, h2⟩ := chosen_answer h m none
    rw [look_here hb hu name none (by simp), h2, if_pos h1, hd, Res.ok_bind]
    exact foundCase_eq ent hs hq

/-- C90, a name that starts no command of any active mode or of its descendants -/
theorem C90_unknown (root : Tree) (hb : Built root) (ent : List Nat → Bool) (name : Name) (stack : List (List Nat)) (hc : Chain root stack) (hn : NoMatch root name stack) (fuel : Nat) :
    runOnce ent fuel root name stack = .ok (.notFound, stack) := by
  have hsub := chain_sub hc
  cases stack with
  | nil => cases hc
  | cons a pre =>
    obtain ⟨w, hw⟩ := Option.isSome_iff_exists.1 (hsub a (by simp))
    rw [runOnce]
    simp only [hw]
    rw [look_here hb hw name none (by simp), answer_none (hn a (by simp) w hw)]
    simp only
    have := ancestors_skip ent fuel hb name (a :: pre) none pre [] (fun x hx => hsub x (by simp [hx])) (fun x hx => hn x (by simp [hx]))
    rw [List.append_nil] at this
    rw [this, ancestors]

theorem answer_many {u : Tree} {name : Name} (h1 : ∀ d ∈ u.entries [], d.2.1 ≠ name) (m : List Nat) {st : Status} (wh : Option (List Nat)) (h : st = .ambiguous ∨ (st = .notFound ∧ 2 ≤ (u.matches name).length)) :
    (answer name ((u.matches name).map fun e => (m ++ e.1, e.2)) st wh).status = .ambiguous := by
  unfold answer
  rw [find_map, find_none h1]
  rcases h with rfl | ⟨rfl, h⟩
  · cases u.matches name <;> rfl
  · cases hm : u.matches name with
    | nil => rw [hm] at h; simp at h
    | cons a l =>
      cases l with
      | nil => rw [hm] at h; simp at h
      | cons b l => rfl

/-- C90, a name that starts several commands of the current mode and its descendants, and is none of them: these are reported and nothing changes -/
theorem C90_ambiguous (root : Tree) (hb : Built root) (ent : List Nat → Bool) (name : Name) (m : List Nat) (l : List (List Nat)) (u : Tree) (hu : root.sub m = some u)
    (h : ∀ d ∈ u.entries [], d.2.1 ≠ name) (h2 : 2 ≤ (u.matches name).length) (fuel : Nat) : runOnce ent fuel root name (m :: l) = .ok (.ambiguous (u.extensionList name), m :: l) := by
  rw [runOnce]
  simp only [hu]
  rw [look_here hb hu name none (by simp), answer_many h m none (.inr ⟨rfl, h2⟩)]

theorem ancestors_lost (ent : List Nat → Bool) (fuel : Nat) {root : Tree} (hb : Built root) (name : Name) (full : List (List Nat)) : ∀ (l : List (List Nat)) (wh : Option (List Nat)), (∀ m ∈ l, (root.sub m).isSome) →
    (∀ m ∈ l, ∀ u, root.sub m = some u → ∀ d ∈ u.entries [], d.2.1 ≠ name) → ancestors ent fuel root name full l .ambiguous wh = .ok (.notFound, full)
  | [], _, _, _ => by rw [ancestors]
  | m :: l, wh, hs, hn => by
    obtain ⟨u, hu⟩ := Option.isSome_iff_exists.1 (hs m (by simp))
    rw [ancestors, hu]
    simp only
    have h1 := answer_many (hn m (by simp) u hu) m wh (.inl rfl)
    rw [look_here hb hu name wh (by simp), h1, if_neg (by simp)]
    exact ancestors_lost ent fuel hb name full l _ (fun x hx => hs x (by simp [hx])) fun x hx => hn x (by simp [hx])

/-- C90, refuted: a name that starts several commands known to an active mode, but none known to the current one, is reported as not found -/
theorem C90_ambiguous_false (root : Tree) (hb : Built root) (ent : List Nat → Bool) (name : Name) (pre : List (List Nat)) (m : List Nat) (l : List (List Nat)) (hc : Chain root (pre ++ m :: l)) (hp : pre ≠ []) (hn : NoMatch root name pre)
    (u : Tree) (hu : root.sub m = some u) (h2 : 2 ≤ (u.matches name).length) (h : ∀ x ∈ m :: l, ∀ v, root.sub x = some v → ∀ d ∈ v.entries [], d.2.1 ≠ name) (fuel : Nat) :
    runOnce ent fuel root name (pre ++ m :: l) = .ok (.notFound, pre ++ m :: l) := by
  have hsub := chain_sub hc
  cases pre with
  | nil => exact (hp rfl).elim
  | cons a pre =>
    obtain ⟨w, hw⟩ := Option.isSome_iff_exists.1 (hsub a (by simp))
    rw [List.cons_append, runOnce]
    simp only [hw]
    rw [look_here hb hw name none (by simp), answer_none (hn a (by simp) w hw)]
    simp only
    rw [ancestors_skip ent fuel hb name _ none pre (m :: l) (fun x hx => hsub x (by simp [hx])) (fun x hx => hn x (by simp [hx])), ancestors]
    simp only [hu]
    have h1 := answer_many (h m (by simp) u hu) m none (.inr ⟨rfl, h2⟩)
    rw [look_here hb hu name none (by simp), h1, if_neg (by simp)]
    exact ancestors_lost ent fuel hb name _ l _ (fun x hx => hsub x (by simp [hx])) fun x hx => h x (by simp [hx])

theorem answer_good {u : Tree} {name : Name} {st : Status} {wh : Option (List Nat)} {m : List Nat} (hst : st = .notFound ∨ st = .ambiguous) (h : (answer name ((u.matches name).map fun e => (m ++ e.1, e.2)) st wh).status = .found ∨ (answer name ((u.matches name).map fun e => (m ++ e.1, e.2)) st wh).status = .partialMatch) :
    ∃ q e st' v, answer name ((u.matches name).map fun e => (m ++ e.1, e.2)) st wh = ⟨some e, st', some (m ++ q)⟩ ∧ name <+: e.1 ∧ u.sub q = some v ∧ e ∈ v.cmds := by
  have key : ∀ x ∈ u.matches name, name <+: x.2.1 ∧ ∃ v, u.sub x.1 = some v ∧ x.2 ∈ v.cmds := by
    intro x hx
    have hx := List.mem_filter.1 hx
    obtain ⟨q', v, h1, h2, h3⟩ := entries_sub u [] x.1 x.2 hx.1
    rw [List.nil_append] at h1
    rw [h1]
    exact ⟨by simpa using hx.2, v, h2, h3⟩
  cases hf : (u.matches name).find? (fun e => e.2.1 = name) with
  | some x =>
    obtain ⟨h1, v, h2, h3⟩ := key x (List.mem_of_find?_eq_some hf)
    exact ⟨x.1, x.2, .found, v, answer_found (e := (m ++ x.1, x.2)) (by rw [find_map, hf]; rfl), h1, h2, h3⟩
  | none =>
    unfold answer at h ⊢
    rw [find_map, hf] at h ⊢
    cases hm : u.matches name with
    | nil =>
      rw [hm] at h
      rcases hst with rfl | rfl <;> rcases h with h | h <;> cases h
    | cons x l =>
      rw [hm] at h
      rcases hst with rfl | rfl
      · obtain ⟨h1, v, h2, h3⟩ := key x (by rw [hm]; simp)
        exact ⟨x.1, x.2, _, v, rfl, h1, h2, h3⟩
      · rcases h with h | h <;> cases h

/-- what is required of an outcome: the modes on the stack are the root and above each one of its descendants, and a command that is executed is one of the current mode -/
def Good (root : Tree) (name : Name) (r : Res (Outcome × List (List Nat))) : Prop :=
  ∃ o stack, r = .ok (o, stack) ∧ Chain root stack ∧ ∀ e, o = .executed e → name <+: e.1 ∧ ∃ m l u, stack = m :: l ∧ root.sub m = some u ∧ e ∈ u.cmds

theorem way_last : ∀ (q m : List Nat) (l : List (List Nat)), ∃ l', (way m q).reverse ++ m :: l = (m ++ q) :: l'
  | [], m, l => ⟨l, by simp [way]⟩
  | i :: q, m, l => by
    obtain ⟨l', h⟩ := way_last q (m ++ [i]) (m :: l)
    refine ⟨l', ?_⟩
    rw [way, List.reverse_cons, List.append_assoc, List.singleton_append, h]
    simp

theorem takeWhile_self {α : Type} {f : α → Bool} : ∀ {l : List α}, (∀ a ∈ l, f a = true) → l.takeWhile f = l
  | [], _ => rfl
  | a :: l, h => by rw [List.takeWhile_cons_of_pos (h a (by simp)), takeWhile_self fun b hb => h b (by simp [hb])]

theorem result_good {root : Tree} {name : Name} (ent : List Nat → Bool) {u v : Tree} {m q : List Nat} {l : List (List Nat)} {e : Name × Nat} (hc : Chain root (m :: l)) (hu : root.sub m = some u) (hv : u.sub q = some v) (he : e ∈ v.cmds) (hp : name <+: e.1) :
    Good root name (.ok (result ent m q e (m :: l))) := by
  have hs : root.sub (m ++ q) = some v := by rw [sub_append, hu]; exact hv
  refine ⟨_, _, rfl, chain_way ent q m l hc (by rw [hs]; rfl), ?_⟩
  intro e' h
  by_cases ha : ∀ p ∈ way m q, ent p = true
  · rw [if_pos ha] at h
    cases h
    obtain ⟨l', hl⟩ := way_last q m l
    refine ⟨hp, m ++ q, l', v, ?_, hs, he⟩
    rw [takeWhile_self ha, hl]
  · rw [if_neg ha] at h
    cases h

theorem answer_other {u : Tree} {name : Name} {m : List Nat} {st : Status} {wh : Option (List Nat)} (h : ¬ ((answer name ((u.matches name).map fun e => (m ++ e.1, e.2)) st wh).status = .found ∨ (answer name ((u.matches name).map fun e => (m ++ e.1, e.2)) st wh).status = .partialMatch)) :
    (answer name ((u.matches name).map fun e => (m ++ e.1, e.2)) st wh).status = .notFound ∨ (answer name ((u.matches name).map fun e => (m ++ e.1, e.2)) st wh).status = .ambiguous := by
  cases hs : (answer name ((u.matches name).map fun e => (m ++ e.1, e.2)) st wh).status <;> simp [hs] at h ⊢

theorem fuel_ok {root u v : Tree} {m q : List Nat} {fuel : Nat} (hu : root.sub m = some u) (hv : u.sub q = some v) (hf : root.height ≤ fuel) : q.length < fuel := by
  have := sub_height (m ++ q) root (by rw [sub_append, hu]; simp [hv])
  rw [List.length_append] at this
  omega

theorem ancestors_good (ent : List Nat → Bool) (fuel : Nat) {root : Tree} (hb : Built root) (hf : root.height ≤ fuel) (name : Name) (full : List (List Nat)) (hc : Chain root full) : ∀ (l pre : List (List Nat)) (st : Status) (wh : Option (List Nat)), full = pre ++ l → (st = .notFound ∨ st = .ambiguous) →
    Good root name (ancestors ent fuel root name full l st wh)
  | [], _, _, _, _, _ => ⟨_, _, by rw [ancestors], hc, by intro e h; cases h⟩
  | m :: l, pre, st, wh, hl, hst => by
    obtain ⟨u, hu⟩ := Option.isSome_iff_exists.1 (chain_sub hc m (by rw [hl]; simp))
    rw [ancestors, hu]
    simp only
    rw [look_here hb hu name wh (by rcases hst with rfl | rfl <;> simp)]
    by_cases h : (answer name ((u.matches name).map fun e => (m ++ e.1, e.2)) st wh).status = .found ∨ (answer name ((u.matches name).map fun e => (m ++ e.1, e.2)) st wh).status = .partialMatch
    · obtain ⟨q, e, st', v, h1, h2, h3, h4⟩ := answer_good hst h
      have hd := chain_drop (hl ▸ hc)
      rw [← hl] at hd
      rw [if_pos h, hd, Res.ok_bind, h1, foundCase_eq ent (by rw [h3]; rfl) (fuel_ok hu h3 hf)]
      exact result_good ent (chain_tail (hl ▸ hc)) hu h3 h4 h2
    · rw [if_neg h]
      exact ancestors_good ent fuel hb hf name full hc l (pre ++ [m]) _ _ (by rw [hl]; simp) (answer_other h)

theorem runOnce_good (ent : List Nat → Bool) (fuel : Nat) {root : Tree} (hb : Built root) (hf : root.height ≤ fuel) (name : Name) {stack : List (List Nat)} (hc : Chain root stack) : Good root name (runOnce ent fuel root name stack) := by
  cases stack with
  | nil => cases hc
  | cons m l =>
    obtain ⟨u, hu⟩ := Option.isSome_iff_exists.1 (chain_sub hc m (by simp))
    rw [runOnce]
    simp only [hu]
    rw [look_here hb hu name none (by simp)]
    by_cases h : (answer name ((u.matches name).map fun e => (m ++ e.1, e.2)) .notFound none).status = .found ∨ (answer name ((u.matches name).map fun e => (m ++ e.1, e.2)) .notFound none).status = .partialMatch
    · obtain ⟨q, e, st', v, h1, h2, h3, h4⟩ := answer_good (.inl rfl) h
      have hg : Good root name (foundCase ent fuel u m (m :: l) ⟨some e, st', some (m ++ q)⟩) := by
        rw [foundCase_eq ent (by rw [h3]; rfl) (fuel_ok hu h3 hf)]
        exact result_good ent hc hu h3 h4 h2
      rw [h1] at h ⊢
      rcases h with h | h
      · simp only at h; subst h; exact hg
      · simp only at h; subst h; exact hg
    · rcases answer_other h with hs | hs
      · rw [hs]
        exact ancestors_good ent fuel hb hf name (m :: l) hc l [m] _ _ rfl (.inl rfl)
      · rw [hs]
        exact ⟨_, _, rfl, hc, by intro e h; cases h⟩

/-- the stacks of modes that occur in a session: initially the root is active; command lines are processed, whatever entry functions succeed; modes other than the root are left -/
inductive Session (root : Tree) : List (List Nat) → Prop
  | start : Session root [[]]
  | line {s s' : List (List Nat)} (ent : List Nat → Bool) (fuel : Nat) (name : Name) (o : Outcome) : Session root s → runOnce ent fuel root name s = .ok (o, s') → Session root s'
  | leave {a b : List Nat} {l : List (List Nat)} : Session root (a :: b :: l) → Session root (b :: l)

theorem enter_mono (ent : List Nat → Bool) (w : List Nat) : ∀ (k j : Nat) (t : Tree) (m : List Nat) (stack : List (List Nat)) (r : Bool × List (List Nat)), enterLoop ent w k t m stack = .ok r → enterLoop ent w (k + j) t m stack = .ok r
  | 0, _, _, _, _, _, h => by rw [enterLoop] at h; cases h
  | k + 1, j, t, m, stack, r, h => by
    rw [show k + 1 + j = (k + j) + 1 by omega]
    rw [enterLoop] at h ⊢
    by_cases hm : m = w
    · rw [if_pos hm] at h ⊢; exact h
    · rw [if_neg hm] at h ⊢
      cases hc : childWith t.desc 0 m w with
      | none => rw [hc] at h; exact enter_mono ent w k j t m stack r h
      | some x =>
        rw [hc] at h
        simp only at h ⊢
        by_cases he : ent (m ++ [x.1]) = true
        · rw [if_pos he] at h ⊢
          exact enter_mono ent w k j x.2 _ _ r h
        · rw [if_neg he] at h ⊢; exact h

theorem found_mono (ent : List Nat → Bool) (k j : Nat) (t : Tree) (m : List Nat) (stack : List (List Nat)) (r : Out) (x : Outcome × List (List Nat)) (h : foundCase ent k t m stack r = .ok x) : foundCase ent (k + j) t m stack r = .ok x := by
  rw [foundCase] at h ⊢
  split at h
  · rename_i e w h1 h2
    cases he : enterLoop ent w k t m stack with
    | ok y => rw [enter_mono ent w k j t m stack y he]; rw [he] at h; exact h
    | _ => rw [he] at h; cases h
  · cases h

theorem ancestors_mono (ent : List Nat → Bool) (k j : Nat) (root : Tree) (name : Name) (full : List (List Nat)) (x : Outcome × List (List Nat)) : ∀ (l : List (List Nat)) (st : Status) (wh : Option (List Nat)), ancestors ent k root name full l st wh = .ok x → ancestors ent (k + j) root name full l st wh = .ok x
  | [], _, _, h => by rw [ancestors] at h ⊢; exact h
  | m :: l, st, wh, h => by
    rw [ancestors] at h ⊢
    cases hs : root.sub m with
    | none => rw [hs] at h; cases h
    | some t =>
      rw [hs] at h
      simp only at h ⊢
      by_cases hc : (t.lookUp name m st wh).status = .found ∨ (t.lookUp name m st wh).status = .partialMatch
      · rw [if_pos hc] at h ⊢
        cases hd : dropTo m full with
        | ok s => rw [hd, Res.ok_bind] at h; rw [Res.ok_bind]; exact found_mono ent k j t m s _ x h
        | _ => rw [hd] at h; cases h
      · rw [if_neg hc] at h ⊢
        exact ancestors_mono ent k j root name full x l _ _ h

theorem run_mono (ent : List Nat → Bool) (k j : Nat) (root : Tree) (name : Name) (stack : List (List Nat)) (x : Outcome × List (List Nat)) (h : runOnce ent k root name stack = .ok x) : runOnce ent (k + j) root name stack = .ok x := by
  cases stack with
  | nil => cases h
  | cons m l =>
    rw [runOnce] at h ⊢
    cases hs : root.sub m with
    | none => rw [hs] at h; cases h
    | some t =>
      rw [hs] at h
      simp only at h ⊢
      cases hst : (t.lookUp name m .notFound none).status with
      | notFound => rw [hst] at h; exact ancestors_mono ent k j root name _ x _ _ _ h
      | ambiguous => rw [hst] at h; exact h
      | found => rw [hst] at h; exact found_mono ent k j t m _ _ x h
      | partialMatch => rw [hst] at h; exact found_mono ent k j t m _ _ x h

/-- C90, every session: the active modes are the root and above each one of its descendants; every command line is processed in a finite number of steps, without a failed assertion, and if it executes a command then that is one of the mode that is current at that moment -/
theorem C90_session (root : Tree) (hb : Built root) (stack : List (List Nat)) (hs : Session root stack) :
    Chain root stack ∧ ∀ (ent : List Nat → Bool) (name : Name), ∃ k, ∀ fuel, k ≤ fuel → ∃ o stack', runOnce ent fuel root name stack = .ok (o, stack') ∧ Chain root stack' ∧
      ∀ e, o = .executed e → name <+: e.1 ∧ ∃ m l u, stack' = m :: l ∧ root.sub m = some u ∧ e ∈ u.cmds := by
  have hc : Chain root stack := by
    induction hs with
    | start => exact .base
    | @line s s' ent fuel name o _ hr ih =>
      obtain ⟨o', s'', h1, h2, -⟩ := runOnce_good ent (fuel + root.height) hb (by omega) name ih
      rw [run_mono ent fuel root.height root name s _ hr] at h1
      cases h1
      exact h2
    | @leave a b l _ ih => exact chain_tail (pre := [a]) ih
  exact ⟨hc, fun ent name => ⟨root.height, fun fuel hf => runOnce_good ent fuel hb hf name hc⟩⟩

/-- a tree with three modes below each other and a second one below the root -/
def exTree : Tree := (((Tree.node [([97], 1)] []).addAt [] [([98, 98], 2)]).addAt [0] [([99, 99], 3)]).addAt [] [([100, 100], 4), ([100, 101], 5)]

theorem exBuilt : Built exTree :=
  .add _ (.add _ (.add _ (.root (List.pairwise_singleton _ _)) (List.pairwise_singleton _ _)) (List.pairwise_singleton _ _)) (List.pairwise_cons.2 ⟨by simp [ltName], List.pairwise_singleton _ _⟩)

-- from the root a command of the deepest mode enters both modes on the way; when the second cannot be entered, the first remains active
example : runOnce (fun _ => true) 5 exTree [99] [[]] = .ok (.executed ([99, 99], 3), [[0, 0], [0], []]) ∧ runOnce (fun p => decide (p ≠ [0, 0])) 5 exTree [99] [[]] = .ok (.entryFailed, [[0], []]) := ⟨rfl, rfl⟩

-- from there a command of the other mode leaves both; a common beginning of its commands is reported as not found, but as ambiguous in the root
example : runOnce (fun _ => true) 5 exTree [100, 101] [[0, 0], [0], []] = .ok (.executed ([100, 101], 5), [[1], []]) ∧ runOnce (fun _ => true) 5 exTree [100] [[0, 0], [0], []] = .ok (.notFound, [[0, 0], [0], []]) ∧
    runOnce (fun _ => true) 5 exTree [100] [[]] = .ok (.ambiguous [[100, 100], [100, 101]], [[]]) := ⟨rfl, rfl, rfl⟩

example : Chosen exTree [99] [0, 0] ([99, 99], 3) := .inr ⟨by decide, by decide⟩

example : Chain exTree ([[0, 0], [0]] ++ [] :: []) ∧ NoMatch exTree [100] [[0, 0], [0]] ∧ exTree.sub [] = some exTree ∧ 2 ≤ (exTree.matches [100]).length ∧ Chosen exTree [100, 101] [1] ([100, 101], 5) := by
  refine ⟨.up (m := [0]) 0 (.up (m := []) 0 .base rfl) rfl, ?_, rfl, by decide, .inl ⟨rfl, (exTree.entries []).take 8, [], rfl, by decide⟩⟩
  intro m hm u hu
  simp only [List.mem_cons, List.not_mem_nil, or_false] at hm
  rcases hm with rfl | rfl
  · cases hu; decide
  · cases hu; decide

example : Session exTree [[0, 0], [0], []] := .line (fun _ => true) 5 [99] _ .start rfl

end Verif.Cmd
