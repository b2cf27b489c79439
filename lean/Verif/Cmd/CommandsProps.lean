import Verif.Cmd.CommandsSpec
import Mathlib.Data.List.Basic
import Mathlib.Tactic.Tauto
/-
C89: commands are found by name or unique prefix.
-/
namespace Verif.Cmd
open Verif

theorem lt_irrefl : ∀ a : Name, ltName a a = false
  | [] => rfl
  | a :: l => by simp [ltName, lt_irrefl l]

theorem lt_trans : ∀ {a b c : Name}, ltName a b = true → ltName b c = true → ltName a c = true
  | [], [], _, h, _ => by cases h
  | _ :: _, [], _, h, _ => by cases h
  | _, _ :: _, [], _, h => by cases h
  | [], _ :: _, _ :: _, _, _ => rfl
  | a :: l, b :: m, c :: n, h, h' => by
    simp only [ltName, Bool.or_eq_true, decide_eq_true_eq, Bool.and_eq_true] at h h' ⊢
    rcases h with h | ⟨h, k⟩ <;> rcases h' with h' | ⟨h', k'⟩
    · left; omega
    · left; omega
    · left; omega
    · right; exact ⟨h.trans h', lt_trans k k'⟩

theorem lt_total : ∀ {a b : Name}, ltName a b = false → ltName b a = false → a = b
  | [], [], _, _ => rfl
  | [], _ :: _, h, _ => by cases h
  | _ :: _, [], _, h => by cases h
  | a :: l, b :: m, h, h' => by
    simp only [ltName, Bool.or_eq_false_iff, decide_eq_false_iff_not, Bool.and_eq_false_iff] at h h'
    have e : a = b := by omega
    subst e
    rw [lt_total (h.2.resolve_left (by simp)) (h'.2.resolve_left (by simp))]

theorem isInitial_iff : ∀ a b : Name, isInitial a b = true ↔ a <+: b
  | [], b => by simp [isInitial]
  | _ :: _, [] => by simp [isInitial]
  | a :: l, b :: m => by simp [isInitial, isInitial_iff l m, List.cons_prefix_cons]

theorem not_lt_of_prefix : ∀ {a b : Name}, a <+: b → ltName b a = false
  | [], [], _ => rfl
  | [], _ :: _, _ => rfl
  | _ :: _, [], h => by simp at h
  | a :: l, b :: m, h => by
    rw [List.cons_prefix_cons] at h
    simp [ltName, h.1, not_lt_of_prefix h.2]

theorem convex : ∀ {n a e : Name}, ltName a n = false → ¬ n <+: a → n <+: e → ltName e a = true
  | [], a, _, _, h, _ => (h (List.nil_prefix)).elim
  | _ :: _, [], _, h, _, _ => by cases h
  | _ :: _, _ :: _, [], _, _, h => by simp at h
  | x :: n, y :: a, z :: e, h, h', h'' => by
    rw [List.cons_prefix_cons] at h' h''
    simp only [ltName, Bool.or_eq_false_iff, decide_eq_false_iff_not, Bool.and_eq_false_iff] at h
    simp only [ltName, Bool.or_eq_true, decide_eq_true_eq, Bool.and_eq_true]
    by_cases k : x = y
    · right
      refine ⟨by omega, convex (h.2.resolve_left (by simp [k])) (fun q => h' ⟨k, q⟩) h''.2⟩
    · left; omega

theorem filter_takeWhile {α : Type} (name : Name) : ∀ l : List (Name × α), Sorted l → (∀ e ∈ l, ltName e.1 name = false) → l.filter (fun e => isInitial name e.1) = l.takeWhile (fun e => isInitial name e.1)
  | [], _, _ => rfl
  | e :: l, hs, h => by
    have hs' := List.pairwise_cons.1 hs
    by_cases k : isInitial name e.1 = true
    · rw [List.filter_cons_of_pos (by exact k), List.takeWhile_cons_of_pos (by exact k), filter_takeWhile name l hs'.2 (fun d hd => h d (by simp [hd]))]
    · rw [List.filter_cons_of_neg (by exact k), List.takeWhile_cons_of_neg (by exact k), List.filter_eq_nil_iff]
      intro d hd hi
      have := convex (h e (by simp)) (fun q => k ((isInitial_iff _ _).2 q)) ((isInitial_iff _ _).1 hi)
      have := lt_trans this (hs'.1 d hd)
      rw [lt_irrefl] at this
      cases this

theorem filter_findPrefix {α : Type} (name : Name) : ∀ l : List (Name × α), Sorted l → l.filter (fun e => isInitial name e.1) = (findPrefix name l).takeWhile (fun e => isInitial name e.1)
  | [], _ => rfl
  | e :: l, hs => by
    have hs' := List.pairwise_cons.1 hs
    rw [findPrefix]
    by_cases k : ltName e.1 name = true
    · rw [List.dropWhile_cons_of_pos (by exact k), List.filter_cons_of_neg, filter_findPrefix name l hs'.2]
      · rfl
      · intro hi
        rw [not_lt_of_prefix ((isInitial_iff _ _).1 hi)] at k
        cases k
    · rw [List.dropWhile_cons_of_neg (by exact k)]
      refine filter_takeWhile name _ hs ?_
      intro d hd
      rcases List.mem_cons.1 hd with rfl | hd
      · simpa using k
      · rw [Bool.eq_false_iff]
        intro q
        exact k (lt_trans (hs'.1 d hd) q)

/-- the answer determined by the list of all commands that match -/
def answer (name : Name) (ms : List (List Nat × Name × Nat)) (st : Status) (wh : Option (List Nat)) : Out :=
  match ms.find? (fun e => e.2.1 = name) with
  | some e => ⟨some e.2, .found, some e.1⟩
  | none =>
    match ms with
    | [] => ⟨none, st, wh⟩
    | e :: l => if st ≠ .notFound then ⟨none, .ambiguous, wh⟩ else ⟨some e.2, if l = [] then .partialMatch else .ambiguous, some e.1⟩

/-- the commands that match in a list -/
def sel (name : Name) (l : List (List Nat × Name × Nat)) : List (List Nat × Name × Nat) := l.filter fun e => isInitial name e.2.1

theorem own_eq (name : Name) (cmds : List (Name × Nat)) (hs : Sorted cmds) (here : List Nat) (st : Status) (wh : Option (List Nat)) :
    own name cmds here st wh = answer name (sel name (cmds.map fun e => (here, e))) st wh := by
  have e1 : sel name (cmds.map fun e => (here, e)) = ((findPrefix name cmds).takeWhile (fun e => isInitial name e.1)).map fun e => (here, e) := by
    rw [← filter_findPrefix name cmds hs, sel, List.filter_map]
    rfl
  have hso : Sorted (findPrefix name cmds) := List.Pairwise.sublist (List.dropWhile_sublist _) hs
  rw [e1, own]
  cases hD : findPrefix name cmds with
  | nil => rfl
  | cons e l =>
    rw [hD] at hso
    have hso' := List.pairwise_cons.1 hso
    by_cases k : isInitial name e.1 = true
    · simp only [k, if_true]
      rw [List.takeWhile_cons_of_pos (by exact k), List.map_cons]
      by_cases kn : name = e.1
      · rw [if_pos kn, answer, List.find?_cons_of_pos (by simp [kn])]
      · rw [if_neg kn, answer, List.find?_cons_of_neg (by simpa using fun h => kn h.symm)]
        have : ((l.takeWhile (fun e => isInitial name e.1)).map fun e => (here, e)).find? (fun e => e.2.1 = name) = none := by
          rw [List.find?_eq_none]
          intro d hd
          obtain ⟨d', hd', rfl⟩ := List.mem_map.1 hd
          simp only [decide_eq_true_eq]
          intro hn
          have h1 := hso'.1 d' ((List.takeWhile_sublist _).subset hd')
          rw [hn, not_lt_of_prefix ((isInitial_iff _ _).1 k)] at h1
          cases h1
        rw [this]
        simp only
        by_cases hst : st ≠ .notFound
        · rw [if_pos hst, if_pos hst]
        · rw [if_neg hst, if_neg hst]
          cases l with
          | nil => rfl
          | cons d l =>
            by_cases kd : isInitial name d.1 = true
            · simp [kd]
            · simp [kd]
    · simp only [k, Bool.false_eq_true, if_false]
      rw [List.takeWhile_cons_of_neg (by exact k)]
      rfl

/-- all dictionaries of the tree are sorted -/
inductive Ordered : Tree → Prop
  | node {c : List (Name × Nat)} {d : List Tree} : Sorted c → (∀ t ∈ d, Ordered t) → Ordered (.node c d)

theorem answer_status {name : Name} {ms : List (List Nat × Name × Nat)} {st : Status} {wh : Option (List Nat)} (h : ms.find? (fun e => e.2.1 = name) = none) (hst : st ≠ .found) : (answer name ms st wh).status ≠ .found := by
  unfold answer
  rw [h]
  cases ms with
  | nil => exact hst
  | cons e l =>
    simp only
    split
    · simp
    · split <;> simp

theorem answer_found {name : Name} {ms : List (List Nat × Name × Nat)} {st : Status} {wh : Option (List Nat)} {e : List Nat × Name × Nat} (h : ms.find? (fun e => e.2.1 = name) = some e) :
    answer name ms st wh = ⟨some e.2, .found, some e.1⟩ := by
  unfold answer
  rw [h]

theorem answer_matched {name : Name} {ms : List (List Nat × Name × Nat)} {st : Status} {wh : Option (List Nat)} (h : ms.find? (fun e => e.2.1 = name) = none) (hst : st ≠ .notFound) : (answer name ms st wh).status ≠ .notFound := by
  unfold answer
  rw [h]
  cases ms with
  | nil => exact hst
  | cons e l => simp [hst]

theorem answer_append {name : Name} {ms mt : List (List Nat × Name × Nat)} {st : Status} {wh : Option (List Nat)} (h : ms.find? (fun e => e.2.1 = name) = none) (h' : mt.find? (fun e => e.2.1 = name) = none) :
    (if (decide ((answer name ms st wh).status = .notFound) && (answer name mt (answer name ms st wh).status (answer name ms st wh).place).status ≠ .notFound) then answer name mt (answer name ms st wh).status (answer name ms st wh).place
      else { answer name mt (answer name ms st wh).status (answer name ms st wh).place with result := (answer name ms st wh).result }) = answer name (ms ++ mt) st wh := by
  have h'' : (ms ++ mt).find? (fun e => e.2.1 = name) = none := by rw [List.find?_append, h, h']; rfl
  simp only [answer, h, h', h'']
  cases ms with
  | nil =>
    cases mt with
    | nil => cases st <;> simp
    | cons d l => cases st <;> cases l <;> simp
  | cons e k =>
    cases mt with
    | nil => cases st <;> cases k <;> simp
    | cons d l => cases st <;> cases k <;> cases l <;> simp

mutual
theorem lookUp_eq (name : Name) : ∀ (t : Tree) (here : List Nat) (st : Status) (wh : Option (List Nat)), Ordered t → st ≠ .found → t.lookUp name here st wh = answer name (sel name (t.entries here)) st wh
  | .node cmds desc, here, st, wh, ho, hst => by
    cases ho with
    | node h1 h2 =>
      rw [Tree.lookUp, Tree.entries, sel, List.filter_append, own_eq name cmds h1]
      show _ = answer name (sel name (cmds.map fun e => (here, e)) ++ sel name (entriesList desc 0 here)) st wh
      cases hf : (sel name (cmds.map fun e => (here, e))).find? (fun e => e.2.1 = name) with
      | some e =>
        rw [answer_found hf, if_pos rfl, answer_found (by rw [List.find?_append, hf]; rfl)]
      | none =>
        rw [if_neg (answer_status hf hst)]
        exact lookLoop_eq name desc 0 here _ st wh hf h2 hst
theorem lookLoop_eq (name : Name) : ∀ (l : List Tree) (i : Nat) (here : List Nat) (ms : List (List Nat × Name × Nat)) (st : Status) (wh : Option (List Nat)), ms.find? (fun e => e.2.1 = name) = none → (∀ t ∈ l, Ordered t) → st ≠ .found →
    lookLoop name l i here (decide ((answer name ms st wh).status = .notFound)) (answer name ms st wh) = answer name (ms ++ sel name (entriesList l i here)) st wh
  | [], i, here, ms, st, wh, hf, ho, hst => by
    rw [lookLoop, entriesList]
    simp [sel]
  | t :: l, i, here, ms, st, wh, hf, ho, hst => by
    rw [lookLoop, entriesList, sel, List.filter_append, ← List.append_assoc]
    show _ = answer name (ms ++ sel name (t.entries (here ++ [i])) ++ sel name (entriesList l (i + 1) here)) st wh
    rw [lookUp_eq name t (here ++ [i]) _ _ (ho t (by simp)) (answer_status hf hst)]
    cases hf' : (sel name (t.entries (here ++ [i]))).find? (fun e => e.2.1 = name) with
    | some e =>
      rw [answer_found hf', if_pos rfl, answer_found (e := e) (by rw [List.find?_append, List.find?_append, hf, hf']; rfl)]
    | none =>
      rw [if_neg (answer_status hf' (answer_status hf hst))]
      have ha := answer_append (st := st) (wh := wh) hf hf'
      have hf'' : (ms ++ sel name (t.entries (here ++ [i]))).find? (fun e => e.2.1 = name) = none := by rw [List.find?_append, hf, hf']; rfl
      rw [← lookLoop_eq name l (i + 1) here _ st wh hf'' (fun t ht => ho t (by simp [ht])) hst, ← ha]
      by_cases hc : (decide ((answer name ms st wh).status = .notFound) && decide ((answer name (sel name (t.entries (here ++ [i]))) (answer name ms st wh).status (answer name ms st wh).place).status ≠ .notFound)) = true
      · rw [if_pos hc, if_pos hc]
        simp only [Bool.and_eq_true, decide_eq_true_eq] at hc
        congr 1
        simpa using hc.2
      · rw [if_neg hc, if_neg hc]
        congr 1
        simp only [Bool.and_eq_true, decide_eq_true_eq, not_and, not_not] at hc
        by_cases hq : (answer name ms st wh).status = .notFound
        · simp [hq]
          simpa [hq] using hc hq
        · have : (answer name (sel name (t.entries (here ++ [i]))) (answer name ms st wh).status (answer name ms st wh).place).status ≠ .notFound := by
            exact answer_matched hf' hq
          simp [hq, this]
end

/-! ### Trees that the program can build -/

theorem mem_insertCmd {α : Type} (e d : Name × α) : ∀ l : List (Name × α), Sorted l → (d ∈ insertCmd e l ↔ d ∈ l ∨ (d = e ∧ ∀ c ∈ l, c.1 ≠ e.1))
  | [], _ => by simp [insertCmd]
  | c :: l, hs => by
    have hs' := List.pairwise_cons.1 hs
    rw [insertCmd]
    by_cases h1 : ltName e.1 c.1 = true
    · rw [if_pos h1]
      have hne : ∀ b ∈ c :: l, b.1 ≠ e.1 := by
        intro b hb hq
        rcases List.mem_cons.1 hb with rfl | hb
        · rw [hq, lt_irrefl] at h1; cases h1
        · have := lt_trans h1 (hs'.1 b hb)
          rw [hq, lt_irrefl] at this; cases this
      rw [List.mem_cons]
      constructor
      · rintro (h | h)
        · exact .inr ⟨h, hne⟩
        · exact .inl h
      · rintro (h | h)
        · exact .inr h
        · exact .inl h.1
    · rw [if_neg h1]
      by_cases h2 : ltName c.1 e.1 = true
      · rw [if_pos h2, List.mem_cons, mem_insertCmd e d l hs'.2, List.mem_cons]
        have hc : c.1 ≠ e.1 := by
          intro hq
          rw [hq, lt_irrefl] at h2; cases h2
        simp only [List.forall_mem_cons]
        tauto
      · rw [if_neg h2]
        have hq : c.1 = e.1 := lt_total (by simpa using h2) (by simpa using h1)
        constructor
        · exact .inl
        · rintro (h | ⟨_, h⟩)
          · exact h
          · exact (h c (by simp) hq).elim

theorem insertCmd_sorted {α : Type} (e : Name × α) : ∀ l : List (Name × α), Sorted l → Sorted (insertCmd e l)
  | [], _ => List.pairwise_singleton _ _
  | c :: l, hs => by
    have hs' := List.pairwise_cons.1 hs
    rw [insertCmd]
    by_cases h1 : ltName e.1 c.1 = true
    · rw [if_pos h1]
      refine List.pairwise_cons.2 ⟨?_, hs⟩
      intro b hb
      rcases List.mem_cons.1 hb with rfl | hb
      · exact h1
      · exact lt_trans h1 (hs'.1 b hb)
    · rw [if_neg h1]
      by_cases h2 : ltName c.1 e.1 = true
      · rw [if_pos h2]
        refine List.pairwise_cons.2 ⟨?_, insertCmd_sorted e l hs'.2⟩
        intro b hb
        rcases (mem_insertCmd e b l hs'.2).1 hb with hb | ⟨rfl, _⟩
        · exact hs'.1 b hb
        · exact h2
      · rw [if_neg h2]; exact hs

theorem addCommands_spec {α : Type} : ∀ (src l : List (Name × α)), Sorted src → Sorted l → Sorted (addCommands src l) ∧ ∀ d, d ∈ addCommands src l ↔ d ∈ l ∨ (d ∈ src ∧ ∀ c ∈ l, c.1 ≠ d.1)
  | [], l, _, hl => ⟨hl, by simp [addCommands]⟩
  | e :: src, l, hs, hl => by
    have hs' := List.pairwise_cons.1 hs
    obtain ⟨h1, h2⟩ := addCommands_spec src (insertCmd e l) hs'.2 (insertCmd_sorted e l hl)
    refine ⟨h1, fun d => ?_⟩
    show d ∈ addCommands src (insertCmd e l) ↔ _
    rw [h2 d, mem_insertCmd e d l hl, List.mem_cons]
    constructor
    · rintro ((h | ⟨rfl, h⟩) | ⟨h, h'⟩)
      · exact .inl h
      · exact .inr ⟨.inl rfl, h⟩
      · exact .inr ⟨.inr h, fun c hc => h' c ((mem_insertCmd e c l hl).2 (.inl hc))⟩
    · rintro (h | ⟨rfl | h, h'⟩)
      · exact .inl (.inl h)
      · exact .inl (.inr ⟨rfl, h'⟩)
      · refine .inr ⟨h, fun c hc => ?_⟩
        rcases (mem_insertCmd e c l hl).1 hc with hc | ⟨rfl, _⟩
        · exact h' c hc
        · intro hq
          have := hs'.1 d h
          rw [hq, lt_irrefl] at this
          cases this

/-- each mode has the commands of the mode above it -/
inductive Inherits : Tree → Prop
  | node {c : List (Name × Nat)} {d : List Tree} : (∀ t ∈ d, ∀ e ∈ c, ∃ e' ∈ t.cmds, e'.1 = e.1) → (∀ t ∈ d, Inherits t) → Inherits (.node c d)

theorem addAt_cmds (p : List Nat) (c : List (Name × Nat)) (t : Tree) : (t.addAt p c).cmds = t.cmds := by
  cases p <;> rfl

theorem mem_modify {α : Type} {f : α → α} : ∀ {l : List α} {i : Nat} {y : α}, y ∈ l.modify i f → ∃ x ∈ l, y = x ∨ y = f x
  | [], i, y, h => by simp at h
  | a :: l, 0, y, h => by
    simp only [List.modify_zero_cons, List.mem_cons] at h
    rcases h with h | h
    · exact ⟨a, by simp, .inr h⟩
    · exact ⟨y, by simp [h], .inl rfl⟩
  | a :: l, i + 1, y, h => by
    simp only [List.modify_succ_cons, List.mem_cons] at h
    rcases h with h | h
    · exact ⟨a, by simp, .inl h⟩
    · obtain ⟨x, hx, h⟩ := mem_modify h
      exact ⟨x, by simp [hx], h⟩

theorem addAt_good {c : List (Name × Nat)} (hc : Sorted c) : ∀ (p : List Nat) (t : Tree), Ordered t → Inherits t → Ordered (t.addAt p c) ∧ Inherits (t.addAt p c)
  | [], .node c' d, .node o1 o2, .node h hI => by
    obtain ⟨s1, s2⟩ := addCommands_spec c' c o1 hc
    refine ⟨.node o1 ?_, .node ?_ ?_⟩
    · intro t ht
      rcases List.mem_append.1 ht with ht | ht
      · exact o2 t ht
      · rw [List.mem_singleton.1 ht]
        exact .node s1 (by simp)
    · intro t ht
      rcases List.mem_append.1 ht with ht | ht
      · exact h t ht
      · rw [List.mem_singleton.1 ht]
        intro e he
        by_cases hq : ∃ b ∈ c, b.1 = e.1
        · obtain ⟨b, hb, hq⟩ := hq
          exact ⟨b, (s2 b).2 (.inl hb), hq⟩
        · exact ⟨e, (s2 e).2 (.inr ⟨he, fun b hb hq' => hq ⟨b, hb, hq'⟩⟩), rfl⟩
    · intro t ht
      rcases List.mem_append.1 ht with ht | ht
      · exact hI t ht
      · rw [List.mem_singleton.1 ht]
        exact .node (by simp) (by simp)
  | i :: p, .node c' d, .node o1 o2, .node h hI => by
    refine ⟨.node o1 ?_, .node ?_ ?_⟩
    · intro t ht
      obtain ⟨x, hx, rfl | rfl⟩ := mem_modify ht
      · exact o2 _ hx
      · exact (addAt_good hc p x (o2 x hx) (hI x hx)).1
    · intro t ht
      obtain ⟨x, hx, rfl | rfl⟩ := mem_modify ht
      · exact h _ hx
      · rw [addAt_cmds]
        exact h x hx
    · intro t ht
      obtain ⟨x, hx, rfl | rfl⟩ := mem_modify ht
      · exact hI _ hx
      · exact (addAt_good hc p x (o2 x hx) (hI x hx)).2

theorem built_good {t : Tree} (h : Built t) : Ordered t ∧ Inherits t := by
  induction h with
  | root hc => exact ⟨.node hc (by simp), .node (by simp) (by simp)⟩
  | add p _ hc ih => exact addAt_good hc p _ ih.1 ih.2

theorem mode_good {m t : Tree} (h : Mode m t) : Ordered t → Inherits t → Ordered m ∧ Inherits m := by
  induction h with
  | self t => exact fun h h' => ⟨h, h'⟩
  | desc hd _ ih =>
    intro h1 h2
    cases h1 with
    | node _ o =>
      cases h2 with
      | node _ hI => exact ih (o _ hd) (hI _ hd)

theorem matches_sel (t : Tree) (name : Name) : t.matches name = sel name (t.entries []) := by
  unfold Tree.matches sel
  congr 1
  funext e
  rw [Bool.eq_iff_iff, decide_eq_true_eq, isInitial_iff]

theorem look_answer {t m : Tree} (ht : Built t) (hm : Mode m t) (name : Name) : m.lookUp name [] .notFound none = answer name (m.matches name) .notFound none := by
  rw [matches_sel]
  exact lookUp_eq name m [] .notFound none (mode_good hm (built_good ht).1 (built_good ht).2).1 (by simp)

theorem find_none {t : Tree} {name : Name} (h : ∀ e ∈ t.entries [], e.2.1 ≠ name) : (t.matches name).find? (fun e => e.2.1 = name) = none := by
  rw [List.find?_eq_none]
  intro e he
  simpa using h e (List.mem_filter.1 he).1

/-- **C89**: a command is found by its name from every mode, in that mode itself if it is there and in the first descendant that has it otherwise, even if other commands start with the same name -/
theorem C89_name (t m : Tree) (ht : Built t) (hm : Mode m t) (name : Name) (h : ∃ e ∈ m.entries [], e.2.1 = name) :
    ∃ pre p a post, m.entries [] = pre ++ (p, name, a) :: post ∧ (∀ e ∈ pre, e.2.1 ≠ name) ∧ m.lookUp name [] .notFound none = ⟨some (name, a), .found, some p⟩ := by
  obtain ⟨e, he, hn⟩ := h
  cases hf : (m.entries []).find? (fun e => e.2.1 = name) with
  | none =>
    rw [List.find?_eq_none] at hf
    exact (hf e he (by simpa using hn)).elim
  | some d =>
    obtain ⟨h1, pre, post, h2, h3⟩ := List.find?_eq_some_iff_append.1 hf
    obtain ⟨p, n, a⟩ := d
    simp only [decide_eq_true_eq] at h1
    subst h1
    refine ⟨pre, p, a, post, h2, fun e he => by simpa using h3 e he, ?_⟩
    rw [look_answer ht hm]
    refine answer_found (e := (p, n, a)) ?_
    rw [Tree.matches, h2, List.filter_append, List.filter_cons_of_pos (by simp), List.find?_append]
    have : (pre.filter fun e => decide (n <+: e.2.1)).find? (fun e => e.2.1 = n) = none := by
      rw [List.find?_eq_none]
      intro e he
      simpa using h3 e (List.mem_filter.1 he).1
    rw [this, List.find?_cons_of_pos (by simp)]
    rfl

/-- **C89**: if no command has the name given and exactly one, in the mode and its descendants, starts with it, that one is found -/
theorem C89_prefix (t m : Tree) (ht : Built t) (hm : Mode m t) (name : Name) (h : ∀ e ∈ m.entries [], e.2.1 ≠ name) (p : List Nat) (e : Name × Nat) (h1 : m.matches name = [(p, e)]) :
    m.lookUp name [] .notFound none = ⟨some e, .partialMatch, some p⟩ := by
  rw [look_answer ht hm]
  have := find_none h
  rw [h1] at this ⊢
  unfold answer
  rw [this]
  rfl

/-- **C89**: if no command has the name given and several start with it then this is told -/
theorem C89_ambiguous (t m : Tree) (ht : Built t) (hm : Mode m t) (name : Name) (h : ∀ e ∈ m.entries [], e.2.1 ≠ name) (h1 : 2 ≤ (m.matches name).length) :
    (m.lookUp name [] .notFound none).status = .ambiguous := by
  rw [look_answer ht hm]
  have := find_none h
  unfold answer
  rw [this]
  cases hq : m.matches name with
  | nil => rw [hq] at h1; simp at h1
  | cons a l =>
    cases l with
    | nil => rw [hq] at h1; simp at h1
    | cons b l => simp

/-- **C89**: if no command starts with the name given then this is told -/
theorem C89_none (t m : Tree) (ht : Built t) (hm : Mode m t) (name : Name) : (m.lookUp name [] .notFound none).status = .notFound ↔ ∀ e ∈ m.entries [], ¬ name <+: e.2.1 := by
  rw [look_answer ht hm]
  have hm' : m.matches name = [] ↔ ∀ e ∈ m.entries [], ¬ name <+: e.2.1 := by
    rw [Tree.matches, List.filter_eq_nil_iff]
    simp
  rw [← hm']
  unfold answer
  constructor
  · intro h
    cases hf : (m.matches name).find? (fun e => e.2.1 = name) with
    | some e => rw [hf] at h; simp at h
    | none =>
      rw [hf] at h
      cases hq : m.matches name with
      | nil => rfl
      | cons a l =>
        rw [hq] at h
        cases l <;> simp at h
  · intro h
    rw [h]
    rfl

/-- **C89** (inheritance): a new mode has its own commands, and of those of the mode above the ones whose names it does not define itself -/
theorem C89_inherit (t : Tree) (ht : Built t) (m : Tree) (hm : Mode m t) (c : List (Name × Nat)) (hc : Sorted c) : ∃ n, (m.addDescendant c).desc = m.desc ++ [n] ∧ Sorted n.cmds ∧
    ∀ e, e ∈ n.cmds ↔ e ∈ c ∨ (e ∈ m.cmds ∧ ∀ d ∈ c, d.1 ≠ e.1) := by
  have ho := (mode_good hm (built_good ht).1 (built_good ht).2).1
  cases ho with
  | node h1 _ =>
    obtain ⟨s1, s2⟩ := addCommands_spec _ c h1 hc
    exact ⟨_, rfl, s1, s2⟩

/-- **C89** (unique prefixes): it is not so that a prefix suffices if only one name starts with it.  In any mode that has descendants, no command of the mode is found by a prefix that is not itself a name: it is
always said to be ambiguous, because the descendants have a command of the same name -/
theorem C89_prefix_false (t m : Tree) (ht : Built t) (hm : Mode m t) (hd : m.desc ≠ []) (name : Name) (e : Name × Nat) (he : e ∈ m.cmds) (hp : name <+: e.1) (h : ∀ d ∈ m.entries [], d.2.1 ≠ name) :
    (m.lookUp name [] .notFound none).status = .ambiguous := by
  refine C89_ambiguous t m ht hm name h ?_
  have hi := (mode_good hm (built_good ht).1 (built_good ht).2).2
  cases m with
  | node c d =>
    cases d with
    | nil => exact (hd rfl).elim
    | cons u d =>
      cases hi with
      | node hi _ =>
        obtain ⟨e', he', hn⟩ := hi u (by simp) e he
        cases u with
        | node cu du =>
          have k1 : 1 ≤ ((c.map fun e => (([] : List Nat), e)).filter fun e => decide (name <+: e.2.1)).length := by
            refine List.length_pos_of_mem (a := ([], e)) (List.mem_filter.2 ⟨List.mem_map.2 ⟨e, he, rfl⟩, by simpa using hp⟩)
          have k2 : 1 ≤ ((cu.map fun e => (([] ++ [0] : List Nat), e)).filter fun e => decide (name <+: e.2.1)).length := by
            refine List.length_pos_of_mem (a := ([] ++ [0], e')) (List.mem_filter.2 ⟨List.mem_map.2 ⟨e', he', rfl⟩, by simpa [hn] using hp⟩)
          rw [Tree.matches, Tree.entries, entriesList, Tree.entries, List.filter_append, List.filter_append, List.filter_append, List.length_append, List.length_append, List.length_append]
          omega

/-- a mode with the command `ab` and one descendant: `a` is ambiguous although only one name starts with it -/
example : ∃ m, Built m ∧ m.desc ≠ [] ∧ m.extensionList [97] = [[97, 98]] ∧ (m.lookUp [97] [] .notFound none).status = .ambiguous ∧ m.lookUp [97, 98] [] .notFound none = ⟨some ([97, 98], 1), .found, some []⟩ :=
  ⟨(Tree.node [([97, 98], 1)] []).addAt [] [([99], 2)], .add [] (.root (List.pairwise_singleton _ _)) (List.pairwise_singleton _ _), by simp [Tree.addAt, Tree.addDescendant, Tree.desc], rfl, rfl, rfl⟩

/-- in the descendant it is not -/
example : ∃ t m, Built t ∧ Mode m t ∧ (∀ e ∈ m.entries [], e.2.1 ≠ [97]) ∧ m.matches [97] = [([], [97, 98], 1)] :=
  ⟨(Tree.node [([97, 98], 1)] []).addAt [] [([99], 2)], .node [([97, 98], 1), ([99], 2)] [], .add [] (.root (List.pairwise_singleton _ _)) (List.pairwise_singleton _ _),
    .desc (by simp [Tree.addDescendant, Tree.cmds, Tree.desc, addCommands, insertCmd, ltName]) (.self _), by simp [Tree.entries, entriesList], rfl⟩

/-! ### Extensions -/

theorem insert_mem {e d : Name × Unit} {l : List (Name × Unit)} (hs : Sorted l) : d ∈ insertCmd e l ↔ d ∈ l ∨ d = e := by
  rw [mem_insertCmd e d l hs]
  constructor
  · tauto
  · rintro (h | rfl)
    · exact .inl h
    · by_cases hq : ∀ c ∈ l, c.1 ≠ d.1
      · exact .inr ⟨rfl, hq⟩
      · simp only [not_forall, not_not] at hq
        obtain ⟨c, hc, hq⟩ := hq
        have : c = d := Prod.ext hq rfl
        exact .inl (this ▸ hc)

theorem insert_fold : ∀ (ds : List (Name × Nat)) (e : List (Name × Unit)), Sorted e → Sorted (ds.foldl (fun e d => insertCmd (d.1, ()) e) e) ∧ ∀ n, (n, ()) ∈ ds.foldl (fun e d => insertCmd (d.1, ()) e) e ↔ (n, ()) ∈ e ∨ ∃ d ∈ ds, d.1 = n
  | [], e, h => ⟨h, by simp⟩
  | d :: ds, e, h => by
    obtain ⟨h1, h2⟩ := insert_fold ds (insertCmd (d.1, ()) e) (insertCmd_sorted _ e h)
    refine ⟨h1, fun n => ?_⟩
    rw [List.foldl_cons, h2, insert_mem h]
    simp only [Prod.mk.injEq, and_true, List.mem_cons, exists_eq_or_imp]
    tauto

mutual
theorem ext_spec (name : Name) : ∀ (t : Tree) (here : List Nat) (e : List (Name × Unit)), Ordered t → Sorted e → Sorted (t.extensions name e) ∧ ∀ n, (n, ()) ∈ t.extensions name e ↔ (n, ()) ∈ e ∨ (name <+: n ∧ ∃ d ∈ t.entries here, d.2.1 = n)
  | .node c d, here, e, .node o1 o2, he => by
    rw [Tree.extensions, Tree.entries, ← filter_findPrefix name c o1]
    obtain ⟨h1, h2⟩ := insert_fold (c.filter fun e => isInitial name e.1) e he
    obtain ⟨h3, h4⟩ := extLoop_spec name d 0 here _ o2 h1
    refine ⟨h3, fun n => ?_⟩
    rw [h4, h2]
    simp only [List.mem_filter, isInitial_iff, List.mem_append, List.mem_map]
    constructor
    · rintro ((h | ⟨b, ⟨hb, hp⟩, rfl⟩) | ⟨hp, b, hb, rfl⟩)
      · exact .inl h
      · exact .inr ⟨hp, (here, b), .inl ⟨b, hb, rfl⟩, rfl⟩
      · exact .inr ⟨hp, b, .inr hb, rfl⟩
    · rintro (h | ⟨hp, b, ⟨b', hb', rfl⟩ | hb, rfl⟩)
      · exact .inl (.inl h)
      · exact .inl (.inr ⟨b', ⟨hb', hp⟩, rfl⟩)
      · exact .inr ⟨hp, b, hb, rfl⟩
theorem extLoop_spec (name : Name) : ∀ (l : List Tree) (i : Nat) (here : List Nat) (e : List (Name × Unit)), (∀ t ∈ l, Ordered t) → Sorted e → Sorted (extLoop name l e) ∧ ∀ n, (n, ()) ∈ extLoop name l e ↔ (n, ()) ∈ e ∨ (name <+: n ∧ ∃ d ∈ entriesList l i here, d.2.1 = n)
  | [], i, here, e, _, he => by
    rw [extLoop, entriesList]
    exact ⟨he, by simp⟩
  | t :: l, i, here, e, ho, he => by
    rw [extLoop, entriesList]
    obtain ⟨h1, h2⟩ := ext_spec name t (here ++ [i]) e (ho t (by simp)) he
    obtain ⟨h3, h4⟩ := extLoop_spec name l (i + 1) here _ (fun t ht => ho t (by simp [ht])) h1
    refine ⟨h3, fun n => ?_⟩
    rw [h4, h2]
    simp only [List.mem_append]
    constructor
    · rintro ((h | ⟨hp, b, hb, rfl⟩) | ⟨hp, b, hb, rfl⟩)
      · exact .inl h
      · exact .inr ⟨hp, b, .inl hb, rfl⟩
      · exact .inr ⟨hp, b, .inr hb, rfl⟩
    · rintro (h | ⟨hp, b, hb | hb, rfl⟩)
      · exact .inl (.inl h)
      · exact .inl (.inr ⟨hp, b, hb, rfl⟩)
      · exact .inr ⟨hp, b, hb, rfl⟩
end

/-- **C89** (completions): the completions listed are the names, in the mode and its descendants, that start with what is given, each once and in alphabetic order -/
theorem C89_extensions (t m : Tree) (ht : Built t) (hm : Mode m t) (name : Name) :
    (m.extensionList name).Pairwise (fun a b => ltName a b = true) ∧ (m.extensionList name).Nodup ∧ ∀ n, n ∈ m.extensionList name ↔ name <+: n ∧ ∃ e ∈ m.entries [], e.2.1 = n := by
  have ho := (mode_good hm (built_good ht).1 (built_good ht).2).1
  obtain ⟨h1, h2⟩ := ext_spec name m [] [] ho List.Pairwise.nil
  have hp : (m.extensionList name).Pairwise (fun a b => ltName a b = true) := List.pairwise_map.2 h1
  refine ⟨hp, hp.imp (fun {a b} h hq => ?_), fun n => ?_⟩
  · rw [hq, lt_irrefl] at h; cases h
  · have : n ∈ m.extensionList name ↔ (n, ()) ∈ m.extensions name [] := by
      rw [Tree.extensionList, List.mem_map]
      constructor
      · rintro ⟨⟨a, u⟩, h, rfl⟩; exact h
      · intro h; exact ⟨_, h, rfl⟩
    rw [this, h2]
    simp

/-- **C89** (definition): a command is added to a dictionary unless there is one of that name, where an assertion fails; order is kept -/
theorem C89_add (l : List (Name × Nat)) (hl : Sorted l) (e : Name × Nat) : (addCmd e l = .assertFail ∧ ∃ d ∈ l, d.1 = e.1) ∨ ∃ l', addCmd e l = .ok l' ∧ Sorted l' ∧ (∀ d, d ∈ l' ↔ d ∈ l ∨ d = e) ∧ ∀ d ∈ l, d.1 ≠ e.1 := by
  rw [addCmd]
  by_cases h : l.any (fun d => d.1 = e.1) = true
  · rw [if_pos h]
    exact .inl ⟨rfl, by simpa using h⟩
  · rw [if_neg h]
    have hn : ∀ d ∈ l, d.1 ≠ e.1 := by
      intro d hd hq
      exact h (List.any_eq_true.2 ⟨d, hd, by simpa using hq⟩)
    refine .inr ⟨_, rfl, insertCmd_sorted e l hl, fun d => ?_, hn⟩
    rw [mem_insertCmd e d l hl]
    tauto

end Verif.Cmd
