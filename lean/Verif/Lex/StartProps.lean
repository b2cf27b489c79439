import Verif.Lex.OperatorProps
/-
C85: commands for inclusion of files and output to files.  C86: ends of files, keywords.
-/
namespace Verif.Lex
open Verif

/-- **C85** (inclusion and output): at the start of a command `<` or `>`, single or doubled, is followed by the name of a file, possibly after space and comments -/
theorem C85_include (cls : List Nat → Word) (x : Lx) (pre b s : List Nat) (c d : Nat) (twice : Bool) (post : List Nat) (hi : x.state = .initial) (hc : c = 60 ∨ c = 62)
    (h : x.rest = pre ++ c :: ((if twice then [c] else []) ++ (b ++ s ++ d :: post))) (h0 : 0 ∉ x.rest) (hpre : Blank x.goesOn pre) (hb : Blank (x.nest ≠ []) b) (hn : s ≠ []) (hs : ∀ e ∈ s, NameChar e) (hd : ¬ NameChar d)
    (fuel : Nat) (hf : x.rest.length < fuel) : ∃ y, x.getToken cls fuel = .ok (if c = 60 then .fromFile twice s else .toFile twice s, y) ∧ y.rest = d :: post ∧ y.state = .normal := by
  have hS : Stop x.goesOn (c :: ((if twice then [c] else []) ++ (b ++ s ++ d :: post))) := by
    intro e he
    simp only [List.head?_cons, Option.some.injEq] at he
    subst he
    refine ⟨?_, by omega⟩
    rintro (e | e | e | e | ⟨e, _⟩) <;> omega
  have sc := scan_symbol cls h h0 hpre hS hf (by unfold WordChar WordStart; omega)
  have hx : x.state ≠ .ended := by rw [hi]; simp
  have hlen : (b ++ s ++ d :: post).length < fuel := by
    rw [h] at hf
    simp at hf ⊢
    omega
  have hz0 : 0 ∉ b ++ s ++ d :: post := by
    intro hm
    exact h0 (by rw [h]; simp only [List.mem_append, List.mem_cons] at hm ⊢; tauto)
  have name : ∀ w : Lx, w.rest = b ++ s ++ d :: post → w.prevent = 0 → w.nest = x.nest → w.fileName fuel = .ok (s, { w with last := none, rest := d :: post }) := by
    intro w k1 k2 k3
    have hg : w.goesOn = (x.nest ≠ []) := by simp [Lx.goesOn, k2, k3]
    exact C85_name w b s d post k1 (by rw [k1]; exact hz0) (by rw [hg]; exact hb) hn hs hd fuel (by rw [k1]; exact hlen)
  have rel : ∀ z : Lx, z.symbol fuel c = z.relation fuel c := by
    intro z
    rcases hc with rfl | rfl <;> rfl
  have main : ∀ z w : Lx, z.state = .initial → (if z.shift.1 = c then z.shift.2 else z.shift.2.unshift) = w → (z.shift.1 = c ↔ twice = true) → w.rest = b ++ s ++ d :: post → w.prevent = 0 → w.nest = x.nest →
      z.relation fuel c = .ok (if c = 60 then .fromFile twice s else .toFile twice s, { w with last := none, rest := d :: post }) := by
    intro z w k1 k2 k3 k4 k5 k6
    rw [Lx.relation, if_pos k1]
    simp only
    rw [k2, name w k4 k5 k6, Res.ok_bind]
    have : decide (z.shift.1 = c) = twice := by
      cases twice <;> simp [k3]
    rw [this]
    rfl
  have fin : ∀ w : Lx, w.state = .initial → x.scan cls fuel = .ok (if c = 60 then .fromFile twice s else .toFile twice s, { w with last := none, rest := d :: post }) →
      ∃ y, x.getToken cls fuel = .ok (if c = 60 then .fromFile twice s else .toFile twice s, y) ∧ y.rest = d :: post ∧ y.state = .normal := by
    intro w k1 k2
    rw [Lx.getToken, if_neg hx, k2, Res.ok_bind]
    refine ⟨_, rfl, ?_, ?_⟩
    · split <;> rfl
    · simp [k1]
  cases htw : twice with
  | true =>
    rw [← htw]
    refine fin { x.at (b ++ s ++ d :: post) with last := some c } hi ?_
    rw [sc, rel, htw]
    simp only [if_true]
    have e : ({ x.at ([c] ++ (b ++ s ++ d :: post)) with last := some c } : Lx).shift = (c, { x.at (b ++ s ++ d :: post) with last := some c }) := shift_cons rfl
    have := main { x.at ([c] ++ (b ++ s ++ d :: post)) with last := some c } { x.at (b ++ s ++ d :: post) with last := some c } hi (by rw [e]; simp) (by rw [e]; simp [htw]) rfl rfl rfl
    rw [htw] at this
    exact this
  | false =>
    rw [← htw]
    have e : ({ x.at ([] ++ (b ++ s ++ d :: post)) with last := some c } : Lx).shift.1 ≠ c := by
      cases hb' : b with
      | nil =>
        cases s with
        | nil => exact absurd rfl hn
        | cons a s =>
          show a ≠ c
          have := hs a (by simp)
          simp only [NameChar, List.mem_cons, List.not_mem_nil, or_false] at this
          omega
      | cons a t =>
        show a ≠ c
        rw [hb'] at hb
        rcases blank_head hb with k | ⟨c', t', k, hc', _⟩ | ⟨a', t', k, ha, _⟩
        · simp at k
        · rw [List.cons.injEq] at k
          rw [k.1]
          rcases hc' with e | e | e | e | ⟨e, _⟩ <;> omega
        · obtain ⟨u, rfl⟩ := comment_cons ha
          rw [List.cons_append, List.cons.injEq] at k
          omega
    refine fin (x.at (b ++ s ++ d :: post)) hi ?_
    rw [sc, rel, htw]
    simp only [Bool.false_eq_true, if_false]
    have := main { x.at ([] ++ (b ++ s ++ d :: post)) with last := some c } (x.at (b ++ s ++ d :: post)) hi (by rw [if_neg e, su_eq]; rfl) ⟨fun h => (e h).elim, fun h => by rw [htw] at h; cases h⟩ rfl rfl rfl
    rw [htw] at this
    exact this

/-- `<< f` and a newline -/
example : ∃ y, (Lx.make [60, 60, 32, 102, 10]).getToken (fun _ => .other) 9 = .ok (.fromFile true [102], y) ∧ y.rest = [10] := ⟨_, rfl, rfl⟩

/-- **C86** (ends of files): the end of a file is always told, also inside brackets -/
theorem C86_file_end (cls : List Nat → Word) (x : Lx) (pre post : List Nat) (h : x.rest = pre ++ 12 :: post) (h0 : 0 ∉ x.rest) (hpre : Blank x.goesOn pre) (fuel : Nat) (hf : x.rest.length < fuel) :
    ∃ y, x.scan cls fuel = .ok (.endOfFile, y) ∧ y.rest = post ∧ y.nest = x.nest := by
  have hS : Stop x.goesOn (12 :: post) := by
    intro e he
    simp only [List.head?_cons, Option.some.injEq] at he
    subst he
    refine ⟨?_, by omega⟩
    rintro (e | e | e | e | ⟨e, _⟩) <;> omega
  rw [scan_symbol cls h h0 hpre hS hf (by unfold WordChar WordStart; omega)]
  exact ⟨_, rfl, rfl, rfl⟩

/-- inside brackets, after a newline -/
example : ({ Lx.make [10, 12] with nest := [[]] } : Lx).goesOn ∧ Blank ({ Lx.make [10, 12] with nest := [[]] } : Lx).goesOn [10] := by
  have h : ({ Lx.make [10, 12] with nest := [[]] } : Lx).goesOn := .inl (by simp)
  exact ⟨h, .space (.inr (.inr (.inr (.inr ⟨rfl, h⟩)))) .nil⟩

/-- **C86** (start of commands): only the first token of a command is scanned as such -/
theorem C86_first (cls : List Nat → Word) (x y : Lx) (t : Tok) (fuel : Nat) (hs : x.state ≠ .ended) (h : x.getToken cls fuel = .ok (t, y)) : y.state ≠ .initial := by
  rw [Lx.getToken, if_neg hs] at h
  cases hq : x.scan cls fuel with
  | ok v =>
    rw [hq, Res.ok_bind] at h
    simp only [Res.pure_eq, Res.ok.injEq, Prod.mk.injEq] at h
    rw [← h.2]
    split
    · simp
    · assumption
  | throw => rw [hq] at h; cases h
  | assertFail => rw [hq] at h; cases h
  | undefined => rw [hq] at h; cases h
  | outOfFuel => rw [hq] at h; cases h

example : (Lx.make [49]).state ≠ .ended := by decide

/-- **C86** (keywords): after a keyword that cannot end a command, the command goes on at the next line; the keyword `let` starts a group that is ended by `in`, after which the command goes on, while `in` inside any other
group does nothing -/
theorem C86_keyword (cls : List Nat → Word) (x : Lx) (pre : List Nat) (c : Nat) (w post : List Nat) (h : x.rest = pre ++ c :: w ++ post) (h0 : 0 ∉ x.rest) (hb : Blank x.goesOn pre) (hc : WordStart c)
    (hw : ∀ d ∈ w, WordChar d) (hp : ∀ d, post.head? = some d → ¬ WordChar d) (fuel : Nat) (hf : x.rest.length < fuel) (code : Nat) (k : Kw) (hk : cls (c :: w) = .keyword code k) :
    ∃ y, x.scan cls fuel = .ok (.keyword code, y) ∧ y.rest = post ∧
      (∀ p, k = .prevents p → p ≠ 0 → y.goesOn ∧ y.nest = x.nest) ∧
      (k = .letKw → y.nest = [] :: x.nest ∧ y.prompt = 76 :: x.prompt) ∧
      (k = .inKw → (x.prompt.head? = some 76 → y.nest = x.nest.tail ∧ y.prompt = x.prompt.tail ∧ y.goesOn) ∧ (x.prompt.head? ≠ some 76 → y.nest = x.nest ∧ y.prompt = x.prompt)) ∧
      (k = .opening → y.nest = [] :: x.nest ∧ ∃ q, q ≠ 76 ∧ y.prompt = q :: x.prompt) := by
  rw [C85_word cls x pre c w post h h0 hb hc hw hp fuel hf, Lx.word, hk]
  refine ⟨_, rfl, ?_, ?_, ?_, ?_, ?_⟩
  · have pr : ∀ z : Lx, z.popNest.rest = z.rest := popNest_rest
    cases k with
    | inKw =>
      rw [Lx.keyword]
      split
      · exact pr _
      · rfl
    | closing => exact pr _
    | _ => rfl
  · rintro p rfl hp0
    exact ⟨.inr hp0, rfl⟩
  · rintro rfl
    exact ⟨rfl, rfl⟩
  · rintro rfl
    have pn : ∀ z : Lx, z.popNest.nest = z.nest.tail ∧ z.popNest.prompt = z.prompt := by
      intro z
      rw [Lx.popNest]
      cases hz : z.nest with
      | nil => simp [hz]
      | cons a l => simp
    constructor
    · intro hq
      rw [Lx.keyword, if_pos (show (x.at post).prompt.head? = some 76 from hq)]
      exact ⟨(pn _).1, congrArg List.tail (pn (x.at post)).2, .inr (by simp)⟩
    · intro hq
      rw [Lx.keyword, if_neg (show ¬ (x.at post).prompt.head? = some 76 from hq)]
      exact ⟨rfl, rfl⟩
  · rintro rfl
    exact ⟨rfl, 71, by omega, rfl⟩

/-- `let` before a blank -/
example : ∃ y, (Lx.make [108, 101, 116, 32]).scan (fun s => if s = [108, 101, 116] then .keyword 7 .letKw else .other) 9 = .ok (.keyword 7, y) ∧ y.nest = [[]] ∧ y.rest = [32] := ⟨_, rfl, rfl, rfl⟩

end Verif.Lex
