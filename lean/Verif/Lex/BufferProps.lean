import Verif.Lex.BufferLemmas
import Mathlib.Data.Finset.Card
import Mathlib.Data.List.GetD
import Mathlib.Data.List.Nodup
/-
C81: lines of input.  C82: files that are included.
-/
namespace Verif.Lex
open Verif

theorem physical_length : ∀ t : List Nat, (physical t).length ≤ t.length
  | [] => by simp [physical]
  | c :: t => by
    rw [physical]
    have := physical_length t
    by_cases hc : c = 10
    · rw [if_pos hc]; simpa using this
    · rw [if_neg hc]
      cases hp : physical t with
      | nil => simp
      | cons a as => rw [hp] at this; simp only [List.length_cons] at this ⊢; omega

theorem readAll_spec (fuel : Nat) : ∀ (k : Nat) (b : Buf), b.stack = [] → b.base.lines.length < k → b.base.lines.length < fuel →
    ∃ b', readAll k fuel b = .ok (numbered (b.lineNo + b.curLines) (logical b.base.lines), b')
  | 0, b, _, h, _ => by omega
  | k + 1, b, hs, hk, hf => by
    have hcur : b.cur = b.base := by rw [Buf.cur, hs]
    have hset : ∀ s, b.setCur s = { b with base := s } := fun s => by rw [Buf.setCur, hs]
    cases hl : logical b.base.lines with
    | nil =>
      obtain ⟨f, rfl⟩ : ∃ f, fuel = f + 1 := ⟨fuel - 1, by omega⟩
      obtain ⟨s, _, e⟩ := getline_nil (b := b) (fuel := f) (by rw [hcur]; exact logical_eq_nil hl)
      rw [hs, List.isEmpty_nil, if_pos rfl] at e
      exact ⟨_, by rw [readAll, e, Res.ok_bind]; rfl⟩
    | cons r rs =>
      cases he : r.ended with
      | true =>
        obtain ⟨s, e1, e2, e3⟩ := getline_ended (b := b) (fuel := fuel) (by rw [hcur]; omega) (by rw [hcur]; exact hl) he
        rw [hset] at e3
        rw [hcur] at e2
        obtain ⟨b', h'⟩ := readAll_spec fuel k { b with base := s, lineNo := b.lineNo + b.curLines, curLines := r.count, line := r.text ++ [10], pos := some 0 } hs (by simp only; omega) (by simp only; omega)
        refine ⟨b', ?_⟩
        rw [readAll, e3, Res.ok_bind]
        simp only [if_true]
        rw [h', Res.ok_bind]
        simp only [e1]
        rfl
      | false =>
        obtain ⟨h0, s, e1, e3⟩ := getline_dangling (b := b) (fuel := fuel) (by rw [hcur]; omega) (by rw [hcur]; exact hl) he
        rw [hs, List.isEmpty_nil, if_pos rfl, hset] at e3
        have hpos : 0 < b.base.lines.length := by
          cases hb : b.base.lines with
          | nil => rw [hb] at hl; cases hl
          | cons _ _ => simp
        obtain ⟨b', h'⟩ := readAll_spec fuel k { b with base := s, lineNo := b.lineNo + b.curLines, curLines := r.count, line := r.text ++ [10], pos := some 0 } hs (by simp only [e1, List.length_nil]; omega)
          (by simp only [e1, List.length_nil]; omega)
        refine ⟨b', ?_⟩
        rw [readAll, e3, Res.ok_bind]
        simp only [if_true]
        rw [h', Res.ok_bind]
        simp only [e1, logical, h0]
        rfl

/-- **C81**: reading a text line by line gives its lines in order, without trailing white space and with continued lines joined, and with the number of the (first) line of the text at which each starts -/
theorem C81_lines (content : List Nat) (k fuel : Nat) (hk : content.length < k) (hf : content.length < fuel) :
    ∃ b, readAll k fuel (Buf.make content) = .ok (numbered 1 (logical (physical content)), b) := by
  have := physical_length content
  exact readAll_spec fuel k (Buf.make content) rfl (by show (physical content).length < k; omega) (by show (physical content).length < fuel; omega)

/-- a text of five lines, two of them continued: the lines delivered start at 1, 3 and 4 -/
example : numbered 1 (logical (physical [97, 92, 10, 98, 32, 10, 10, 99, 92, 32, 10, 100])) = [(1, [97, 98, 10]), (3, [10]), (4, [99, 100, 10])] := by decide

/-! ### Characters -/

theorem trimEnd_sub {l : List Nat} {c : Nat} (h : c ∈ trimEnd l) : c ∈ l := by
  rw [trimEnd] at h
  exact (List.rdropWhile_prefix _ _).subset h

theorem logical_mem : ∀ (ls : List (List Nat)) (r : Logical), r ∈ logical ls → ∀ c ∈ r.text, ∃ l ∈ ls, c ∈ l
  | [], r, h => by cases h
  | l :: ls, r, h => by
    rw [logical] at h
    by_cases hc : (trimEnd l).getLast? = some 92
    · rw [if_pos hc] at h
      cases hl : logical ls with
      | nil =>
        rw [hl] at h
        rw [List.mem_singleton.1 h]
        exact fun c hc => ⟨l, by simp, trimEnd_sub (List.mem_of_mem_dropLast hc)⟩
      | cons r' rs =>
        rw [hl] at h
        rcases List.mem_cons.1 h with rfl | h
        · intro c hc
          rcases List.mem_append.1 hc with hc | hc
          · exact ⟨l, by simp, trimEnd_sub (List.mem_of_mem_dropLast hc)⟩
          · obtain ⟨l', h1, h2⟩ := logical_mem ls r' (by rw [hl]; simp) c hc
            exact ⟨l', by simp [h1], h2⟩
        · intro c hc
          obtain ⟨l', h1, h2⟩ := logical_mem ls r (by rw [hl]; simp [h]) c hc
          exact ⟨l', by simp [h1], h2⟩
    · rw [if_neg hc] at h
      rcases List.mem_cons.1 h with rfl | h
      · exact fun c hc => ⟨l, by simp, trimEnd_sub hc⟩
      · intro c hc
        obtain ⟨l', h1, h2⟩ := logical_mem ls r h c hc
        exact ⟨l', by simp [h1], h2⟩

theorem physical_mem : ∀ (t : List Nat) (l : List Nat), l ∈ physical t → ∀ c ∈ l, c ∈ t
  | [], l, h => by cases h
  | a :: t, l, h => by
    rw [physical] at h
    by_cases ha : a = 10
    · rw [if_pos ha] at h
      rcases List.mem_cons.1 h with rfl | h
      · simp
      · exact fun c hc => by simp [physical_mem t l h c hc]
    · rw [if_neg ha] at h
      cases hp : physical t with
      | nil => rw [hp] at h; rw [List.mem_singleton.1 h]; simp
      | cons x xs =>
        rw [hp] at h
        rcases List.mem_cons.1 h with rfl | h
        · intro c hc
          rcases List.mem_cons.1 hc with rfl | hc
          · simp
          · simp [physical_mem t x (by rw [hp]; simp) c hc]
        · exact fun c hc => by simp [physical_mem t l (by rw [hp]; simp [h]) c hc]

/-- the text that remains to be delivered -/
def Buf.ahead (b : Buf) : List Nat := match b.pos with | none => [] | some p => b.line.drop p

theorem readChars_spec (fuel : Nat) : ∀ (n k : Nat) (b : Buf), b.stack = [] → (∀ c ∈ b.ahead, c ≠ 0) → (∀ r ∈ logical b.base.lines, ∀ c ∈ r.text, c ≠ 0) →
    b.base.lines.length < fuel → (b.ahead ++ (logical b.base.lines).flatMap fun r : Logical => r.text ++ [10]).length = n → n < k →
    readChars k fuel b = .ok (b.ahead ++ (logical b.base.lines).flatMap fun r : Logical => r.text ++ [10]) := by
  intro n
  induction n using Nat.strong_induction_on with
  | _ n ih =>
  intro k b hs hz hz' hf hn hk
  obtain ⟨k, rfl⟩ : ∃ k', k = k' + 1 := ⟨k - 1, by omega⟩
  have hcur : b.cur = b.base := by rw [Buf.cur, hs]
  have hset : ∀ s, b.setCur s = { b with base := s } := fun s => by rw [Buf.setCur, hs]
  -- a character of the line
  have hchar : ∀ (b : Buf) (c : Nat) (rest : List Nat) (p : Nat), b.pos = some p → b.line.drop p = c :: rest → c ≠ 0 → b.eol = false ∧ b.line[p]?.getD 0 = c ∧ ({ b with pos := some (p + 1) } : Buf).ahead = rest := by
    intro b c rest p hp hd hc
    have h1 : b.line[p]? = some c := by rw [← List.head?_drop, hd]; rfl
    refine ⟨?_, by rw [h1]; rfl, ?_⟩
    · rw [Buf.eol, hp]; simp [h1, hc]
    · show b.line.drop (p + 1) = rest
      rw [← List.tail_drop, hd]; rfl
  cases ha : b.ahead with
  | cons c rest =>
    have hp : ∃ p, b.pos = some p := by
      cases hp : b.pos with
      | none => rw [Buf.ahead, hp] at ha; cases ha
      | some p => exact ⟨p, rfl⟩
    obtain ⟨p, hp⟩ := hp
    have hd : b.line.drop p = c :: rest := by rw [Buf.ahead, hp] at ha; exact ha
    have hc0 : c ≠ 0 := hz c (by rw [ha]; simp)
    obtain ⟨h1, h2, h3⟩ := hchar b c rest p hp hd hc0
    rw [ha] at hn
    have hpos : 0 < n := by rw [← hn]; simp
    rw [readChars, Buf.shift, h1, if_neg (by simp), deliver]
    simp only [if_true, hp, h2, Res.ok_bind, if_neg hc0]
    rw [ih (n - 1) (by omega) k { b with pos := some (p + 1) } hs (by rw [h3]; exact fun c' hc' => hz c' (by rw [ha]; simp [hc'])) hz' hf (by rw [h3]; simp at hn ⊢; omega) (by omega), h3]
    rfl
  | nil =>
    have he : b.eol = true := by
      rw [Buf.eol]
      cases hp : b.pos with
      | none => rfl
      | some p =>
        have ha' : b.line.drop p = [] := by rw [Buf.ahead, hp] at ha; exact ha
        have : b.line[p]? = none := by rw [← List.head?_drop, ha']; rfl
        simp [this]
    rw [ha, List.nil_append] at hn
    cases hl : logical b.base.lines with
    | nil =>
      obtain ⟨f, rfl⟩ : ∃ f, fuel = f + 1 := ⟨fuel - 1, by omega⟩
      obtain ⟨s, _, e⟩ := getline_nil (b := b) (fuel := f) (by rw [hcur]; exact logical_eq_nil hl)
      rw [hs, List.isEmpty_nil, if_pos rfl] at e
      rw [readChars, Buf.shift, if_pos he, e]
      rfl
    | cons r rs =>
      -- in either case a line is obtained
      have key : ∃ s : Stream, logical s.lines = rs ∧ s.lines.length < fuel ∧
          b.getline fuel = .ok (true, { b with base := s, lineNo := b.lineNo + b.curLines, curLines := r.count, line := r.text ++ [10], pos := some 0 }) := by
        cases hend : r.ended with
        | true =>
          obtain ⟨s, e1, e2, e3⟩ := getline_ended (b := b) (fuel := fuel) (by rw [hcur]; omega) (by rw [hcur]; exact hl) hend
          rw [hset] at e3
          rw [hcur] at e2
          exact ⟨s, e1, by omega, e3⟩
        | false =>
          obtain ⟨h0, s, e1, e3⟩ := getline_dangling (b := b) (fuel := fuel) (by rw [hcur]; omega) (by rw [hcur]; exact hl) hend
          rw [hs, List.isEmpty_nil, if_pos rfl, hset] at e3
          exact ⟨s, by rw [e1, h0]; rfl, by rw [e1]; exact Nat.lt_of_le_of_lt (Nat.zero_le _) hf, e3⟩
      obtain ⟨s, e1, e2, e3⟩ := key
      obtain ⟨c, rest, hcr⟩ : ∃ c rest, r.text ++ [10] = c :: rest := by
        cases r.text with
        | nil => exact ⟨10, [], rfl⟩
        | cons a t => exact ⟨a, t ++ [10], rfl⟩
      have hall : ∀ c ∈ r.text ++ [10], c ≠ 0 := by
        intro c hc
        rcases List.mem_append.1 hc with hc | hc
        · exact hz' r (by rw [hl]; simp) c hc
        · rw [List.mem_singleton.1 hc]; decide
      have hc0 : c ≠ 0 := hall c (by rw [hcr]; simp)
      obtain ⟨_, h2, h3⟩ := hchar { b with base := s, lineNo := b.lineNo + b.curLines, curLines := r.count, line := r.text ++ [10], pos := some 0 } c rest 0 rfl (by simpa using hcr) hc0
      rw [hl, List.flatMap_cons, hcr] at hn
      have hpos : 0 < n := by rw [← hn]; simp
      rw [readChars, Buf.shift, if_pos he, e3, Res.ok_bind, deliver]
      simp only at h2
      simp only [if_true, h2, Res.ok_bind, if_neg hc0]
      rw [ih (n - 1) (by omega) k { b with base := s, lineNo := b.lineNo + b.curLines, curLines := r.count, line := r.text ++ [10], pos := some (0 + 1) } hs (by rw [h3]; exact fun c' hc' => hall c' (by rw [hcr]; simp [hc'])) (by
        show ∀ r ∈ logical s.lines, _
        rw [e1]
        exact fun r' hr' => hz' r' (by rw [hl]; simp [hr'])) e2 (by
        rw [h3]
        show (rest ++ (logical s.lines).flatMap _).length = _
        rw [e1]
        simp at hn ⊢; omega) (by omega), h3]
      show (Res.ok (c :: (rest ++ (logical s.lines).flatMap _)) : Res (List Nat)) = _
      rw [e1, List.nil_append, List.flatMap_cons, hcr, List.cons_append]

/-- **C81** (character by character): `shift` delivers the characters of these lines, each ended by a newline, followed by a null character -/
theorem C81_characters (content : List Nat) (hz : 0 ∉ content) (k fuel : Nat) (hf : content.length < fuel)
    (hk : ((logical (physical content)).flatMap fun r : Logical => r.text ++ [10]).length < k) :
    readChars k fuel (Buf.make content) = .ok ((logical (physical content)).flatMap fun r : Logical => r.text ++ [10]) := by
  have hlen := physical_length content
  have := readChars_spec fuel _ k (Buf.make content) rfl (by simp [Buf.ahead, Buf.make]) (fun r hr c hc => by
    obtain ⟨l, hl, hcl⟩ := logical_mem (physical content) r hr c hc
    rintro rfl
    exact hz (physical_mem content l hl 0 hcl)) (by show (physical content).length < fuel; omega) rfl (by
    show ([] ++ (logical (physical content)).flatMap _).length < k
    simpa using hk)
  rw [this]
  rfl

example : 0 ∉ [97, 92, 10, 98, 32, 10] ∧ ((logical (physical [97, 92, 10, 98, 32, 10])).flatMap fun r => r.text ++ [10]) = [97, 98, 10] := by decide

/-- **C81** (backing up): after `shift` gave a character other than the null character, `unshift` makes it the next one again -/
theorem C81_unshift (fuel fuel' : Nat) (b b' : Buf) (c : Nat) (h : b.shift fuel = .ok (c, b')) (hc : c ≠ 0) : b'.unshift.shift fuel' = .ok (c, b') := by
  have key : ∀ (r : Bool × Buf), deliver r = .ok (c, b') → b'.unshift.shift fuel' = .ok (c, b') := by
    rintro ⟨ok, b1⟩ h
    rw [deliver] at h
    cases ok with
    | false =>
      simp only [Bool.false_eq_true, if_false] at h
      cases h
      exact absurd rfl hc
    | true =>
      simp only [if_true] at h
      cases hp : b1.pos with
      | none => rw [hp] at h; cases h
      | some p =>
        rw [hp] at h
        cases h
        have hu : ({ b1 with pos := some (p + 1) } : Buf).unshift = b1 := by
          rcases b1 with ⟨_, _, _, _, _, _, _, _⟩
          simp only at hp
          simp [Buf.unshift, hp]
        have he : b1.eol = false := by
          rw [Buf.eol, hp]
          simpa using hc
        rw [hu, Buf.shift, he, if_neg (by simp), deliver]
        simp only [if_true, hp]
  rw [Buf.shift] at h
  by_cases he : b.eol = true
  · rw [if_pos he] at h
    cases hq : b.getline fuel with
    | ok v => rw [hq, Res.ok_bind] at h; exact key v h
    | _ => rw [hq] at h; cases h
  · rw [if_neg he] at h
    exact key _ h

example : ∃ b', (Buf.make [97, 10]).shift 5 = .ok (97, b') := ⟨_, rfl⟩

/-! ### Included files -/

/-- what does not change while reading: names of files being read are among those seen, once each -/
structure BufOk (b : Buf) : Prop where
  len : b.completed.length = b.seen.length
  seen : b.seen.Nodup
  names : (b.stack.map InRec.name).Nodup
  lt : ∀ r ∈ b.stack, r.name < b.seen.length

theorem BufOk.sub {b b' : Buf} (h : BufOk b) (h1 : b'.completed.length = b.completed.length) (h2 : b'.seen = b.seen) (h3 : (b'.stack.map InRec.name).Sublist (b.stack.map InRec.name)) : BufOk b' where
  len := by rw [h1, h2, h.len]
  seen := by rw [h2]; exact h.seen
  names := h.names.sublist h3
  lt r hr := by
    rw [h2]
    obtain ⟨r', hr', e⟩ := List.mem_map.1 (h3.subset (List.mem_map_of_mem hr))
    rw [← e]
    exact h.lt r' hr'

/-- relation between states before and after reading -/
def Less (b b' : Buf) : Prop := b'.completed.length = b.completed.length ∧ b'.seen = b.seen ∧ (b'.stack.map InRec.name).Sublist (b.stack.map InRec.name) ∧
  b'.stack.map InRec.lineNo <:+ b.stack.map InRec.lineNo ∧ (b.stack ≠ [] → b'.base = b.base)

theorem less_setCur (b : Buf) (s : Stream) : Less b (b.setCur s) := by
  rcases b with ⟨_, _, _, _, _, _ | ⟨_, _⟩, _, _⟩ <;> simp [Less, Buf.setCur]

theorem less_pop (b : Buf) : Less b b.popFile := by
  rcases b with ⟨_, _, _, _, _, _ | ⟨_, _⟩, _, _⟩ <;> simp [Less, Buf.popFile]

theorem Less.trans {a b c : Buf} (h : Less a b) (h0 : b.stack.isEmpty = a.stack.isEmpty) (h' : Less b c) : Less a c :=
  ⟨h'.1.trans h.1, h'.2.1.trans h.2.1, h'.2.2.1.trans h.2.2.1, h'.2.2.2.1.trans h.2.2.2.1, fun hn => by
    rw [h'.2.2.2.2 (by rw [ne_eq, ← List.isEmpty_iff, h0, List.isEmpty_iff]; exact hn), h.2.2.2.2 hn]⟩

theorem less_readLine (b : Buf) : Less b b.readLine.2 := by
  rw [Buf.readLine]
  by_cases hg : b.cur.good = true
  · rw [if_pos hg]; exact less_setCur b _
  · rw [if_neg hg]; exact ⟨rfl, rfl, .refl _, List.suffix_refl _, fun _ => rfl⟩

theorem readLine_empty (b : Buf) : b.readLine.2.stack.isEmpty = b.stack.isEmpty := by
  rw [Buf.readLine]
  by_cases hg : b.cur.good = true
  · rw [if_pos hg]; exact setCur_empty b _
  · rw [if_neg hg]

theorem less_getLoop : ∀ (k : Nat) (b : Buf) (lines : List (List Nat)) (ok popped : Bool) (lines' : List (List Nat)) (b' : Buf), getLoop k b lines = .ok (ok, popped, lines', b') → Less b b'
  | 0, _, _, _, _, _, _, h => by cases h
  | k + 1, b, lines, ok, popped, lines', b', h => by
    have h0 := less_readLine b
    have e0 := readLine_empty b
    rw [getLoop] at h
    rcases hr : b.readLine with ⟨line, b1⟩
    rw [hr] at h h0 e0
    simp only at h h0 e0
    by_cases c1 : (line.isEmpty && !b1.cur.good) = true
    · rw [if_pos c1] at h
      by_cases c2 : b1.curLines > 0
      · rw [if_pos c2] at h
        by_cases c3 : b1.stack.isEmpty = true
        · rw [if_pos c3] at h; cases h; exact h0
        · rw [if_neg c3] at h; cases h; exact h0.trans e0 (less_pop b1)
      · rw [if_neg c2] at h
        by_cases c3 : b1.stack.isEmpty = true
        · rw [if_pos c3] at h; cases h; exact h0
        · rw [if_neg c3] at h; cases h; exact h0.trans e0 (less_pop b1)
    · rw [if_neg c1] at h
      have h1 : Less b { b1 with curLines := b1.curLines + 1 } := h0
      by_cases c4 : (backUp line).getLast? = some 92
      · rw [if_pos c4] at h; exact h1.trans e0 (less_getLoop k _ _ _ _ _ _ h)
      · rw [if_neg c4] at h; cases h; exact h1

theorem less_getline {fuel : Nat} {b b' : Buf} {ok : Bool} (h : b.getline fuel = .ok (ok, b')) : Less b b' := by
  rw [Buf.getline] at h
  cases hq : getLoop fuel { b with line := [], lineNo := b.lineNo + b.curLines, curLines := 0 } [] with
  | ok v =>
    obtain ⟨o, p, l, b1⟩ := v
    have h1 := less_getLoop _ _ _ _ _ _ _ hq
    simp only [hq, Res.ok_bind] at h
    cases o with
    | true => simp only [if_true] at h; cases h; exact h1
    | false => simp only [Bool.false_eq_true, if_false] at h; cases h; exact h1
  | _ => simp only [hq] at h; cases h

theorem less_shift {fuel : Nat} {b b' : Buf} {c : Nat} (h : b.shift fuel = .ok (c, b')) : Less b b' := by
  rw [Buf.shift] at h
  have key : ∀ (r : Bool × Buf), Less b r.2 → deliver r = .ok (c, b') → Less b b' := by
    rintro ⟨ok, b1⟩ h1 h
    rw [deliver] at h
    cases ok with
    | true =>
      simp only [if_true] at h
      cases hp : b1.pos with
      | none => rw [hp] at h; cases h
      | some p => rw [hp] at h; cases h; exact h1
    | false => simp only [Bool.false_eq_true, if_false] at h; cases h; exact h1
  by_cases he : b.eol = true
  · rw [if_pos he] at h
    cases hq : b.getline fuel with
    | ok v => rw [hq, Res.ok_bind] at h; exact key v (less_getline hq) h
    | _ => rw [hq] at h; cases h
  · rw [if_neg he] at h
    exact key (true, b) ⟨rfl, rfl, .refl _, List.suffix_refl _, fun _ => rfl⟩ h

/-- opening a file, for the different cases -/
theorem pushFile_spec {b : Buf} (h : BufOk b) (fs : Files) (name : List Nat) (skip : Bool) :
    (skip = true ∧ b.done name → b.pushFile fs name skip = (true, b)) ∧
    (¬ (skip = true ∧ b.done name) → fs.open name = none → b.pushFile fs name skip = (false, b)) ∧
    ∀ p c, ¬ (skip = true ∧ b.done name) → fs.open name = some (p, c) → ∃ b', b.pushFile fs name skip = (true, b') ∧ BufOk b' ∧ b'.base = b.base ∧ b'.pos = b.pos ∧ b'.line = b.line ∧
      (∀ q, b'.done q ↔ b.done q) ∧
      (((skip = true ∧ b.done p) ∨ b.active p) → b'.stack = b.stack ∧ b'.lineNo = b.lineNo ∧ b'.curLines = b.curLines) ∧
      (¬ ((skip = true ∧ b.done p) ∨ b.active p) → b'.lineNo = 1 ∧ b'.curLines = 0 ∧ ∃ n : Nat, b'.seen[n]? = some p ∧ b'.stack = ⟨⟨c, true⟩, n, b.lineNo + b.curLines⟩ :: b.stack) := by
  -- the test for files completed
  have hdone : ∀ q, b.done q ↔ q ∈ b.seen ∧ b.completed.getD (b.seen.idxOf q) false = true := by
    intro q
    constructor
    · rintro ⟨n, h1, h2⟩
      obtain ⟨hn, e⟩ := List.getElem?_eq_some_iff.1 h1
      have : b.seen.idxOf q = n := by rw [← e]; exact List.Nodup.idxOf_getElem h.seen n hn
      exact ⟨List.mem_of_getElem? h1, by rw [this, List.getD_eq_getElem?_getD, h2]; rfl⟩
    · rintro ⟨h1, h2⟩
      have hi : b.seen.idxOf q < b.seen.length := List.idxOf_lt_length_of_mem h1
      refine ⟨b.seen.idxOf q, by rw [List.getElem?_eq_getElem hi, List.getElem_idxOf], ?_⟩
      rw [List.getD_eq_getElem _ _ (by rw [h.len]; exact hi)] at h2
      rw [List.getElem?_eq_getElem (by rw [h.len]; exact hi), h2]
  have hactive : ∀ q, q ∈ b.seen → (b.active q ↔ b.stack.any (·.name == b.seen.idxOf q) = true) := by
    intro q hq
    have hi : b.seen.idxOf q < b.seen.length := List.idxOf_lt_length_of_mem hq
    rw [List.any_eq_true]
    constructor
    · rintro ⟨r, hr, e⟩
      obtain ⟨hn, e⟩ := List.getElem?_eq_some_iff.1 e
      exact ⟨r, hr, by rw [← e, List.Nodup.idxOf_getElem h.seen]; simp⟩
    · rintro ⟨r, hr, e⟩
      refine ⟨r, hr, ?_⟩
      rw [eq_of_beq e, List.getElem?_eq_getElem hi, List.getElem_idxOf]
  have hshort : (skip && b.seen.contains name && b.completed.getD (b.seen.idxOf name) false) = true ↔ skip = true ∧ b.done name := by
    rw [hdone, Bool.and_eq_true, Bool.and_eq_true, List.contains_iff_mem]
    tauto
  refine ⟨fun hs => by rw [Buf.pushFile, if_pos (hshort.2 hs)], fun hs ho => by rw [Buf.pushFile, if_neg (fun hc => hs (hshort.1 hc)), ho], fun p c hs ho => ?_⟩
  rw [Buf.pushFile, if_neg (fun hc => hs (hshort.1 hc)), ho]
  simp only
  by_cases hp : p ∈ b.seen
  · have hi : b.seen.idxOf p < b.seen.length := List.idxOf_lt_length_of_mem hp
    have hnew : (b.seen.idxOf p == b.completed.length) = false := by rw [h.len]; simpa using Nat.ne_of_lt hi
    have hpc : b.seen.contains p = true := List.contains_iff_mem.2 hp
    simp only [hpc, if_true, hnew, Bool.false_eq_true, if_false, Bool.not_false, Bool.true_and]
    have hcond : ((skip && b.completed.getD (b.seen.idxOf p) false) || b.stack.any (·.name == b.seen.idxOf p)) = true ↔ (skip = true ∧ b.done p) ∨ b.active p := by
      rw [Bool.or_eq_true, Bool.and_eq_true, hdone, hactive p hp]
      tauto
    by_cases hsk : ((skip && b.completed.getD (b.seen.idxOf p) false) || b.stack.any (·.name == b.seen.idxOf p)) = true
    · rw [if_pos hsk]
      exact ⟨b, rfl, h, rfl, rfl, rfl, fun _ => Iff.rfl, fun _ => ⟨rfl, rfl, rfl⟩, fun hn => absurd (hcond.1 hsk) hn⟩
    · rw [if_neg hsk]
      refine ⟨_, rfl, ⟨h.len, h.seen, ?_, ?_⟩, rfl, rfl, rfl, fun _ => Iff.rfl, fun hc => absurd (hcond.2 hc) hsk, fun _ => ⟨rfl, rfl, b.seen.idxOf p, ?_, rfl⟩⟩
      · rw [List.map_cons, List.nodup_cons]
        refine ⟨fun hm => hsk ?_, h.names⟩
        obtain ⟨r, hr, e⟩ := List.mem_map.1 hm
        rw [Bool.or_eq_true]
        exact .inr (List.any_eq_true.2 ⟨r, hr, by simpa using e⟩)
      · intro r hr
        rcases List.mem_cons.1 hr with rfl | hr
        · exact hi
        · exact h.lt r hr
      · simp only; rw [List.getElem?_eq_getElem hi, List.getElem_idxOf]
  · have hi : b.seen.idxOf p = b.seen.length := List.idxOf_eq_length hp
    have hnew : (b.seen.idxOf p == b.completed.length) = true := by rw [h.len, hi]; simp
    have hpc : b.seen.contains p = false := by simpa using hp
    simp only [hpc, hnew, Bool.false_eq_true, if_false, if_true, Bool.not_true, Bool.false_and]
    have hact : ¬ b.active p := by
      rintro ⟨r, _, e⟩
      exact hp (List.mem_of_getElem? e)
    have hdn : ¬ b.done p := fun hd => hp ((hdone p).1 hd).1
    refine ⟨_, rfl, ⟨by simp [h.len], ?_, ?_, ?_⟩, rfl, rfl, rfl, fun q => ?_, fun hc => ?_, fun _ => ⟨rfl, rfl, b.seen.idxOf p, ?_, rfl⟩⟩
    · exact List.nodup_append.2 ⟨h.seen, by simp, fun a ha x hx => by rw [List.mem_singleton.1 hx]; rintro rfl; exact hp ha⟩
    · rw [List.map_cons, List.nodup_cons]
      refine ⟨fun hm => ?_, h.names⟩
      obtain ⟨r, hr, e⟩ := List.mem_map.1 hm
      have := h.lt r hr
      simp only at e
      omega
    · intro r hr
      rw [List.length_append]
      rcases List.mem_cons.1 hr with rfl | hr
      · simp [hi]
      · have := h.lt r hr; simp only [List.length_singleton]; omega
    · constructor
      · rintro ⟨n, h1, h2⟩
        simp only at h1 h2
        by_cases hn : n < b.seen.length
        · exact ⟨n, by rwa [List.getElem?_append_left hn] at h1, by rwa [List.getElem?_append_left (by rw [h.len]; exact hn)] at h2⟩
        · rw [List.getElem?_append_right (by rw [h.len]; omega)] at h2
          cases hm : n - b.completed.length with
          | zero => rw [hm] at h2; simp at h2
          | succ m => rw [hm] at h2; simp at h2
      · rintro ⟨n, h1, h2⟩
        exact ⟨n, by simp only; rw [List.getElem?_append_left (List.getElem?_eq_some_iff.1 h1).1]; exact h1, by simp only; rw [List.getElem?_append_left (List.getElem?_eq_some_iff.1 h2).1]; exact h2⟩
    · rcases hc with hc | hc
      · exact absurd hc.2 hdn
      · exact absurd hc hact
    · simp only; rw [hi, List.getElem?_append_right (le_refl _), Nat.sub_self]; rfl

theorem reached_ok {b : Buf} (h : Reached b) : BufOk b := by
  induction h with
  | make content => exact ⟨rfl, by simp [Buf.make], by simp [Buf.make], by simp [Buf.make]⟩
  | getline _ e ih => obtain ⟨h1, h2, h3⟩ := less_getline e; exact ih.sub h1 h2 h3.1
  | shift _ e ih => obtain ⟨h1, h2, h3⟩ := less_shift e; exact ih.sub h1 h2 h3.1
  | unshift _ ih => exact ih.sub rfl rfl (.refl _)
  | reset _ ih => exact ih.sub rfl rfl (.refl _)
  | @push b fs name skip _ ih =>
    obtain ⟨h1, h2, h3⟩ := pushFile_spec ih fs name skip
    by_cases hs : skip = true ∧ b.done name
    · rw [h1 hs]; exact ih
    · cases ho : fs.open name with
      | none => rw [h2 hs ho]; exact ih
      | some v =>
        obtain ⟨b', e, hb, _⟩ := h3 v.1 v.2 hs ho
        rw [e]; exact hb
  | close _ ih => exact ih.sub rfl rfl (by simp [Buf.closeIncludes])

/-- **C82** (no loops): whatever has happened, also with files that include each other and with forced inclusion, no file is being read twice at the same time, so that the depth of inclusion is at most the
number of different files opened -/
theorem C82_no_loop (b : Buf) (h : Reached b) : (b.stack.map fun r => b.seen[r.name]?).Nodup ∧ (∀ r ∈ b.stack, (b.seen[r.name]?).isSome) ∧ b.seen.Nodup ∧ b.stack.length ≤ b.seen.length := by
  have hb := reached_ok h
  have hn : (b.stack.map fun r => b.seen[r.name]?).Nodup := by
    have : (b.stack.map fun r => b.seen[r.name]?) = (b.stack.map InRec.name).map fun n => b.seen[n]? := by rw [List.map_map]; rfl
    rw [this]
    refine List.Nodup.map_on ?_ hb.names
    intro x hx y hy e
    obtain ⟨r, hr, rfl⟩ := List.mem_map.1 hx
    obtain ⟨r', hr', rfl⟩ := List.mem_map.1 hy
    have h1 := hb.lt r hr
    have h2 := hb.lt r' hr'
    rw [List.getElem?_eq_getElem h1, List.getElem?_eq_getElem h2, Option.some.injEq] at e
    exact hb.seen.getElem_inj_iff.1 e
  refine ⟨hn, fun r hr => by rw [List.getElem?_eq_getElem (hb.lt r hr)]; rfl, hb.seen, ?_⟩
  have hsub : (b.stack.map InRec.name).toFinset ⊆ Finset.range b.seen.length := by
    intro n hn
    obtain ⟨r, hr, rfl⟩ := List.mem_map.1 (List.mem_toFinset.1 hn)
    exact Finset.mem_range.2 (hb.lt r hr)
  have := Finset.card_le_card hsub
  rwa [List.toFinset_card_of_nodup hb.names, List.length_map, Finset.card_range] at this

/-- files for examples: `f` and `l/f` with the contents given, the search path `l/` and extension `.at` -/
def exFiles (c : List Nat) : Files where
  content p := if p = [102] ∨ p = [108, 47, 102] then some c else none
  path := [[108, 47]]
  ext := some [46, 97, 116]

/-- a file that includes itself: the second time nothing is read -/
example : ∃ b1 b2, (Buf.make []).pushFile (exFiles [60, 102, 10]) [102] false = (true, b1) ∧ b1.getline 9 = .ok (true, b2) ∧ b2.stack.length = 1 ∧
    b2.pushFile (exFiles [60, 102, 10]) [102] false = (true, b2) ∧ Reached b2 :=
  ⟨_, _, rfl, rfl, rfl, rfl, .getline (.push (exFiles [60, 102, 10]) [102] false (.make [])) (fuel := 9) (ok := true) rfl⟩

/-- **C82** (which files are read): after any history, including a file that cannot be found fails and changes nothing; otherwise inclusion succeeds, and unless the name given is itself the path name of
a file that has been read completely (and reading again is not forced), the file found on the search path is going to be read from its start, except if it is being read already, or has been
read completely and reading again is not forced -/
theorem C82_push (b : Buf) (h : Reached b) (fs : Files) (name : List Nat) (skip : Bool) :
    (skip = true ∧ b.done name → b.pushFile fs name skip = (true, b)) ∧
    (¬ (skip = true ∧ b.done name) → fs.open name = none → b.pushFile fs name skip = (false, b)) ∧
    ∀ p c, ¬ (skip = true ∧ b.done name) → fs.open name = some (p, c) → ∃ b', b.pushFile fs name skip = (true, b') ∧ b'.base = b.base ∧ b'.pos = b.pos ∧ b'.line = b.line ∧
      (∀ q, b'.done q ↔ b.done q) ∧
      (((skip = true ∧ b.done p) ∨ b.active p) → b'.stack = b.stack ∧ b'.lineNo = b.lineNo ∧ b'.curLines = b.curLines) ∧
      (¬ ((skip = true ∧ b.done p) ∨ b.active p) → b'.lineNo = 1 ∧ b'.curLines = 0 ∧ ∃ n : Nat, b'.seen[n]? = some p ∧ b'.stack = ⟨⟨c, true⟩, n, b.lineNo + b.curLines⟩ :: b.stack) := by
  obtain ⟨h1, h2, h3⟩ := pushFile_spec (reached_ok h) fs name skip
  refine ⟨h1, h2, fun p c hs ho => ?_⟩
  obtain ⟨b', e, _, r⟩ := h3 p c hs ho
  exact ⟨b', e, r⟩

theorem readLines_file (fuel : Nat) : ∀ (k : Nat) (b : Buf) (r : InRec) (l : List InRec), b.stack = r :: l → (logical r.stream.lines).length = k → r.stream.lines.length < fuel →
    (∀ x ∈ logical r.stream.lines, x.ended = true) →
    ∃ p, readLines (k + 1) fuel b = .ok (numbered (b.lineNo + b.curLines) (logical r.stream.lines) ++ [(r.lineNo, [12])],
      { b with stack := l, lineNo := r.lineNo, curLines := 0, completed := b.completed.set r.name true, line := [12], pos := p }) := by
  intro k
  induction k with
  | zero =>
    intro b r l hs hk hf _
    have hcur : b.cur = r.stream := by rw [Buf.cur, hs]
    have hl : logical r.stream.lines = [] := List.length_eq_zero_iff.1 hk
    obtain ⟨f, rfl⟩ : ∃ f, fuel = f + 1 := ⟨fuel - 1, by omega⟩
    obtain ⟨s, _, e⟩ := getline_nil (b := b) (fuel := f) (by rw [hcur]; exact logical_eq_nil hl)
    rw [hs, if_neg (by simp)] at e
    refine ⟨some 0, ?_⟩
    rw [readLines, e, Res.ok_bind, hl]
    simp [Buf.setCur, Buf.popFile, hs, readLines, numbered, Res.ok_bind]
  | succ k ih =>
    intro b r l hs hk hf hall
    have hcur : b.cur = r.stream := by rw [Buf.cur, hs]
    cases hl : logical r.stream.lines with
    | nil => rw [hl] at hk; cases hk
    | cons x xs =>
      obtain ⟨s, e1, e2, e3⟩ := getline_ended (b := b) (fuel := fuel) (by rw [hcur]; omega) (by rw [hcur]; exact hl) (hall x (by rw [hl]; simp))
      rw [hcur] at e2
      have hset : b.setCur s = { b with stack := { r with stream := s } :: l } := by rw [Buf.setCur, hs]
      rw [hset] at e3
      obtain ⟨p, h'⟩ := ih { b with stack := { r with stream := s } :: l, lineNo := b.lineNo + b.curLines, curLines := x.count, line := x.text ++ [10], pos := some 0 } { r with stream := s } l rfl (by
        simp only; rw [e1]; rw [hl] at hk; simpa using hk) (by simp only; omega) (by simp only; rw [e1]; exact fun y hy => hall y (by rw [hl]; simp [hy]))
      refine ⟨p, ?_⟩
      rw [readLines, e3, Res.ok_bind]
      simp only [if_true]
      rw [h', Res.ok_bind]
      simp only [e1]
      rfl

/-- **C82** (reading an included file; partial: only for files whose last line is not a continued one): when a file is included, then its lines are read, numbered from 1, followed by a form feed, after which the file is known
to have been read completely, and reading resumes with the next line of what was being read, with its proper number -/
theorem C82_include_partial (b : Buf) (h : Reached b) (fs : Files) (name : List Nat) (skip : Bool) (p c : List Nat) (b1 : Buf) (ho : fs.open name = some (p, c)) (hp : b.pushFile fs name skip = (true, b1))
    (hs : b1.stack ≠ b.stack) (hend : ∀ x ∈ logical (physical c), x.ended = true) (fuel : Nat) (hf : c.length < fuel) :
    ∃ m b', readLines ((logical (physical c)).length + 1) fuel b1 = .ok (numbered 1 (logical (physical c)) ++ [(m, [12])], b') ∧
      b'.base = b.base ∧ b'.stack = b.stack ∧ b'.lineNo + b'.curLines = b.lineNo + b.curLines ∧ m = b.lineNo + b.curLines ∧ b'.done p := by
  obtain ⟨h1, _, h3⟩ := pushFile_spec (reached_ok h) fs name skip
  by_cases hsd : skip = true ∧ b.done name
  · rw [h1 hsd] at hp
    cases hp
    exact absurd rfl hs
  · obtain ⟨b2, e, hb2, e1, _, _, _, e5, e6⟩ := h3 p c hsd ho
    rw [hp] at e
    cases e
    by_cases hc : (skip = true ∧ b.done p) ∨ b.active p
    · exact absurd (e5 hc).1 hs
    · obtain ⟨f1, f2, n, f3, f4⟩ := e6 hc
      have hlen := physical_length c
      obtain ⟨q, hr⟩ := readLines_file fuel _ b1 _ _ f4 rfl (by show (physical c).length < fuel; omega) hend
      rw [f1, f2] at hr
      refine ⟨_, _, hr, e1, rfl, rfl, rfl, n, f3, ?_⟩
      simp only
      rw [List.getElem?_set_self (by rw [hb2.len]; exact (List.getElem?_eq_some_iff.1 f3).1)]

/-- main input of two lines, and a file of two lines included after the first -/
example : ∃ b b1, (Buf.make [60, 102, 10, 121, 10]).getline 9 = .ok (true, b) ∧ (exFiles [97, 10, 98]).open [102] = some ([108, 47, 102], [97, 10, 98]) ∧
    b.pushFile (exFiles [97, 10, 98]) [102] true = (true, b1) ∧ b1.stack ≠ b.stack ∧ (∀ x ∈ logical (physical [97, 10, 98]), x.ended = true) := by
  refine ⟨_, _, rfl, by decide, rfl, by decide, by decide⟩

/-- **C82** (numbers of lines after a continued last line): when the last line of an included file ends with a backslash, the lines that follow the inclusion get wrong numbers: here the second
line of the main input is read as line 3 -/
theorem C82_resume_false : ∃ b b1 b2 b3, (Buf.make [60, 102, 10, 121, 10]).getline 9 = .ok (true, b) ∧ b.pushFile (exFiles [97, 92]) [102] true = (true, b1) ∧
    b1.getline 9 = .ok (true, b2) ∧ b2.line = [97, 12] ∧ b2.stack = [] ∧ b2.getline 9 = .ok (true, b3) ∧ b3.line = [121, 10] ∧ b3.lineNo = 3 :=
  ⟨_, _, _, _, rfl, rfl, rfl, rfl, rfl, rfl, rfl, rfl⟩

/-- **C82** (numbers of lines after abandoning files): when reading of included files is abandoned, the lines that follow get wrong numbers: here the second line of the main input is
read as line 3 -/
theorem C82_abandon_false : ∃ b b1 b2 b3, (Buf.make [60, 102, 10, 121, 10]).getline 9 = .ok (true, b) ∧ b.pushFile (exFiles [97, 10, 98]) [102] true = (true, b1) ∧
    b1.getline 9 = .ok (true, b2) ∧ b2.line = [97, 10] ∧ b2.closeIncludes.reset.getline 9 = .ok (true, b3) ∧ b3.line = [121, 10] ∧ b3.lineNo = 3 :=
  ⟨_, _, _, _, rfl, rfl, rfl, rfl, rfl, rfl, rfl⟩

/-- files `l/f` and `l/l/f`, on the search path `l/` -/
def twoFiles : Files where
  content p := if p = [108, 47, 102] then some [97, 10] else if p = [108, 47, 108, 47, 102] then some [98, 10] else none
  path := [[108, 47]]
  ext := none

/-- **C82** (files skipped that were never read): after including `f`, found as `l/f` on the search path, including `l/f` does nothing, although it is found as `l/l/f`, which has not been read -/
theorem C82_found_false : ∃ b1 b2 b3, (Buf.make []).pushFile twoFiles [102] true = (true, b1) ∧ b1.getline 9 = .ok (true, b2) ∧ b2.getline 9 = .ok (true, b3) ∧ b3.stack = [] ∧
    twoFiles.open [108, 47, 102] = some ([108, 47, 108, 47, 102], [98, 10]) ∧ [108, 47, 108, 47, 102] ∉ b3.seen ∧ b3.pushFile twoFiles [108, 47, 102] true = (true, b3) :=
  ⟨_, _, _, rfl, rfl, rfl, rfl, by decide, by decide, rfl⟩

theorem open_eq (fs : Files) (name : List Nat) : fs.open name = (candidates fs.path fs.ext name).findSome? fun p => (fs.content p).map fun c => (p, c) := by
  have fm : ∀ (g : List Nat → List (List Nat)) (f : List Nat → Option (List Nat × List Nat)) (l : List (List Nat)), (l.flatMap g).findSome? f = l.findSome? fun d => (g d).findSome? f := by
    intro g f l
    induction l with
    | nil => rfl
    | cons a l ih =>
      rw [List.flatMap_cons, List.findSome?_append, ih, List.findSome?_cons]
      cases (g a).findSome? f <;> rfl
  rw [Files.open, candidates, fm]
  congr 1
  funext d
  rw [Files.tryAt, Files.mayExtend]
  cases h : fs.content (d ++ name) with
  | some c => simp [h]
  | none =>
    cases he : fs.ext with
    | none => simp [h]
    | some e =>
      by_cases hs : e <:+ d ++ name
      · have : e.isSuffixOf (d ++ name) = true := by simpa using hs
        simp [h, hs]
      · have : ¬ e.isSuffixOf (d ++ name) = true := by simpa using hs
        simp only [this, if_neg hs]
        cases h2 : fs.content (d ++ name ++ e) <;> simp_all

theorem first_iff (f : List Nat → Option (List Nat)) : ∀ (l : List (List Nat)) (p c : List Nat), (l.findSome? fun p => (f p).map fun c => (p, c)) = some (p, c) ↔
    ∃ i : Nat, l[i]? = some p ∧ f p = some c ∧ ∀ j q, j < i → l[j]? = some q → f q = none
  | [], p, c => by simp
  | a :: l, p, c => by
    rw [List.findSome?_cons]
    cases ha : f a with
    | some d =>
      simp only [Option.map_some, Option.some.injEq, Prod.mk.injEq]
      constructor
      · rintro ⟨rfl, rfl⟩
        exact ⟨0, by simp, ha, fun j q hj => by omega⟩
      · rintro ⟨i, h1, h2, h3⟩
        cases i with
        | zero =>
          simp only [List.getElem?_cons_zero, Option.some.injEq] at h1
          rw [h1] at ha
          rw [ha, Option.some.injEq] at h2
          exact ⟨h1, h2⟩
        | succ i =>
          have := h3 0 a (by omega) (by simp)
          rw [ha] at this
          cases this
    | none =>
      simp only [Option.map_none]
      rw [first_iff f l p c]
      constructor
      · rintro ⟨i, h1, h2, h3⟩
        refine ⟨i + 1, by simpa using h1, h2, fun j q hj hq => ?_⟩
        cases j with
        | zero => simp only [List.getElem?_cons_zero, Option.some.injEq] at hq; rw [← hq, ha]
        | succ j => exact h3 j q (by omega) (by simpa using hq)
      · rintro ⟨i, h1, h2, h3⟩
        cases i with
        | zero =>
          simp only [List.getElem?_cons_zero, Option.some.injEq] at h1
          rw [← h1, ha] at h2
          cases h2
        | succ i => exact ⟨i, by simpa using h1, h2, fun j q hj hq => h3 (j + 1) q (by omega) (by simpa using hq)⟩

theorem first_none (f : List Nat → Option (List Nat)) (l : List (List Nat)) : (l.findSome? fun p => (f p).map fun c => (p, c)) = none ↔ ∀ q ∈ l, f q = none := by
  rw [List.findSome?_eq_none_iff]
  simp

theorem closeLoop_eq : ∀ (l : List InRec) (m n : Nat), (l.map InRec.lineNo).getLast? = some n → closeLoop m l = n
  | [], m, n, h => by simp at h
  | [r], m, n, h => by simpa [closeLoop] using h
  | r :: r' :: l, m, n, h => by
    rw [closeLoop]
    refine closeLoop_eq (r' :: l) r.lineNo n ?_
    rw [List.map_cons, List.map_cons, List.getLast?_cons_cons] at h
    exact h

theorem inside_keep {n : Nat} {s : Stream} {b b' : Buf} (h : (b.stack.map InRec.lineNo).getLast? = some n ∧ b.stack ≠ [] ∧ b.base = s) (hl : Less b b') (hn : b'.stack ≠ []) :
    (b'.stack.map InRec.lineNo).getLast? = some n ∧ b'.stack ≠ [] ∧ b'.base = s := by
  refine ⟨?_, hn, (hl.2.2.2.2 h.2.1).trans h.2.2⟩
  obtain ⟨t, ht⟩ := hl.2.2.2.1
  rw [← h.1, ← ht, List.getLast?_append_of_ne_nil]
  simpa using hn

theorem inside_spec {n : Nat} {s : Stream} {b : Buf} (h : Inside n s b) : (b.stack.map InRec.lineNo).getLast? = some n ∧ b.stack ≠ [] ∧ b.base = s := by
  have push : ∀ (b : Buf) (fs : Files) (name : List Nat) (skip : Bool), (b.pushFile fs name skip).2.base = b.base ∧
      ((b.pushFile fs name skip).2.stack = b.stack ∨ ∃ r : InRec, r.lineNo = b.lineNo + b.curLines ∧ (b.pushFile fs name skip).2.stack = r :: b.stack) := by
    intro b fs name skip
    unfold Buf.pushFile
    simp only
    repeat' split
    all_goals first
      | exact ⟨rfl, .inl rfl⟩
      | exact ⟨rfl, .inr ⟨_, rfl, rfl⟩⟩
  induction h with
  | @enter b fs name skip hr he hn =>
    obtain ⟨p1, p2 | ⟨r, p2, p3⟩⟩ := push b fs name skip
    · exact absurd (p2.trans he) hn
    · refine ⟨?_, hn, p1⟩
      rw [p3, he]
      simp [p2]
  | getline hb e hn ih => exact inside_keep ih (less_getline e) hn
  | shift hb e hn ih => exact inside_keep ih (less_shift e) hn
  | unshift hb ih => exact ih
  | reset hb ih => exact ih
  | @push _ _ b fs name skip hb ih =>
    obtain ⟨p1, p2 | ⟨r, p2, p3⟩⟩ := push b fs name skip
    · rw [p1, p2]; exact ih
    · rw [p1, p3]
      refine ⟨?_, by simp, ih.2.2⟩
      rw [List.map_cons, List.getLast?_cons, ih.1]
      rfl

/-- **C82** (search): the file opened is the first one that exists among those the search path gives, and inclusion fails only if there is none -/
theorem C82_search (fs : Files) (name : List Nat) :
    (∀ p c, fs.open name = some (p, c) ↔ ∃ i : Nat, (candidates fs.path fs.ext name)[i]? = some p ∧ fs.content p = some c ∧ ∀ j q, j < i → (candidates fs.path fs.ext name)[j]? = some q → fs.content q = none) ∧
    (fs.open name = none ↔ ∀ q ∈ candidates fs.path fs.ext name, fs.content q = none) := by
  have e := open_eq fs name
  rw [e]
  exact ⟨fun p c => first_iff fs.content _ p c, first_none fs.content _⟩

example : twoFiles.open [102] = some ([108, 47, 102], [97, 10]) := by decide

/-- **C82** (abandoning files): when reading of included files is abandoned, none is left, the number of the line is that at which reading the main input is to resume, the main input
itself has not been touched since, and no file counts as read to its end that was not before -/
theorem C82_close (n : Nat) (s : Stream) (b : Buf) (h : Inside n s b) :
    b.closeIncludes.stack = [] ∧ b.closeIncludes.lineNo = n ∧ b.closeIncludes.base = s ∧ ∀ q, b.closeIncludes.done q ↔ b.done q := by
  obtain ⟨h1, h2, h3⟩ := inside_spec h
  exact ⟨rfl, (closeLoop_eq b.stack b.lineNo n h1), h3, fun q => Iff.rfl⟩

/-- here the main input is to resume at line 2 -/
example : ∃ b b1 b2, (Buf.make [60, 102, 10, 121, 10]).getline 9 = .ok (true, b) ∧ b.pushFile (exFiles [97, 10, 98]) [102] true = (true, b1) ∧ b1.getline 9 = .ok (true, b2) ∧ Inside 2 ⟨[121, 10], true⟩ b2 := by
  have h0 : Reached (Buf.make [60, 102, 10, 121, 10]) := .make _
  have h1 : ∃ b, (Buf.make [60, 102, 10, 121, 10]).getline 9 = .ok (true, b) ∧ b.stack = [] ∧ b.lineNo + b.curLines = 2 ∧ b.base = ⟨[121, 10], true⟩ ∧
      ∃ b1, b.pushFile (exFiles [97, 10, 98]) [102] true = (true, b1) ∧ b1.stack ≠ [] ∧ ∃ b2, b1.getline 9 = .ok (true, b2) ∧ b2.stack ≠ [] :=
    ⟨_, rfl, rfl, rfl, rfl, _, rfl, by decide, _, rfl, by decide⟩
  obtain ⟨b, e, k1, k2, k3, b1, e1, k4, b2, e2, k5⟩ := h1
  refine ⟨b, b1, b2, e, e1, e2, ?_⟩
  have h2 := Inside.enter (exFiles [97, 10, 98]) [102] true (h0.getline e) k1 (by rw [e1]; exact k4)
  rw [e1, k2, k3] at h2
  exact h2.getline e2 k5

end Verif.Lex
