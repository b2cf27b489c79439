import Verif.Lex.BufferSpec
/-
Reading lines.
-/
namespace Verif.Lex
open Verif

/-- the lines that remain in a stream -/
def Stream.lines (s : Stream) : List (List Nat) := if s.good then physical s.rest else []

theorem physical_nil {t : List Nat} (h : physical t = []) : t = [] := by
  cases t with
  | nil => rfl
  | cons c t =>
    rw [physical] at h
    by_cases hc : c = 10
    · rw [if_pos hc] at h; cases h
    · rw [if_neg hc] at h
      cases hp : physical t with
      | nil => rw [hp] at h; cases h
      | cons a b => rw [hp] at h; cases h

theorem physical_cons : ∀ (t : List Nat) (l : List Nat) (ls : List (List Nat)), physical t = l :: ls →
    ((stdGetline ⟨t, true⟩).1 = l ∧ (stdGetline ⟨t, true⟩).2.lines = ls) ∧ ¬ (l = [] ∧ (stdGetline ⟨t, true⟩).2.good = false)
  | [], l, ls, h => by cases h
  | c :: t, l, ls, h => by
    rw [physical] at h
    by_cases hc : c = 10
    · rw [if_pos hc] at h
      cases h
      subst hc
      simp [stdGetline, Stream.lines]
    · rw [if_neg hc] at h
      have hd : (c :: t).dropWhile (· ≠ 10) = t.dropWhile (· ≠ 10) := by rw [List.dropWhile_cons_of_pos (by simpa using hc)]
      have ht : (c :: t).takeWhile (· ≠ 10) = c :: t.takeWhile (· ≠ 10) := by rw [List.takeWhile_cons_of_pos (by simpa using hc)]
      cases hp : physical t with
      | nil =>
        rw [hp] at h
        cases h
        have := physical_nil hp
        subst this
        simp [stdGetline, Stream.lines, hc]
      | cons a as =>
        rw [hp] at h
        cases h
        obtain ⟨⟨h1, h2⟩, _⟩ := physical_cons t a ls hp
        simp only [stdGetline, hd, ht] at h1 h2 ⊢
        cases hq : t.dropWhile (· ≠ 10) with
        | nil => rw [hq] at h1 h2; simp only at h1 h2 ⊢; exact ⟨⟨by rw [h1], h2⟩, by simp⟩
        | cons x xs => rw [hq] at h1 h2; simp only at h1 h2 ⊢; exact ⟨⟨by rw [h1], h2⟩, by simp⟩

theorem cur_setCur (b : Buf) (s : Stream) : (b.setCur s).cur = s := by
  unfold Buf.setCur Buf.cur; cases b.stack <;> rfl

theorem setCur_setCur (b : Buf) (s s' : Stream) : (b.setCur s).setCur s' = b.setCur s' := by
  rcases b with ⟨_, _, _, _, _, _ | ⟨_, _⟩, _, _⟩ <;> rfl

theorem setCur_self (b : Buf) : b.setCur b.cur = b := by
  rcases b with ⟨_, _, _, _, _, _ | ⟨_, _⟩, _, _⟩ <;> rfl

theorem setCur_lines (b : Buf) (s : Stream) (c : Nat) : ({ b with curLines := c } : Buf).setCur s = { b.setCur s with curLines := c } := by
  rcases b with ⟨_, _, _, _, _, _ | ⟨_, _⟩, _, _⟩ <;> rfl

theorem setCur_curLines (b : Buf) (s : Stream) : (b.setCur s).curLines = b.curLines := by
  rcases b with ⟨_, _, _, _, _, _ | ⟨_, _⟩, _, _⟩ <;> rfl

theorem setCur_empty (b : Buf) (s : Stream) : (b.setCur s).stack.isEmpty = b.stack.isEmpty := by
  rcases b with ⟨_, _, _, _, _, _ | ⟨_, _⟩, _, _⟩ <;> rfl

theorem cur_lines (b : Buf) (c : Nat) : ({ b with curLines := c } : Buf).cur = b.cur := rfl

theorem readLine_nil {b : Buf} (h : b.cur.lines = []) : ∃ s, b.readLine = ([], b.setCur s) ∧ s.good = false := by
  rw [Buf.readLine]
  by_cases hg : b.cur.good = true
  · rw [if_pos hg]
    rw [Stream.lines, if_pos hg] at h
    have := physical_nil h
    refine ⟨⟨[], false⟩, ?_, rfl⟩
    simp [stdGetline, this]
  · rw [if_neg hg]
    exact ⟨b.cur, by rw [setCur_self], by simpa using hg⟩

theorem readLine_cons {b : Buf} {l : List Nat} {ls : List (List Nat)} (h : b.cur.lines = l :: ls) : ∃ s, b.readLine = (l, b.setCur s) ∧ s.lines = ls ∧ ¬ (l = [] ∧ s.good = false) := by
  by_cases hg : b.cur.good = true
  · rw [Stream.lines, if_pos hg] at h
    obtain ⟨⟨h1, h2⟩, h3⟩ := physical_cons _ _ _ h
    have he : (⟨b.cur.rest, true⟩ : Stream) = b.cur := by cases hb : b.cur; rw [hb] at hg; simp only at hg; rw [hg]
    rw [he] at h1 h2 h3
    exact ⟨(stdGetline b.cur).2, by rw [Buf.readLine, if_pos hg, h1], h2, h3⟩
  · rw [Stream.lines, if_neg hg] at h
    cases h

/-- at the end -/
theorem getLoop_nil {b : Buf} (h : b.cur.lines = []) (k : Nat) (lines : List (List Nat)) : ∃ s : Stream, s.lines = [] ∧ getLoop (k + 1) b lines =
    if b.curLines > 0 then (if b.stack.isEmpty then .ok (true, false, [] :: lines, b.setCur s) else .ok (true, true, [] :: lines, (b.setCur s).popFile))
    else if b.stack.isEmpty then .ok (false, false, lines, b.setCur s) else .ok (true, true, [] :: lines, (b.setCur s).popFile) := by
  obtain ⟨s, h1, h2⟩ := readLine_nil h
  refine ⟨s, by rw [Stream.lines, h2]; rfl, ?_⟩
  rw [getLoop, h1]
  simp only [cur_setCur, h2, List.isEmpty_nil, Bool.not_false, Bool.and_self, if_true, setCur_curLines, setCur_empty]

theorem getLoop_cons {b : Buf} {l : List Nat} {ls : List (List Nat)} (h : b.cur.lines = l :: ls) (k : Nat) (lines : List (List Nat)) : ∃ s : Stream, s.lines = ls ∧
    getLoop (k + 1) b lines = if (trimEnd l).getLast? = some 92 then getLoop k { b.setCur s with curLines := b.curLines + 1 } ((trimEnd l).dropLast :: lines)
      else .ok (true, false, trimEnd l :: lines, { b.setCur s with curLines := b.curLines + 1 }) := by
  obtain ⟨s, h1, h2, h3⟩ := readLine_cons h
  refine ⟨s, h2, ?_⟩
  rw [getLoop, h1]
  have hc : (l.isEmpty && !(b.setCur s).cur.good) = false := by
    rw [cur_setCur]
    cases l with
    | nil => cases hg : s.good with
      | true => rfl
      | false => exact absurd ⟨rfl, hg⟩ h3
    | cons _ _ => rfl
  simp only [hc, Bool.false_eq_true, if_false, setCur_curLines]
  rfl

theorem logical_eq_nil {ls : List (List Nat)} (h : logical ls = []) : ls = [] := by
  cases ls with
  | nil => rfl
  | cons l ls =>
    rw [logical] at h
    by_cases hc : (trimEnd l).getLast? = some 92
    · rw [if_pos hc] at h
      cases hl : logical ls with
      | nil => rw [hl] at h; cases h
      | cons _ _ => rw [hl] at h; cases h
    · rw [if_neg hc] at h; cases h

theorem getLoop_ended : ∀ (ls : List (List Nat)) (b : Buf) (lines : List (List Nat)) (k : Nat) (r : Logical) (rs : List Logical), b.cur.lines = ls → ls.length ≤ k → logical ls = r :: rs → r.ended = true →
    ∃ s lines', getLoop k b lines = .ok (true, false, lines', { b.setCur s with curLines := b.curLines + r.count }) ∧ lines'.reverse.flatten = lines.reverse.flatten ++ r.text ∧
      logical s.lines = rs ∧ s.lines.length < ls.length
  | [], _, _, _, _, _, _, _, h, _ => by cases h
  | l :: ls, b, lines, 0, r, rs, hb, hk, h, he => by simp at hk
  | l :: ls, b, lines, k + 1, r, rs, hb, hk, h, he => by
    obtain ⟨s, hs, hg⟩ := getLoop_cons hb k lines
    rw [hg]
    rw [logical] at h
    by_cases hc : (trimEnd l).getLast? = some 92
    · rw [if_pos hc] at h ⊢
      cases hl : logical ls with
      | nil => rw [hl] at h; cases h; cases he
      | cons r' rs' =>
        rw [hl] at h
        cases h
        obtain ⟨s', lines', e1, e2, e3, e4⟩ := getLoop_ended ls { b.setCur s with curLines := b.curLines + 1 } ((trimEnd l).dropLast :: lines) k r' rs (by
          rw [cur_lines, cur_setCur]; exact hs) (by simpa using hk) hl he
        refine ⟨s', lines', ?_, ?_, e3, by rw [List.length_cons]; omega⟩
        · rw [e1, setCur_lines, setCur_setCur, show b.curLines + 1 + r'.count = b.curLines + (r'.count + 1) by omega]
        · rw [e2]; simp
    · rw [if_neg hc] at h ⊢
      cases h
      exact ⟨s, _, rfl, by simp, by rw [hs], by rw [hs]; simp⟩

theorem getLoop_dangling : ∀ (ls : List (List Nat)) (b : Buf) (lines : List (List Nat)) (k : Nat) (r : Logical) (rs : List Logical), b.cur.lines = ls → ls.length < k → logical ls = r :: rs → r.ended = false →
    rs = [] ∧ ∃ (s : Stream) (lines' : List (List Nat)), s.lines = [] ∧ lines'.reverse.flatten = lines.reverse.flatten ++ r.text ∧
      getLoop k b lines = .ok (true, !b.stack.isEmpty, lines', if b.stack.isEmpty then { b.setCur s with curLines := b.curLines + r.count }
        else ({ b.setCur s with curLines := b.curLines + r.count } : Buf).popFile)
  | [], _, _, _, _, _, _, _, h, _ => by cases h
  | l :: ls, b, lines, 0, r, rs, hb, hk, h, he => by simp at hk
  | l :: ls, b, lines, k + 1, r, rs, hb, hk, h, he => by
    obtain ⟨s, hs, hg⟩ := getLoop_cons hb k lines
    rw [hg]
    rw [logical] at h
    by_cases hc : (trimEnd l).getLast? = some 92
    · rw [if_pos hc] at h ⊢
      cases hl : logical ls with
      | nil =>
        rw [hl] at h
        cases h
        have hls := logical_eq_nil hl
        obtain ⟨k', rfl⟩ : ∃ k', k = k' + 1 := ⟨k - 1, by simp at hk; omega⟩
        obtain ⟨s', h1, h2⟩ := getLoop_nil (b := { b.setCur s with curLines := b.curLines + 1 }) (by rw [cur_lines, cur_setCur, hs, hls]) k' ((trimEnd l).dropLast :: lines)
        refine ⟨rfl, s', [] :: (trimEnd l).dropLast :: lines, h1, by simp, ?_⟩
        rw [h2]
        simp only [setCur_empty, setCur_lines, setCur_setCur]
        rw [if_pos (by omega)]
        cases b.stack.isEmpty <;> rfl
      | cons r' rs' =>
        rw [hl] at h
        cases h
        obtain ⟨h0, s', lines', e1, e2, e3⟩ := getLoop_dangling ls { b.setCur s with curLines := b.curLines + 1 } ((trimEnd l).dropLast :: lines) k r' rs (by
          rw [cur_lines, cur_setCur]; exact hs) (by simpa using hk) hl he
        refine ⟨h0, s', lines', e1, by rw [e2]; simp, ?_⟩
        rw [e3]
        simp only [setCur_empty, setCur_lines, setCur_setCur]
        rw [show b.curLines + 1 + r'.count = b.curLines + (r'.count + 1) by omega]
    · rw [if_neg hc] at h
      cases h
      cases he

/-- the state in which `getline` starts to read -/
def Buf.start (b : Buf) : Buf := { b with line := [], lineNo := b.lineNo + b.curLines, curLines := 0 }

theorem getline_ended {b : Buf} {fuel : Nat} {r : Logical} {rs : List Logical} (hf : b.cur.lines.length ≤ fuel) (h : logical b.cur.lines = r :: rs) (he : r.ended = true) :
    ∃ s, logical s.lines = rs ∧ s.lines.length < b.cur.lines.length ∧
      b.getline fuel = .ok (true, { b.setCur s with lineNo := b.lineNo + b.curLines, curLines := r.count, line := r.text ++ [10], pos := some 0 }) := by
  have hc : b.start.cur = b.cur := rfl
  obtain ⟨s, lines', e1, e2, e3, e4⟩ := getLoop_ended _ b.start [] fuel r rs rfl (by rw [hc]; exact hf) (by rw [hc]; exact h) he
  refine ⟨s, e3, by rwa [hc] at e4, ?_⟩
  rw [Buf.getline]
  show (getLoop fuel b.start [] >>= _) = _
  rw [e1, Res.ok_bind]
  simp only [if_true, e2]
  rcases b with ⟨_, _, _, _, _, _ | ⟨_, _⟩, _, _⟩ <;> simp [Buf.start, Buf.setCur]

theorem getline_nil {b : Buf} {fuel : Nat} (h : b.cur.lines = []) : ∃ s : Stream, s.lines = [] ∧
    b.getline (fuel + 1) = if b.stack.isEmpty then .ok (false, { b.setCur s with lineNo := b.lineNo + b.curLines, curLines := 0, line := [] })
      else .ok (true, { (b.setCur s).popFile with curLines := 0, line := [12], pos := some 0 }) := by
  obtain ⟨s, h1, h2⟩ := getLoop_nil (b := b.start) h fuel []
  refine ⟨s, h1, ?_⟩
  rw [Buf.getline]
  show (getLoop (fuel + 1) b.start [] >>= _) = _
  rw [h2]
  rcases b with ⟨_, _, _, _, _, _ | ⟨_, _⟩, _, _⟩ <;> simp [Buf.start, Buf.setCur, Buf.popFile]

theorem getline_dangling {b : Buf} {fuel : Nat} {r : Logical} {rs : List Logical} (hf : b.cur.lines.length < fuel) (h : logical b.cur.lines = r :: rs) (he : r.ended = false) :
    rs = [] ∧ ∃ s : Stream, s.lines = [] ∧ b.getline fuel = .ok (true, if b.stack.isEmpty then { b.setCur s with lineNo := b.lineNo + b.curLines, curLines := r.count, line := r.text ++ [10], pos := some 0 }
      else { (b.setCur s).popFile with curLines := r.count, line := r.text ++ [12], pos := some 0 }) := by
  have hc : b.start.cur = b.cur := rfl
  obtain ⟨h0, s, lines', e1, e2, e3⟩ := getLoop_dangling _ b.start [] fuel r rs rfl (by rw [hc]; exact hf) (by rw [hc]; exact h) he
  refine ⟨h0, s, e1, ?_⟩
  rw [Buf.getline]
  show (getLoop fuel b.start [] >>= _) = _
  rw [e3, Res.ok_bind]
  simp only [if_true, e2]
  rcases b with ⟨_, _, _, _, _, _ | ⟨_, _⟩, _, _⟩ <;> simp [Buf.start, Buf.setCur, Buf.popFile]

end Verif.Lex
