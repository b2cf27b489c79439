import Verif.Io.Fold
import Verif.Io.FoldSpec
/-
C91: the number of digits and the folding of lines.
-/
namespace Verif.Io
open Verif

theorem digitsLoop_spec (b : Nat) (hb : 2 ≤ b) : ∀ (k d a : Nat), a < k → ∃ e, digitsLoop b k d a = .ok (d + e) ∧ a < b ^ (e + 1) ∧ (0 < e → b ^ e ≤ a)
  | 0, _, _, h => by omega
  | k + 1, d, a, h => by
    rw [digitsLoop]
    by_cases ha : a ≥ b
    · rw [if_pos ha]
      have hlt : a / b < a := Nat.div_lt_self (by omega) (by omega)
      obtain ⟨e, h1, h2, h3⟩ := digitsLoop_spec b hb k (d + 1) (a / b) (by omega)
      refine ⟨e + 1, by rw [h1]; congr 1; omega, ?_, fun _ => ?_⟩
      · rw [Nat.pow_succ]
        exact (Nat.div_lt_iff_lt_mul (by omega)).1 h2
      · rcases Nat.eq_zero_or_pos e with rfl | he
        · simpa using ha
        · rw [Nat.pow_succ]
          exact (Nat.le_div_iff_mul_le (by omega)).1 (h3 he)
    · rw [if_neg ha]
      exact ⟨0, rfl, by simpa using ha, by simp⟩

/-- C91, the number of digits: the least positive number of digits with which the number can be written -/
theorem C91_digits (a b : Nat) (hb : 2 ≤ b) : ∃ d, digits a b = .ok d ∧ 1 ≤ d ∧ a < b ^ d ∧ ∀ c, 1 ≤ c → a < b ^ c → d ≤ c := by
  rw [digits, if_neg (by omega)]
  obtain ⟨e, h1, h2, h3⟩ := digitsLoop_spec b hb (a + 1) 1 a (by omega)
  refine ⟨1 + e, h1, by omega, by rw [Nat.add_comm]; exact h2, ?_⟩
  intro c hc hac
  rcases Nat.eq_zero_or_pos e with rfl | he
  · omega
  · have := Nat.lt_of_le_of_lt (h3 he) hac
    have := (Nat.pow_lt_pow_iff_right (by omega)).1 this
    omega

example : digits 0 10 = .ok 1 ∧ digits 999 10 = .ok 3 ∧ digits 1000 10 = .ok 4 := ⟨rfl, rfl, rfl⟩

theorem splitLoop_word : ∀ (s l cur : List Nat), 10 ∉ s → splitLoop (s ++ l) cur = splitLoop l (cur ++ s)
  | [], l, cur, _ => by simp
  | c :: s, l, cur, h => by
    rw [List.cons_append, splitLoop, if_neg (by intro k; exact h (by simp [k])), splitLoop_word s l _ (fun k => h (by simp [k]))]
    simp

/-- C91, the lists of hyphens are read as they are meant -/
theorem C91_hyphens : ∀ l : List (List Nat), Hyphens l → splitHyphens (joined l) = .ok l ∧ (l ≠ [] → splitHyphens (joined l ++ [10]) = .ok l) := by
  have key : ∀ l : List (List Nat), Hyphens l → l ≠ [] → splitLoop (joined l) [] = .ok l ∧ splitLoop (joined l ++ [10]) [] = .ok l ∧ joined l ≠ [] := by
    intro l
    induction l with
    | nil => intro _ h; exact (h rfl).elim
    | cons s l ih =>
      intro h _
      obtain ⟨h1, h2⟩ := h s (by simp)
      cases l with
      | nil =>
        refine ⟨?_, ?_, h1⟩
        · have := splitLoop_word s [] [] h2
          rw [List.append_nil] at this
          rw [joined, this, splitLoop, List.nil_append, if_neg h1]
        · rw [joined, splitLoop_word s [10] [] h2, splitLoop, if_pos rfl, List.nil_append, if_neg h1, if_pos rfl]
      | cons t l =>
        obtain ⟨i1, i2, i3⟩ := ih (fun x hx => h x (by simp [hx])) (by simp)
        refine ⟨?_, ?_, by rw [joined]; simp; simp⟩
        · rw [joined, splitLoop_word s _ [] h2, splitLoop, if_pos rfl, List.nil_append, if_neg h1, if_neg i3, i1]
          · rfl
          · simp
        · rw [joined, List.append_assoc, List.cons_append, splitLoop_word s _ [] h2, splitLoop, if_pos rfl, List.nil_append, if_neg h1, if_neg (by simp), i2]
          · rfl
          · simp
  intro l h
  cases l with
  | nil => exact ⟨rfl, fun k => (k rfl).elim⟩
  | cons s l =>
    obtain ⟨h1, h2, h3⟩ := key (s :: l) h (by simp)
    refine ⟨?_, fun _ => ?_⟩
    · rw [splitHyphens, if_neg h3, h1]
    · rw [splitHyphens, if_neg (by simp), h2]

example : Hyphens [[43], [45, 32]] ∧ joined [[43], [45, 32]] = [43, 10, 45, 32] := ⟨by intro s hs; simp at hs; rcases hs with rfl | rfl <;> simp, rfl⟩

theorem rfind_spec (line s : List Nat) : ∀ top : Nat,
    match rfind line s top with
    | some b => OccursAt line s b ∧ b ≤ top ∧ ∀ c, OccursAt line s c → c ≤ top → c ≤ b
    | none => ∀ c, OccursAt line s c → c ≤ top → False
  | 0 => by
    rw [rfind]
    by_cases h : s.isPrefixOf line = true
    · rw [if_pos h]
      exact ⟨by rw [OccursAt, List.drop_zero]; exact List.isPrefixOf_iff_prefix.1 h, by omega, fun c _ hc => hc⟩
    · rw [if_neg h]
      intro c h1 h2
      have : c = 0 := by omega
      subst this
      rw [OccursAt, List.drop_zero] at h1
      exact h (List.isPrefixOf_iff_prefix.2 h1)
  | i + 1 => by
    rw [rfind]
    by_cases h : s.isPrefixOf (line.drop (i + 1)) = true
    · rw [if_pos h]
      exact ⟨List.isPrefixOf_iff_prefix.1 h, by omega, fun c _ hc => hc⟩
    · rw [if_neg h]
      have hi := rfind_spec line s i
      have hne : ∀ c, OccursAt line s c → c ≤ i + 1 → c ≤ i := by
        intro c h1 h2
        by_cases hc : c = i + 1
        · subst hc
          exact (h (List.isPrefixOf_iff_prefix.2 h1)).elim
        · omega
      cases hr : rfind line s i with
      | none =>
        rw [hr] at hi
        exact fun c h1 h2 => hi c h1 (hne c h1 h2)
      | some b =>
        rw [hr] at hi
        exact ⟨hi.1, by have := hi.2.1; omega, fun c h1 h2 => hi.2.2 c h1 (hne c h1 h2)⟩

theorem preLoop_spec (line : List Nat) (top : Nat) : ∀ (l : List (List Nat)) (p : Nat), p ≤ preLoop line top l p ∧ (preLoop line top l p = p ∨ ∃ s ∈ l, OccursAt line s (preLoop line top l p) ∧ preLoop line top l p ≤ top) ∧
    ∀ s ∈ l, ∀ c, OccursAt line s c → c ≤ top → c ≤ preLoop line top l p
  | [], p => by simp [preLoop]
  | s :: l, p => by
    rw [preLoop]
    have hr := rfind_spec line s top
    cases hf : rfind line s top with
    | none =>
      rw [hf] at hr
      obtain ⟨h1, h2, h3⟩ := preLoop_spec line top l p
      refine ⟨h1, h2.imp_right fun ⟨t, ht, h⟩ => ⟨t, by simp [ht], h⟩, ?_⟩
      intro t ht c h4 h5
      rcases List.mem_cons.1 ht with rfl | ht
      · exact (hr c h4 h5).elim
      · exact h3 t ht c h4 h5
    | some b =>
      rw [hf] at hr
      simp only
      obtain ⟨h1, h2, h3⟩ := preLoop_spec line top l (if b > p then b else p)
      have hge : p ≤ (if b > p then b else p) ∧ b ≤ (if b > p then b else p) := by split <;> omega
      refine ⟨by omega, ?_, ?_⟩
      · rcases h2 with h2 | ⟨t, ht, h⟩
        · rw [h2]
          by_cases hb : b > p
          · rw [if_pos hb]
            exact .inr ⟨s, by simp, hr.1, hr.2.1⟩
          · rw [if_neg hb]
            exact .inl rfl
        · exact .inr ⟨t, by simp [ht], h⟩
      · intro t ht c h4 h5
        rcases List.mem_cons.1 ht with rfl | ht
        · have := hr.2.2 c h4 h5
          omega
        · exact h3 t ht c h4 h5

theorem postLoop_spec (line : List Nat) (top : Nat) : ∀ (l : List (List Nat)) (p : Nat), p ≤ postLoop line top l p ∧ (postLoop line top l p = p ∨ ∃ s ∈ l, ∃ i, postLoop line top l p = i + s.length ∧ OccursAt line s i ∧ i ≤ top) ∧
    ∀ s ∈ l, ∀ i, OccursAt line s i → i ≤ top → i + s.length ≤ postLoop line top l p
  | [], p => by simp [postLoop]
  | s :: l, p => by
    rw [postLoop]
    have hr := rfind_spec line s top
    cases hf : rfind line s top with
    | none =>
      rw [hf] at hr
      obtain ⟨h1, h2, h3⟩ := postLoop_spec line top l p
      refine ⟨h1, h2.imp_right fun ⟨t, ht, h⟩ => ⟨t, by simp [ht], h⟩, ?_⟩
      intro t ht c h4 h5
      rcases List.mem_cons.1 ht with rfl | ht
      · exact (hr c h4 h5).elim
      · exact h3 t ht c h4 h5
    | some b =>
      rw [hf] at hr
      simp only
      obtain ⟨h1, h2, h3⟩ := postLoop_spec line top l (if b + s.length > p then b + s.length else p)
      have hge : p ≤ (if b + s.length > p then b + s.length else p) ∧ b + s.length ≤ (if b + s.length > p then b + s.length else p) := by split <;> omega
      refine ⟨by omega, ?_, ?_⟩
      · rcases h2 with h2 | ⟨t, ht, h⟩
        · rw [h2]
          by_cases hb : b + s.length > p
          · rw [if_pos hb]
            exact .inr ⟨s, by simp, b, rfl, hr.1, hr.2.1⟩
          · rw [if_neg hb]
            exact .inl rfl
        · exact .inr ⟨t, by simp [ht], h⟩
      · intro t ht c h4 h5
        rcases List.mem_cons.1 ht with rfl | ht
        · have := hr.2.2 c h4 h5
          omega
        · exact h3 t ht c h4 h5

theorem nextBreak_spec (line : List Nat) (pre post : List (List Nat)) (old width : Nat) : IsBreak line pre post old width (nextBreak line pre post old width) := by
  obtain ⟨a1, a2, a3⟩ := preLoop_spec line (old + width) pre old
  obtain ⟨b1, b2, b3⟩ := postLoop_spec line (old + width) post (preLoop line (old + width) pre old)
  have hmax : ∀ c, Allowed line pre post (old + width) c → c ≤ postLoop line (old + width) post (preLoop line (old + width) pre old) := by
    rintro c (⟨s, hs, h1, h2⟩ | ⟨s, hs, i, rfl, h1, h2⟩)
    · have := a3 s hs c h1 h2
      omega
    · exact b3 s hs i h1 h2
  rw [nextBreak]
  by_cases h : postLoop line (old + width) post (preLoop line (old + width) pre old) = old
  · rw [if_pos h]
    right
    rw [h] at hmax ⊢
    exact ⟨hmax, rfl⟩
  · rw [if_neg h]
    left
    refine ⟨by omega, ?_, hmax⟩
    rcases b2 with b2 | ⟨s, hs, i, h1, h2, h3⟩
    · rw [b2] at h ⊢
      rcases a2 with a2 | ⟨s, hs, h1, h2⟩
      · exact (h a2).elim
      · exact .inl ⟨s, hs, h1, h2⟩
    · exact .inr ⟨s, hs, i, h1, h2, h3⟩

theorem occurs_le {line s : List Nat} {i : Nat} (hs : s ≠ []) (h : OccursAt line s i) : i + s.length ≤ line.length := by
  have := h.length_le
  have h0 : 0 < s.length := List.length_pos_iff.2 hs
  rw [List.length_drop] at this
  omega

theorem break_le {line : List Nat} {pre post : List (List Nat)} {old width b : Nat} (hp : ∀ s ∈ pre, s ≠ []) (hq : ∀ s ∈ post, s ≠ []) (h : IsBreak line pre post old width b) (hw : 0 < width) (hl : old + width < line.length) : old < b ∧ b ≤ line.length := by
  rcases h with ⟨h1, h2, -⟩ | ⟨-, h2⟩
  · refine ⟨h1, ?_⟩
    rcases h2 with ⟨s, hs, h3, -⟩ | ⟨s, hs, i, rfl, h3, -⟩
    · have := occurs_le (hp s hs) h3
      omega
    · exact occurs_le (hq s hs) h3
  · omega

theorem foldLoop_spec {line : List Nat} {pre post : List (List Nat)} {h size : Nat} (hp : ∀ s ∈ pre, s ≠ []) (hq : ∀ s ∈ post, s ≠ []) (hh : h < size) : ∀ (k old : Nat), line.length ≤ old + k → old + (size - (if old = 0 then 0 else h)) < line.length →
    ∃ b l, IsBreak line pre post old (size - (if old = 0 then 0 else h)) b ∧ Cut line pre post (size - h) b l ∧
      foldLoop line pre post h size k old = .ok (List.replicate (if old = 0 then 0 else h) 32 ++ (line.drop old).take (b - old) ++ 10 :: shown h l)
  | 0, old, hk, hl => by omega
  | k + 1, old, hk, hl => by
    have hbr := nextBreak_spec line pre post old (size - (if old = 0 then 0 else h))
    have hw : 0 < size - (if old = 0 then 0 else h) := by split <;> omega
    obtain ⟨hb1, hb2⟩ := break_le hp hq hbr hw hl
    rw [foldLoop]
    simp only
    rw [if_neg (by omega : ¬ old > line.length)]
    generalize nextBreak line pre post old (size - (if old = 0 then 0 else h)) = b at hbr hb1 hb2 ⊢
    by_cases hc : line.length > b + size - h
    · rw [if_pos hc]
      have hb0 : (if b = 0 then 0 else h) = h := if_neg (by omega)
      obtain ⟨b', l, i1, i2, i3⟩ := foldLoop_spec (line := line) hp hq hh k b (by omega) (by rw [hb0]; omega)
      rw [hb0] at i1 i3
      refine ⟨b, (line.drop b).take (b' - b) :: l, hbr, .more (by omega) i1 i2, ?_⟩
      rw [i3, Res.ok_bind, Res.pure_eq]
      have : shown h ((line.drop b).take (b' - b) :: l) = List.replicate h 32 ++ (line.drop b).take (b' - b) ++ 10 :: shown h l := by
        cases i2 <;> rfl
      rw [this]
      simp
    · rw [if_neg hc]
      refine ⟨b, [line.drop b], hbr, .last (by omega), ?_⟩
      rw [shown]
      by_cases he : b < line.length
      · rw [if_pos he, if_neg (show ¬ line.drop b = [] by rw [List.drop_eq_nil_iff]; omega)]
        simp
      · rw [if_neg he, if_pos (show line.drop b = [] by rw [List.drop_eq_nil_iff]; omega)]
        simp

/-- C91, the folding of a line that is too long: it is broken at the last break allowed each time, and lines after the first are indented -/
theorem C91_fold (line : List Nat) (pre post : List (List Nat)) (h size : Nat) (hp : Hyphens pre) (hq : Hyphens post) (hh : h < size) (hl : size < line.length) :
    ∃ b l, IsBreak line pre post 0 size b ∧ Cut line pre post (size - h) b l ∧ foldLine line (joined pre) (joined post) h size = .ok (line.take b ++ 10 :: shown h l) := by
  rw [foldLine, if_neg (by omega), if_pos hh, (C91_hyphens pre hp).1, Res.ok_bind, (C91_hyphens post hq).1, Res.ok_bind]
  obtain ⟨b, l, h1, h2, h3⟩ := foldLoop_spec (line := line) (fun s hs => (hp s hs).1) (fun s hs => (hq s hs).1) hh line.length 0 (by omega) (by simpa using hl)
  exact ⟨b, l, by simpa using h1, h2, by rw [h3]; simp⟩

/-- C91, a line that is not too long is left as it is -/
theorem C91_short (line pre post : List Nat) (h size : Nat) (hl : line.length ≤ size) : foldLine line pre post h size = .ok line := by
  rw [foldLine, if_pos hl]

/-- C91, nothing is lost, and lines fit: without their indentation the parts give the line, none but the last is empty, and if breaks after hyphens are not used then all fit in the size given -/
theorem C91_parts (line : List Nat) (pre post : List (List Nat)) (h size : Nat) (hp : Hyphens pre) (hq : Hyphens post) (hh : h < size) (hl : size < line.length) :
    ∃ first mid last, foldLine line (joined pre) (joined post) h size = .ok (first ++ 10 :: shown h (mid ++ [last])) ∧ line = first ++ mid.flatten ++ last ∧ first ≠ [] ∧ [] ∉ mid ∧ h + last.length ≤ size ∧
      ∀ k, (∀ s ∈ post, s.length ≤ k) → first.length ≤ size + k ∧ ∀ p ∈ mid, h + p.length ≤ size + k := by
  have hp' : ∀ s ∈ pre, s ≠ [] := fun s hs => (hp s hs).1
  have hq' : ∀ s ∈ post, s ≠ [] := fun s hs => (hq s hs).1
  have len : ∀ {old width b k : Nat}, IsBreak line pre post old width b → (∀ s ∈ post, s.length ≤ k) → b ≤ old + width + k := by
    intro old width b k hb hk
    rcases hb with ⟨-, ⟨s, hs, -, h2⟩ | ⟨s, hs, i, rfl, -, h2⟩, -⟩ | ⟨-, rfl⟩
    · omega
    · have := hk s hs
      omega
    · omega
  have key : ∀ {b : Nat} {l : List (List Nat)}, Cut line pre post (size - h) b l → ∃ mid last, l = mid ++ [last] ∧ line.drop b = mid.flatten ++ last ∧ [] ∉ mid ∧ h + last.length ≤ size ∧
      ∀ k, (∀ s ∈ post, s.length ≤ k) → ∀ p ∈ mid, h + p.length ≤ size + k := by
    intro b l hc
    induction hc with
    | @last old h1 => exact ⟨[], line.drop old, rfl, by simp, by simp, by rw [List.length_drop]; omega, by simp⟩
    | @more old b l h1 h2 h3 ih =>
      obtain ⟨mid, last, e1, e2, e3, e4, e5⟩ := ih
      obtain ⟨hb1, hb2⟩ := break_le hp' hq' h2 (by omega) h1
      refine ⟨(line.drop old).take (b - old) :: mid, last, by rw [e1]; rfl, ?_, ?_, e4, ?_⟩
      · rw [List.flatten_cons, List.append_assoc, ← e2]
        have := List.take_append_drop (b - old) (line.drop old)
        rw [List.drop_drop, show old + (b - old) = b by omega] at this
        exact this.symm
      · intro hm
        rcases List.mem_cons.1 hm with hm | hm
        · have := congrArg List.length hm
          simp at this
          omega
        · exact e3 hm
      · intro k hk p hpm
        rcases List.mem_cons.1 hpm with rfl | hpm
        · have := len h2 hk
          rw [List.length_take, List.length_drop]
          omega
        · exact e5 k hk p hpm
  obtain ⟨b, l, h1, h2, h3⟩ := C91_fold line pre post h size hp hq hh hl
  obtain ⟨mid, last, e1, e2, e3, e4, e5⟩ := key h2
  obtain ⟨hb1, hb2⟩ := break_le hp' hq' h1 (by omega) (by omega)
  refine ⟨line.take b, mid, last, by rw [h3, e1], ?_, ?_, e3, e4, fun k hk => ⟨?_, e5 k hk⟩⟩
  · rw [List.append_assoc, ← e2, List.take_append_drop]
  · intro hm
    have := congrArg List.length hm
    rw [List.length_take, List.length_nil] at this
    omega
  · have := len h1 hk
    rw [List.length_take]
    omega

/-- C91, refuted: with breaks after hyphens, lines can be longer than the size given, for every size: here the break is after a comma -/
theorem C91_width_false (size : Nat) (hs : 0 < size) : ∃ line first rest, (10 ∉ line) ∧ foldLine line [] [44] 0 size = .ok (first ++ 10 :: rest) ∧ 10 ∉ first ∧ size < first.length := by
  have hlen : size < (List.replicate size 97 ++ [44, 97]).length := by simp
  obtain ⟨b, l, h1, h2, h3⟩ := C91_fold (List.replicate size 97 ++ [44, 97]) [] [[44]] 0 size (by intro s h; simp at h) (by intro s h; simp at h; subst h; simp) hs hlen
  have hall : Allowed (List.replicate size 97 ++ [44, 97]) [] [[44]] (0 + size) (size + 1) := by
    refine .inr ⟨[44], by simp, size, rfl, ?_, by omega⟩
    rw [OccursAt, List.drop_left' (by simp)]
    exact ⟨[97], rfl⟩
  have hb : size + 1 ≤ b := by
    rcases h1 with ⟨-, -, h⟩ | ⟨h, -⟩
    · exact h _ hall
    · have := h _ hall
      omega
  refine ⟨_, _, _, by simp [List.mem_replicate], h3, ?_, ?_⟩
  · intro hm
    have := List.mem_of_mem_take hm
    simp [List.mem_replicate] at this
  · rw [List.length_take, List.length_append, List.length_replicate]
    simp
    omega

-- "a+b+c" in lines of size 3 with indentation 1, broken before plus signs: "a+b", " +c" is obtained
example : foldLine [97, 43, 98, 43, 99] [43] [] 1 3 = .ok [97, 43, 98, 10, 32, 43, 99] := rfl

example : Hyphens [[43]] ∧ Hyphens [] ∧ 1 < 3 ∧ 3 < [97, 43, 98, 43, 99].length := ⟨by intro s h; simp at h; subst h; simp, by intro s h; simp at h, by decide, by decide⟩

end Verif.Io
