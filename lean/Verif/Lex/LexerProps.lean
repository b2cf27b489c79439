import Verif.Lex.LexerSpec
import Mathlib.Tactic.Linarith
import Mathlib.Data.List.Infix
/-
C83: space and comments.  C84: denotations of strings.  C85: identifiers, numbers, names of files.  C86: ends of commands.
-/
namespace Verif.Lex
open Verif

/-! ### Space and comments -/

theorem shift_nil {x : Lx} (h : x.rest = []) : x.shift = (0, { x with last := none }) := by rw [Lx.shift, h]

theorem shift_cons {x : Lx} {c : Nat} {t : List Nat} (h : x.rest = c :: t) : x.shift = (c, { x with last := some c, rest := t }) := by rw [Lx.shift, h]

theorem balance_nil : balance [] = 0 := rfl

theorem balance_open (l : List Nat) : balance (123 :: l) = balance l + 1 := by
  rw [balance, balance, List.count_cons, List.count_cons]
  simp
  omega

theorem balance_close (l : List Nat) : balance (125 :: l) = balance l - 1 := by
  rw [balance, balance, List.count_cons, List.count_cons]
  simp
  omega

theorem balance_other (l : List Nat) {c : Nat} (h1 : c ≠ 123) (h2 : c ≠ 125) : balance (c :: l) = balance l := by
  rw [balance, balance, List.count_cons, List.count_cons]
  simp [h1, h2]

theorem prefix_cons_cases {c : Nat} {l q : List Nat} (h : q <+: c :: l) : q = [] ∨ ∃ q', q = c :: q' ∧ q' <+: l := by
  cases q with
  | nil => exact .inl rfl
  | cons a q' =>
    rw [List.cons_prefix_cons] at h
    exact .inr ⟨q', by rw [h.1], h.2⟩

/-- the skipping of a comment -/
theorem comment_spec : ∀ (k : Nat) (x : Lx) (level : Nat), 1 ≤ level → 0 ∉ x.rest → x.rest.length < k → ∃ pre post, x.rest = pre ++ post ∧ 12 ∉ pre ∧
    ((level + balance pre = 0 ∧ (∀ q, q <+: pre → q ≠ pre → 1 ≤ level + balance q) ∧ commentLoop k level x = .ok { x with last := some 125, rest := post, prompt := x.prompt.drop level }) ∨
     ((∀ q, q <+: pre → 1 ≤ level + balance q) ∧ (post = [] ∨ post.head? = some 12) ∧ ∃ pr, commentLoop k level x = .ok { x with last := none, rest := post, prompt := pr, messages := x.messages + 1 }))
  | 0, _, _, _, _, h => by omega
  | k + 1, x, level, hl, h0, hk => by
    cases hr : x.rest with
    | nil =>
      refine ⟨[], [], rfl, by simp, .inr ⟨fun q hq => ?_, .inl rfl, x.prompt, ?_⟩⟩
      · rw [List.prefix_nil.1 hq, balance_nil]; omega
      · rw [commentLoop, shift_nil hr]
        simp [Lx.unshift, hr]
    | cons c t =>
      have c0 : c ≠ 0 := fun e => h0 (by rw [hr, e]; simp)
      have t0 : 0 ∉ t := fun e => h0 (by rw [hr]; simp [e])
      have tk : t.length < k := by rw [hr] at hk; simp at hk; omega
      rw [commentLoop, shift_cons hr]
      simp only
      by_cases e12 : c = 12
      · refine ⟨[], c :: t, rfl, by simp, .inr ⟨fun q hq => ?_, .inr (by simp [e12]), x.prompt, ?_⟩⟩
        · rw [List.prefix_nil.1 hq, balance_nil]; omega
        · rw [if_pos (.inr e12)]
          simp [Lx.unshift]
      · rw [if_neg (by rintro (e | e); exact c0 e; exact e12 e)]
        by_cases e1 : c = 123
        · rw [if_pos e1]
          obtain ⟨pre, post, p1, p2, p3⟩ := comment_spec k (Lx.pushPrompt { x with last := some c, rest := t } 123) (level + 1) (by omega) t0 tk
          refine ⟨c :: pre, post, by rw [List.cons_append, ← p1]; rfl, by simp [p2, Ne.symm e12], ?_⟩
          subst e1
          rcases p3 with ⟨q1, q2, q3⟩ | ⟨q1, q2, pr, q3⟩
          · left
            refine ⟨by rw [balance_open]; push_cast at q1; omega, fun q hq hn => ?_, ?_⟩
            · rcases prefix_cons_cases hq with rfl | ⟨q', rfl, hq'⟩
              · rw [balance_nil]; omega
              · have := q2 q' hq' (fun e => hn (by rw [e]))
                rw [balance_open]; push_cast at this; omega
            · rw [q3]; simp [Lx.pushPrompt]
          · right
            refine ⟨fun q hq => ?_, q2, pr, ?_⟩
            · rcases prefix_cons_cases hq with rfl | ⟨q', rfl, hq'⟩
              · rw [balance_nil]; omega
              · have := q1 q' hq'
                rw [balance_open]; push_cast at this; omega
            · rw [q3]; simp [Lx.pushPrompt]
        · rw [if_neg e1]
          by_cases e2 : c = 125
          · rw [if_pos e2]
            subst e2
            by_cases hg : level - 1 > 0
            · rw [if_pos hg]
              obtain ⟨pre, post, p1, p2, p3⟩ := comment_spec k (Lx.popPrompt { x with last := some 125, rest := t }) (level - 1) (by omega) t0 tk
              refine ⟨125 :: pre, post, by rw [List.cons_append, ← p1]; rfl, by simp [p2], ?_⟩
              have hc : ((level - 1 : Nat) : Int) = level - 1 := by omega
              rw [hc] at p3
              rcases p3 with ⟨q1, q2, q3⟩ | ⟨q1, q2, pr, q3⟩
              · left
                refine ⟨by rw [balance_close]; omega, fun q hq hn => ?_, ?_⟩
                · rcases prefix_cons_cases hq with rfl | ⟨q', rfl, hq'⟩
                  · rw [balance_nil]; omega
                  · have := q2 q' hq' (fun e => hn (by rw [e]))
                    rw [balance_close]; omega
                · rw [q3]
                  have : x.prompt.tail.drop (level - 1) = x.prompt.drop level := by rw [← List.drop_one, List.drop_drop]; congr 1; omega
                  simp [Lx.popPrompt, this]
              · right
                refine ⟨fun q hq => ?_, q2, pr, ?_⟩
                · rcases prefix_cons_cases hq with rfl | ⟨q', rfl, hq'⟩
                  · rw [balance_nil]; omega
                  · have := q1 q' hq'
                    rw [balance_close]; omega
                · rw [q3]; simp [Lx.popPrompt]
            · rw [if_neg hg]
              have h1 : level = 1 := by omega
              subst h1
              refine ⟨[125], t, rfl, by simp, .inl ⟨rfl, fun q hq hn => ?_, ?_⟩⟩
              · rcases prefix_cons_cases hq with rfl | ⟨q', rfl, hq'⟩
                · rw [balance_nil]; omega
                · exact absurd (by rw [List.prefix_nil.1 hq']) hn
              · simp [Lx.popPrompt]
          · rw [if_neg e2]
            obtain ⟨pre, post, p1, p2, p3⟩ := comment_spec k { x with last := some c, rest := t } level hl t0 tk
            refine ⟨c :: pre, post, by rw [List.cons_append, ← p1], by simp [p2, Ne.symm e12], ?_⟩
            rcases p3 with ⟨q1, q2, q3⟩ | ⟨q1, q2, pr, q3⟩
            · left
              refine ⟨by rw [balance_other _ e1 e2]; exact q1, fun q hq hn => ?_, q3⟩
              rcases prefix_cons_cases hq with rfl | ⟨q', rfl, hq'⟩
              · rw [balance_nil]; omega
              · rw [balance_other _ e1 e2]
                exact q2 q' hq' (fun e => hn (by rw [e]))
            · right
              refine ⟨fun q hq => ?_, q2, pr, q3⟩
              rcases prefix_cons_cases hq with rfl | ⟨q', rfl, hq'⟩
              · rw [balance_nil]; omega
              · rw [balance_other _ e1 e2]
                exact q1 q' hq'

/-- what is skipped: the text, what remains, whether a comment was not closed -/
def Skipped (nl : Prop) (pre post : List Nat) (same : Prop) : Prop :=
  (Blank nl pre ∧ Stop nl post ∧ same) ∨ ∃ b u, pre = b ++ u ∧ Blank nl b ∧ Unclosed u ∧ (post = [] ∨ post.head? = some 12) ∧ ¬ same

theorem Skipped.blank {nl : Prop} {a pre post : List Nat} {same : Prop} (h : Skipped nl pre post same) (ha : ∀ l, Blank nl l → Blank nl (a ++ l)) : Skipped nl (a ++ pre) post same := by
  rcases h with ⟨h1, h2, h3⟩ | ⟨b, u, h1, h2, h3⟩
  · exact .inl ⟨ha _ h1, h2, h3⟩
  · exact .inr ⟨a ++ b, u, by rw [h1, List.append_assoc], ha _ h2, h3⟩

theorem skip_spec (nl : Prop) : ∀ (k : Nat) (x : Lx), (nl ↔ x.goesOn) → 0 ∉ x.rest → x.rest.length < k → ∃ pre post pr m, x.rest = pre ++ post ∧
    skipLoop k x = .ok { x with last := post.head?, rest := post.tail, prompt := pr, messages := m } ∧
    Skipped nl pre post (m = x.messages) ∧ (m = x.messages → pr = x.prompt) ∧ x.messages ≤ m ∧ m ≤ x.messages + 1
  | 0, _, _, _, h => by omega
  | k + 1, x, hn, h0, hk => by
    cases hr : x.rest with
    | nil =>
      refine ⟨[], [], x.prompt, x.messages, rfl, ?_, .inl ⟨.nil, fun c hc => by simp at hc, rfl⟩, fun _ => rfl, by omega, by omega⟩
      rw [skipLoop, shift_nil hr]
      simp [isSpace, hr]
    | cons c t =>
      have c0 : c ≠ 0 := fun e => h0 (by rw [hr, e]; simp)
      have t0 : 0 ∉ t := fun e => h0 (by rw [hr]; simp [e])
      have tk : t.length < k := by rw [hr] at hk; simp at hk; omega
      rw [skipLoop, shift_cons hr]
      simp only
      by_cases hs : isSpace c = true
      · rw [if_pos hs]
        have hs' : c = 32 ∨ (9 ≤ c ∧ c ≤ 13) := by simpa [isSpace] using hs
        by_cases hb : c = 12 ∨ (c = 10 ∧ x.prevent = 0 ∧ x.nest = [])
        · rw [if_pos hb]
          refine ⟨[], c :: t, x.prompt, x.messages, rfl, by simp, .inl ⟨.nil, ?_, rfl⟩, fun _ => rfl, by omega, by omega⟩
          intro d hd
          simp only [List.head?_cons, Option.some.injEq] at hd
          subst hd
          refine ⟨?_, by omega⟩
          rintro (e | e | e | e | ⟨e, e'⟩)
          any_goals omega
          rcases hb with e2 | ⟨_, e3, e4⟩
          · omega
          · rcases hn.1 e' with e5 | e5
            · exact e5 e4
            · exact e5 e3
        · rw [if_neg hb]
          obtain ⟨pre, post, pr, m, p1, p2, p3, p4⟩ := skip_spec nl k { x with last := some c, rest := t } hn t0 tk
          refine ⟨c :: pre, post, pr, m, by rw [List.cons_append, ← p1], p2, ?_, p4⟩
          refine p3.blank (a := [c]) fun l hl => .space ?_ hl
          by_cases e10 : c = 10
          · refine .inr (.inr (.inr (.inr ⟨e10, hn.2 ?_⟩)))
            by_cases e3 : x.nest = []
            · exact .inr fun e4 => hb (.inr ⟨e10, e4, e3⟩)
            · exact .inl e3
          · have : c ≠ 12 := fun e => hb (.inl e)
            unfold SpaceChar
            omega
      · rw [if_neg hs]
        have hs' : ¬ (c = 32 ∨ (9 ≤ c ∧ c ≤ 13)) := by simpa [isSpace] using hs
        by_cases e1 : c = 123
        · rw [if_pos e1]
          subst e1
          obtain ⟨pre, post, p1, p2, p3⟩ := comment_spec k (Lx.pushPrompt { x with last := some 123, rest := t } 123) 1 (by omega) t0 tk
          have p1' : t = pre ++ post := p1
          have hpost0 : 0 ∉ post := fun e => t0 (by rw [p1']; simp [e])
          have hpostk : post.length < k := by rw [p1'] at tk; simp at tk; omega
          rcases p3 with ⟨q1, q2, q3⟩ | ⟨q1, q2, pr, q3⟩
          · rw [q3, Res.ok_bind]
            obtain ⟨pre', post', pr', m, r1, r2, r3, r4⟩ := skip_spec nl k { x with last := some 125, rest := post, prompt := x.prompt } hn hpost0 hpostk
            refine ⟨123 :: pre ++ pre', post', pr', m, ?_, ?_, ?_, r4⟩
            · rw [p1', List.append_assoc, List.cons_append]
              simp only at r1
              rw [r1]
            · exact r2
            · refine r3.blank fun l hl => .comment ⟨rfl, by simp [p2], ?_, fun q hq hn1 hn2 => ?_⟩ hl
              · rw [balance_open]; push_cast at q1; omega
              · rcases prefix_cons_cases hq with rfl | ⟨q', rfl, hq'⟩
                · exact absurd rfl hn1
                · have := q2 q' hq' (fun e => hn2 (by rw [e]))
                  rw [balance_open]; push_cast at this; omega
          · rw [q3, Res.ok_bind]
            obtain ⟨j, rfl⟩ : ∃ j, k = j + 1 := ⟨k - 1, by omega⟩
            refine ⟨123 :: pre, post, pr, x.messages + 1, by rw [p1', List.cons_append], ?_, .inr ⟨[], 123 :: pre, rfl, .nil, ⟨rfl, by simp [p2], fun q hq hn1 => ?_⟩, q2, by omega⟩, fun e => by omega, by omega, by omega⟩
            · rcases q2 with rfl | q2
              · rw [skipLoop, shift_nil rfl]
                simp [isSpace, Lx.pushPrompt]
              · cases post with
                | nil => simp at q2
                | cons d post =>
                  simp only [List.head?_cons, Option.some.injEq] at q2
                  subst q2
                  rw [skipLoop, shift_cons rfl]
                  simp [isSpace, Lx.pushPrompt]
            · rcases prefix_cons_cases hq with rfl | ⟨q', rfl, hq'⟩
              · exact absurd rfl hn1
              · have := q1 q' hq'
                rw [balance_open]; push_cast at this; omega
        · rw [if_neg e1]
          refine ⟨[], c :: t, x.prompt, x.messages, rfl, by simp, .inl ⟨.nil, ?_, rfl⟩, fun _ => rfl, by omega, by omega⟩
          intro d hd
          simp only [List.head?_cons, Option.some.injEq] at hd
          subst hd
          refine ⟨?_, e1⟩
          rintro (e | e | e | e | ⟨e, e'⟩) <;> omega

theorem unshift_head (x : Lx) (post : List Nat) (pr : List Nat) (m : Nat) :
    ({ x with last := post.head?, rest := post.tail, prompt := pr, messages := m } : Lx).unshift = { x with last := none, rest := post, prompt := pr, messages := m } := by
  cases post <;> rfl

/-- **C83**: white space and comments are skipped, and nothing else.  What is skipped consists of white space and complete comments, and what remains starts with neither, in which case there is no
message and the prompt is the same as before; or there is a comment that is not closed before the end of the file or of the input, which then comes next, and there is one message.  A newline
is white space only where a command cannot end -/
theorem C83_skip (x : Lx) (h0 : 0 ∉ x.rest) (fuel : Nat) (hf : x.rest.length < fuel) : ∃ pre post y, x.rest = pre ++ post ∧ x.skipSpace fuel = .ok y ∧
    y = { x with last := none, rest := post, prompt := y.prompt, messages := y.messages } ∧
    ((Blank x.goesOn pre ∧ Stop x.goesOn post ∧ y.messages = x.messages ∧ y.prompt = x.prompt) ∨
     ∃ b u, pre = b ++ u ∧ Blank x.goesOn b ∧ Unclosed u ∧ (post = [] ∨ post.head? = some 12) ∧ y.messages = x.messages + 1) := by
  have fin : ∀ (p : List Nat) (pre post pr : List Nat) (m : Nat), Skipped x.goesOn pre post (m = x.messages) → (m = x.messages → pr = x.prompt) → x.messages ≤ m → m ≤ x.messages + 1 → x.rest = pre ++ post →
      x.skipSpace fuel = .ok { x with last := none, rest := post, prompt := pr, messages := m } →
      ∃ pre post y, x.rest = pre ++ post ∧ x.skipSpace fuel = .ok y ∧ y = { x with last := none, rest := post, prompt := y.prompt, messages := y.messages } ∧
    ((Blank x.goesOn pre ∧ Stop x.goesOn post ∧ y.messages = x.messages ∧ y.prompt = x.prompt) ∨
     ∃ b u, pre = b ++ u ∧ Blank x.goesOn b ∧ Unclosed u ∧ (post = [] ∨ post.head? = some 12) ∧ y.messages = x.messages + 1) := by
    intro _ pre post pr m h1 h2 h3 h4 h5 h6
    refine ⟨pre, post, _, h5, h6, rfl, ?_⟩
    rcases h1 with ⟨a, b, c⟩ | ⟨b, u, a1, a2, a3, a4, a5⟩
    · exact .inl ⟨a, b, c, h2 c⟩
    · exact .inr ⟨b, u, a1, a2, a3, a4, by simp only; omega⟩
  by_cases hp : x.prevent ≠ 0
  · obtain ⟨pre, post, pr, m, p1, p2, p3, p4, p5, p6⟩ := skip_spec x.goesOn fuel (x.pushPrompt x.prevent) Iff.rfl h0 hf
    refine fin [] pre post pr.tail m p3 (fun e => by rw [p4 e]; rfl) p5 p6 p1 ?_
    rw [Lx.skipSpace, if_pos hp, p2, Res.ok_bind, if_pos hp]
    exact congrArg Res.ok (unshift_head x post pr.tail m)
  · obtain ⟨pre, post, pr, m, p1, p2, p3, p4, p5, p6⟩ := skip_spec x.goesOn fuel x Iff.rfl h0 hf
    refine fin [] pre post pr m p3 p4 p5 p6 p1 ?_
    rw [Lx.skipSpace, if_neg hp, p2, Res.ok_bind, if_neg hp]
    exact congrArg Res.ok (unshift_head x post pr m)

/-- ` {a{b}}x` -/
example : (Lx.make [32, 123, 97, 123, 98, 125, 125, 120]).skipSpace 9 = .ok (Lx.make [120]) := by rfl

theorem comment_comparable {a a' : List Nat} (h : Comment a) (h' : Comment a') (hp : a <+: a') : a = a' := by
  by_contra hn
  have := h'.2.2.2 a hp (by intro e; rw [e] at h; simp [Comment] at h) hn
  rw [h.2.2.1] at this
  omega

theorem comment_unique {a a' l l' : List Nat} (h : Comment a) (h' : Comment a') (e : a ++ l = a' ++ l') : a = a' := by
  have h2 : a' <+: a ++ l := ⟨l', e.symm⟩
  rcases List.prefix_or_prefix_of_prefix (List.prefix_append a l) h2 with hp | hp
  · exact comment_comparable h h' hp
  · exact (comment_comparable h' h hp).symm

theorem comment_closed {a u l post : List Nat} (h : Comment a) (h' : Unclosed u) (hp : post = [] ∨ post.head? = some 12) (e : a ++ l = u ++ post) : False := by
  have hne : a ≠ [] := by intro e; rw [e] at h; simp [Comment] at h
  have key : ¬ a <+: u := fun hpre => by
    have := h'.2.2 a hpre hne
    rw [h.2.2.1] at this
    omega
  rcases hp with rfl | hp
  · exact key (by rw [← List.append_nil u, ← e]; exact List.prefix_append a l)
  · have h2 : u <+: a ++ l := ⟨post, e.symm⟩
    rcases List.prefix_or_prefix_of_prefix (List.prefix_append a l) h2 with hq | ⟨r, hr⟩
    · exact key hq
    · cases r with
      | nil => rw [List.append_nil] at hr; exact key (by rw [hr])
      | cons d r =>
        rw [← hr, List.append_assoc] at e
        have e := List.append_cancel_left e
        rw [← e] at hp
        simp only [List.cons_append, List.head?_cons, Option.some.injEq] at hp
        exact h.2.1 (by rw [← hr, hp]; simp)

theorem space_not_open {nl : Prop} {c : Nat} (h : SpaceChar nl c) : c ≠ 123 := by
  rcases h with e | e | e | e | ⟨e, _⟩ <;> omega

theorem blank_head {nl : Prop} {l : List Nat} (h : Blank nl l) : l = [] ∨ (∃ c t, l = c :: t ∧ SpaceChar nl c ∧ Blank nl t) ∨ ∃ a t, l = a ++ t ∧ Comment a ∧ Blank nl t := by
  cases h with
  | nil => exact .inl rfl
  | space h1 h2 => exact .inr (.inl ⟨_, _, rfl, h1, h2⟩)
  | comment h1 h2 => exact .inr (.inr ⟨_, _, rfl, h1, h2⟩)

theorem comment_cons {a : List Nat} (h : Comment a) : ∃ t, a = 123 :: t := by
  cases a with
  | nil => simp [Comment] at h
  | cons c t => have := h.1; simp at this; exact ⟨t, by rw [this]⟩

theorem unclosed_cons {a : List Nat} (h : Unclosed a) : ∃ t, a = 123 :: t := by
  cases a with
  | nil => simp [Unclosed] at h
  | cons c t => have := h.1; simp at this; exact ⟨t, by rw [this]⟩

theorem blank_unique {nl : Prop} {pre : List Nat} (h : Blank nl pre) : ∀ {pre' post post' : List Nat}, Stop nl post → Blank nl pre' → Stop nl post' → pre ++ post = pre' ++ post' → pre = pre' := by
  induction h with
  | nil =>
    intro pre' post post' hs hb _ e
    rcases blank_head hb with rfl | ⟨c, t, rfl, hc, _⟩ | ⟨a, t, rfl, ha, _⟩
    · rfl
    · exact absurd hc (hs c (by rw [← List.nil_append post, e]; rfl)).1
    · obtain ⟨t', rfl⟩ := comment_cons ha
      exact absurd rfl (hs 123 (by rw [← List.nil_append post, e]; rfl)).2
  | @space c l hc hl ih =>
    intro pre' post post' hs hb hs' e
    rcases blank_head hb with rfl | ⟨d, t, rfl, hd, ht⟩ | ⟨a, t, rfl, ha, _⟩
    · exact absurd hc (hs' c (by rw [← List.nil_append post', ← e]; rfl)).1
    · rw [List.cons_append, List.cons_append, List.cons.injEq] at e
      rw [e.1, ih hs ht hs' e.2]
    · obtain ⟨t', rfl⟩ := comment_cons ha
      rw [List.cons_append, List.cons_append, List.cons_append, List.cons.injEq] at e
      exact absurd e.1 (space_not_open hc)
  | @comment a l ha hl ih =>
    intro pre' post post' hs hb hs' e
    rcases blank_head hb with rfl | ⟨d, t, rfl, hd, ht⟩ | ⟨a', t, rfl, ha', ht⟩
    · obtain ⟨t', rfl⟩ := comment_cons ha
      exact absurd rfl (hs' 123 (by rw [← List.nil_append post', ← e]; rfl)).2
    · obtain ⟨t', rfl⟩ := comment_cons ha
      rw [List.cons_append, List.cons_append, List.cons_append, List.cons.injEq] at e
      exact absurd e.1.symm (space_not_open hd)
    · rw [List.append_assoc, List.append_assoc] at e
      have := comment_unique ha ha' e
      subst this
      rw [ih hs ht hs' (List.append_cancel_left e)]

theorem blank_closed {nl : Prop} {pre : List Nat} (h : Blank nl pre) : ∀ {b u post post' : List Nat}, Stop nl post → Blank nl b → Unclosed u → (post' = [] ∨ post'.head? = some 12) → pre ++ post = b ++ (u ++ post') → False := by
  induction h with
  | nil =>
    intro b u post post' hs hb hu hp e
    rcases blank_head hb with rfl | ⟨c, t, rfl, hc, _⟩ | ⟨a, t, rfl, ha, _⟩
    · obtain ⟨t', rfl⟩ := unclosed_cons hu
      exact absurd rfl (hs 123 (by rw [← List.nil_append post, e]; rfl)).2
    · exact absurd hc (hs c (by rw [← List.nil_append post, e]; rfl)).1
    · obtain ⟨t', rfl⟩ := comment_cons ha
      exact absurd rfl (hs 123 (by rw [← List.nil_append post, e]; rfl)).2
  | @space c l hc hl ih =>
    intro b u post post' hs hb hu hp e
    rcases blank_head hb with rfl | ⟨d, t, rfl, hd, ht⟩ | ⟨a, t, rfl, ha, _⟩
    · obtain ⟨t', rfl⟩ := unclosed_cons hu
      rw [List.cons_append, List.nil_append, List.cons_append, List.cons.injEq] at e
      exact absurd e.1 (space_not_open hc)
    · rw [List.cons_append, List.cons_append, List.cons.injEq] at e
      exact ih hs ht hu hp e.2
    · obtain ⟨t', rfl⟩ := comment_cons ha
      rw [List.cons_append, List.cons_append, List.cons_append, List.cons.injEq] at e
      exact absurd e.1 (space_not_open hc)
  | @comment a l ha hl ih =>
    intro b u post post' hs hb hu hp e
    rcases blank_head hb with rfl | ⟨d, t, rfl, hd, ht⟩ | ⟨a', t, rfl, ha', ht⟩
    · rw [List.append_assoc, List.nil_append] at e
      exact comment_closed ha hu hp e
    · obtain ⟨t', rfl⟩ := comment_cons ha
      rw [List.cons_append, List.cons_append, List.cons_append, List.cons.injEq] at e
      exact absurd e.1.symm (space_not_open hd)
    · rw [List.append_assoc, List.append_assoc] at e
      have := comment_unique ha ha' e
      subst this
      exact ih hs ht hu hp (List.append_cancel_left e)

/-- **C83** (converse): white space and complete comments before something else are skipped, without a message, and the prompt remains the same -/
theorem C83_text (x : Lx) (pre post : List Nat) (h : x.rest = pre ++ post) (h0 : 0 ∉ x.rest) (hb : Blank x.goesOn pre) (hs : Stop x.goesOn post) (fuel : Nat) (hf : x.rest.length < fuel) :
    x.skipSpace fuel = .ok { x with last := none, rest := post } := by
  obtain ⟨pre', post', y, p1, p2, p3, ⟨q1, q2, q3, q4⟩ | ⟨b, u, q1, q2, q3, q4, _⟩⟩ := C83_skip x h0 fuel hf
  · have e := h.symm.trans p1
    have e1 := blank_unique hb hs q1 q2 e
    rw [← e1] at e
    rw [p2, p3, q3, q4, List.append_cancel_left e]
  · rw [q1, List.append_assoc] at p1
    exact (blank_closed hb hs q2 q3 q4 (h.symm.trans p1)).elim

/-- a comment inside a comment, after a newline inside brackets -/
example : Blank ({ Lx.make [] with nest := [[]] } : Lx).goesOn [10, 123, 123, 125, 125] ∧ Stop ({ Lx.make [] with nest := [[]] } : Lx).goesOn [120] := by
  refine ⟨.space (.inr (.inr (.inr (.inr ⟨rfl, .inl (by decide)⟩)))) (.comment (a := [123, 123, 125, 125]) ⟨rfl, by decide, by decide, ?_⟩ .nil), fun c hc => ?_⟩
  · intro q hq h1 h2
    rcases prefix_cons_cases hq with rfl | ⟨q1, rfl, hq1⟩
    · exact absurd rfl h1
    rcases prefix_cons_cases hq1 with rfl | ⟨q2, rfl, hq2⟩
    · decide
    rcases prefix_cons_cases hq2 with rfl | ⟨q3, rfl, hq3⟩
    · decide
    rcases prefix_cons_cases hq3 with rfl | ⟨q4, rfl, hq4⟩
    · decide
    rw [List.prefix_nil.1 hq4] at h2
    exact absurd rfl h2
  · simp only [List.head?_cons, Option.some.injEq] at hc
    subst hc
    refine ⟨?_, by decide⟩
    rintro (e | e | e | e | ⟨e, _⟩) <;> omega

/-! ### Denotations of strings -/

theorem doubled_cons (c : Nat) (s : List Nat) : doubled (c :: s) = (if c = 34 then [34, 34] else [c]) ++ doubled s := rfl

theorem doubled_length (s : List Nat) : s.length ≤ (doubled s).length := by
  induction s with
  | nil => simp [doubled]
  | cons c s ih =>
    rw [doubled_cons]
    by_cases h : c = 34 <;> simp [h] <;> omega

theorem quotedLoop_text : ∀ (s : List Nat) (k : Nat) (acc : List Nat) (x : Lx) (post : List Nat), 0 ∉ s → 10 ∉ s → x.rest = doubled s ++ post → s.length ≤ k →
    ∃ l, quotedLoop k acc x = quotedLoop (k - s.length) (s.reverse ++ acc) { x with last := l, rest := post }
  | [], k, acc, x, post, _, _, h, _ => ⟨x.last, by
      have : x.rest = post := h
      rw [← this]
      rfl⟩
  | c :: s, k, acc, x, post, h0, h1, h, hk => by
    obtain ⟨j, rfl⟩ : ∃ j, k = j + 1 := ⟨k - 1, by simp at hk; omega⟩
    have c0 : c ≠ 0 := fun e => h0 (by simp [e])
    have c1 : c ≠ 10 := fun e => h1 (by simp [e])
    have hj : s.length ≤ j := by simpa using hk
    rw [doubled_cons] at h
    by_cases hc : c = 34
    · rw [if_pos hc] at h
      have h' : x.rest = 34 :: 34 :: (doubled s ++ post) := h
      obtain ⟨l, e⟩ := quotedLoop_text s j (34 :: acc) { x with last := some 34, rest := doubled s ++ post } post (fun e => h0 (by simp [e])) (fun e => h1 (by simp [e])) rfl hj
      refine ⟨l, ?_⟩
      rw [quotedLoop, shift_cons h']
      simp only [if_true]
      rw [shift_cons rfl]
      simp only [ne_eq, not_true, if_false]
      rw [e]
      simp [hc]
    · rw [if_neg hc] at h
      have h' : x.rest = c :: (doubled s ++ post) := h
      obtain ⟨l, e⟩ := quotedLoop_text s j (c :: acc) { x with last := some c, rest := doubled s ++ post } post (fun e => h0 (by simp [e])) (fun e => h1 (by simp [e])) rfl hj
      refine ⟨l, ?_⟩
      rw [quotedLoop, shift_cons h']
      simp only [if_neg hc]
      rw [if_neg (by rintro (e | e); exact c1 e; exact c0 e), e]
      simp

/-- **C84**: every string of characters other than newline has a denotation, its text with quotes doubled and a quote at its end: scanning this gives back the string, and what follows remains -/
theorem C84_string (x : Lx) (s post : List Nat) (h : x.rest = doubled s ++ 34 :: post) (h0 : 0 ∉ s) (h1 : 10 ∉ s) (hp : post.head? ≠ some 34) (fuel : Nat) (hf : s.length < fuel) :
    x.quoted fuel = .ok (s, { x with last := none, rest := post }) := by
  obtain ⟨l, e⟩ := quotedLoop_text s fuel [] x (34 :: post) h0 h1 h (by omega)
  obtain ⟨j, hj⟩ : ∃ j, fuel - s.length = j + 1 := ⟨fuel - s.length - 1, by omega⟩
  rw [Lx.quoted, e, hj, quotedLoop, shift_cons rfl]
  simp only [if_true]
  cases post with
  | nil =>
    rw [shift_nil rfl]
    simp [Lx.unshift]
  | cons d post =>
    have hd : d ≠ 34 := fun e => hp (by simp [e])
    rw [shift_cons rfl]
    simp only [ne_eq, hd, not_false_eq_true, if_true, Res.ok_bind, Bool.false_eq_true, if_false]
    simp [Lx.unshift]

/-- `a"b` -/
example : (Lx.make [97, 34, 34, 98, 34, 10]).quoted 9 = .ok ([97, 34, 98], Lx.make [10]) := by rfl

/-- **C84** (strings broken off): a string that is not closed is closed at the end of the line, with a message -/
theorem C84_broken (x : Lx) (s post : List Nat) (h : x.rest = doubled s ++ post) (h0 : 0 ∉ s) (h1 : 10 ∉ s) (hp : post = [] ∨ post.head? = some 10) (fuel : Nat) (hf : s.length < fuel) :
    x.quoted fuel = .ok (s, { x with last := none, rest := post, messages := x.messages + 1 }) := by
  obtain ⟨l, e⟩ := quotedLoop_text s fuel [] x post h0 h1 h (by omega)
  obtain ⟨j, hj⟩ : ∃ j, fuel - s.length = j + 1 := ⟨fuel - s.length - 1, by omega⟩
  rw [Lx.quoted, e, hj, quotedLoop]
  cases post with
  | nil =>
    rw [shift_nil rfl]
    simp [Lx.unshift]
  | cons d post =>
    have hd : d = 10 := by simpa using hp
    subst hd
    rw [shift_cons rfl]
    simp [Lx.unshift]

example : (Lx.make [97, 10]).quoted 9 = .ok ([97], { Lx.make [10] with messages := 1 }) := by rfl

/-- **C84**: what follows a quote is always one of these two -/
theorem C84_cases : ∀ (t : List Nat), 0 ∉ t → ∃ s post, 0 ∉ s ∧ 10 ∉ s ∧ ((t = doubled s ++ 34 :: post ∧ post.head? ≠ some 34) ∨ (t = doubled s ++ post ∧ (post = [] ∨ post.head? = some 10)))
  | [], _ => ⟨[], [], by simp, by simp, .inr ⟨rfl, .inl rfl⟩⟩
  | [c], h0 => by
    have c0 : c ≠ 0 := fun e => h0 (by simp [e])
    by_cases h34 : c = 34
    · exact ⟨[], [], by simp, by simp, .inl ⟨by rw [h34]; rfl, by simp⟩⟩
    · by_cases h10 : c = 10
      · exact ⟨[], [c], by simp, by simp, .inr ⟨rfl, .inr (by rw [h10]; rfl)⟩⟩
      · exact ⟨[c], [], by simpa using Ne.symm c0, by simpa using Ne.symm h10, .inr ⟨by simp [doubled, h34], .inl rfl⟩⟩
  | c :: d :: t, h0 => by
    have c0 : c ≠ 0 := fun e => h0 (by simp [e])
    have t0 : 0 ∉ d :: t := fun e => h0 (List.mem_cons_of_mem _ e)
    by_cases h34 : c = 34
    · by_cases hd : d = 34
      · obtain ⟨s, post, s0, s1, hs⟩ := C84_cases t (fun e => t0 (List.mem_cons_of_mem _ e))
        refine ⟨34 :: s, post, by simp [s0], by simp [s1], ?_⟩
        rcases hs with ⟨e, hp⟩ | ⟨e, hp⟩
        · exact .inl ⟨by rw [h34, hd, doubled_cons, e]; rfl, hp⟩
        · exact .inr ⟨by rw [h34, hd, doubled_cons, e]; rfl, hp⟩
      · exact ⟨[], d :: t, by simp, by simp, .inl ⟨by rw [h34]; rfl, by simpa using hd⟩⟩
    · by_cases h10 : c = 10
      · exact ⟨[], c :: d :: t, by simp, by simp, .inr ⟨rfl, .inr (by rw [h10]; rfl)⟩⟩
      · obtain ⟨s, post, s0, s1, hs⟩ := C84_cases (d :: t) t0
        refine ⟨c :: s, post, by simp [s0, Ne.symm c0], by simp [s1, Ne.symm h10], ?_⟩
        rcases hs with ⟨e, hp⟩ | ⟨e, hp⟩
        · exact .inl ⟨by rw [doubled_cons, if_neg h34, e]; rfl, hp⟩
        · exact .inr ⟨by rw [doubled_cons, if_neg h34, e]; rfl, hp⟩

/-- **C84** (end of a file): a string does not end at the end of the file, but goes on in the including file.  Here the file with text `"a\` is included, and the main input goes on with
`b"`: what is read is a string that contains the character (12) that should tell that the file ended -/
theorem C84_file_false : ∃ b b1, (Buf.make [60, 102, 10, 98, 34, 10]).getline 9 = .ok (true, b) ∧
    b.pushFile ⟨fun _ => some [34, 97, 92], [], none⟩ [102] true = (true, b1) ∧ readShifts 6 9 b1.reset = .ok [34, 97, 12, 98, 34, 10] ∧
    ∃ y, (Lx.make [34, 97, 12, 98, 34, 10]).getToken (fun _ => .other) 9 = .ok (.str [97, 12, 98], y) := ⟨_, _, rfl, rfl, rfl, _, rfl⟩

/-! ### Identifiers, numbers, names of files -/

theorem runLoop_text (p : Nat → Bool) (hz : p 0 = false) : ∀ (s : List Nat) (k : Nat) (acc : List Nat) (x : Lx) (post : List Nat), (∀ c ∈ s, p c = true) → (∀ c, post.head? = some c → p c = false) → x.rest = s ++ post → s.length < k →
    runLoop p k acc x = .ok (acc.reverse ++ s, { x with last := none, rest := post })
  | [], k, acc, x, post, _, h2, h, hk => by
    obtain ⟨j, rfl⟩ : ∃ j, k = j + 1 := ⟨k - 1, by omega⟩
    rw [runLoop]
    cases post with
    | nil =>
      have h' : x.rest = [] := h
      rw [shift_nil h']
      simp [hz, Lx.unshift, h']
    | cons d post =>
      have h' : x.rest = d :: post := h
      rw [shift_cons h']
      simp [h2 d rfl, Lx.unshift]
  | c :: s, k, acc, x, post, h1, h2, h, hk => by
    obtain ⟨j, rfl⟩ : ∃ j, k = j + 1 := ⟨k - 1, by omega⟩
    have h' : x.rest = c :: (s ++ post) := h
    rw [runLoop, shift_cons h']
    simp only [h1 c (by simp), if_true]
    rw [runLoop_text p hz s j (c :: acc) { x with last := some c, rest := s ++ post } post (fun d hd => h1 d (by simp [hd])) h2 rfl (by simpa using hk)]
    simp

theorem isAlpha_iff (c : Nat) : isAlpha c = true ↔ (65 ≤ c ∧ c ≤ 90) ∨ (97 ≤ c ∧ c ≤ 122) := by simp [isAlpha]

theorem isDigit_iff (c : Nat) : isDigit c = true ↔ 48 ≤ c ∧ c ≤ 57 := by simp [isDigit]

theorem isWord_iff (c : Nat) : isWord c = true ↔ WordChar c := by
  simp only [isWord, Bool.or_eq_true, isAlpha_iff, isDigit_iff, decide_eq_true_eq, WordChar, WordStart]
  omega

/-- the state after the space before a token -/
def Lx.at (x : Lx) (post : List Nat) : Lx := { x with last := none, rest := post, previous := x.prevent, prevent := 0 }

theorem scan_start (cls : List Nat → Word) {x : Lx} {pre post : List Nat} (h : x.rest = pre ++ post) (h0 : 0 ∉ x.rest) (hb : Blank x.goesOn pre) (hs : Stop x.goesOn post) {fuel : Nat}
    (hf : x.rest.length < fuel) : x.scan cls fuel = (if isAlpha (x.at post).shift.1 || (x.at post).shift.1 = 95 then do
    let (s, x) ← runLoop isWord fuel [(x.at post).shift.1] (x.at post).shift.2
    x.word cls s
  else if isDigit (x.at post).shift.1 then do
    let (s, x) ← runLoop isDigit fuel [(x.at post).shift.1] (x.at post).shift.2
    return (.int s, x)
  else (x.at post).shift.2.symbol fuel (x.at post).shift.1) := by
  rw [Lx.scan, C83_text x pre post h h0 hb hs fuel hf, Res.ok_bind]
  rfl

/-- **C85**: an identifier is scanned as a whole, and classified as the tables say -/
theorem C85_word (cls : List Nat → Word) (x : Lx) (pre : List Nat) (c : Nat) (w post : List Nat) (h : x.rest = pre ++ c :: w ++ post) (h0 : 0 ∉ x.rest) (hb : Blank x.goesOn pre) (hc : WordStart c)
    (hw : ∀ d ∈ w, WordChar d) (hp : ∀ d, post.head? = some d → ¬ WordChar d) (fuel : Nat) (hf : x.rest.length < fuel) :
    x.scan cls fuel = (x.at post).word cls (c :: w) := by
  have h' : x.rest = pre ++ (c :: (w ++ post)) := by rw [h, List.append_assoc]; rfl
  have hst : Stop x.goesOn (c :: (w ++ post)) := by
    intro d hd
    simp only [List.head?_cons, Option.some.injEq] at hd
    subst hd
    unfold WordStart at hc
    refine ⟨?_, by omega⟩
    rintro (e | e | e | e | ⟨e, _⟩) <;> omega
  rw [scan_start cls h' h0 hb hst hf]
  have e : (x.at (c :: (w ++ post))).shift = (c, { x.at (c :: (w ++ post)) with last := some c, rest := w ++ post }) := shift_cons rfl
  rw [e]
  have hcond : (isAlpha c || decide (c = 95)) = true := by
    rw [Bool.or_eq_true, isAlpha_iff, decide_eq_true_eq]
    unfold WordStart at hc
    omega
  simp only [hcond, if_true]
  rw [runLoop_text isWord rfl w fuel [c] { x.at (c :: (w ++ post)) with last := some c, rest := w ++ post } post (fun d hd => (isWord_iff d).2 (hw d hd)) (fun d hd => by
    have := hp d hd
    rw [← isWord_iff] at this
    simpa using this) rfl (by rw [h'] at hf; simp at hf; omega), Res.ok_bind]
  rfl

/-- `{a}b_1 c` -/
example : ∃ y, (Lx.make [123, 97, 125, 98, 95, 49, 32, 99]).getToken (fun _ => .other) 9 = .ok (.ident [98, 95, 49], y) ∧ y.rest = [32, 99] := ⟨_, rfl, rfl⟩

/-- **C85**: a number is scanned as a whole -/
theorem C85_number (cls : List Nat → Word) (x : Lx) (pre : List Nat) (w post : List Nat) (h : x.rest = pre ++ w ++ post) (h0 : 0 ∉ x.rest) (hb : Blank x.goesOn pre) (hn : w ≠ [])
    (hw : ∀ d ∈ w, 48 ≤ d ∧ d ≤ 57) (hp : ∀ d, post.head? = some d → ¬ (48 ≤ d ∧ d ≤ 57)) (fuel : Nat) (hf : x.rest.length < fuel) :
    x.scan cls fuel = .ok (.int w, x.at post) := by
  cases w with
  | nil => exact absurd rfl hn
  | cons c w =>
    have hc := hw c (by simp)
    have h' : x.rest = pre ++ (c :: (w ++ post)) := by rw [h, List.append_assoc]; rfl
    have hst : Stop x.goesOn (c :: (w ++ post)) := by
      intro d hd
      simp only [List.head?_cons, Option.some.injEq] at hd
      subst hd
      refine ⟨?_, by omega⟩
      rintro (e | e | e | e | ⟨e, _⟩) <;> omega
    rw [scan_start cls h' h0 hb hst hf]
    have e : (x.at (c :: (w ++ post))).shift = (c, { x.at (c :: (w ++ post)) with last := some c, rest := w ++ post }) := shift_cons rfl
    rw [e]
    have hcond : (isAlpha c || decide (c = 95)) = false := by
      rw [Bool.eq_false_iff, ne_eq, Bool.or_eq_true, isAlpha_iff, decide_eq_true_eq]
      omega
    have hcond2 : isDigit c = true := (isDigit_iff c).2 hc
    simp only [hcond, hcond2, if_true, Bool.false_eq_true, if_false]
    rw [runLoop_text isDigit rfl w fuel [c] { x.at (c :: (w ++ post)) with last := some c, rest := w ++ post } post (fun d hd => (isDigit_iff d).2 (hw d (by simp [hd]))) (fun d hd => by
      have := hp d hd
      rw [← isDigit_iff] at this
      simpa using this) rfl (by rw [h'] at hf; simp at hf; omega), Res.ok_bind]
    rfl

/-- `12x` -/
example : ∃ y, (Lx.make [49, 50, 120]).getToken (fun _ => .other) 9 = .ok (.int [49, 50], y) ∧ y.rest = [120] := ⟨_, rfl, rfl⟩

theorem inName_iff {c : Nat} (h : c ≠ 0) : inName c = true ↔ NameChar c := by
  simp only [inName, nameChars, NameChar, Bool.or_eq_true, isAlpha_iff, isDigit_iff, decide_eq_true_eq, h, or_false, List.contains_iff_mem]
  constructor
  · rintro ((h | h) | h) <;> tauto
  · rintro (h | h | h | h) <;> tauto

theorem nameLoop_text : ∀ (s : List Nat) (k : Nat) (c : Nat) (acc : List Nat) (x : Lx) (d : Nat) (post : List Nat), (∀ c ∈ s, NameChar c) → ¬ NameChar d → d ≠ 0 → 0 ∉ s → c :: x.rest = s ++ d :: post → x.last = some c → s.length < k →
    nameLoop k c acc x = .ok (acc.reverse ++ s, { x with last := none, rest := d :: post })
  | [], k, c, acc, x, d, post, _, h2, h3, _, h, hl, hk => by
    obtain ⟨j, rfl⟩ : ∃ j, k = j + 1 := ⟨k - 1, by omega⟩
    rw [List.nil_append, List.cons.injEq] at h
    obtain ⟨rfl, h⟩ := h
    have : inName c = false := by rw [Bool.eq_false_iff, ne_eq, inName_iff h3]; exact h2
    rw [nameLoop, this]
    simp [Lx.unshift, hl, h]
  | a :: s, k, c, acc, x, d, post, h1, h2, h3, h4, h, hl, hk => by
    obtain ⟨j, rfl⟩ : ∃ j, k = j + 1 := ⟨k - 1, by omega⟩
    rw [List.cons_append, List.cons.injEq] at h
    obtain ⟨rfl, h⟩ := h
    have c0 : c ≠ 0 := fun e => h4 (by simp [e])
    have : inName c = true := (inName_iff c0).2 (h1 c (by simp))
    rw [nameLoop, this]
    simp only [if_true]
    cases hr : x.rest with
    | nil => rw [hr] at h; simp at h
    | cons b t =>
      rw [shift_cons hr]
      rw [nameLoop_text s j b (c :: acc) { x with last := some b, rest := t } d post (fun c hc => h1 c (by simp [hc])) h2 h3 (fun e => h4 (by simp [e])) (by rw [← hr]; exact h) rfl (by simpa using hk)]
      simp

/-- **C85**: a name of a file that is not quoted is scanned as a whole, if something else follows it -/
theorem C85_name (x : Lx) (pre s : List Nat) (d : Nat) (post : List Nat) (h : x.rest = pre ++ s ++ d :: post) (h0 : 0 ∉ x.rest) (hb : Blank x.goesOn pre) (hn : s ≠ []) (hs : ∀ c ∈ s, NameChar c) (hd : ¬ NameChar d)
    (fuel : Nat) (hf : x.rest.length < fuel) : x.fileName fuel = .ok (s, { x with last := none, rest := d :: post }) := by
  cases s with
  | nil => exact absurd rfl hn
  | cons c s =>
    have hc := hs c (by simp)
    have h' : x.rest = pre ++ (c :: (s ++ d :: post)) := by rw [h, List.append_assoc]; rfl
    have hcc : c ≠ 34 ∧ c ≠ 123 ∧ ¬ SpaceChar x.goesOn c := by
      simp only [NameChar, List.mem_cons, List.not_mem_nil, or_false] at hc
      refine ⟨by omega, by omega, ?_⟩
      rintro (e | e | e | e | ⟨e, _⟩) <;> omega
    have hst : Stop x.goesOn (c :: (s ++ d :: post)) := by
      intro d hd
      simp only [List.head?_cons, Option.some.injEq] at hd
      subst hd
      exact ⟨hcc.2.2, hcc.2.1⟩
    rw [Lx.fileName, C83_text x pre _ h' h0 hb hst fuel hf, Res.ok_bind]
    have e : ({ x with last := none, rest := c :: (s ++ d :: post) } : Lx).shift = (c, { x with last := some c, rest := s ++ d :: post }) := shift_cons rfl
    rw [e]
    simp only [if_neg hcc.1]
    rw [nameLoop_text (c :: s) fuel c [] { x with last := some c, rest := s ++ d :: post } d post hs hd (fun e => h0 (by rw [h', e]; simp)) (fun e => h0 (by rw [h]; simp only [List.mem_append]; exact .inl (.inr e))) rfl rfl
      (by rw [h'] at hf; simp at hf; simp; omega)]
    rfl

example : ∃ y, (Lx.make [60, 32, 102, 46, 97, 116, 10]).getToken (fun _ => .other) 9 = .ok (.fromFile false [102, 46, 97, 116], y) ∧ y.rest = [10] := ⟨_, rfl, rfl⟩

theorem nameLoop_nul : ∀ (k : Nat) (acc : List Nat) (x : Lx), x.rest = [] → nameLoop k 0 acc x = .outOfFuel
  | 0, _, _, _ => rfl
  | k + 1, acc, x, h => by
    rw [nameLoop, shift_nil h]
    exact nameLoop_nul k (0 :: acc) { x with last := none } h

/-- **C85** (names of files at the end of input): scanning does not always end.  Here the input is `<{` and a newline, so that a comment that is not closed takes the place of the name: then null
characters are added to the name forever -/
theorem C85_name_false (cls : List Nat → Word) : ∀ fuel, (Lx.make [60, 123, 10]).getToken cls fuel = .outOfFuel
  | 0 => rfl
  | 1 => rfl
  | 2 => rfl
  | k + 3 => by
    have h1 : (Lx.make [60, 123, 10]).skipSpace (k + 3) = .ok (Lx.make [60, 123, 10]) := rfl
    have h2 : (Lx.make [123, 10]).skipSpace (k + 3) = .ok { Lx.make [] with prompt := [123], messages := 1 } := rfl
    have h3 : (Lx.make [123, 10]).fileName (k + 3) = .outOfFuel := by
      rw [Lx.fileName, h2, Res.ok_bind]
      exact nameLoop_nul (k + 3) [] { Lx.make [] with prompt := [123], messages := 1 } rfl
    have h4 : ({ Lx.make [123, 10] with last := some 60 } : Lx).relation (k + 3) 60 = .outOfFuel := by
      have e : ({ Lx.make [123, 10] with last := some 60 } : Lx).relation (k + 3) 60 = (Lx.make [123, 10]).fileName (k + 3) >>= fun r => .ok (.fromFile false r.1, r.2) := rfl
      rw [e, h3]
      rfl
    have h5 : (Lx.make [60, 123, 10]).scan cls (k + 3) = ({ Lx.make [123, 10] with last := some 60 } : Lx).relation (k + 3) 60 := by
      rw [Lx.scan, h1, Res.ok_bind]
      rfl
    rw [Lx.getToken, h5, h4]
    rfl

/-! ### Ends of commands -/

theorem operator_chr {x y : Lx} {fuel p c : Nat} {o : Option Nat} {s : List Nat} (h : x.operator fuel o s p = .ok (.chr c, y)) : False := by
  rw [Lx.operator] at h
  cases hb : x.becomesFollows fuel with
  | ok v =>
    rw [hb, Res.ok_bind] at h
    obtain ⟨b, z⟩ := v
    cases b <;> cases h
  | _ => rw [hb] at h; cases h

theorem bind_chr {α : Type} {m : Res α} {f : α → Tok × Lx} {c : Nat} {y : Lx} (hf : ∀ a, (f a).1 ≠ .chr c) (h : (m >>= fun a => Res.ok (f a)) = .ok (.chr c, y)) : False := by
  cases m with
  | ok v =>
    rw [Res.ok_bind] at h
    exact hf v (by rw [Res.ok.inj h])
  | _ => cases h

theorem relation_chr {x y : Lx} {fuel c d : Nat} (h : x.relation fuel d = .ok (.chr c, y)) : False := by
  rw [Lx.relation] at h
  by_cases hi : x.state = .initial
  · rw [if_pos hi] at h
    simp only at h
    refine bind_chr (f := fun r : List Nat × Lx => (if d = 60 then .fromFile (x.shift.1 = d) r.1 else .toFile (x.shift.1 = d) r.1, r.2)) (fun a => ?_) h
    simp only
    split <;> simp
  · rw [if_neg hi] at h
    cases hr : runLoop isRel fuel [d] x with
    | ok v =>
      rw [hr, Res.ok_bind] at h
      simp only at h
      by_cases hl : v.1.length ≠ 1
      · rw [if_pos hl] at h; cases h
      · rw [if_neg hl] at h; cases h
    | _ => rw [hr] at h; cases h

set_option linter.unusedSimpArgs false in
theorem symbol_newline {x y : Lx} {fuel c : Nat} (h : x.symbol fuel c = .ok (.chr 10, y)) : c = 10 ∧ y = { x with state := .ended } := by
  unfold Lx.symbol at h
  by_cases e : c = 10
  · subst e
    simp at h
    exact ⟨rfl, h.symm⟩
  · exfalso
    by_cases k0 : c = 34
    · rw [if_pos k0] at h
      refine bind_chr (f := fun r : List Nat × Lx => (Tok.str r.1, r.2)) (fun a => by simp) h
    rw [if_neg k0] at h
    by_cases k1 : c = 40 ∨ c = 123 ∨ c = 91
    · rw [if_pos k1] at h
      simp only [Res.ok.injEq, Prod.mk.injEq, Tok.chr.injEq, reduceCtorEq, false_and] at h
      omega
    rw [if_neg k1] at h
    by_cases k2 : c = 41 ∨ c = 125 ∨ c = 93
    · rw [if_pos k2] at h
      simp only [Res.ok.injEq, Prod.mk.injEq, Tok.chr.injEq, reduceCtorEq, false_and] at h
      omega
    rw [if_neg k2] at h
    by_cases k3 : c = 44 ∨ c = 59 ∨ c = 46
    · rw [if_pos k3] at h
      simp only [Res.ok.injEq, Prod.mk.injEq, Tok.chr.injEq, reduceCtorEq, false_and] at h
      omega
    rw [if_neg k3] at h
    by_cases k4 : c = 58
    · rw [if_pos k4] at h
      try simp only at h
      split at h
      · simp only [Res.ok.injEq, Prod.mk.injEq, Tok.chr.injEq, reduceCtorEq, false_and] at h
        try omega
      · simp only [Res.ok.injEq, Prod.mk.injEq, Tok.chr.injEq, reduceCtorEq, false_and] at h
        try omega
    rw [if_neg k4] at h
    by_cases k5 : c = 61
    · rw [if_pos k5] at h
      refine bind_chr (f := fun r : List Nat × Lx => (Tok.op (if r.1.length = 1 then some 61 else none) r.1 2, r.2)) (fun a => by simp) h
    rw [if_neg k5] at h
    by_cases k6 : c = 33
    · rw [if_pos k6] at h
      try simp only at h
      split at h
      · simp only [Res.ok.injEq, Prod.mk.injEq, Tok.chr.injEq, reduceCtorEq, false_and] at h
        try omega
      · simp only [Res.ok.injEq, Prod.mk.injEq, Tok.chr.injEq, reduceCtorEq, false_and] at h
        try omega
    rw [if_neg k6] at h
    by_cases k7 : c = 60 ∨ c = 62
    · rw [if_pos k7] at h
      exact relation_chr h
    rw [if_neg k7] at h
    by_cases k8 : c = 126
    · rw [if_pos k8] at h
      split at h
      · simp at h
      · cases hs : ({ x.shift.2.unshift with prevent := 126 } : Lx).skipSpace fuel with
        | ok v =>
          rw [hs, Res.ok_bind] at h
          by_cases ht : tildeSpecial v.rest = true
          · rw [if_pos ht] at h; cases h
          · rw [if_neg ht] at h; exact operator_chr h
        | _ => rw [hs] at h; cases h
    rw [if_neg k8] at h
    by_cases k9 : c = 12
    · rw [if_pos k9] at h
      simp only [Res.ok.injEq, Prod.mk.injEq, Tok.chr.injEq, reduceCtorEq, false_and] at h
    rw [if_neg k9] at h
    by_cases k10 : c = 43
    · rw [if_pos k10] at h
      exact operator_chr h
    rw [if_neg k10] at h
    by_cases k11 : c = 45
    · rw [if_pos k11] at h
      try simp only at h
      split at h
      · simp only [Res.ok.injEq, Prod.mk.injEq, Tok.chr.injEq, reduceCtorEq, false_and] at h
        try omega
      · exact operator_chr h
    rw [if_neg k11] at h
    by_cases k12 : c = 38
    · rw [if_pos k12] at h
      exact operator_chr h
    rw [if_neg k12] at h
    by_cases k13 : c = 42
    · rw [if_pos k13] at h
      exact operator_chr h
    rw [if_neg k13] at h
    by_cases k14 : c = 37 ∨ c = 47
    · rw [if_pos k14] at h
      exact operator_chr h
    rw [if_neg k14] at h
    by_cases k15 : c = 92
    · rw [if_pos k15] at h
      try simp only at h
      split at h
      · exact operator_chr h
      · exact operator_chr h
    rw [if_neg k15] at h
    by_cases k16 : c = 94
    · rw [if_pos k16] at h
      exact operator_chr h
    rw [if_neg k16] at h
    by_cases k17 : c = 35
    · rw [if_pos k17] at h
      try simp only at h
      split at h
      · exact operator_chr h
      · exact operator_chr h
    rw [if_neg k17] at h
    rw [if_neg e] at h
    simp only [Res.ok.injEq, Prod.mk.injEq, Tok.chr.injEq] at h
    exact e h.1

theorem word_newline {cls : List Nat → Word} {s : List Nat} {x y : Lx} {c : Nat} (h : x.word cls s = .ok (.chr c, y)) : False := by
  unfold Lx.word at h
  split at h
  · cases h
  · cases h
  · split at h
    · split at h <;> cases h
    · split at h
      · cases h
      · split at h <;> cases h

/-- **C86**: at a newline, after white space and comments, where a command can end, scanning gives a newline token, and after it the token that tells that the command has ended; then the
next command starts -/
theorem C86_newline (cls : List Nat → Word) (x : Lx) (pre post : List Nat) (h : x.rest = pre ++ 10 :: post) (h0 : 0 ∉ x.rest) (hb : Blank False pre) (hn : x.nest = []) (hp : x.prevent = 0) (hs : x.state ≠ .ended)
    (fuel : Nat) (hf : x.rest.length < fuel) : ∃ y, x.getToken cls fuel = .ok (.chr 10, y) ∧ y.rest = post ∧ ∀ f, y.getToken cls f = .ok (.nul, { y with state := .initial }) := by
  have hg : x.goesOn ↔ False := by simp [Lx.goesOn, hn, hp]
  have hg' : x.goesOn = False := propext hg
  have hst : Stop x.goesOn (10 :: post) := by
    intro d hd
    simp only [List.head?_cons, Option.some.injEq] at hd
    subst hd
    refine ⟨?_, by omega⟩
    rintro (e | e | e | e | ⟨_, e⟩)
    any_goals omega
    exact hg.1 e
  have e : x.scan cls fuel = .ok (.chr 10, { x.at (10 :: post) with last := some 10, rest := post, state := .ended }) := by
    rw [scan_start cls h h0 (by rw [hg']; exact hb) hst hf]
    rfl
  refine ⟨{ x.at (10 :: post) with last := some 10, rest := post, state := .ended }, ?_, rfl, fun f => rfl⟩
  rw [Lx.getToken, if_neg hs, e, Res.ok_bind]
  rfl

/-- ` {a}` and a newline -/
example : Blank False [32, 123, 97, 125] ∧ (Lx.make [32, 123, 97, 125, 10]).nest = [] := by
  refine ⟨.space (.inl rfl) (.comment (a := [123, 97, 125]) ⟨rfl, by decide, by decide, ?_⟩ .nil), rfl⟩
  intro q hq h1 h2
  rcases prefix_cons_cases hq with rfl | ⟨q1, rfl, hq1⟩
  · exact absurd rfl h1
  rcases prefix_cons_cases hq1 with rfl | ⟨q2, rfl, hq2⟩
  · decide
  rcases prefix_cons_cases hq2 with rfl | ⟨q3, rfl, hq3⟩
  · decide
  rw [List.prefix_nil.1 hq3] at h2
  exact absurd rfl h2

/-- **C86** (converse): a newline token is only given where a command can end: outside brackets, and not after a token that cannot end a command; and after it comes the token that tells that the command
has ended -/
theorem C86_only (cls : List Nat → Word) (x y : Lx) (h0 : 0 ∉ x.rest) (fuel : Nat) (hf : x.rest.length < fuel) (h : x.getToken cls fuel = .ok (.chr 10, y)) :
    x.nest = [] ∧ x.prevent = 0 ∧ (∃ pre, x.rest = pre ++ 10 :: y.rest ∧ Blank False pre) ∧ ∀ f, y.getToken cls f = .ok (.nul, { y with state := .initial }) := by
  rw [Lx.getToken] at h
  by_cases hs : x.state = .ended
  · rw [if_pos hs] at h; cases h
  rw [if_neg hs] at h
  obtain ⟨pre, post, z, p1, p2, p3, p4⟩ := C83_skip x h0 fuel hf
  cases hq : x.scan cls fuel with
  | ok v =>
    obtain ⟨t, v⟩ := v
    rw [hq, Res.ok_bind] at h
    simp only [Res.pure_eq] at h
    have ht : t = .chr 10 := by injection h with h; injection h
    have hv : (if v.state = .initial then { v with state := .normal } else v) = y := by injection h with h; injection h
    subst ht
    rw [Lx.scan, p2, Res.ok_bind] at hq
    simp only at hq
    have hzr : z.rest = post := by rw [p3]
    cases post with
    | nil =>
      rw [shift_nil (by exact hzr)] at hq
      simp only at hq
      rw [if_neg (by simp [isAlpha]), if_neg (by simp [isDigit])] at hq
      have := (symbol_newline hq).1
      omega
    | cons c t =>
      rw [shift_cons (c := c) (t := t) (by exact hzr)] at hq
      simp only at hq
      by_cases k1 : (isAlpha c || decide (c = 95)) = true
      · rw [if_pos k1] at hq
        cases hr : runLoop isWord fuel [c] { { z with previous := z.prevent, prevent := 0 } with last := some c, rest := t } with
        | ok w => rw [hr, Res.ok_bind] at hq; exact (word_newline hq).elim
        | _ => rw [hr] at hq; cases hq
      rw [if_neg k1] at hq
      by_cases k2 : isDigit c = true
      · rw [if_pos k2] at hq
        exact (bind_chr (f := fun r : List Nat × Lx => (Tok.int r.1, r.2)) (fun a => by simp) hq).elim
      rw [if_neg k2] at hq
      obtain ⟨e1, e2⟩ := symbol_newline hq
      subst e1
      rcases p4 with ⟨q1, q2, _, _⟩ | ⟨_, _, _, _, _, q, _⟩
      · have hng : ¬ x.goesOn := fun hg => (q2 10 rfl).1 (.inr (.inr (.inr (.inr ⟨rfl, hg⟩))))
        have hg' : x.goesOn = False := eq_false hng
        rw [hg'] at q1
        rw [Lx.goesOn, not_or, not_not, not_not] at hng
        have hy : y = v := by rw [← hv, e2]; rfl
        have hyr : y.rest = t := by rw [hy, e2]
        refine ⟨hng.1, hng.2, ⟨pre, by rw [p1, hyr], q1⟩, fun f => ?_⟩
        rw [Lx.getToken, if_pos (by rw [hy, e2])]
      · simp at q
  | _ => rw [hq] at h; cases h

end Verif.Lex
