import Verif.Lex.LexerProps
/-
C86: grouping.  C87: type variables.
-/
namespace Verif.Lex
open Verif

/-- groups are the same -/
def Keep (x y : Lx) : Prop := y.nest = x.nest ∧ y.typeVars = x.typeVars ∧ y.state = x.state

theorem Keep.refl (x : Lx) : Keep x x := ⟨rfl, rfl, rfl⟩

theorem Keep.trans {x y z : Lx} (h : Keep x y) (h' : Keep y z) : Keep x z := ⟨h'.1.trans h.1, h'.2.1.trans h.2.1, h'.2.2.trans h.2.2⟩

theorem keep_shift (x : Lx) : Keep x x.shift.2 := by
  rw [Lx.shift]
  cases x.rest <;> exact ⟨rfl, rfl, rfl⟩

theorem keep_unshift (x : Lx) : Keep x x.unshift := by
  rw [Lx.unshift]
  cases x.last <;> exact ⟨rfl, rfl, rfl⟩

theorem keep_comment : ∀ (k level : Nat) (x y : Lx), commentLoop k level x = .ok y → Keep x y
  | 0, _, _, _, h => by cases h
  | k + 1, level, x, y, h => by
    rw [commentLoop] at h
    simp only at h
    have h0 := keep_shift x
    by_cases c1 : x.shift.1 = 0 ∨ x.shift.1 = 12
    · rw [if_pos c1] at h; cases h
      exact h0.trans (keep_unshift x.shift.2)
    rw [if_neg c1] at h
    by_cases c2 : x.shift.1 = 123
    · rw [if_pos c2] at h
      exact h0.trans (Keep.trans (y := x.shift.2.pushPrompt 123) ⟨rfl, rfl, rfl⟩ (keep_comment k _ _ y h))
    rw [if_neg c2] at h
    by_cases c3 : x.shift.1 = 125
    · rw [if_pos c3] at h
      by_cases c4 : level - 1 > 0
      · rw [if_pos c4] at h
        exact h0.trans (Keep.trans (y := x.shift.2.popPrompt) ⟨rfl, rfl, rfl⟩ (keep_comment k _ _ y h))
      · rw [if_neg c4] at h; cases h; exact h0
    · rw [if_neg c3] at h
      exact h0.trans (keep_comment k _ _ y h)

theorem keep_skipLoop : ∀ (k : Nat) (x y : Lx), skipLoop k x = .ok y → Keep x y
  | 0, _, _, h => by cases h
  | k + 1, x, y, h => by
    rw [skipLoop] at h
    simp only at h
    have h0 := keep_shift x
    by_cases c1 : isSpace x.shift.1 = true
    · rw [if_pos c1] at h
      split at h
      · cases h; exact h0
      · exact h0.trans (keep_skipLoop k _ y h)
    rw [if_neg c1] at h
    by_cases c2 : x.shift.1 = 123
    · rw [if_pos c2] at h
      cases hc : commentLoop k 1 (x.shift.2.pushPrompt 123) with
      | ok v =>
        rw [hc, Res.ok_bind] at h
        exact (h0.trans (keep_comment k 1 (x.shift.2.pushPrompt 123) v hc)).trans (keep_skipLoop k v y h)
      | _ => rw [hc] at h; cases h
    · rw [if_neg c2] at h; cases h; exact h0

theorem keep_skip {fuel : Nat} {x y : Lx} (h : x.skipSpace fuel = .ok y) : Keep x y := by
  rw [Lx.skipSpace] at h
  by_cases hp : x.prevent ≠ 0
  · rw [if_pos hp] at h
    cases hc : skipLoop fuel (x.pushPrompt x.prevent) with
    | ok v =>
      rw [hc, Res.ok_bind, if_pos hp] at h
      cases h
      exact (keep_skipLoop fuel (x.pushPrompt x.prevent) v hc).trans (keep_unshift v.popPrompt)
    | _ => rw [hc] at h; cases h
  · rw [if_neg hp] at h
    cases hc : skipLoop fuel x with
    | ok v =>
      rw [hc, Res.ok_bind, if_neg hp] at h
      cases h
      exact (keep_skipLoop fuel x v hc).trans (keep_unshift v)
    | _ => rw [hc] at h; cases h

theorem keep_run (p : Nat → Bool) : ∀ (k : Nat) (acc : List Nat) (x : Lx) (s : List Nat) (y : Lx), runLoop p k acc x = .ok (s, y) → Keep x y
  | 0, _, _, _, _, h => by cases h
  | k + 1, acc, x, s, y, h => by
    rw [runLoop] at h
    simp only at h
    split at h
    · exact (keep_shift x).trans (keep_run p k _ _ s y h)
    · cases h; exact (keep_shift x).trans (keep_unshift _)

theorem keep_quotedLoop : ∀ (k : Nat) (acc : List Nat) (x : Lx) (s : List Nat) (b : Bool) (y : Lx), quotedLoop k acc x = .ok (s, b, y) → Keep x y
  | 0, _, _, _, _, _, h => by cases h
  | k + 1, acc, x, s, b, y, h => by
    rw [quotedLoop] at h
    simp only at h
    have h0 := keep_shift x
    by_cases c1 : x.shift.1 = 34
    · rw [if_pos c1] at h
      split at h
      · cases h; exact h0.trans (keep_shift _)
      · exact (h0.trans (keep_shift _)).trans (keep_quotedLoop k _ _ s b y h)
    · rw [if_neg c1] at h
      split at h
      · cases h; exact h0
      · exact h0.trans (keep_quotedLoop k _ _ s b y h)

theorem keep_quoted {fuel : Nat} {x y : Lx} {s : List Nat} (h : x.quoted fuel = .ok (s, y)) : Keep x y := by
  rw [Lx.quoted] at h
  cases hc : quotedLoop fuel [] x with
  | ok v =>
    obtain ⟨s', b, v⟩ := v
    rw [hc, Res.ok_bind] at h
    cases h
    exact (keep_quotedLoop fuel [] x _ b v hc).trans (keep_unshift v)
  | _ => rw [hc] at h; cases h

theorem keep_nameLoop : ∀ (k c : Nat) (acc : List Nat) (x : Lx) (s : List Nat) (y : Lx), nameLoop k c acc x = .ok (s, y) → Keep x y
  | 0, _, _, _, _, _, h => by cases h
  | k + 1, c, acc, x, s, y, h => by
    rw [nameLoop] at h
    split at h
    · exact (keep_shift x).trans (keep_nameLoop k _ _ _ s y h)
    · cases h; exact keep_unshift x

theorem keep_fileName {fuel : Nat} {x y : Lx} {s : List Nat} (h : x.fileName fuel = .ok (s, y)) : Keep x y := by
  rw [Lx.fileName] at h
  cases hc : x.skipSpace fuel with
  | ok v =>
    rw [hc, Res.ok_bind] at h
    simp only at h
    split at h
    · exact ((keep_skip hc).trans (keep_shift v)).trans (keep_quoted h)
    · exact ((keep_skip hc).trans (keep_shift v)).trans (keep_nameLoop _ _ _ _ _ _ h)
  | _ => rw [hc] at h; cases h

/-- what becomes of groups -/
def Grouped (kind : Nat → Kw) (x : Lx) (t : Tok) (y : Lx) : Prop :=
  match grouping kind t with
  | .opens => y.nest = [] :: x.nest ∧ y.typeVars = x.typeVars
  | .closes => y.nest = x.popNest.nest ∧ y.typeVars = x.popNest.typeVars
  | .mayClose => (y.nest = x.popNest.nest ∧ y.typeVars = x.popNest.typeVars) ∨ (y.nest = x.nest ∧ y.typeVars = x.typeVars)
  | .none => y.nest = x.nest ∧ y.typeVars = x.typeVars

theorem Grouped.of_keep {kind : Nat → Kw} {x x' y : Lx} {t : Tok} (h : Keep x x') (h' : Grouped kind x' t y) : Grouped kind x t y := by
  have e : x'.popNest.nest = x.popNest.nest ∧ x'.popNest.typeVars = x.popNest.typeVars := by
    rw [Lx.popNest, Lx.popNest, h.1]
    cases hn : x.nest with
    | nil => exact ⟨by rw [h.1, hn], h.2.1⟩
    | cons e l => simp only [h.2.1, and_self]
  unfold Grouped at *
  rw [h.1, h.2.1, e.1, e.2] at h'
  exact h'

theorem keep_becomes {fuel : Nat} {x y : Lx} {b : Bool} (h : x.becomesFollows fuel = .ok (b, y)) : Keep x y := by
  rw [Lx.becomesFollows] at h
  cases hc : x.skipSpace fuel with
  | ok v =>
    rw [hc, Res.ok_bind] at h
    split at h
    · cases h
      exact ((keep_skip hc).trans (keep_shift v)).trans (keep_shift v.shift.2)
    · cases h; exact keep_skip hc
  | _ => rw [hc] at h; cases h

theorem grouped_operator {kind : Nat → Kw} {fuel : Nat} {o : Option Nat} {s : List Nat} {p : Nat} {x y : Lx} {t : Tok} (h : x.operator fuel o s p = .ok (t, y)) : Grouped kind x t y := by
  rw [Lx.operator] at h
  cases hc : x.becomesFollows fuel with
  | ok v =>
    obtain ⟨b, v⟩ := v
    rw [hc, Res.ok_bind] at h
    have hk := keep_becomes hc
    cases b <;> cases h <;> exact ⟨hk.1, hk.2.1⟩
  | _ => rw [hc] at h; cases h

theorem grouped_relation {kind : Nat → Kw} {fuel c : Nat} {x y : Lx} {t : Tok} (h : x.relation fuel c = .ok (t, y)) : Grouped kind x t y := by
  rw [Lx.relation] at h
  by_cases hi : x.state = .initial
  · rw [if_pos hi] at h
    simp only at h
    cases hc : (if x.shift.1 = c then x.shift.2 else x.shift.2.unshift).fileName fuel with
    | ok v =>
      obtain ⟨s, v⟩ := v
      rw [hc, Res.ok_bind] at h
      have hk := keep_fileName hc
      have hk' : Keep x v := by
        refine Keep.trans ?_ hk
        split
        · exact keep_shift x
        · exact (keep_shift x).trans (keep_unshift _)
      simp only [Res.pure_eq, Res.ok.injEq, Prod.mk.injEq] at h
      obtain ⟨rfl, rfl⟩ := h
      unfold Grouped
      by_cases h60 : c = 60
      · rw [if_pos h60]; exact ⟨hk'.1, hk'.2.1⟩
      · rw [if_neg h60]; exact ⟨hk'.1, hk'.2.1⟩
    | _ => rw [hc] at h; cases h
  · rw [if_neg hi] at h
    cases hr : runLoop isRel fuel [c] x with
    | ok v =>
      rw [hr, Res.ok_bind] at h
      simp only at h
      have hk := keep_run isRel fuel [c] x v.1 v.2 hr
      by_cases hl : v.1.length ≠ 1
      · rw [if_pos hl] at h; cases h; exact ⟨hk.1, hk.2.1⟩
      · rw [if_neg hl] at h; cases h; exact ⟨hk.1, hk.2.1⟩
    | _ => rw [hr] at h; cases h

theorem keep_su (x : Lx) : Keep x x.shift.2.unshift := (keep_shift x).trans (keep_unshift _)

theorem grouped_symbol {kind : Nat → Kw} {fuel c : Nat} {x y : Lx} {t : Tok} (h : x.symbol fuel c = .ok (t, y)) : Grouped kind x t y := by
  unfold Lx.symbol at h
  by_cases k0 : c = 34
  · rw [if_pos k0] at h
    cases hq : x.quoted fuel with
    | ok v =>
      rw [hq, Res.ok_bind] at h
      have hk := keep_quoted (s := v.1) (y := v.2) hq
      cases h
      exact ⟨hk.1, hk.2.1⟩
    | _ => rw [hq] at h; cases h
  rw [if_neg k0] at h
  by_cases k1 : c = 40 ∨ c = 123 ∨ c = 91
  · rw [if_pos k1] at h
    cases h
    unfold Grouped
    simp only [grouping]
    rw [if_pos k1]
    exact ⟨rfl, rfl⟩
  rw [if_neg k1] at h
  by_cases k2 : c = 41 ∨ c = 125 ∨ c = 93
  · rw [if_pos k2] at h
    cases h
    unfold Grouped
    simp only [grouping]
    rw [if_neg k1, if_pos k2]
    exact ⟨rfl, rfl⟩
  rw [if_neg k2] at h
  by_cases k3 : c = 44 ∨ c = 59 ∨ c = 46
  · rw [if_pos k3] at h
    cases h
    unfold Grouped
    simp only [grouping]
    try rw [if_neg (by omega), if_neg (by omega)]
    first | exact ⟨rfl, rfl⟩ | exact ⟨trivial, trivial⟩
  rw [if_neg k3] at h
  by_cases k4 : c = 58
  · rw [if_pos k4] at h
    simp only at h
    have hk := keep_shift ({ x with prevent := c } : Lx)
    have hk' := keep_su ({ x with prevent := c } : Lx)
    split at h
    · cases h; exact ⟨hk.1, hk.2.1⟩
    · cases h
      unfold Grouped
      simp only [grouping]
      rw [if_neg (by omega), if_neg (by omega)]
      exact ⟨hk'.1, hk'.2.1⟩
  rw [if_neg k4] at h
  by_cases k5 : c = 61
  · rw [if_pos k5] at h
    cases hq : runLoop isRel fuel [c] (x.opTerm c) with
    | ok v =>
      rw [hq, Res.ok_bind] at h
      have hk := keep_run isRel fuel [c] (x.opTerm c) v.1 v.2 hq
      cases h
      exact ⟨hk.1, hk.2.1⟩
    | _ => rw [hq] at h; cases h
  rw [if_neg k5] at h
  by_cases k6 : c = 33
  · rw [if_pos k6] at h
    have hk := keep_shift x
    have hk' := keep_su x
    split at h
    · cases h; exact ⟨hk.1, hk.2.1⟩
    · cases h; exact ⟨hk'.1, hk'.2.1⟩
  rw [if_neg k6] at h
  by_cases k7 : c = 60 ∨ c = 62
  · rw [if_pos k7] at h
    exact grouped_relation h
  rw [if_neg k7] at h
  by_cases k8 : c = 126
  · rw [if_pos k8] at h
    split at h
    · have hk := keep_shift x
      cases h
      unfold Grouped
      exact ⟨by simp only [Lx.pushPrompt, Lx.pushNest]; rw [hk.1], hk.2.1⟩
    · cases hs : ({ x.shift.2.unshift with prevent := 126 } : Lx).skipSpace fuel with
      | ok v =>
        rw [hs, Res.ok_bind] at h
        have hk : Keep x v := (keep_su x).trans (Keep.trans (y := ({ x.shift.2.unshift with prevent := 126 } : Lx)) ⟨rfl, rfl, rfl⟩ (keep_skip hs))
        by_cases ht : tildeSpecial v.rest = true
        · rw [if_pos ht] at h; cases h; exact ⟨hk.1, hk.2.1⟩
        · rw [if_neg ht] at h; exact (grouped_operator h).of_keep hk
      | _ => rw [hs] at h; cases h
  rw [if_neg k8] at h
  by_cases k9 : c = 12
  · rw [if_pos k9] at h
    cases h
    unfold Grouped
    simp only [grouping]
    try rw [if_neg (by omega), if_neg (by omega)]
    first | exact ⟨rfl, rfl⟩ | exact ⟨trivial, trivial⟩
  rw [if_neg k9] at h
  by_cases k10 : c = 43
  · rw [if_pos k10] at h
    exact Grouped.of_keep (x' := x.opTerm c) ⟨rfl, rfl, rfl⟩ (grouped_operator h)
  rw [if_neg k10] at h
  by_cases k11 : c = 45
  · rw [if_pos k11] at h
    simp only at h
    have hk := keep_shift (x.opTerm c)
    split at h
    · cases h; exact ⟨hk.1, hk.2.1⟩
    · exact Grouped.of_keep (x' := (x.opTerm c).shift.2.unshift) (Keep.trans (y := x.opTerm c) ⟨rfl, rfl, rfl⟩ (keep_su (x.opTerm c))) (grouped_operator h)
  rw [if_neg k11] at h
  by_cases k12 : c = 38
  · rw [if_pos k12] at h
    exact Grouped.of_keep (x' := x.opTerm c) ⟨rfl, rfl, rfl⟩ (grouped_operator h)
  rw [if_neg k12] at h
  by_cases k13 : c = 42
  · rw [if_pos k13] at h
    exact Grouped.of_keep (x' := x.opTerm c) ⟨rfl, rfl, rfl⟩ (grouped_operator h)
  rw [if_neg k13] at h
  by_cases k14 : c = 37 ∨ c = 47
  · rw [if_pos k14] at h
    exact Grouped.of_keep (x' := x.opTerm c) ⟨rfl, rfl, rfl⟩ (grouped_operator h)
  rw [if_neg k14] at h
  by_cases k15 : c = 92
  · rw [if_pos k15] at h
    simp only at h
    split at h
    · first
        | exact Grouped.of_keep (x' := (x.opTerm c).shift.2) (Keep.trans (y := x.opTerm c) ⟨rfl, rfl, rfl⟩ (keep_shift (x.opTerm c))) (grouped_operator h)
        | exact Grouped.of_keep (x' := { (x.opTerm c).shift.2 with prevent := 37 }) (Keep.trans (y := x.opTerm c) ⟨rfl, rfl, rfl⟩ (keep_shift (x.opTerm c))) (grouped_operator h)
    · exact Grouped.of_keep (x' := (x.opTerm c).shift.2.unshift) (Keep.trans (y := x.opTerm c) ⟨rfl, rfl, rfl⟩ (keep_su (x.opTerm c))) (grouped_operator h)
  rw [if_neg k15] at h
  by_cases k16 : c = 94
  · rw [if_pos k16] at h
    exact Grouped.of_keep (x' := x.opTerm c) ⟨rfl, rfl, rfl⟩ (grouped_operator h)
  rw [if_neg k16] at h
  by_cases k17 : c = 35
  · rw [if_pos k17] at h
    simp only at h
    split at h
    · first
        | exact Grouped.of_keep (x' := (x.opTerm c).shift.2) (Keep.trans (y := x.opTerm c) ⟨rfl, rfl, rfl⟩ (keep_shift (x.opTerm c))) (grouped_operator h)
        | exact Grouped.of_keep (x' := { (x.opTerm c).shift.2 with prevent := 37 }) (Keep.trans (y := x.opTerm c) ⟨rfl, rfl, rfl⟩ (keep_shift (x.opTerm c))) (grouped_operator h)
    · exact Grouped.of_keep (x' := (x.opTerm c).shift.2.unshift) (Keep.trans (y := x.opTerm c) ⟨rfl, rfl, rfl⟩ (keep_su (x.opTerm c))) (grouped_operator h)
  rw [if_neg k17] at h
  by_cases k18 : c = 10
  · rw [if_pos k18] at h
    cases h
    unfold Grouped
    simp only [grouping]
    try rw [if_neg (by omega), if_neg (by omega)]
    first | exact ⟨rfl, rfl⟩ | exact ⟨trivial, trivial⟩
  rw [if_neg k18] at h
  cases h
  unfold Grouped
  simp only [grouping]
  rw [if_neg k1, if_neg k2]
  first | exact ⟨rfl, rfl⟩ | exact ⟨trivial, trivial⟩

theorem grouped_word {kind : Nat → Kw} {cls : List Nat → Word} (hk : ∀ s code k, cls s = .keyword code k → kind code = k) {s : List Nat} {x y : Lx} {t : Tok} (h : x.word cls s = .ok (t, y)) : Grouped kind x t y := by
  unfold Lx.word at h
  split at h
  · rename_i code k hc
    have hkk := hk _ _ _ hc
    cases h
    unfold Grouped
    simp only [grouping, hkk]
    cases k with
    | letKw => exact ⟨rfl, rfl⟩
    | opening => exact ⟨rfl, rfl⟩
    | closing => exact ⟨rfl, rfl⟩
    | plain => exact ⟨rfl, rfl⟩
    | prevents c => exact ⟨rfl, rfl⟩
    | inKw =>
      simp only [Lx.keyword]
      split
      · exact .inl ⟨rfl, rfl⟩
      · exact .inr ⟨rfl, rfl⟩
  · cases h; exact ⟨rfl, rfl⟩
  · split at h
    · split at h <;> cases h; exact ⟨rfl, rfl⟩
    · split at h
      · cases h; exact ⟨rfl, rfl⟩
      · split at h <;> cases h <;> exact ⟨rfl, rfl⟩

theorem grouped_scan {kind : Nat → Kw} {cls : List Nat → Word} (hk : ∀ s code k, cls s = .keyword code k → kind code = k) {fuel : Nat} {x y : Lx} {t : Tok} (h : x.scan cls fuel = .ok (t, y)) : Grouped kind x t y := by
  rw [Lx.scan] at h
  cases hc : x.skipSpace fuel with
  | ok v =>
    rw [hc, Res.ok_bind] at h
    simp only at h
    have h1 : Keep x ({ v with previous := v.prevent, prevent := 0 } : Lx).shift.2 := by
      have := (keep_skip hc)
      refine Keep.trans (y := ({ v with previous := v.prevent, prevent := 0 } : Lx)) this (keep_shift _)
    refine Grouped.of_keep h1 ?_
    revert h
    generalize ({ v with previous := v.prevent, prevent := 0 } : Lx).shift = r
    intro h
    by_cases c1 : (isAlpha r.1 || decide (r.1 = 95)) = true
    · rw [if_pos c1] at h
      cases hr : runLoop isWord fuel [r.1] r.2 with
      | ok w =>
        rw [hr, Res.ok_bind] at h
        exact (grouped_word hk h).of_keep (keep_run isWord fuel [r.1] r.2 w.1 w.2 hr)
      | _ => rw [hr] at h; cases h
    rw [if_neg c1] at h
    by_cases c2 : isDigit r.1 = true
    · rw [if_pos c2] at h
      cases hr : runLoop isDigit fuel [r.1] r.2 with
      | ok w =>
        rw [hr, Res.ok_bind] at h
        have hw := keep_run isDigit fuel [r.1] r.2 w.1 w.2 hr
        cases h
        exact ⟨hw.1, hw.2.1⟩
      | _ => rw [hr] at h; cases h
    rw [if_neg c2] at h
    exact grouped_symbol h
  | _ => rw [hc] at h; cases h

theorem grouped_getToken {kind : Nat → Kw} {cls : List Nat → Word} (hk : ∀ s code k, cls s = .keyword code k → kind code = k) {fuel : Nat} {x y : Lx} {t : Tok} (h : x.getToken cls fuel = .ok (t, y)) :
    Grouped kind x t y := by
  rw [Lx.getToken] at h
  by_cases hs : x.state = .ended
  · rw [if_pos hs] at h; cases h; exact ⟨rfl, rfl⟩
  rw [if_neg hs] at h
  cases hq : x.scan cls fuel with
  | ok v =>
    rw [hq, Res.ok_bind] at h
    have hg := grouped_scan hk (t := v.1) (y := v.2) hq
    simp only [Res.pure_eq, Res.ok.injEq, Prod.mk.injEq] at h
    obtain ⟨rfl, rfl⟩ := h
    by_cases hi : v.2.state = .initial
    · rw [if_pos hi]; exact hg
    · rw [if_neg hi]; exact hg
  | _ => rw [hq] at h; cases h

/-- **C86** (groups): each opening bracket or keyword starts a group and each closing one ends the innermost group, if there is any; other tokens have no effect on groups, except that the keyword
`in` may end one -/
theorem C86_groups (kind : Nat → Kw) (cls : List Nat → Word) (hk : ∀ s code k, cls s = .keyword code k → kind code = k) (fuel : Nat) (x y : Lx) (t : Tok) (h : x.getToken cls fuel = .ok (t, y)) :
    (grouping kind t = .opens → y.nest.length = x.nest.length + 1) ∧ (grouping kind t = .closes → y.nest.length = x.nest.length - 1) ∧
    (grouping kind t = .mayClose → y.nest.length = x.nest.length ∨ y.nest.length = x.nest.length - 1) ∧ (grouping kind t = .none → y.nest.length = x.nest.length) := by
  have hg := grouped_getToken hk h
  have hp : x.popNest.nest.length = x.nest.length - 1 := by
    rw [Lx.popNest]
    cases hn : x.nest with
    | nil => simp [hn]
    | cons e l => simp
  unfold Grouped at hg
  refine ⟨fun e => ?_, fun e => ?_, fun e => ?_, fun e => ?_⟩ <;> rw [e] at hg <;> simp only at hg
  · rw [hg.1]; rfl
  · rw [hg.1, hp]
  · rcases hg with hg | hg
    · exact .inr (by rw [hg.1, hp])
    · exact .inl (by rw [hg.1])
  · rw [hg.1]

/-- `(` and `]`; the number of groups becomes 1 and then 0 -/
example : ∃ y z, (Lx.make [40, 93]).getToken (fun _ => .other) 9 = .ok (.chr 40, y) ∧ y.nest.length = 1 ∧ y.getToken (fun _ => .other) 9 = .ok (.chr 93, z) ∧ z.nest.length = 0 := ⟨_, _, rfl, rfl, rfl, rfl⟩

/-! ### Type variables -/

theorem popNest_sub {x : Lx} (h : ∀ v ∈ x.typeVars, v ∈ x.announced) : ∀ v ∈ x.popNest.typeVars, v ∈ x.popNest.announced := by
  intro v hv
  rw [Lx.popNest] at *
  cases hn : x.nest with
  | nil => rw [hn] at hv; exact h v hv
  | cons e l =>
    rw [hn] at hv
    simp only [List.mem_filter, Bool.not_eq_true', List.contains_eq_mem, decide_eq_false_iff_not] at hv
    have := h v hv.1
    rw [Lx.announced, hn, List.reverse_cons, List.flatten_append, List.mem_append] at this
    rcases this with h1 | h1
    · exact h1
    · simp at h1; exact absurd h1 hv.2

theorem scanned_sub {kind : Nat → Kw} {x : Lx} (h : Scanned kind x) : ∀ v ∈ x.typeVars, v ∈ x.announced := by
  induction h with
  | make input => intro v hv; simp [Lx.make] at hv
  | @token x y t fuel cls _ hk e ih =>
    have hg := grouped_getToken hk e
    have keep : ∀ z : Lx, (∀ v ∈ z.typeVars, v ∈ z.announced) → y.nest = z.nest → y.typeVars = z.typeVars → ∀ v ∈ y.typeVars, v ∈ y.announced := by
      intro z hz e1 e2
      rw [Lx.announced, e1, e2]
      exact hz
    unfold Grouped at hg
    split at hg
    · refine keep x.pushNest ?_ hg.1 hg.2
      intro v hv
      have := ih v hv
      simpa [Lx.announced, Lx.pushNest] using this
    · exact keep x.popNest (popNest_sub ih) hg.1 hg.2
    · rcases hg with hg | hg
      · exact keep x.popNest (popNest_sub ih) hg.1 hg.2
      · exact keep x ih hg.1 hg.2
    · exact keep x ih hg.1 hg.2
  | @push x _ ih =>
    intro v hv
    have := ih v hv
    simpa [Lx.announced, Lx.pushNest] using this
  | pop _ ih => exact popNest_sub ih
  | @announce x w _ hn ih =>
    intro v hv
    cases hx : x.nest with
    | nil => exact absurd hx hn
    | cons e l =>
      have ha : (x.putTypeVar w).announced = x.announced ++ [w] := by
        simp [Lx.announced, Lx.putTypeVar, hx]
      rw [ha, List.mem_append, List.mem_singleton]
      have hv' : v ∈ x.typeVars ∨ v = w := by
        rw [Lx.putTypeVar] at hv
        simp only at hv
        split at hv
        · exact .inl hv
        · rcases List.mem_cons.1 hv with e | e
          · exact .inr e
          · exact .inl e
      rcases hv' with hv' | hv'
      · exact .inl (ih v hv')
      · exact .inr hv'
  | reset input _ _ => intro v hv; simp [Lx.reset] at hv

theorem countLoop_some (v : List Nat) : ∀ (l : List (List (List Nat))) (n : Nat), countLoop v (some n) l = some (n + l.flatten.length)
  | [], n => by simp [countLoop]
  | e :: l, n => by
    rw [countLoop, countLoop_some v l]
    simp
    omega

theorem countLoop_spec (v : List Nat) : ∀ l : List (List (List Nat)), v ∈ l.reverse.flatten → ∃ n, countLoop v none l = some n ∧ l.reverse.flatten[n]? = some v
  | [], h => by simp at h
  | e :: l, h => by
    rw [countLoop]
    rw [List.reverse_cons, List.flatten_append, List.mem_append] at h
    by_cases he : v ∈ e
    · have hc : e.contains v = true := by simpa using he
      rw [if_pos hc, countLoop_some]
      refine ⟨_, rfl, ?_⟩
      have hl : l.reverse.flatten.length = l.flatten.length := by
        simp [List.length_flatten, List.sum_reverse]
      have hi : e.idxOf v < e.length := List.idxOf_lt_length_iff.2 he
      rw [List.reverse_cons, List.flatten_append, List.getElem?_append_right (by omega), hl]
      simp only [List.flatten_cons, List.flatten_nil, List.append_nil, Nat.add_sub_cancel]
      rw [List.getElem?_eq_getElem hi, List.getElem_idxOf hi]
    · have hc : ¬ e.contains v = true := by simpa using he
      rw [if_neg hc]
      have h' : v ∈ l.reverse.flatten := by
        rcases h with h | h
        · exact h
        · simp at h; exact absurd h he
      obtain ⟨n, h1, h2⟩ := countLoop_spec v l h'
      refine ⟨n, h1, ?_⟩
      have hn : n < l.reverse.flatten.length := by
        by_contra hge
        rw [List.getElem?_eq_none (by omega)] at h2
        cases h2
      rw [List.reverse_cons, List.flatten_append, List.getElem?_append_left hn, h2]

/-- **C87**: type variables are numbered in the order in which they were announced, over all groups that have not been closed: in any history, if the next token is a type variable then the
variable announced with its number has its name.  In particular different ones have different numbers, that are less than the number of type variables announced.  The internal check that it was announced never
fails -/
theorem C87_number (kind : Nat → Kw) (x : Lx) (hx : Scanned kind x) (cls : List Nat → Word) (s : List Nat) : x.word cls s ≠ .assertFail ∧
    ∀ n y, x.word cls s = .ok (.typeVar n, y) → x.announced[n]? = some s ∧ n < x.typeVarLevel := by
  have hlev : x.typeVarLevel = x.announced.length := by
    rw [Lx.typeVarLevel, Lx.announced]
    have : ∀ (l : List (List (List Nat))) (n : Nat), l.foldl (fun n e => n + e.length) n = n + l.flatten.length := by
      intro l
      induction l with
      | nil => intro n; simp
      | cons e l ih => intro n; rw [List.foldl_cons, ih]; simp; omega
    rw [this]
    simp [List.length_flatten, List.sum_reverse]
  have key : ∀ v, x.typeVars.contains v = true → ∃ n, countLoop v none x.nest = some n ∧ x.announced[n]? = some v := fun v hv =>
    countLoop_spec v x.nest (scanned_sub hx v (by simpa using hv))
  unfold Lx.word
  constructor
  · split
    · simp
    · simp
    · split
      · rename_i hv
        obtain ⟨n, h1, _⟩ := key s hv
        rw [h1]
        simp
      · split
        · simp
        · split <;> simp
  · intro n y h
    split at h
    · cases h
    · cases h
    · split at h
      · rename_i hv
        obtain ⟨m, h1, h2⟩ := key s hv
        rw [h1] at h
        simp only [Res.ok.injEq, Prod.mk.injEq, Tok.typeVar.injEq] at h
        rw [← h.1]
        refine ⟨h2, ?_⟩
        rw [hlev]
        by_contra hge
        rw [List.getElem?_eq_none (by omega)] at h2
        cases h2
      · split at h
        · cases h
        · split at h <;> cases h

/-- `(`, where `A` and `B` are announced, and `B` -/
example : ∃ y z, (Lx.make [40, 66]).getToken (fun _ => .other) 9 = .ok (.chr 40, y) ∧ Scanned (fun _ => .plain) ((y.putTypeVar [65]).putTypeVar [66]) ∧
    ((y.putTypeVar [65]).putTypeVar [66]).getToken (fun _ => .other) 9 = .ok (.typeVar 1, z) :=
  ⟨_, _, rfl, .announce _ (.announce _ (.token (fun _ => .other) (.make [40, 66]) (fun _ _ _ h => by cases h) (fuel := 9) (t := .chr 40) rfl) (by decide)) (by decide), rfl⟩

theorem put_spec : ∀ (vs : List (List Nat)) (x : Lx) (e : List (List Nat)) (n : List (List (List Nat))), x.nest = e :: n →
    ∃ w, (∀ v ∈ w, v ∈ vs) ∧ vs.foldl Lx.putTypeVar x = { x with typeVars := w ++ x.typeVars, nest := (e ++ vs) :: n }
  | [], x, e, n, h => ⟨[], by simp, by simp [← h]⟩
  | v :: vs, x, e, n, h => by
    have hp : (x.putTypeVar v).nest = (e ++ [v]) :: n := by rw [Lx.putTypeVar, h]
    obtain ⟨w, h1, h2⟩ := put_spec vs (x.putTypeVar v) (e ++ [v]) n hp
    rw [List.foldl_cons, h2]
    by_cases hc : x.typeVars.contains v = true
    · refine ⟨w, fun u hu => by simp [h1 u hu], ?_⟩
      rw [Lx.putTypeVar]
      simp only [hc, if_true, List.append_assoc, List.singleton_append]
    · refine ⟨w ++ [v], fun u hu => ?_, ?_⟩
      · rcases List.mem_append.1 hu with hu | hu
        · simp [h1 u hu]
        · simp at hu; simp [hu]
      · rw [Lx.putTypeVar]
        simp only [hc, Bool.false_eq_true, if_false, List.append_assoc, List.singleton_append]

/-- **C87** (scope): type variables announced inside a group are type variables there, and at the end of the group everything is as before it, if they were no type variables before -/
theorem C87_scope (x : Lx) (vs : List (List Nat)) (h : ∀ v ∈ vs, v ∉ x.typeVars) :
    (∀ v ∈ vs, v ∈ (vs.foldl Lx.putTypeVar x.pushNest).typeVars) ∧ (vs.foldl Lx.putTypeVar x.pushNest).popNest = x := by
  have keep : ∀ (l : List (List Nat)) (z : Lx) (v : List Nat), v ∈ z.typeVars → v ∈ (l.foldl Lx.putTypeVar z).typeVars := by
    intro l
    induction l with
    | nil => intro z v hv; exact hv
    | cons a l ih =>
      intro z v hv
      refine ih (z.putTypeVar a) v ?_
      rw [Lx.putTypeVar]
      simp only
      split
      · exact hv
      · exact List.mem_cons_of_mem _ hv
  have new : ∀ (l : List (List Nat)) (z : Lx) (v : List Nat), v ∈ l → v ∈ (l.foldl Lx.putTypeVar z).typeVars := by
    intro l
    induction l with
    | nil => intro z v hv; simp at hv
    | cons a l ih =>
      intro z v hv
      rcases List.mem_cons.1 hv with rfl | hv
      · refine keep l (z.putTypeVar v) v ?_
        rw [Lx.putTypeVar]
        simp only
        split
        · rename_i hc; simpa using hc
        · simp
      · exact ih _ v hv
  refine ⟨fun v hv => new vs _ v hv, ?_⟩
  obtain ⟨w, h1, h2⟩ := put_spec vs x.pushNest [] x.nest rfl
  rw [h2, Lx.popNest]
  have hf : (w ++ x.pushNest.typeVars).filter (fun v => !([] ++ vs).contains v) = x.typeVars := by
    rw [List.filter_append]
    have e1 : w.filter (fun v => !([] ++ vs).contains v) = [] := by
      rw [List.filter_eq_nil_iff]
      intro v hv
      simpa using h1 v hv
    have e2 : x.pushNest.typeVars.filter (fun v => !([] ++ vs).contains v) = x.typeVars := by
      refine List.filter_eq_self.2 fun v hv => ?_
      simp only [List.nil_append, Bool.not_eq_true', List.contains_eq_mem, decide_eq_false_iff_not]
      exact fun hm => h v hm hv
    rw [e1, e2, List.nil_append]
  simp only [hf]
  rfl

example : ([[65], [66], [65]].foldl Lx.putTypeVar (Lx.make []).pushNest).popNest = Lx.make [] := by rfl

end Verif.Lex
