import Verif.Lex.TypeVarProps
/-
C86: scanning ends.
-/
namespace Verif.Lex
open Verif

/-- scanning succeeds and what remains is an end part of what there was -/
def Fine {α : Type} (x : Lx) (r : Res (α × Lx)) : Prop := ∃ a y, r = .ok (a, y) ∧ y.rest <:+ x.rest

theorem Fine.of_suffix {α : Type} {x x' : Lx} {r : Res (α × Lx)} (h : Fine x' r) (hs : x'.rest <:+ x.rest) : Fine x r := by
  obtain ⟨a, y, e, h⟩ := h
  exact ⟨a, y, e, h.trans hs⟩

theorem shift_suffix (x : Lx) : x.shift.2.rest <:+ x.rest := by
  rw [Lx.shift]
  cases h : x.rest with
  | nil => exact List.suffix_refl _
  | cons c t => exact List.suffix_cons c t

theorem su_rest (x : Lx) : x.shift.2.unshift.rest = x.rest := by
  rw [Lx.shift]
  cases h : x.rest with
  | nil => simp only [Lx.unshift]
  | cons c t => simp only [Lx.unshift]

theorem skip_fine {x : Lx} {fuel : Nat} (h0 : 0 ∉ x.rest) (hf : x.rest.length < fuel) : ∃ y, x.skipSpace fuel = .ok y ∧ y.rest <:+ x.rest := by
  obtain ⟨pre, post, y, h1, h2, h3, _⟩ := C83_skip x h0 fuel hf
  exact ⟨y, h2, by rw [h3, h1]; exact List.suffix_append pre post⟩

theorem quoted_fine {x : Lx} {fuel : Nat} (h0 : 0 ∉ x.rest) (hf : x.rest.length < fuel) : Fine x (x.quoted fuel) := by
  obtain ⟨s, post, s0, s1, ⟨e, hp⟩ | ⟨e, hp⟩⟩ := C84_cases x.rest h0
  · have hl : s.length < fuel := by
      have := doubled_length s
      rw [e] at hf
      simp at hf
      omega
    refine ⟨s, _, C84_string x s post e s0 s1 hp fuel hl, ?_⟩
    rw [e]
    exact ⟨doubled s ++ [34], by simp⟩
  · have hl : s.length < fuel := by
      have := doubled_length s
      rw [e] at hf
      simp at hf
      omega
    refine ⟨s, _, C84_broken x s post e s0 s1 hp fuel hl, ?_⟩
    rw [e]
    exact ⟨doubled s, rfl⟩

theorem run_fine {p : Nat → Bool} (hz : p 0 = false) {x : Lx} {fuel : Nat} {acc : List Nat} (hf : x.rest.length < fuel) : Fine x (runLoop p fuel acc x) := by
  have e : x.rest = x.rest.takeWhile p ++ x.rest.dropWhile p := List.takeWhile_append_dropWhile.symm
  have h := runLoop_text p hz (x.rest.takeWhile p) fuel acc x (x.rest.dropWhile p) (fun c hc => by
      have := List.all_takeWhile (p := p) (l := x.rest)
      exact List.all_eq_true.1 this c hc) (fun c hc => by
      cases hd : x.rest.dropWhile p with
      | nil => rw [hd] at hc; cases hc
      | cons a l =>
        rw [hd] at hc
        simp only [List.head?_cons, Option.some.injEq] at hc
        subst hc
        have := List.head?_dropWhile_not p x.rest
        rw [hd] at this
        simpa using this) e (by
      have := (List.takeWhile_prefix p (l := x.rest)).length_le
      omega)
  exact ⟨_, _, h, List.dropWhile_suffix p⟩

theorem becomes_fine {x : Lx} {fuel : Nat} (h0 : 0 ∉ x.rest) (hf : x.rest.length < fuel) : Fine x (x.becomesFollows fuel) := by
  obtain ⟨y, h1, h2⟩ := skip_fine h0 hf
  rw [Lx.becomesFollows, h1, Res.ok_bind]
  split
  · exact ⟨_, _, rfl, ((shift_suffix _).trans (shift_suffix y)).trans h2⟩
  · exact ⟨_, _, rfl, h2⟩

theorem operator_fine {x : Lx} {fuel p : Nat} {o : Option Nat} {s : List Nat} (h0 : 0 ∉ x.rest) (hf : x.rest.length < fuel) : Fine x (x.operator fuel o s p) := by
  obtain ⟨b, y, h1, h2⟩ := becomes_fine h0 hf
  rw [Lx.operator, h1, Res.ok_bind]
  exact ⟨_, _, rfl, h2⟩

theorem relation_fine {x : Lx} {fuel c : Nat} (hf : x.rest.length < fuel) (hi : x.state ≠ .initial) : Fine x (x.relation fuel c) := by
  obtain ⟨s, y, h1, h2⟩ := run_fine (p := isRel) rfl (acc := [c]) hf
  rw [Lx.relation, if_neg hi, h1, Res.ok_bind]
  by_cases hl : s.length ≠ 1
  · simp only [if_pos hl]; exact ⟨_, _, rfl, h2⟩
  · simp only [if_neg hl]; exact ⟨_, _, rfl, h2⟩

theorem symbol_fine {x : Lx} {fuel c : Nat} (h0 : 0 ∉ x.rest) (hf : x.rest.length < fuel) (hi : x.state ≠ .initial) : Fine x (x.symbol fuel c) := by
  have op : ∀ (x' : Lx) (o : Option Nat) (s : List Nat) (p : Nat), x'.rest <:+ x.rest → Fine x (x'.operator fuel o s p) := by
    intro x' o s p hs
    exact (operator_fine (fun h => h0 (hs.subset h)) (by have := hs.length_le; omega)).of_suffix hs
  have sh := fun c => shift_suffix (x.opTerm c)
  have su := fun c => su_rest (x.opTerm c)
  unfold Lx.symbol
  by_cases k0 : c = 34
  · rw [if_pos k0]
    obtain ⟨s, y, h1, h2⟩ := quoted_fine h0 hf
    rw [h1, Res.ok_bind]
    exact ⟨_, _, rfl, h2⟩
  rw [if_neg k0]
  by_cases k1 : c = 40 ∨ c = 123 ∨ c = 91
  · rw [if_pos k1]; exact ⟨_, _, rfl, List.suffix_refl _⟩
  rw [if_neg k1]
  by_cases k2 : c = 41 ∨ c = 125 ∨ c = 93
  · rw [if_pos k2]
    refine ⟨_, _, rfl, ?_⟩
    rw [Lx.popPrompt, Lx.popNest]
    cases x.nest <;> exact List.suffix_refl _
  rw [if_neg k2]
  by_cases k3 : c = 44 ∨ c = 59 ∨ c = 46
  · rw [if_pos k3]; exact ⟨_, _, rfl, List.suffix_refl _⟩
  rw [if_neg k3]
  by_cases k4 : c = 58
  · rw [if_pos k4]
    simp only
    split
    · exact ⟨_, _, rfl, shift_suffix ({ x with prevent := c } : Lx)⟩
    · exact ⟨_, _, rfl, by rw [su_rest]⟩
  rw [if_neg k4]
  by_cases k5 : c = 61
  · rw [if_pos k5]
    obtain ⟨s, y, h1, h2⟩ := run_fine (p := isRel) rfl (x := x.opTerm c) (acc := [c]) hf
    rw [h1, Res.ok_bind]
    exact ⟨_, _, rfl, h2⟩
  rw [if_neg k5]
  by_cases k6 : c = 33
  · rw [if_pos k6]
    split
    · exact ⟨_, _, rfl, shift_suffix x⟩
    · exact ⟨_, _, rfl, by rw [su_rest]⟩
  rw [if_neg k6]
  by_cases k7 : c = 60 ∨ c = 62
  · rw [if_pos k7]; exact relation_fine hf hi
  rw [if_neg k7]
  by_cases k8 : c = 126
  · rw [if_pos k8]
    split
    · exact ⟨_, _, rfl, shift_suffix x⟩
    · have e : ({ x.shift.2.unshift with prevent := 126 } : Lx).rest = x.rest := su_rest x
      obtain ⟨y, h1, h2⟩ := skip_fine (x := ({ x.shift.2.unshift with prevent := 126 } : Lx)) (fuel := fuel) (by rw [e]; exact h0) (by rw [e]; exact hf)
      rw [e] at h2
      rw [h1, Res.ok_bind]
      by_cases ht : tildeSpecial y.rest = true
      · rw [if_pos ht]; exact ⟨_, _, rfl, h2⟩
      · rw [if_neg ht]; exact op y _ _ _ h2
  rw [if_neg k8]
  by_cases k9 : c = 12
  · rw [if_pos k9]; exact ⟨_, _, rfl, List.suffix_refl _⟩
  rw [if_neg k9]
  by_cases k10 : c = 43
  · rw [if_pos k10]; exact op (x.opTerm c) _ _ _ (List.suffix_refl _)
  rw [if_neg k10]
  by_cases k11 : c = 45
  · rw [if_pos k11]
    simp only
    split
    · exact ⟨_, _, rfl, sh c⟩
    · exact op _ _ _ _ (by rw [su c]; exact List.suffix_refl _)
  rw [if_neg k11]
  by_cases k12 : c = 38
  · rw [if_pos k12]; exact op (x.opTerm c) _ _ _ (List.suffix_refl _)
  rw [if_neg k12]
  by_cases k13 : c = 42
  · rw [if_pos k13]; exact op (x.opTerm c) _ _ _ (List.suffix_refl _)
  rw [if_neg k13]
  by_cases k14 : c = 37 ∨ c = 47
  · rw [if_pos k14]; exact op (x.opTerm c) _ _ _ (List.suffix_refl _)
  rw [if_neg k14]
  by_cases k15 : c = 92
  · rw [if_pos k15]
    simp only
    split
    · exact op _ _ _ _ (sh c)
    · exact op _ _ _ _ (by rw [su c]; exact List.suffix_refl _)
  rw [if_neg k15]
  by_cases k16 : c = 94
  · rw [if_pos k16]; exact op (x.opTerm c) _ _ _ (List.suffix_refl _)
  rw [if_neg k16]
  by_cases k17 : c = 35
  · rw [if_pos k17]
    simp only
    split
    · exact op _ _ _ _ (sh c)
    · exact op _ _ _ _ (by rw [su c]; exact List.suffix_refl _)
  rw [if_neg k17]
  by_cases k18 : c = 10
  · rw [if_pos k18]; exact ⟨_, _, rfl, List.suffix_refl _⟩
  rw [if_neg k18]
  exact ⟨_, _, rfl, List.suffix_refl _⟩

theorem popNest_rest (x : Lx) : x.popNest.rest = x.rest := by
  rw [Lx.popNest]
  cases x.nest <;> rfl

theorem word_fine {x : Lx} (h : ∀ v ∈ x.typeVars, v ∈ x.announced) (cls : List Nat → Word) (s : List Nat) : Fine x (x.word cls s) := by
  unfold Lx.word
  split
  · rename_i k _
    refine ⟨_, _, rfl, ?_⟩
    cases k with
    | inKw =>
      rw [Lx.keyword]
      split
      · show x.popNest.rest <:+ x.rest
        rw [popNest_rest]
      · exact List.suffix_refl _
    | closing =>
      show x.popNest.rest <:+ x.rest
      rw [popNest_rest]
    | _ => exact List.suffix_refl _
  · exact ⟨_, _, rfl, List.suffix_refl _⟩
  · split
    · rename_i hv
      obtain ⟨n, h1, _⟩ := countLoop_spec s x.nest (h s (by simpa using hv))
      rw [h1]
      exact ⟨_, _, rfl, List.suffix_refl _⟩
    · split
      · exact ⟨_, _, rfl, List.suffix_refl _⟩
      · split <;> exact ⟨_, _, rfl, List.suffix_refl _⟩

/-- **C86** (scanning ends): in any history, scanning a token that is not the first one of a command succeeds; it takes away some of the input, unless the input is exhausted, which gives a null token.  (For the
first token of a command see C85) -/
theorem C86_ends (kind : Nat → Kw) (x : Lx) (hx : Scanned kind x) (h0 : 0 ∉ x.rest) (cls : List Nat → Word) (fuel : Nat) (hf : x.rest.length < fuel) (hi : x.state ≠ .initial) (he : x.state ≠ .ended) :
    ∃ t y, x.getToken cls fuel = .ok (t, y) ∧ y.rest <:+ x.rest ∧ (y.rest.length < x.rest.length ∨ (y.rest = [] ∧ t = .chr 0)) := by
  have main : ∃ t y, x.scan cls fuel = .ok (t, y) ∧ y.rest <:+ x.rest ∧ (y.rest.length < x.rest.length ∨ (y.rest = [] ∧ t = .chr 0)) := by
    obtain ⟨v, h1, h2⟩ := skip_fine h0 hf
    have hk := keep_skip h1
    rw [Lx.scan, h1, Res.ok_bind]
    simp only
    cases hr : v.rest with
    | nil =>
      rw [shift_nil (by rfl)]
      exact ⟨.chr 0, _, rfl, List.nil_suffix, .inr ⟨rfl, rfl⟩⟩
    | cons c t =>
      rw [shift_cons (c := c) (t := t) (by rfl)]
      have ht : t <:+ x.rest := ((List.suffix_cons c t).trans (by rw [← hr])).trans h2
      have hl : t.length < x.rest.length := by
        have := h2.length_le
        rw [hr] at this
        simp at this
        omega
      have ht0 : 0 ∉ t := fun h => h0 (ht.subset h)
      generalize hz : ({ v with last := some c, rest := t, previous := v.prevent, prevent := 0 } : Lx) = z
      have zr : z.rest = t := by rw [← hz]
      have zk : Keep x z := by rw [← hz]; exact hk
      have key : ∀ r : Res (Tok × Lx), Fine z r → ∃ t y, r = .ok (t, y) ∧ y.rest <:+ x.rest ∧ (y.rest.length < x.rest.length ∨ (y.rest = [] ∧ t = .chr 0)) := by
        rintro r ⟨a, y, e, hs⟩
        rw [zr] at hs
        refine ⟨a, y, e, hs.trans ht, .inl ?_⟩
        have := hs.length_le
        omega
      apply key
      split
      · obtain ⟨s, y, e1, e2⟩ := run_fine (p := isWord) rfl (x := z) (acc := [c]) (fuel := fuel) (by rw [zr]; omega)
        have hy := zk.trans (keep_run isWord fuel [c] z s y e1)
        rw [e1, Res.ok_bind]
        refine (word_fine (x := y) ?_ cls s).of_suffix e2
        intro w hw
        have := scanned_sub hx w (by rw [← hy.2.1]; exact hw)
        rw [Lx.announced, hy.1]
        exact this
      · split
        · obtain ⟨s, y, e1, e2⟩ := run_fine (p := isDigit) rfl (x := z) (acc := [c]) (fuel := fuel) (by rw [zr]; omega)
          rw [e1, Res.ok_bind]
          exact ⟨_, _, rfl, e2⟩
        · exact symbol_fine (by rw [zr]; exact ht0) (by rw [zr]; omega) (by rw [zk.2.2]; exact hi)
  obtain ⟨t, y, e, h⟩ := main
  rw [Lx.getToken, if_neg he, e, Res.ok_bind]
  refine ⟨t, _, rfl, ?_⟩
  split
  · exact h
  · exact h

/-- `1+2`: after the first token the state is as needed -/
example : ∃ y, (Lx.make [49, 43, 50]).getToken (fun _ => .other) 9 = .ok (.int [49], y) ∧ Scanned (fun _ => .plain) y ∧ y.state = .normal ∧ y.rest = [43, 50] :=
  ⟨_, rfl, .token (fun _ => .other) (.make [49, 43, 50]) (fun _ _ _ h => by cases h) (fuel := 9) (t := .int [49]) rfl, rfl, rfl⟩

end Verif.Lex
