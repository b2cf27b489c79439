import Verif.Hash.Model
import Mathlib.Data.List.GetD
import Mathlib.Data.Nat.Find
import Mathlib.Tactic.Ring
/-
Invariant of open addressing and lemmas for the `HashTable` proofs.
-/
namespace Verif.Hash
set_option linter.unusedSectionVars false

variable {E : Type} [DecidableEq E] {W : Nat} {hash : E → Nat → Nat}

/-- the slots `s` index the entries `p` modulo `m` -/
structure Core (W : Nat) (hash : E → Nat → Nat) (m : Nat) (s : List Nat) (p : List E) : Prop where
  pos : 0 < m
  len : s.length = m
  small : p.length < W
  vals : ∀ h < m, s.getD h 0 ≠ empty W → s.getD h 0 < p.length
  path : ∀ i, ∀ hi : i < p.length, ∃ k < m, s.getD ((hash p[i] m + k) % m) 0 = i ∧
    ∀ k' < k, s.getD ((hash p[i] m + k') % m) 0 ≠ empty W
  cnt : s.countP (· ≠ empty W) = p.length

theorem step_eq {m h : Nat} (hh : h < m) : step m h = (h + 1) % m := by
  unfold step
  by_cases c : h + 1 = m
  · rw [if_pos c, c, Nat.mod_self]
  · rw [if_neg c, Nat.mod_eq_of_lt (by omega)]

theorem slot_ok {s : List Nat} {h : Nat} (hh : h < s.length) : slot s h = .ok (s.getD h 0) := by
  unfold slot; rw [List.getElem?_eq_getElem hh, List.getD_eq_getElem _ _ hh]

theorem entry_ok {p : List E} {i : Nat} (hi : i < p.length) : entry p i = .ok p[i] := by
  unfold entry; rw [List.getElem?_eq_getElem hi]

theorem freeLoop_run {s : List Nat} {m : Nat} (hl : s.length = m) : ∀ (d fuel h : Nat), h < m → d < fuel →
    s.getD ((h + d) % m) 0 = empty W → (∀ k' < d, s.getD ((h + k') % m) 0 ≠ empty W) →
    freeLoop W s m fuel h = .ok ((h + d) % m)
  | 0, 0, h, hh, hf, _, _ => absurd hf (by omega)
  | 0, f + 1, h, hh, hf, h0, h1 => by
    have e0 : (h + 0) % m = h := Nat.mod_eq_of_lt hh
    rw [e0] at h0 ⊢
    rw [freeLoop, slot_ok (by omega), Res.ok_bind, if_neg (by simpa using h0)]; rfl
  | d + 1, 0, h, hh, hf, _, _ => absurd hf (by omega)
  | d + 1, f + 1, h, hh, hf, h0, h1 => by
    have hne := h1 0 (by omega)
    rw [Nat.add_zero, Nat.mod_eq_of_lt hh] at hne
    rw [freeLoop, slot_ok (by omega), Res.ok_bind, if_pos hne, step_eq hh]
    have e : ∀ k, ((h + 1) % m + k) % m = (h + (k + 1)) % m := by
      intro k; rw [Nat.mod_add_mod]; congr 1; ring
    rw [freeLoop_run hl d f _ (Nat.mod_lt _ (by omega)) (by omega), e]
    · rw [e]; exact h0
    · intro k' hk'; rw [e]; exact h1 _ (by omega)

/-- first hit going round -/
theorem first_round {m : Nat} {P : Nat → Prop} {h0 : Nat} (h0m : h0 < m) (hP : P h0) {h : Nat} (hh : h < m) :
    ∃ d < m, P ((h + d) % m) ∧ ∀ k' < d, ¬ P ((h + k') % m) := by
  classical
  have hex : ∃ d, d < m ∧ P ((h + d) % m) := by
    by_cases c : h ≤ h0
    · exact ⟨h0 - h, by omega, by rwa [show h + (h0 - h) = h0 by omega, Nat.mod_eq_of_lt h0m]⟩
    · exact ⟨h0 + m - h, by omega, by rwa [show h + (h0 + m - h) = h0 + m by omega, Nat.add_mod_right, Nat.mod_eq_of_lt h0m]⟩
  refine ⟨Nat.find hex, (Nat.find_spec hex).1, (Nat.find_spec hex).2, fun k' hk' hp => ?_⟩
  exact Nat.find_min hex hk' ⟨by have := (Nat.find_spec hex).1; omega, hp⟩

theorem Core.exists_free {m : Nat} {s : List Nat} {p : List E} (h : Core W hash m s p) (hp : p.length < m) :
    ∃ h0 < m, s.getD h0 0 = empty W := by
  by_contra hc
  push Not at hc
  have hall : s.countP (· ≠ empty W) = s.length := by
    rw [List.countP_eq_length]
    intro a ha
    obtain ⟨i, hi, rfl⟩ := List.getElem_of_mem ha
    have := hc i (by rw [← h.len]; exact hi)
    rw [List.getD_eq_getElem _ _ hi] at this
    simpa using this
  rw [h.cnt, h.len] at hall
  omega

theorem Core.free {m : Nat} {s : List Nat} {p : List E} (h : Core W hash m s p) (hp : p.length < m) {g : Nat} (hg : g < m) :
    ∃ d < m, freeLoop W s m (m + 1) g = .ok ((g + d) % m) ∧ s.getD ((g + d) % m) 0 = empty W ∧
      ∀ k' < d, s.getD ((g + k') % m) 0 ≠ empty W := by
  obtain ⟨h0, h1, h2⟩ := h.exists_free hp
  obtain ⟨d, d1, d2, d3⟩ := first_round (P := fun i => s.getD i 0 = empty W) h1 h2 hg
  exact ⟨d, d1, freeLoop_run h.len d (m + 1) g hg (by omega) d2 d3, d2, d3⟩

theorem countP_set {s : List Nat} : ∀ {h v : Nat}, h < s.length → s.getD h 0 = empty W → v ≠ empty W →
    (s.set h v).countP (· ≠ empty W) = s.countP (· ≠ empty W) + 1 := by
  induction s with
  | nil => intro h v hh; simp at hh
  | cons a s ih =>
    intro h v hh he hv
    cases h with
    | zero =>
      rw [List.getD_cons_zero] at he
      rw [List.set_cons_zero, List.countP_cons_of_pos (by simpa using hv), List.countP_cons_of_neg (by simpa using he)]
    | succ h =>
      rw [List.getD_cons_succ] at he
      rw [List.set_cons_succ, List.countP_cons, List.countP_cons, ih (by simpa using hh) he hv]; omega

theorem getD_set' {l : List Nat} {i j v : Nat} (h : i < l.length) :
    (l.set i v).getD j 0 = if i = j then v else l.getD j 0 := by
  rw [List.getD_eq_getElem?_getD, List.getD_eq_getElem?_getD, List.getElem?_set]
  by_cases c : i = j
  · subst c; simp [h]
  · simp [c]

/-- adding an entry at the first free place of its probing sequence -/
theorem Core.add {m : Nat} {s : List Nat} {p : List E} (h : Core W hash m s p) {x : E} (hW : p.length + 1 < W)
    {d : Nat} (hd : d < m) (h1 : s.getD ((hash x m + d) % m) 0 = empty W)
    (h2 : ∀ k' < d, s.getD ((hash x m + k') % m) 0 ≠ empty W) :
    Core W hash m (s.set ((hash x m + d) % m) p.length) (p ++ [x]) := by
  have hv : p.length ≠ empty W := by unfold empty; omega
  have hlt : (hash x m + d) % m < s.length := by rw [h.len]; exact Nat.mod_lt _ h.pos
  have hkeep : ∀ j, s.getD j 0 ≠ empty W → (s.set ((hash x m + d) % m) p.length).getD j 0 = s.getD j 0 := by
    intro j hj
    rw [getD_set' hlt, if_neg]
    rintro rfl; exact hj h1
  refine ⟨h.pos, by rw [List.length_set]; exact h.len, by simpa using hW, ?_, ?_, ?_⟩
  · intro j hj hne
    rw [getD_set' hlt] at hne ⊢
    rw [List.length_append, List.length_singleton]
    by_cases c : (hash x m + d) % m = j
    · rw [if_pos c]; omega
    · rw [if_neg c] at hne ⊢
      have := h.vals j hj hne; omega
  · intro i hi
    rw [List.length_append, List.length_singleton] at hi
    by_cases c : i < p.length
    · rw [List.getElem_append_left c]
      obtain ⟨k, hk, k1, k2⟩ := h.path i c
      have hne : s.getD ((hash p[i] m + k) % m) 0 ≠ empty W := by
        rw [k1]; have := h.small; unfold empty; omega
      refine ⟨k, hk, by rw [hkeep _ hne]; exact k1, fun k' hk' => ?_⟩
      rw [hkeep _ (k2 k' hk')]; exact k2 k' hk'
    · obtain rfl : i = p.length := by omega
      rw [List.getElem_append_right (le_refl _)]
      simp only [Nat.sub_self, List.getElem_cons_zero]
      refine ⟨d, hd, by rw [getD_set' hlt, if_pos rfl], fun k' hk' => ?_⟩
      rw [hkeep _ (h2 k' hk')]; exact h2 k' hk'
  · rw [countP_set hlt h1 hv, h.cnt, List.length_append, List.length_singleton]

theorem num_eq {i : Nat} (h : i < W) : num W i = i := Nat.mod_eq_of_lt h

theorem rehashLoop_spec {m : Nat} (hh : ∀ x : E, hash x m < m) : ∀ (rest pre : List E) (s : List Nat),
    Core W hash m s pre → pre.length + rest.length < W → pre.length + rest.length ≤ m →
    ∃ s', rehashLoop W hash m rest pre.length s = .ok s' ∧ Core W hash m s' (pre ++ rest)
  | [], pre, s, h, _, _ => ⟨s, rfl, by simpa using h⟩
  | e :: rest, pre, s, h, hW, hm => by
    rw [List.length_cons] at hW hm
    obtain ⟨d, d1, d2, d3, d4⟩ := h.free (by omega) (hh e)
    have := h.add (x := e) (by omega) d1 d3 d4
    obtain ⟨s', e', c'⟩ := rehashLoop_spec hh rest (pre ++ [e]) _ this (by simp; omega) (by simp; omega)
    refine ⟨s', ?_, by simpa using c'⟩
    rw [rehashLoop, d2, Res.ok_bind, num_eq (by omega)]
    simpa using e'

theorem Core.init {m : Nat} (hm : 0 < m) (hW : 0 < W) : Core W hash m (List.replicate m (empty W)) ([] : List E) := by
  refine ⟨hm, by simp, by simpa using hW, ?_, by simp, by simp⟩
  intro h hh hne
  exact absurd (by rw [List.getD_eq_getElem _ _ (by simpa using hh)]; simp) hne

theorem rehash_spec {m : Nat} (hm : 0 < m) (hh : ∀ x : E, hash x m < m) {alloc : Nat → Bool} (ha : alloc m = true) {p : List E}
    (hW : p.length < W) (hp : p.length ≤ m) : ∃ s, rehash W hash alloc m p = .ok s ∧ Core W hash m s p := by
  unfold rehash
  rw [if_pos ha]
  simpa using rehashLoop_spec hh p [] _ (Core.init (W := W) (hash := hash) hm (by omega)) (by simpa using hW) (by simpa using hp)

/-- the searching loop -/
theorem findLoop_run {t : Table E} {x : E} (hl : t.slots.length = t.mod) : ∀ (d fuel h : Nat), h < t.mod → d < fuel →
    (t.slots.getD ((h + d) % t.mod) 0 = empty W ∨ (t.slots.getD ((h + d) % t.mod) 0 ≠ empty W ∧ t.pool[t.slots.getD ((h + d) % t.mod) 0]? = some x)) →
    (∀ k' < d, t.slots.getD ((h + k') % t.mod) 0 ≠ empty W ∧
      ∃ e, t.pool[t.slots.getD ((h + k') % t.mod) 0]? = some e ∧ e ≠ x) →
    findLoop W t x fuel h = .ok (t.slots.getD ((h + d) % t.mod) 0, (h + d) % t.mod)
  | 0, 0, h, hh, hf, _, _ => absurd hf (by omega)
  | 0, f + 1, h, hh, hf, h0, h1 => by
    have e0 : (h + 0) % t.mod = h := Nat.mod_eq_of_lt hh
    rw [e0] at h0 ⊢
    rw [findLoop, slot_ok (by omega), Res.ok_bind]
    rcases h0 with h0 | ⟨h0, h2⟩
    · rw [if_pos h0]; rfl
    · rw [if_neg h0]
      unfold entry
      rw [h2]
      simp
  | d + 1, 0, h, hh, hf, _, _ => absurd hf (by omega)
  | d + 1, f + 1, h, hh, hf, h0, h1 => by
    obtain ⟨hne, e, he, hx⟩ := h1 0 (by omega)
    rw [Nat.add_zero, Nat.mod_eq_of_lt hh] at hne he
    have key : ∀ k, ((h + 1) % t.mod + k) % t.mod = (h + (k + 1)) % t.mod := by
      intro k; rw [Nat.mod_add_mod]; congr 1; ring
    rw [findLoop, slot_ok (by omega), Res.ok_bind, if_neg hne]
    unfold entry
    rw [he]
    simp only [Res.ok_bind]
    rw [if_pos (Ne.symm hx), step_eq hh, findLoop_run hl d f _ (Nat.mod_lt _ (by omega)) (by omega), key]
    · rw [key]; exact h0
    · intro k' hk'; rw [key]; exact h1 _ (by omega)

theorem Core.find {m : Nat} {s : List Nat} {p : List E} (h : Core W hash m s p) (hp : p.length < m) {x : E} (hx : hash x m < m) :
    ∃ d < m, findLoop W ⟨m, s, p⟩ x (m + 1) (hash x m) = .ok (s.getD ((hash x m + d) % m) 0, (hash x m + d) % m) ∧
      ((s.getD ((hash x m + d) % m) 0 = empty W ∧ x ∉ p ∧ ∀ k' < d, s.getD ((hash x m + k') % m) 0 ≠ empty W) ∨
       (s.getD ((hash x m + d) % m) 0 ≠ empty W ∧ p[s.getD ((hash x m + d) % m) 0]? = some x)) := by
  obtain ⟨h0, h1, h2⟩ := h.exists_free hp
  obtain ⟨d, d1, d2, d3⟩ := first_round
    (P := fun i => s.getD i 0 = empty W ∨ (s.getD i 0 ≠ empty W ∧ p[s.getD i 0]? = some x)) h1 (.inl h2) hx
  have hrun := findLoop_run (W := W) (t := ⟨m, s, p⟩) (x := x) h.len d (m + 1) (hash x m) hx (by omega) d2 (by
    intro k' hk'
    have hn := d3 k' hk'
    push Not at hn
    refine ⟨hn.1, ?_⟩
    have hlt := h.vals _ (Nat.mod_lt (hash x m + k') h.pos) hn.1
    exact ⟨p[s.getD ((hash x m + k') % m) 0], List.getElem?_eq_getElem hlt, fun he => hn.2 hn.1 ((List.getElem?_eq_getElem hlt).trans (congrArg some he))⟩)
  refine ⟨d, d1, hrun, ?_⟩
  rcases d2 with d2 | d2
  · refine .inl ⟨d2, fun hm => ?_, fun k' hk' he => d3 k' hk' (.inl he)⟩
    obtain ⟨i, hi, rfl⟩ := List.getElem_of_mem hm
    obtain ⟨k, hk, k1, k2⟩ := h.path i hi
    have hie : i ≠ empty W := by have := h.small; unfold empty; omega
    rcases lt_trichotomy k d with c | c | c
    · exact d3 k c (.inr ⟨by rw [k1]; exact hie, by rw [k1]; exact List.getElem?_eq_getElem hi⟩)
    · subst c; rw [k1] at d2; exact hie d2
    · exact k2 d c d2
  · exact .inr d2

end Verif.Hash
