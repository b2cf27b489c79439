import Verif.Lex.Names
import Verif.Hash.Lemmas
import Mathlib.Data.List.Dedup
import Mathlib.Data.List.Nodup
import Mathlib.Tactic.IntervalCases
/-
C80: numbering of identifiers.
-/
namespace Verif.Lex
open Verif Hash

/-- the different strings of a list, in the order in which they first occur, after those of `acc` -/
def firsts (acc : List (List Nat)) : List (List Nat) → List (List Nat)
  | [] => acc
  | s :: l => firsts (if s ∈ acc then acc else acc ++ [s]) l

theorem hashStr_lt {m : Nat} (hm : 0 < m) (s : List Nat) : hashStr s m < m := by
  have : ∀ (s : List Nat) (r : Nat), r < m → s.foldl (fun r c => (c + r * 256) % m) r < m := by
    intro s
    induction s with
    | nil => intro r h; exact h
    | cons c s ih => intro r _; exact ih _ (Nat.mod_lt _ hm)
  cases s with
  | nil => exact hm
  | cons c s => exact this s _ (Nat.mod_lt _ hm)

abbrev CoreN (m : Nat) (s : List Nat) (p : List (List Nat)) : Prop := Core idW hashStr m s p

theorem free_run {m : Nat} {s : List Nat} {p : List (List Nat)} (h : CoreN m s p) (hp : p.length < m) {g : Nat} (hg : g < m) {fuel : Nat} (hf : m ≤ fuel) :
    ∃ d < m, freeLoop idW s m fuel g = .ok ((g + d) % m) ∧ s.getD ((g + d) % m) 0 = Hash.empty idW ∧ ∀ k' < d, s.getD ((g + k') % m) 0 ≠ Hash.empty idW := by
  obtain ⟨d, d1, _, d3, d4⟩ := h.free hp hg
  exact ⟨d, d1, freeLoop_run h.len d fuel g hg (by omega) d3 d4, d3, d4⟩

theorem extendLoop_spec {m fuel : Nat} (hf : m ≤ fuel) : ∀ (rest pre : List (List Nat)) (s : List Nat), CoreN m s pre → pre.length + rest.length < idW → pre.length + rest.length ≤ m →
    ∃ s', extendLoop fuel m rest pre.length s = .ok s' ∧ CoreN m s' (pre ++ rest)
  | [], pre, s, h, _, _ => ⟨s, rfl, by simpa using h⟩
  | e :: rest, pre, s, h, hW, hm => by
    rw [List.length_cons] at hW hm
    obtain ⟨d, d1, d2, d3, d4⟩ := free_run h (by omega) (hashStr_lt h.pos e) hf
    have := h.add (x := e) (by omega) d1 d3 d4
    obtain ⟨s', e', c'⟩ := extendLoop_spec hf rest (pre ++ [e]) _ this (by simp; omega) (by simp; omega)
    refine ⟨s', ?_, by simpa using c'⟩
    rw [extendLoop, d2, Res.ok_bind, Vec.put_ok (by rw [h.len]; exact Nat.mod_lt _ h.pos), Res.ok_bind, Nat.mod_eq_of_lt (show pre.length < idW by omega)]
    simpa using e'

theorem find_run {m : Nat} {s : List Nat} {p : List (List Nat)} (h : CoreN m s p) (hp : p.length < m) (x : List Nat) {fuel : Nat} (hf : m ≤ fuel) :
    ∃ d < m, findLoop idW ⟨m, s, p⟩ x fuel (hashStr x m) = .ok (s.getD ((hashStr x m + d) % m) 0, (hashStr x m + d) % m) ∧
      ((s.getD ((hashStr x m + d) % m) 0 = Hash.empty idW ∧ x ∉ p ∧ ∀ k' < d, s.getD ((hashStr x m + k') % m) 0 ≠ Hash.empty idW) ∨
       (s.getD ((hashStr x m + d) % m) 0 ≠ Hash.empty idW ∧ p[s.getD ((hashStr x m + d) % m) 0]? = some x)) := by
  have hx := hashStr_lt h.pos x
  obtain ⟨h0, h1, h2⟩ := h.exists_free hp
  obtain ⟨d, d1, d2, d3⟩ := first_round (P := fun i => s.getD i 0 = Hash.empty idW ∨ (s.getD i 0 ≠ Hash.empty idW ∧ p[s.getD i 0]? = some x)) h1 (.inl h2) hx
  have hrun := findLoop_run (W := idW) (t := ⟨m, s, p⟩) (x := x) h.len d fuel (hashStr x m) hx (by omega) d2 (by
    intro k' hk'
    have hn := d3 k' hk'
    push Not at hn
    refine ⟨hn.1, ?_⟩
    have hlt := h.vals _ (Nat.mod_lt (hashStr x m + k') h.pos) hn.1
    exact ⟨p[s.getD ((hashStr x m + k') % m) 0], List.getElem?_eq_getElem hlt, fun he => hn.2 hn.1 ((List.getElem?_eq_getElem hlt).trans (congrArg some he))⟩)
  refine ⟨d, d1, hrun, ?_⟩
  rcases d2 with d2 | d2
  · refine .inl ⟨d2, fun hm => ?_, fun k' hk' he => d3 k' hk' (.inl he)⟩
    obtain ⟨i, hi, rfl⟩ := List.getElem_of_mem hm
    obtain ⟨k, hk, k1, k2⟩ := h.path i hi
    have hie : i ≠ Hash.empty idW := by have := h.small; unfold Hash.empty; omega
    rcases lt_trichotomy k d with c | c | c
    · exact d3 k c (.inr ⟨by rw [k1]; exact hie, by rw [k1]; exact List.getElem?_eq_getElem hi⟩)
    · subst c; rw [k1] at d2; exact hie d2
    · exact k2 d c d2
  · exact .inr d2

/-- the state of the table after some number of calls: the slots index the strings, and the modulus is the one for this number of strings -/
structure NamesOk (t : Names) : Prop where
  core : CoreN t.mod t.slots t.pool
  nodup : t.pool.Nodup
  mod : ∃ k, k ≤ 9 ∧ t.mod = 96 * 2 ^ k + 1 ∧ t.pool.length ≤ maxFill t.mod ∧ (k = 0 ∨ maxFill (96 * 2 ^ (k - 1) + 1) < t.pool.length)

theorem NamesOk.lt {t : Names} (h : NamesOk t) : t.pool.length < t.mod ∧ t.mod ≤ 49153 ∧ t.pool.length ≤ 36864 := by
  obtain ⟨k, hk, hm, hl, _⟩ := h.mod
  rw [hm] at hl ⊢
  interval_cases k <;> simp [maxFill, idW] at hl ⊢ <;> omega

theorem init_ok : NamesOk (initNames initialMod) where
  core := Core.init (by decide) (by decide)
  nodup := List.nodup_nil
  mod := ⟨0, by omega, by decide, by simp [initNames], .inl rfl⟩

theorem doMatch_known {t : Names} (h : NamesOk t) {s : List Nat} (hs : s ∈ t.pool) {fuel : Nat} (hf : 65536 ≤ fuel) :
    ∃ n, doMatch fuel t s = .ok (n, t) ∧ t.pool[n]? = some s := by
  obtain ⟨l1, l2, _⟩ := h.lt
  obtain ⟨d, _, e, hc⟩ := find_run h.core l1 s (fuel := fuel) (by omega)
  rcases hc with ⟨_, hn, _⟩ | ⟨h1, h2⟩
  · exact absurd hs hn
  · exact ⟨_, by rw [doMatch, e, Res.ok_bind, if_pos h1]; rfl, h2⟩

theorem doMatch_new {t : Names} (h : NamesOk t) {s : List Nat} (hs : s ∉ t.pool) (hn : t.pool.length < 36864) {fuel : Nat} (hf : 65536 ≤ fuel) :
    ∃ t', doMatch fuel t s = .ok (t.pool.length, t') ∧ t'.pool = t.pool ++ [s] ∧ NamesOk t' := by
  obtain ⟨l1, l2, _⟩ := h.lt
  obtain ⟨d, hd, e, hc⟩ := find_run h.core l1 s (fuel := fuel) (by omega)
  have hnd : (t.pool ++ [s]).Nodup := List.nodup_append.2 ⟨h.nodup, by simp, fun a ha b hb => by rw [List.mem_singleton.1 hb]; rintro rfl; exact hs ha⟩
  rcases hc with ⟨h1, _, h3⟩ | ⟨_, h2⟩
  · obtain ⟨k, hk, hm, hl, hp⟩ := h.mod
    rw [doMatch, e, Res.ok_bind, if_neg (by simpa using h1)]
    by_cases hfull : t.pool.length ≥ maxFill t.mod
    · have hlen : t.pool.length = maxFill t.mod := le_antisymm hl hfull
      have hk8 : k ≤ 8 := by
        by_contra hc
        have : k = 9 := by omega
        subst this
        rw [hlen, hm] at hn
        simp [maxFill, idW] at hn
      have hm' : (2 * t.mod - 1) % idW = 96 * 2 ^ (k + 1) + 1 := by
        rw [hm]; interval_cases k <;> rfl
      have hb : t.pool.length < 96 * 2 ^ (k + 1) + 1 ∧ 96 * 2 ^ (k + 1) + 1 ≤ 49153 ∧ maxFill t.mod < maxFill (96 * 2 ^ (k + 1) + 1) := by
        rw [hlen, hm]; interval_cases k <;> simp [maxFill, idW]
      obtain ⟨tab, he, hcore⟩ := extendLoop_spec (m := 96 * 2 ^ (k + 1) + 1) (fuel := fuel) (by omega) t.pool [] _ (Core.init (W := idW) (hash := hashStr) (by omega) (by decide)) (by show _ < 65536; simp; omega) (by simp; omega)
      rw [List.nil_append] at hcore
      obtain ⟨d', d1, d2, d3, d4⟩ := free_run hcore hb.1 (hashStr_lt hcore.pos s) (fuel := fuel) (by omega)
      have hadd := hcore.add (x := s) (by show _ < 65536; omega) d1 d3 d4
      have hlt : (hashStr s (96 * 2 ^ (k + 1) + 1) + d') % (96 * 2 ^ (k + 1) + 1) < tab.length := by rw [hcore.len]; exact Nat.mod_lt _ hcore.pos
      rw [List.length_nil] at he
      simp only [if_pos hfull, hm']
      rw [he, Res.ok_bind, d2, Res.ok_bind, Vec.put_ok hlt, Res.ok_bind, Vec.get_ok (by rwa [List.length_set]), Res.ok_bind, Nat.mod_eq_of_lt (show t.pool.length < idW by show _ < 65536; omega), List.getElem_set_self]
      refine ⟨_, rfl, rfl, hadd, hnd, k + 1, by omega, rfl, ?_, .inr ?_⟩
      · simp only [List.length_append, List.length_singleton]; omega
      · simp only [List.length_append, List.length_singleton, Nat.add_sub_cancel]; rw [← hm]; omega
    · have hadd := h.core.add (x := s) (by show _ < 65536; omega) hd h1 h3
      have hlt : (hashStr s t.mod + d) % t.mod < t.slots.length := by rw [h.core.len]; exact Nat.mod_lt _ h.core.pos
      simp only [if_neg hfull]
      rw [Vec.put_ok hlt, Res.ok_bind, Vec.get_ok (by rwa [List.length_set]), Res.ok_bind, Nat.mod_eq_of_lt (show t.pool.length < idW by show _ < 65536; omega), List.getElem_set_self]
      refine ⟨_, rfl, rfl, hadd, hnd, k, hk, hm, ?_, hp.imp_right fun h => ?_⟩
      · simp only [List.length_append, List.length_singleton]; omega
      · simp only [List.length_append, List.length_singleton]; omega
  · exact absurd (List.mem_of_getElem? h2) hs

theorem firsts_prefix : ∀ (l acc : List (List Nat)), ∃ r, firsts acc l = acc ++ r
  | [], acc => ⟨[], by simp [firsts]⟩
  | s :: l, acc => by
    rw [firsts]
    by_cases h : s ∈ acc
    · rw [if_pos h]; exact firsts_prefix l acc
    · rw [if_neg h]
      obtain ⟨r, hr⟩ := firsts_prefix l (acc ++ [s])
      exact ⟨s :: r, by rw [hr]; simp⟩

theorem matchAll_spec {fuel : Nat} (hf : 65536 ≤ fuel) : ∀ (l : List (List Nat)) (t : Names), NamesOk t → (firsts t.pool l).length ≤ 36864 →
    ∃ ns t', matchAll fuel t l = .ok (ns, t') ∧ t'.pool = firsts t.pool l ∧ NamesOk t' ∧ List.Forall₂ (fun n s => t'.pool[n]? = some s) ns l
  | [], t, h, _ => ⟨[], t, rfl, rfl, h, .nil⟩
  | s :: l, t, h, hl => by
    rw [firsts] at hl ⊢
    have key : ∀ (n : Nat) (t1 : Names), doMatch fuel t s = .ok (n, t1) → NamesOk t1 → t1.pool[n]? = some s → t1.pool = (if s ∈ t.pool then t.pool else t.pool ++ [s]) →
        ∃ ns t', matchAll fuel t (s :: l) = .ok (ns, t') ∧ t'.pool = firsts (if s ∈ t.pool then t.pool else t.pool ++ [s]) l ∧ NamesOk t' ∧
          List.Forall₂ (fun n s => t'.pool[n]? = some s) ns (s :: l) := by
      intro n t1 e h1 hn hp
      rw [← hp] at hl ⊢
      obtain ⟨ns, t', e', hp', h', hf'⟩ := matchAll_spec hf l t1 h1 hl
      refine ⟨n :: ns, t', ?_, hp', h', .cons ?_ hf'⟩
      · rw [matchAll, e, Res.ok_bind]
        simp only [e', Res.ok_bind]
        rfl
      · obtain ⟨r, hr⟩ := firsts_prefix l t1.pool
        rw [hp', hr, List.getElem?_append_left (List.getElem?_eq_some_iff.1 hn).1, hn]
    by_cases hs : s ∈ t.pool
    · obtain ⟨n, e, hn⟩ := doMatch_known h hs hf
      exact key n t e h hn (by rw [if_pos hs])
    · rw [if_neg hs] at hl
      obtain ⟨r, hr⟩ := firsts_prefix l (t.pool ++ [s])
      obtain ⟨t1, e, hp, h1⟩ := doMatch_new h hs (by rw [hr] at hl; simp at hl; omega) hf
      exact key _ t1 e h1 (by rw [hp]; simp) (by rw [hp, if_neg hs])

/-- **C80** (partial: missing more strings than 36864, for which it fails): as long as there are at most 36864 different strings, each call of `match` succeeds, whatever strings are matched: the table stores the different strings in the order in which they first
occurred, each once, the number returned is the one for which `name_of` gives the string, and `knows` tells whether the string has been matched -/
theorem C80_numbering_partial (fuel : Nat) (hf : 65536 ≤ fuel) (l : List (List Nat)) (hl : (firsts [] l).length ≤ 36864) : ∃ ns t, matchAll fuel (initNames initialMod) l = .ok (ns, t) ∧
    t.pool = firsts [] l ∧ t.pool.Nodup ∧ nrEntries t = t.pool.length ∧ ns.length = l.length ∧
    (∀ (i n : Nat) (s : List Nat), ns[i]? = some n → l[i]? = some s → nameOf t n = .ok s) ∧ ∀ s, knows fuel t s = .ok (decide (s ∈ t.pool)) := by
  obtain ⟨ns, t, e, hp, h, h2⟩ := matchAll_spec hf l _ init_ok hl
  obtain ⟨l1, l2, l3⟩ := h.lt
  refine ⟨ns, t, e, hp, h.nodup, Nat.mod_eq_of_lt (by show _ < 65536; omega), h2.length_eq, fun i n s hn hs => ?_, fun s => ?_⟩
  · obtain ⟨hi, hi'⟩ := List.getElem?_eq_some_iff.1 hn
    obtain ⟨hj, hj'⟩ := List.getElem?_eq_some_iff.1 hs
    have := (List.forall₂_iff_get.1 h2).2 i hi hj
    simp only [List.get_eq_getElem, hi', hj'] at this
    rw [nameOf, Vec.get, this]
  · obtain ⟨d, _, e, hc⟩ := find_run h.core l1 s (fuel := fuel) (by omega)
    rw [knows, e, Res.ok_bind]
    rcases hc with ⟨h1, h3, _⟩ | ⟨h1, h3⟩
    · simp only [h1, ne_eq, not_true, decide_false, h3]; rfl
    · have := List.mem_of_getElem? h3
      simp only [h1, ne_eq, not_false_iff, decide_true, this]; rfl

theorem firsts_mem : ∀ (l acc : List (List Nat)) (s : List Nat), s ∈ firsts acc l ↔ s ∈ acc ∨ s ∈ l
  | [], acc, s => by simp [firsts]
  | x :: l, acc, s => by
    rw [firsts, firsts_mem l]
    by_cases h : x ∈ acc
    · rw [if_pos h]
      constructor
      · rintro (h | h) <;> simp [h]
      · rintro (h' | h')
        · exact .inl h'
        · rcases List.mem_cons.1 h' with rfl | h'
          · exact .inl h
          · exact .inr h'
    · rw [if_neg h, List.mem_append, List.mem_singleton, List.mem_cons, or_assoc]

/-- **C80** (consequence; partial in the same way): two strings get the same number if and only if they are equal, however many others are matched before, between and after -/
theorem C80_injective_partial (fuel : Nat) (hf : 65536 ≤ fuel) (l : List (List Nat)) (hl : (firsts [] l).length ≤ 36864) (ns : List Nat) (t : Names)
    (e : matchAll fuel (initNames initialMod) l = .ok (ns, t)) (i j : Nat) (hi : i < l.length) (hj : j < l.length) : ns[i]? = ns[j]? ↔ l[i]? = l[j]? := by
  obtain ⟨ns', t', e', hp, hn, _, hlen, hname, _⟩ := C80_numbering_partial fuel hf l hl
  rw [e] at e'
  cases e'
  have key : ∀ i (hi : i < l.length), ∃ n, ns[i]? = some n ∧ t.pool[n]? = some l[i] := fun i hi => by
    obtain ⟨n, hn⟩ : ∃ n, ns[i]? = some n := ⟨_, List.getElem?_eq_getElem (by omega)⟩
    refine ⟨n, hn, ?_⟩
    have := hname i n l[i] hn (List.getElem?_eq_getElem hi)
    rw [nameOf, Vec.get] at this
    cases hq : t.pool[n]? with
    | none => rw [hq] at this; cases this
    | some v => rw [hq] at this; cases this; rfl
  obtain ⟨n, n1, n2⟩ := key i hi
  obtain ⟨n', n1', n2'⟩ := key j hj
  rw [n1, n1', List.getElem?_eq_getElem hi, List.getElem?_eq_getElem hj, Option.some.injEq, Option.some.injEq]
  constructor
  · rintro rfl; rw [n2] at n2'; exact Option.some.inj n2'
  · intro h
    rw [← h] at n2'
    obtain ⟨a1, a2⟩ := List.getElem?_eq_some_iff.1 n2
    obtain ⟨b1, b2⟩ := List.getElem?_eq_some_iff.1 n2'
    exact (hn.getElem_inj_iff).1 (a2.trans b2.symm)

example : (firsts [] [[120], [121, 49], [120], [], [121]]).length ≤ 36864 := by decide

/-! ### A table that is full -/

theorem freeLoop_full {s : List Nat} {m : Nat} (hl : s.length = m) (hfull : ∀ h < m, s.getD h 0 ≠ Hash.empty idW) : ∀ (fuel h : Nat), h < m → freeLoop idW s m fuel h = .outOfFuel
  | 0, _, _ => rfl
  | fuel + 1, h, hh => by
    rw [freeLoop, slot_ok (by omega), Res.ok_bind, if_pos (hfull h hh), step_eq hh]
    exact freeLoop_full hl hfull fuel _ (Nat.mod_lt _ (by omega))

theorem extendLoop_full {m fuel : Nat} (hf : m ≤ fuel) (hm : 0 < m) (hmW : m < idW) {l : List (List Nat)} (hl : m < l.length) :
    extendLoop fuel m l 0 (List.replicate m (Hash.empty idW)) = .outOfFuel := by
  have happ : ∀ (a b : List (List Nat)) (i : Nat) (tab : List Nat), extendLoop fuel m (a ++ b) i tab = (extendLoop fuel m a i tab).bind fun tab => extendLoop fuel m b (i + a.length) tab := by
    intro a
    induction a with
    | nil => intro b i tab; rfl
    | cons s a ih =>
      intro b i tab
      rw [List.cons_append, extendLoop, extendLoop]
      cases freeLoop idW tab m fuel (hashStr s m) with
      | ok h =>
        rw [Res.ok_bind, Res.ok_bind]
        cases Vec.put tab h (i % idW) with
        | ok tab' => rw [Res.ok_bind, Res.ok_bind, ih, List.length_cons, show i + 1 + a.length = i + (a.length + 1) by omega]
        | _ => rfl
      | _ => rfl
  obtain ⟨s', e, hc⟩ := extendLoop_spec (m := m) hf (l.take m) [] _ (Core.init (W := idW) (hash := hashStr) hm (by decide)) (by simp; omega) (by simp)
  have hlen : (l.take m).length = m := by simp; omega
  rw [List.nil_append] at hc
  have hall : ∀ h < m, s'.getD h 0 ≠ Hash.empty idW := by
    intro h hh
    have : s'.countP (· ≠ Hash.empty idW) = s'.length := by rw [hc.cnt, hlen, hc.len]
    rw [List.countP_eq_length] at this
    rw [List.getD_eq_getElem _ _ (by rw [hc.len]; exact hh)]
    simpa using this _ (List.getElem_mem (by rw [hc.len]; exact hh))
  rw [← List.take_append_drop m l, happ]
  rw [List.length_nil] at e
  rw [e]
  have hd : l.drop m = l[m] :: l.drop (m + 1) := List.drop_eq_getElem_cons hl
  rw [Res.bind, hd, extendLoop, freeLoop_full hc.len hall fuel _ (hashStr_lt hm _)]
  rfl

theorem firsts_nodup : ∀ (l acc : List (List Nat)), (acc ++ l).Nodup → firsts acc l = acc ++ l
  | [], acc, _ => by simp [firsts]
  | s :: l, acc, h => by
    have hs : s ∉ acc := fun hm => (List.nodup_append.1 h).2.2 s hm s (by simp) rfl
    rw [firsts, if_neg hs, firsts_nodup l _ (by simpa using h)]
    simp

/-- **C80** (a limit): after 36864 different strings, matching any further string never ends (however many passes of the loops are allowed for): the number of slots `2*mod-1` is truncated to
16 bits, which makes it 32769, too few for the strings there are -/
theorem C80_unlimited_false (fuel : Nat) (hf : 65536 ≤ fuel) (l : List (List Nat)) (hn : l.Nodup) (hl : l.length = 36864) (s : List Nat) (hs : s ∉ l) :
    ∃ ns t, matchAll fuel (initNames initialMod) l = .ok (ns, t) ∧ doMatch fuel t s = .outOfFuel := by
  have hfl : firsts [] l = l := firsts_nodup l [] (by simpa using hn)
  obtain ⟨ns, t, e, hp, h, _⟩ := matchAll_spec hf l _ init_ok (by show (firsts [] l).length ≤ _; rw [hfl]; omega)
  have hp' : t.pool = l := hp.trans hfl
  refine ⟨ns, t, e, ?_⟩
  obtain ⟨l1, l2, _⟩ := h.lt
  have hmod : t.mod = 49153 := by
    obtain ⟨k, hk, hm, hle, hor⟩ := h.mod
    rw [hp', hl] at hle
    rw [hm] at hle ⊢
    interval_cases k <;> simp [maxFill, idW] at hle ⊢
  obtain ⟨d, _, e', hc⟩ := find_run h.core l1 s (fuel := fuel) (by omega)
  rcases hc with ⟨h1, _, _⟩ | ⟨_, h2⟩
  · rw [doMatch, e', Res.ok_bind, if_neg (by simpa using h1)]
    rw [if_pos (by rw [hp', hl, hmod]; decide)]
    have : (2 * t.mod - 1) % idW = 32769 := by rw [hmod, idW]
    simp only [this]
    rw [extendLoop_full (by omega) (by decide) (by decide) (by rw [hp', hl]; decide)]
    rfl
  · exact absurd (hp' ▸ List.mem_of_getElem? h2) hs

example : ((List.range 36864).map fun n => [n]).Nodup ∧ ((List.range 36864).map fun n => [n]).length = 36864 :=
  ⟨List.Nodup.map (fun a b h => by simpa using h) List.nodup_range, by simp⟩

end Verif.Lex
