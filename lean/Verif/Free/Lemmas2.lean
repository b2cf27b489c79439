import Verif.Free.Iter
import Mathlib.Tactic.Ring
/-
What loops over an element compute: read-only loops, loops that change coefficients.
-/
set_option linter.unusedSectionVars false

namespace Verif.Free

open Verif

variable {T C : Type} [LinearOrder T] [CommRing C] [DecidableEq C]

/-- the terms at a list of positions -/
def entries (L : List (List (T × C))) (ps : List Pos) : List (T × C) := ps.filterMap (entryAt L)

theorem entries_sorted {L : List (List (T × C))} {ps : List Pos} (h : ps.Pairwise (KLt (shape L))) :
    (entries L ps).Pairwise (fun x y => x.1 < y.1) := by
  unfold entries
  rw [List.pairwise_filterMap]
  refine h.imp fun {p q} hpq a ha b hb => ?_
  exact hpq a.1 b.1 (by rw [keyAt_shape, ha]; rfl) (by rw [keyAt_shape, hb]; rfl)

theorem sorted_nodup {l : List (T × C)} (h : l.Pairwise (fun x y => x.1 < y.1)) : (l.map Prod.fst).Nodup := by
  rw [List.Nodup, List.pairwise_map]
  exact h.imp fun h => ne_of_lt h

theorem entries_mem {L : List (List (T × C))} {ps : List Pos}
    (hc : ∀ p t, entryAt L p = some t → p ∈ ps) (t : T × C) : t ∈ entries L ps ↔ t ∈ L.flatten := by
  unfold entries
  rw [List.mem_filterMap]
  constructor
  · rintro ⟨p, _, hp⟩; exact entryAt_mem hp
  · intro ht
    obtain ⟨p, hp⟩ := mem_entryAt ht
    exact ⟨p, hc p t hp, hp⟩

theorem entries_den {L : List (List (T × C))} (hL : Inv L) {ps : List Pos} (h : ps.Pairwise (KLt (shape L)))
    (hc : ∀ p t, entryAt L p = some t → p ∈ ps) (e : T) : denL (entries L ps) e = den L e := by
  have hm := entries_mem hc
  by_cases he : ∃ t ∈ L.flatten, t.1 = e
  · obtain ⟨t, ht, rfl⟩ := he
    rw [denL_mem (sorted_nodup (entries_sorted h)) ((hm t).2 ht), den_eq, denL_mem hL.2 ht]
  · push Not at he
    rw [den_eq, denL_notMem he, denL_notMem fun t ht => he t ((hm t).1 ht)]

/-- a fold whose steps may fail -/
def foldRes {S A : Type} (g : A → S → Res S) : S → List A → Res S
  | x, [] => .ok x
  | x, t :: l => do foldRes g (← g t x) l

/-- a read-only loop is a fold over the nonzero terms -/
theorem visits_const {S : Type} {P : List (List (T × C))} {body : Pos → S → Res S} {g : T × C → S → Res S}
    (hb : ∀ p t x, entryAt P p = some t → body p x = g t x) (ps : List Pos) (hv : ValidPos P ps) (x : S) :
    visits (fun _ => P) body x ps = foldRes g x ((entries P ps).filter (fun t => decide (t.2 ≠ 0))) := by
  induction ps generalizing x with
  | nil => rfl
  | cons p ps ih =>
    obtain ⟨t, ht⟩ := hv p List.mem_cons_self
    have hv' : ValidPos P ps := fun q hq => hv q (List.mem_cons_of_mem _ hq)
    rw [visits, visit, zeroAt_ok ht, Res.ok_bind]
    unfold entries
    rw [List.filterMap_cons_some ht]
    by_cases hz : t.2 = 0
    · rw [decide_eq_true hz, if_pos rfl, Res.ok_bind, List.filter_cons_of_neg (by simpa using hz)]
      exact ih hv' x
    · rw [decide_eq_false hz, if_neg (by simp), List.filter_cons_of_pos (by simpa using hz), foldRes, hb p t x ht]
      cases g t x with
      | ok y => rw [Res.ok_bind, Res.ok_bind]; exact ih hv' y
      | throw => rfl
      | assertFail => rfl
      | undefined => rfl
      | outOfFuel => rfl

/-- a loop that changes the coefficient at each visited position by `f` -/
theorem visits_update {S : Type} {getL : S → List (List (T × C))} {body : Pos → S → Res S} (I : S → Prop)
    (f : C → C)
    (hb : ∀ p x t, I x → entryAt (getL x) p = some t → ∃ x', body p x = .ok x' ∧ I x' ∧
      ∀ q, entryAt (getL x') q = if q = p then some (t.1, f t.2) else entryAt (getL x) q)
    (ps : List Pos) (x : S) (hx : I x) (hN : ps.Nodup) (hv : ValidPos (getL x) ps) :
    ∃ x', visits getL body x ps = .ok x' ∧ I x' ∧ ∀ q, entryAt (getL x') q =
      (entryAt (getL x) q).map (fun t => (t.1, if q ∈ ps ∧ t.2 ≠ 0 then f t.2 else t.2)) := by
  induction ps generalizing x with
  | nil => exact ⟨x, rfl, hx, fun q => by simp⟩
  | cons p ps ih =>
    rw [List.nodup_cons] at hN
    obtain ⟨t, ht⟩ := hv p List.mem_cons_self
    rw [visits, visit, zeroAt_ok ht, Res.ok_bind]
    by_cases hz : t.2 = 0
    · rw [decide_eq_true hz, if_pos rfl, Res.ok_bind]
      obtain ⟨x', h1, h2, h3⟩ := ih x hx hN.2 fun q hq => hv q (List.mem_cons_of_mem _ hq)
      refine ⟨x', h1, h2, fun q => ?_⟩
      rw [h3 q]
      by_cases hq : q = p
      · subst hq; rw [ht]; simp [hz]
      · simp [hq]
    · rw [decide_eq_false hz, if_neg (by simp)]
      obtain ⟨y, b1, b2, b3⟩ := hb p x t hx ht
      rw [b1, Res.ok_bind]
      obtain ⟨x', h1, h2, h3⟩ := ih y b2 hN.2 (by
        intro q hq
        obtain ⟨u, hu⟩ := hv q (List.mem_cons_of_mem _ hq)
        refine ⟨u, ?_⟩
        have hqp : q ≠ p := fun e => hN.1 (e ▸ hq)
        rw [b3 q, if_neg hqp, hu])
      refine ⟨x', h1, h2, fun q => ?_⟩
      rw [h3 q, b3 q]
      by_cases hq : q = p
      · subst hq
        rw [if_pos rfl, ht]
        simp [hz, hN.1]
      · rw [if_neg hq]; simp [hq]

/-- coefficients after such a loop -/
theorem update_den {L L' : List (List (T × C))} (hL : Inv L) (hL' : Inv L') {ps : List Pos} {f : C → C}
    (hc : ∀ p t, entryAt L p = some t → p ∈ ps)
    (h : ∀ q, entryAt L' q = (entryAt L q).map (fun t => (t.1, if q ∈ ps ∧ t.2 ≠ 0 then f t.2 else t.2))) (e : T) :
    den L' e = if den L e = 0 then 0 else f (den L e) := by
  by_cases he : ∃ t ∈ L.flatten, t.1 = e
  · obtain ⟨t, ht, rfl⟩ := he
    obtain ⟨p, hp⟩ := mem_entryAt ht
    have hq := h p
    rw [hp] at hq
    have := den_of_entry hL' hq
    simp only at this
    rw [this, den_of_entry hL hp]
    by_cases hz : t.2 = 0
    · simp [hz]
    · simp [hz, hc p t hp]
  · push Not at he
    have h0 : den L e = 0 := denL_notMem he
    rw [h0, if_pos rfl]
    refine denL_notMem fun t ht => ?_
    obtain ⟨p, hp⟩ := mem_entryAt ht
    rw [h p] at hp
    cases hu : entryAt L p with
    | none => rw [hu] at hp; cases hp
    | some u =>
      rw [hu] at hp
      cases hp
      exact he u (entryAt_mem hu)

/-- body of the read-only part: nonzero terms in order -/
theorem terms_spec {L : List (List (T × C))} (h : Inv L) : ∃ ps : List Pos,
    ps.Pairwise (KLt (shape L)) ∧ (∀ p t, entryAt L p = some t → p ∈ ps) ∧
    terms L = .ok ((entries L ps).filter (fun t => decide (t.2 ≠ 0))) := by
  obtain ⟨ps, h1, h2, h3, h4, x', h5, h6, -⟩ := forEach_spec (getL := fun _ : List (T × C) => L)
    (body := fun p acc => match entryAt L p with
      | some t => .ok (acc ++ [t])
      | none => .undefined) [] h (fun _ => True) trivial (fun _ _ => rfl) (by
        rintro p y - ⟨t, ht⟩
        exact ⟨y ++ [t], by rw [ht], trivial⟩)
  refine ⟨ps, h1, h4, ?_⟩
  have h5' : terms L = .ok x' := h5
  rw [h5', ← h6, visits_const (g := fun t acc => .ok (acc ++ [t])) (by
    intro p t x ht; rw [ht]) ps h3]
  have : ∀ (l acc : List (T × C)), foldRes (fun t acc => .ok (acc ++ [t])) acc l = .ok (acc ++ l) := by
    intro l
    induction l with
    | nil => intro acc; simp [foldRes]
    | cons t l ih => intro acc; rw [foldRes, Res.ok_bind, ih]; simp
  rw [this]; simp

/-- members of the list of terms -/
theorem terms_mem {L : List (List (T × C))} (h : Inv L) {ps : List Pos}
    (h2 : ∀ p t, entryAt L p = some t → p ∈ ps) (t : T × C) :
    t ∈ (entries L ps).filter (fun t => decide (t.2 ≠ 0)) ↔ t.2 ≠ 0 ∧ den L t.1 = t.2 := by
  rw [List.mem_filter, entries_mem h2]
  constructor
  · rintro ⟨ht, hz⟩
    exact ⟨by simpa using hz, denL_mem h.2 ht⟩
  · rintro ⟨hz, hd⟩
    refine ⟨?_, by simpa using hz⟩
    by_contra hn
    by_cases he : ∃ u ∈ L.flatten, u.1 = t.1
    · obtain ⟨u, hu, e⟩ := he
      have := denL_mem h.2 hu
      rw [e] at this
      apply hn
      have e2 : u = t := Prod.ext e (by rw [← this]; exact hd)
      exact e2 ▸ hu
    · push Not at he
      exact hz (hd ▸ denL_notMem he)

/-- the loop of `add_multiple` -/
theorem addFold {m : C} (l : List (T × C)) (hl : l.Pairwise (fun x y => x.1 < y.1))
    (L : List (List (T × C))) (v : List (T × C)) (hL : Inv L) (hv : v.Pairwise (fun x y => x.1 < y.1))
    (hd : ∀ x ∈ v, ∀ y ∈ L.flatten, x.1 ≠ y.1) (hlt : ∀ x ∈ v, ∀ y ∈ l, x.1 < y.1) :
    ∃ L' v', foldRes (fun (t : T × C) (x : List (List (T × C)) × List (T × C)) =>
        if m * t.2 ≠ 0 then
          match find x.1 t.1 with
          | some q => (do .ok (← addAt x.1 q (m * t.2), x.2) : Res _)
          | none => .ok (x.1, x.2 ++ [(t.1, m * t.2)])
        else .ok (x.1, x.2)) (L, v) l = .ok (L', v') ∧
      Inv L' ∧ v'.Pairwise (fun x y => x.1 < y.1) ∧ (∀ x ∈ v', ∀ y ∈ L'.flatten, x.1 ≠ y.1) ∧
      ∀ e, den L' e + denL v' e = den L e + denL v e + m * denL l e := by
  induction l generalizing L v with
  | nil => exact ⟨L, v, rfl, hL, hv, hd, fun e => by simp⟩
  | cons t l ih =>
    rw [List.pairwise_cons] at hl
    rw [foldRes]
    simp only
    by_cases hz : m * t.2 ≠ 0
    · rw [if_pos hz]
      obtain ⟨f1, f2⟩ := find_spec hL t.1
      cases hf : find L t.1 with
      | some q =>
        obtain ⟨c, hq⟩ := f1 q hf
        have hadd : addAt L q (m * t.2) = .ok (setAt L q (c + m * t.2)) := by unfold addAt; rw [hq]
        simp only
        rw [hadd, Res.ok_bind, Res.ok_bind]
        have hd' : ∀ x ∈ v, ∀ y ∈ (setAt L q (c + m * t.2)).flatten, x.1 ≠ y.1 := by
          intro x hx y hy
          have hy1 : y.1 ∈ (setAt L q (c + m * t.2)).flatten.map Prod.fst := List.mem_map_of_mem hy
          rw [← shape_flatten, shape_setAt, shape_flatten] at hy1
          obtain ⟨z, hz, e⟩ := List.mem_map.1 hy1
          rw [← e]; exact hd x hx z hz
        obtain ⟨L', v', r1, r2, r3, r4, r5⟩ := ih hl.2 (setAt L q (c + m * t.2)) v (inv_setAt hL q _) hv hd'
          (fun x hx y hy => hlt x hx y (List.mem_cons_of_mem _ hy))
        refine ⟨L', v', r1, r2, r3, r4, fun e => ?_⟩
        rw [r5 e, den_setAt hL hq, denL_cons]
        simp only
        by_cases he : e = t.1
        · subst he
          have hc : den L t.1 = c := den_of_entry hL hq
          rw [if_pos rfl, if_pos rfl, hc]; ring
        · rw [if_neg he, if_neg (fun h => he h.symm)]; ring
      | none =>
        simp only
        rw [Res.ok_bind]
        have hnone := f2 hf
        obtain ⟨L', v', r1, r2, r3, r4, r5⟩ := ih hl.2 L (v ++ [(t.1, m * t.2)]) hL (by
            rw [List.pairwise_append]
            refine ⟨hv, by simp, ?_⟩
            intro x hx y hy
            rw [List.mem_singleton] at hy; subst hy
            exact hlt x hx t List.mem_cons_self) (by
            intro x hx y hy
            rcases List.mem_append.1 hx with hx | hx
            · exact hd x hx y hy
            · rw [List.mem_singleton] at hx; subst hx
              exact fun e => hnone y hy e.symm) (by
            intro x hx y hy
            rcases List.mem_append.1 hx with hx | hx
            · exact hlt x hx y (List.mem_cons_of_mem _ hy)
            · rw [List.mem_singleton] at hx; subst hx
              exact hl.1 y hy)
        refine ⟨L', v', r1, r2, r3, r4, fun e => ?_⟩
        rw [r5 e, denL_append, denL_cons, denL_cons]
        simp only [denL_nil]
        by_cases he : t.1 = e
        · rw [if_pos he, if_pos he]; ring
        · rw [if_neg he, if_neg he]; ring
    · rw [if_neg hz, Res.ok_bind]
      obtain ⟨L', v', r1, r2, r3, r4, r5⟩ := ih hl.2 L v hL hv hd
          (fun x hx y hy => hlt x hx y (List.mem_cons_of_mem _ hy))
      refine ⟨L', v', r1, r2, r3, r4, fun e => ?_⟩
      push Not at hz
      rw [r5 e, denL_cons]
      by_cases he : t.1 = e
      · rw [if_pos he, mul_add, hz]; ring
      · rw [if_neg he]; ring

theorem denL_filter_nonzero (l : List (T × C)) (e : T) :
    denL (l.filter (fun t => decide (t.2 ≠ 0))) e = denL l e := by
  induction l with
  | nil => rfl
  | cons t l ih =>
    by_cases h : t.2 = 0
    · rw [List.filter_cons_of_neg (by simpa using h), ih, denL_cons, h]; simp
    · rw [List.filter_cons_of_pos (by simpa using h), denL_cons, denL_cons, ih]

end Verif.Free
