import Verif.Free.Model
import Verif.Free.Spec
import Mathlib.Data.List.Flatten
import Mathlib.Data.List.Nodup
import Mathlib.Algebra.BigOperators.Group.List.Lemmas
import Mathlib.Tactic.Ring
import Mathlib.Tactic.SplitIfs
import Mathlib.Tactic.Push
/-
Positions, lookup and insertion.
-/
namespace Verif.Free

open Verif

variable {T C : Type} [LinearOrder T] [CommRing C]

/-! ### the denoted function -/

/-- denotation of a list of terms -/
def denL (l : List (T × C)) (e : T) : C := ((l.filter (fun t => decide (t.1 = e))).map Prod.snd).sum

theorem den_eq (L : List (List (T × C))) (e : T) : den L e = denL L.flatten e := rfl

@[simp] theorem denL_nil (e : T) : denL ([] : List (T × C)) e = 0 := rfl

theorem denL_cons (t : T × C) (l : List (T × C)) (e : T) :
    denL (t :: l) e = (if t.1 = e then t.2 else 0) + denL l e := by
  unfold denL
  by_cases h : t.1 = e
  · rw [List.filter_cons_of_pos (by simpa using h), if_pos h]; simp
  · rw [List.filter_cons_of_neg (by simpa using h), if_neg h]; simp

theorem denL_append (l m : List (T × C)) (e : T) : denL (l ++ m) e = denL l e + denL m e := by
  unfold denL; rw [List.filter_append, List.map_append, List.sum_append]

theorem denL_perm {l m : List (T × C)} (h : l.Perm m) (e : T) : denL l e = denL m e := by
  unfold denL
  exact (List.Perm.map _ (h.filter _)).sum_eq

theorem denL_zero {l : List (T × C)} (h : ∀ t ∈ l, t.2 = 0) (e : T) : denL l e = 0 := by
  induction l with
  | nil => rfl
  | cons t l ih =>
    rw [denL_cons, ih fun t ht => h t (List.mem_cons_of_mem _ ht), h t List.mem_cons_self]; simp

theorem denL_notMem {l : List (T × C)} {e : T} (h : ∀ t ∈ l, t.1 ≠ e) : denL l e = 0 := by
  induction l with
  | nil => rfl
  | cons t l ih =>
    rw [denL_cons, ih fun t ht => h t (List.mem_cons_of_mem _ ht), if_neg (h t List.mem_cons_self), add_zero]

theorem denL_mem {l : List (T × C)} (hn : (l.map Prod.fst).Nodup) {t : T × C} (h : t ∈ l) : denL l t.1 = t.2 := by
  induction l with
  | nil => cases h
  | cons u l ih =>
    rw [List.map_cons, List.nodup_cons] at hn
    rw [denL_cons]
    rcases List.mem_cons.1 h with rfl | h
    · rw [if_pos rfl, denL_notMem, add_zero]
      intro x hx e
      exact hn.1 (List.mem_map.2 ⟨x, hx, e⟩)
    · rw [ih hn.2 h, if_neg, zero_add]
      intro e
      exact hn.1 (List.mem_map.2 ⟨t, h, e.symm⟩)

/-! ### positions -/

omit [LinearOrder T] [CommRing C] in
theorem entryAt_mem {L : List (List (T × C))} {p : Pos} {t : T × C} (h : entryAt L p = some t) : t ∈ L.flatten := by
  unfold entryAt at h
  cases e : L[p.1]? with
  | none => rw [e] at h; cases h
  | some b =>
    rw [e] at h
    exact List.mem_flatten.2 ⟨b, List.mem_of_getElem? e, List.mem_of_getElem? h⟩

omit [LinearOrder T] [CommRing C] in
theorem mem_entryAt {L : List (List (T × C))} {t : T × C} (h : t ∈ L.flatten) : ∃ p, entryAt L p = some t := by
  obtain ⟨b, hb, ht⟩ := List.mem_flatten.1 h
  obtain ⟨i, hi⟩ := List.mem_iff_getElem?.1 hb
  obtain ⟨j, hj⟩ := List.mem_iff_getElem?.1 ht
  exact ⟨(i, j), by simp [entryAt, hi, hj]⟩

omit [LinearOrder T] [CommRing C] in
theorem keyAt_shape (L : List (List (T × C))) (p : Pos) : keyAt (shape L) p = (entryAt L p).map Prod.fst := by
  unfold keyAt entryAt shape
  rw [List.getElem?_map]
  cases L[p.1]? with
  | none => rfl
  | some b => simp

omit [LinearOrder T] [CommRing C] in
theorem shape_flatten (L : List (List (T × C))) : (shape L).flatten = L.flatten.map Prod.fst := by
  unfold shape; rw [List.map_flatten]

/-- condition on the exponents -/
def KInv (K : List (List T)) : Prop := (∀ b ∈ K, b ≠ [] ∧ b.Pairwise (· < ·)) ∧ K.flatten.Nodup

omit [CommRing C] in
theorem inv_iff (L : List (List (T × C))) : Inv L ↔ KInv (shape L) := by
  unfold Inv KInv
  rw [shape_flatten]
  refine and_congr_left fun _ => ?_
  unfold shape
  simp only [List.mem_map]
  constructor
  · rintro h _ ⟨b, hb, rfl⟩
    refine ⟨by simpa using (h b hb).1, ?_⟩
    rw [List.pairwise_map]; exact (h b hb).2
  · intro h b hb
    obtain ⟨h1, h2⟩ := h _ ⟨b, hb, rfl⟩
    rw [List.pairwise_map] at h2
    exact ⟨by simpa using h1, h2⟩

omit [LinearOrder T] in
theorem keyAt_inj {K : List (List T)} (h : K.flatten.Nodup) {p q : Pos} {a : T} (hp : keyAt K p = some a)
    (hq : keyAt K q = some a) : p = q := by
  rw [List.nodup_flatten] at h
  obtain ⟨h1, h2⟩ := h
  unfold keyAt at hp hq
  cases e1 : K[p.1]? with
  | none => rw [e1] at hp; cases hp
  | some b =>
    cases e2 : K[q.1]? with
    | none => rw [e2] at hq; cases hq
    | some c =>
      rw [e1] at hp; rw [e2] at hq
      simp only [Option.bind_some] at hp hq
      obtain ⟨hp1, hb⟩ := List.getElem?_eq_some_iff.1 e1
      obtain ⟨hq1, hc⟩ := List.getElem?_eq_some_iff.1 e2
      have hpq : p.1 = q.1 := by
        by_contra hne
        rw [List.pairwise_iff_getElem] at h2
        rcases Nat.lt_or_gt_of_ne hne with hlt | hlt
        · have := h2 _ _ hp1 hq1 hlt
          rw [hb, hc] at this
          exact this (List.mem_of_getElem? hp) (List.mem_of_getElem? hq)
        · have := h2 _ _ hq1 hp1 hlt
          rw [hb, hc] at this
          exact this (List.mem_of_getElem? hq) (List.mem_of_getElem? hp)
      have hbc : b = c := by
        rw [← hb, ← hc]; congr 1
      subst hbc
      have hnd := h1 b (List.mem_of_getElem? e1)
      obtain ⟨hp2, hpv⟩ := List.getElem?_eq_some_iff.1 hp
      obtain ⟨hq2, hqv⟩ := List.getElem?_eq_some_iff.1 hq
      have := (List.Nodup.getElem_inj_iff hnd).1 (hpv.trans hqv.symm)
      exact Prod.ext hpq this

omit [LinearOrder T] [CommRing C] in
theorem shape_setAt (L : List (List (T × C))) (p : Pos) (c : C) : shape (setAt L p c) = shape L := by
  unfold shape setAt
  refine List.ext_getElem? fun i => ?_
  rw [List.getElem?_map, List.getElem?_map, List.getElem?_modify]
  cases L[i]? with
  | none => rfl
  | some b =>
    by_cases h : p.1 = i
    · subst h
      simp only [if_true, Option.map_eq_map, Option.map_some]
      congr 1
      refine List.ext_getElem? fun j => ?_
      rw [List.getElem?_map, List.getElem?_map, List.getElem?_modify]
      cases b[j]? with
      | none => rfl
      | some t =>
        by_cases h : p.2 = j
        · subst h; simp
        · simp [h]
    · simp [h]

omit [LinearOrder T] [CommRing C] in
theorem entryAt_setAt {L : List (List (T × C))} {p : Pos} {t : T × C} (hp : entryAt L p = some t) (c : C) (q : Pos) :
    entryAt (setAt L p c) q = if q = p then some (t.1, c) else entryAt L q := by
  unfold entryAt setAt at *
  rw [List.getElem?_modify]
  by_cases h1 : p.1 = q.1
  · rw [← h1]
    cases e : L[p.1]? with
    | none => rw [e] at hp; cases hp
    | some b =>
      rw [e] at hp
      simp only [Option.bind_some] at hp
      simp only [if_true, Option.map_eq_map, Option.map_some, Option.bind_some]
      rw [List.getElem?_modify]
      by_cases h2 : p.2 = q.2
      · have : q = p := Prod.ext h1.symm h2.symm
        rw [if_pos this, ← h2, hp]; simp
      · have : q ≠ p := fun e => h2 (by rw [e])
        rw [if_neg this]
        cases b[q.2]? <;> simp [h2]
  · have : q ≠ p := fun e => h1 (by rw [e])
    rw [if_neg this]
    cases L[q.1]? <;> simp [h1]

theorem den_of_entry {L : List (List (T × C))} (h : Inv L) {p : Pos} {t : T × C} (hp : entryAt L p = some t) :
    den L t.1 = t.2 := denL_mem h.2 (entryAt_mem hp)

omit [CommRing C] in
theorem entry_unique {L : List (List (T × C))} (h : Inv L) {p q : Pos} {t u : T × C} (hp : entryAt L p = some t)
    (hq : entryAt L q = some u) (e : t.1 = u.1) : p = q := by
  have hk := ((inv_iff L).1 h).2
  refine keyAt_inj hk (a := t.1) ?_ ?_
  · rw [keyAt_shape, hp]; rfl
  · rw [keyAt_shape, hq, e]; rfl

omit [CommRing C] in
theorem inv_setAt {L : List (List (T × C))} (h : Inv L) (p : Pos) (c : C) : Inv (setAt L p c) := by
  rw [inv_iff, shape_setAt, ← inv_iff]; exact h

theorem den_setAt {L : List (List (T × C))} (h : Inv L) {p : Pos} {t : T × C} (hp : entryAt L p = some t) (c : C)
    (e : T) : den (setAt L p c) e = if e = t.1 then c else den L e := by
  have h' := inv_setAt h p c
  have hE := entryAt_setAt hp c
  by_cases he : e = t.1
  · rw [if_pos he, he]
    have := hE p
    rw [if_pos rfl] at this
    exact den_of_entry h' this
  · rw [if_neg he]
    by_cases hex : ∃ u ∈ L.flatten, u.1 = e
    · obtain ⟨u, hu, rfl⟩ := hex
      obtain ⟨q, hq⟩ := mem_entryAt hu
      have hne : q ≠ p := by
        rintro rfl
        rw [hp] at hq; cases hq; exact he rfl
      have := hE q
      rw [if_neg hne, hq] at this
      rw [den_of_entry h' this, den_of_entry h hq]
    · push Not at hex
      rw [den_eq, den_eq, denL_notMem hex, denL_notMem]
      intro u hu hue
      obtain ⟨q, hq⟩ := mem_entryAt hu
      rw [hE] at hq
      by_cases hqp : q = p
      · rw [if_pos hqp] at hq; cases hq; exact he hue.symm
      · rw [if_neg hqp] at hq; exact hex u (entryAt_mem hq) hue

/-! ### lookup -/

omit [CommRing C] in
theorem lowerBound_spec {b : List (T × C)} (h : b.Pairwise (fun x y => x.1 < y.1)) (e : T) :
    (∀ t, b[lowerBound b e]? = some t → e ≤ t.1) ∧
    ∀ t ∈ b, t.1 = e → b[lowerBound b e]? = some t := by
  induction b with
  | nil => simp [lowerBound]
  | cons x b ih =>
    rw [List.pairwise_cons] at h
    unfold lowerBound at ih ⊢
    by_cases hx : x.1 < e
    · rw [List.takeWhile_cons_of_pos (by simpa using hx), List.length_cons, List.getElem?_cons_succ]
      refine ⟨(ih h.2).1, fun t ht he => ?_⟩
      rcases List.mem_cons.1 ht with rfl | ht
      · exact absurd he (ne_of_lt hx)
      · exact (ih h.2).2 t ht he
    · rw [List.takeWhile_cons_of_neg (by simpa using hx), List.length_nil, List.getElem?_cons_zero]
      refine ⟨fun t ht => ?_, fun t ht he => ?_⟩
      · cases ht; exact not_lt.1 hx
      · rcases List.mem_cons.1 ht with rfl | ht
        · rfl
        · exact absurd (he ▸ h.1 t ht) hx

omit [CommRing C] in
theorem findFrom_spec (e : T) (k : Nat) (L : List (List (T × C)))
    (hs : ∀ b ∈ L, b.Pairwise (fun x y => x.1 < y.1)) :
    (∀ p, findFrom e k L = some p → k ≤ p.1 ∧ ∃ t, entryAt L (p.1 - k, p.2) = some t ∧ t.1 = e) ∧
    (findFrom e k L = none → ∀ t ∈ L.flatten, t.1 ≠ e) := by
  induction L generalizing k with
  | nil => simp [findFrom]
  | cons b L ih =>
    obtain ⟨i1, i2⟩ := ih (k+1) fun b hb => hs b (List.mem_cons_of_mem _ hb)
    obtain ⟨l1, l2⟩ := lowerBound_spec (hs b List.mem_cons_self) e
    have hrec : (findFrom e k (b :: L) = findFrom e (k+1) L) → (∀ t ∈ b, t.1 ≠ e) →
        (∀ p, findFrom e k (b :: L) = some p →
          k ≤ p.1 ∧ ∃ t, entryAt (b :: L) (p.1 - k, p.2) = some t ∧ t.1 = e) ∧
        (findFrom e k (b :: L) = none → ∀ t ∈ (b :: L).flatten, t.1 ≠ e) := by
      intro heq hb
      rw [heq]
      refine ⟨fun p hp => ?_, fun hn t ht => ?_⟩
      · obtain ⟨h1, t, h2, h3⟩ := i1 p hp
        refine ⟨by omega, t, ?_, h3⟩
        unfold entryAt at h2 ⊢
        rw [show p.1 - k = (p.1 - (k+1)) + 1 by omega, List.getElem?_cons_succ]
        exact h2
      · rw [List.flatten_cons, List.mem_append] at ht
        rcases ht with ht | ht
        · exact hb t ht
        · exact i2 hn t ht
    cases hg : b[lowerBound b e]? with
    | none =>
      refine hrec (by rw [findFrom, hg]) fun t ht he => ?_
      rw [l2 t ht he] at hg; cases hg
    | some u =>
      have hle := l1 u hg
      by_cases hlt : e < u.1
      · refine hrec (by rw [findFrom, hg]; simp only; rw [if_neg (by simpa using hlt)]) fun t ht he => ?_
        rw [l2 t ht he] at hg; cases hg
        exact absurd he.symm (ne_of_lt hlt)
      · have : findFrom e k (b :: L) = some (k, lowerBound b e) := by
          rw [findFrom, hg]; simp only; rw [if_pos hlt]
        rw [this]
        refine ⟨fun p hp => ?_, by simp⟩
        cases hp
        refine ⟨Nat.le_refl _, u, ?_, le_antisymm (not_lt.1 hlt) hle⟩
        simp [entryAt, hg]

omit [CommRing C] in
theorem find_spec {L : List (List (T × C))} (h : Inv L) (e : T) :
    (∀ p, find L e = some p → ∃ c, entryAt L p = some (e, c)) ∧
    (find L e = none → ∀ t ∈ L.flatten, t.1 ≠ e) := by
  obtain ⟨h1, h2⟩ := findFrom_spec e 0 L fun b hb => (h.1 b hb).2
  refine ⟨fun p hp => ?_, h2⟩
  obtain ⟨-, t, ht, he⟩ := h1 p hp
  exact ⟨t.2, by rw [← he]; exact ht⟩

/-! ### merging and insertion -/

variable [DecidableEq C]

/-- what merging does: the terms of both lists except some with zero coefficient -/
theorem mergeBlock_spec (b org : List (T × C)) (hb : b.Pairwise (fun x y => x.1 < y.1))
    (ho : org.Pairwise (fun x y => x.1 < y.1)) (hd : ∀ x ∈ b, ∀ y ∈ org, x.1 ≠ y.1) :
    (mergeBlock (fun x y => decide (x < y)) b org).Pairwise (fun x y => x.1 < y.1) ∧
    (∃ z, (∀ t ∈ z, t.2 = 0) ∧ (b ++ org).Perm (mergeBlock (fun x y => decide (x < y)) b org ++ z)) ∧
    (org ≠ [] → mergeBlock (fun x y => decide (x < y)) b org ≠ []) := by
  induction b generalizing org with
  | nil => exact ⟨ho, ⟨[], by simp, by simp [mergeBlock]⟩, fun h => h⟩
  | cons e b ih =>
    rw [List.pairwise_cons] at hb
    have hdb : ∀ x ∈ b, ∀ y ∈ org, x.1 ≠ y.1 := fun x hx => hd x (List.mem_cons_of_mem _ hx)
    rw [mergeBlock]
    by_cases hz : e.2 ≠ 0
    · rw [if_pos hz]
      have hsplit := List.takeWhile_append_dropWhile (p := fun t : T × C => decide (t.1 < e.1)) (l := org)
      have htk : ∀ t ∈ org.takeWhile (fun t => decide (t.1 < e.1)), t.1 < e.1 := by
        intro t ht; have := List.all_takeWhile (p := fun t : T × C => decide (t.1 < e.1)) (l := org)
        rw [List.all_eq_true] at this
        simpa using this t ht
      have hdr : ∀ t ∈ org.dropWhile (fun t => decide (t.1 < e.1)), e.1 < t.1 := by
        -- the first one dropped to is not below e, the others are above it
        have hpw : (org.dropWhile (fun t => decide (t.1 < e.1))).Pairwise (fun x y => x.1 < y.1) :=
          ho.sublist (List.dropWhile_sublist _)
        cases hdw : org.dropWhile (fun t => decide (t.1 < e.1)) with
        | nil => simp
        | cons u r =>
          have hu : ¬ (u.1 < e.1) := by
            have := List.head_dropWhile_not (fun t : T × C => decide (t.1 < e.1)) (l := org) (by rw [hdw]; simp)
            simpa [hdw] using this
          have hue : e.1 < u.1 := lt_of_le_of_ne (not_lt.1 hu) (hd e List.mem_cons_self u
            ((List.dropWhile_sublist _).subset (by rw [hdw]; exact List.mem_cons_self)))
          rw [hdw, List.pairwise_cons] at hpw
          intro t ht
          rcases List.mem_cons.1 ht with rfl | ht
          · exact hue
          · exact lt_trans hue (hpw.1 t ht)
      generalize hA : org.takeWhile (fun t => decide (t.1 < e.1)) = A at *
      generalize hB : org.dropWhile (fun t => decide (t.1 < e.1)) = B at *
      have hAB : (A ++ B).Pairwise (fun x y => x.1 < y.1) := by rw [hsplit]; exact ho
      rw [List.pairwise_append] at hAB
      obtain ⟨i1, ⟨z, z1, z2⟩, i3⟩ := ih B hb.2 hAB.2.1 (fun x hx y hy => hdb x hx y (by
        rw [← hsplit]; exact List.mem_append_right _ hy))
      have hmem : ∀ y ∈ mergeBlock (fun x y => decide (x < y)) b B, e.1 < y.1 := by
        intro y hy
        have : y ∈ b ++ B := z2.symm.subset (List.mem_append_left _ hy)
        rcases List.mem_append.1 this with h | h
        · exact hb.1 y h
        · exact hdr y h
      refine ⟨?_, ⟨z, z1, ?_⟩, fun _ => by simp⟩
      · rw [List.pairwise_append, List.pairwise_cons]
        refine ⟨hAB.1, ⟨hmem, i1⟩, fun x hx y hy => ?_⟩
        rcases List.mem_cons.1 hy with rfl | hy
        · exact htk x hx
        · exact lt_trans (htk x hx) (hmem y hy)
      · calc (e :: b ++ org).Perm (e :: b ++ (A ++ B)) := by rw [hsplit]
          _ = e :: (b ++ (A ++ B)) := rfl
          List.Perm _ (e :: (A ++ (b ++ B))) := by
            refine List.Perm.cons _ ?_
            rw [← List.append_assoc, ← List.append_assoc]
            exact List.Perm.append_right _ List.perm_append_comm
          List.Perm _ (A ++ e :: (b ++ B)) := List.perm_middle.symm
          List.Perm _ (A ++ e :: (mergeBlock (fun x y => decide (x < y)) b B ++ z)) :=
            List.Perm.append_left _ (List.Perm.cons _ z2)
          _ = _ := by simp
    · rw [if_neg hz]
      obtain ⟨i1, ⟨z, z1, z2⟩, i3⟩ := ih org hb.2 ho hdb
      refine ⟨i1, ⟨e :: z, ?_, ?_⟩, i3⟩
      · intro t ht
        rcases List.mem_cons.1 ht with rfl | ht
        · exact not_not.1 hz
        · exact z1 t ht
      · rw [List.cons_append]
        exact (List.Perm.cons e z2).trans List.perm_middle.symm

/-- `M` holds the terms of `l`, except some with zero coefficient, in a correct list of blocks -/
def Holds (M : List (List (T × C))) (l : List (T × C)) : Prop :=
  Inv M ∧ ∃ z, (∀ t ∈ z, t.2 = 0) ∧ l.Perm (M.flatten ++ z)

omit [DecidableEq C] in
theorem Holds.den {M : List (List (T × C))} {l : List (T × C)} (h : Holds M l) (e : T) : den M e = denL l e := by
  obtain ⟨_, z, hz, hp⟩ := h
  rw [denL_perm hp, denL_append, denL_zero hz, add_zero]; rfl

omit [CommRing C] [DecidableEq C] in
theorem inv_perm {L M : List (List (T × C))} (h : L.Perm M) : Inv L ↔ Inv M := by
  unfold Inv
  refine and_congr ⟨fun hh b hb => hh b (h.symm.subset hb), fun hh b hb => hh b (h.subset hb)⟩ ?_
  exact (h.flatten.map _).nodup_iff

omit [CommRing C] [DecidableEq C] in
theorem inv_cons {b : List (T × C)} {L : List (List (T × C))} : Inv (b :: L) ↔
    b ≠ [] ∧ b.Pairwise (fun x y => x.1 < y.1) ∧ (∀ x ∈ b, ∀ y ∈ L.flatten, x.1 ≠ y.1) ∧ Inv L := by
  unfold Inv
  rw [List.flatten_cons, List.map_append, List.nodup_append]
  constructor
  · rintro ⟨h1, h2, h3, h4⟩
    refine ⟨(h1 b List.mem_cons_self).1, (h1 b List.mem_cons_self).2, ?_, fun c hc => h1 c (List.mem_cons_of_mem _ hc), h3⟩
    intro x hx y hy
    exact h4 _ (List.mem_map_of_mem hx) _ (List.mem_map_of_mem hy)
  · rintro ⟨h1, h2, h3, h4, h5⟩
    refine ⟨?_, ?_, h5, ?_⟩
    · intro c hc
      rcases List.mem_cons.1 hc with rfl | hc
      · exact ⟨h1, h2⟩
      · exact h4 c hc
    · refine List.Pairwise.imp (fun h => ne_of_lt h) (List.pairwise_map.2 h2)
    · intro x hx y hy
      obtain ⟨x', hx', rfl⟩ := List.mem_map.1 hx
      obtain ⟨y', hy', rfl⟩ := List.mem_map.1 hy
      exact h3 x' hx' y' hy'

theorem merge_holds {b v : List (T × C)} {R : List (List (T × C))} (h : Inv (v :: b :: R)) :
    Inv (mergeBlock (fun x y => decide (x < y)) b v :: R) ∧
    ∃ z, (∀ t ∈ z, t.2 = 0) ∧ (v ++ b).Perm (mergeBlock (fun x y => decide (x < y)) b v ++ z) := by
  rw [inv_cons, inv_cons] at h
  obtain ⟨v1, v2, v3, b1, b2, b3, hR⟩ := h
  have hdis : ∀ x ∈ b, ∀ y ∈ v, x.1 ≠ y.1 := fun x hx y hy e =>
    v3 y hy x (by rw [List.flatten_cons]; exact List.mem_append_left _ hx) e.symm
  obtain ⟨m1, ⟨z, z1, z2⟩, m3⟩ := mergeBlock_spec b v b2 v2 hdis
  refine ⟨inv_cons.2 ⟨m3 v1, m1, ?_, hR⟩, z, z1, List.perm_append_comm.trans z2⟩
  intro x hx y hy
  have : x ∈ b ++ v := z2.symm.subset (List.mem_append_left _ hx)
  rcases List.mem_append.1 this with hx | hx
  · exact b3 x hx y hy
  · exact v3 x hx y (by rw [List.flatten_cons]; exact List.mem_append_right _ hy)

theorem fuse_holds (prev : List (List (T × C))) (b v : List (T × C)) (rest : List (List (T × C)))
    (h : Inv (v :: b :: (prev ++ rest))) :
    Holds (fuse (fun x y => decide (x < y)) prev b v rest) (v ++ b ++ (prev ++ rest).flatten) := by
  induction prev generalizing b v with
  | nil =>
    obtain ⟨h1, z, z1, z2⟩ := merge_holds h
    refine ⟨h1, z, z1, ?_⟩
    rw [fuse, List.flatten_cons, List.nil_append]
    have := List.Perm.append_right rest.flatten z2
    refine this.trans ?_
    rw [List.append_assoc, List.append_assoc]
    exact List.Perm.append_left _ List.perm_append_comm
  | cons p prev ih =>
    obtain ⟨h1, z, z1, z2⟩ := merge_holds h
    rw [fuse]
    have key : (v ++ b ++ (p :: prev ++ rest).flatten).Perm
        (mergeBlock (fun x y => decide (x < y)) b v ++ (p :: prev ++ rest).flatten ++ z) := by
      refine (List.Perm.append_right _ z2).trans ?_
      rw [List.append_assoc, List.append_assoc]
      exact List.Perm.append_left _ List.perm_append_comm
    by_cases hc : p.length < 2 * (mergeBlock (fun x y => decide (x < y)) b v).length
    · rw [if_pos hc]
      obtain ⟨i1, y, y1, y2⟩ := ih p (mergeBlock (fun x y => decide (x < y)) b v) h1
      refine ⟨i1, y ++ z, ?_, ?_⟩
      · intro t ht
        rcases List.mem_append.1 ht with ht | ht
        · exact y1 t ht
        · exact z1 t ht
      · refine key.trans ?_
        rw [← List.append_assoc]
        refine List.Perm.append_right z ?_
        rw [List.cons_append, List.flatten_cons, ← List.append_assoc]
        exact y2
    · rw [if_neg hc]
      have hperm : ((p :: prev).reverse ++ mergeBlock (fun x y => decide (x < y)) b v :: rest).Perm
          (mergeBlock (fun x y => decide (x < y)) b v :: (p :: prev ++ rest)) := by
        refine List.perm_middle.trans (List.Perm.cons _ ?_)
        exact List.Perm.append_right _ (List.reverse_perm _)
      refine ⟨(inv_perm hperm).2 h1, z, z1, key.trans ?_⟩
      refine List.Perm.append_right z ?_
      have := hperm.flatten.symm
      rwa [List.flatten_cons] at this

theorem insertFrom_holds (v : List (T × C)) (prev L : List (List (T × C))) (h : Inv (v :: (prev ++ L))) :
    Holds (insertFrom (fun x y => decide (x < y)) v prev L) (v ++ (prev ++ L).flatten) := by
  induction L generalizing prev with
  | nil =>
    rw [insertFrom]
    have hperm : (prev.reverse ++ [v]).Perm (v :: (prev ++ [])) := by
      refine List.perm_append_comm.trans ?_
      rw [List.append_nil]
      exact List.Perm.cons _ (List.reverse_perm _)
    refine ⟨(inv_perm hperm).2 h, [], by simp, ?_⟩
    rw [List.append_nil ((prev.reverse ++ [v]).flatten)]
    have := hperm.flatten.symm
    rwa [List.flatten_cons] at this
  | cons b L ih =>
    rw [insertFrom]
    have hmid : (prev ++ b :: L).Perm (b :: (prev ++ L)) := List.perm_middle
    by_cases h1 : b.length < 2 * v.length
    · rw [if_pos h1]
      by_cases h2 : ¬ (v.length < 2 * b.length)
      · rw [if_pos h2]
        have hperm : (prev.reverse ++ v :: b :: L).Perm (v :: (prev ++ b :: L)) := by
          refine List.perm_middle.trans (List.Perm.cons _ ?_)
          exact List.Perm.append_right _ (List.reverse_perm _)
        refine ⟨(inv_perm hperm).2 h, [], by simp, ?_⟩
        rw [List.append_nil ((prev.reverse ++ v :: b :: L).flatten)]
        have := hperm.flatten.symm
        rwa [List.flatten_cons] at this
      · rw [if_neg h2]
        have hf := fuse_holds prev b v L ((inv_perm (List.Perm.cons v hmid)).1 h)
        obtain ⟨f1, z, z1, z2⟩ := hf
        refine ⟨f1, z, z1, List.Perm.trans ?_ z2⟩
        rw [List.append_assoc]
        refine List.Perm.append_left v ?_
        have := hmid.flatten
        rwa [List.flatten_cons] at this
    · rw [if_neg h1]
      have hperm : (b :: prev ++ L).Perm (prev ++ b :: L) := hmid.symm
      obtain ⟨f1, z, z1, z2⟩ := ih (b :: prev) ((inv_perm (List.Perm.cons v hperm)).2 h)
      exact ⟨f1, z, z1, (List.Perm.append_left v hperm.flatten.symm).trans z2⟩

/-- insertion of a sorted vector with exponents that do not occur yet -/
theorem insert_holds {L : List (List (T × C))} {v : List (T × C)} (h : Inv L)
    (hv : v.Pairwise (fun x y => x.1 < y.1)) (hd : ∀ x ∈ v, ∀ y ∈ L.flatten, x.1 ≠ y.1) :
    Holds (insert (fun x y => decide (x < y)) L v) (v ++ L.flatten) := by
  unfold insert
  by_cases h0 : v = []
  · rw [if_pos h0, h0]; exact ⟨h, [], by simp, by simp⟩
  · rw [if_neg h0]
    exact insertFrom_holds v [] L (inv_cons.2 ⟨h0, hv, hd, h⟩)

end Verif.Free
