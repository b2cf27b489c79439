import Verif.Poset.Spec
import Verif.BitMap.Props4
import Mathlib.Data.Finset.Card
/-
Poset operations on the level of sets of smaller elements.
-/
namespace Verif.Poset
open Verif.BitMap

/-- the first `k` rows represent the sets `S j` -/
structure PRep (k : Nat) (P : List BitMap) (S : Nat → Finset Nat) : Prop where
  len : k ≤ P.length
  small : P.length < 2 ^ 32
  rep : ∀ j b, j < k → P[j]? = some b → Rep b j (S j)
  out : ∀ j, k ≤ j → S j = ∅

theorem rep_bm0 : Rep bm0 0 ∅ := by
  have := C19_make (c := 0) (by norm_num)
  exact this

theorem PRep.lt {k P S} (h : PRep k P S) {i j : Nat} (hi : i ∈ S j) : i < j ∧ j < k := by
  by_cases hj : j < k
  · have hj' : j < P.length := Nat.lt_of_lt_of_le hj h.len
    exact ⟨(h.rep j P[j] hj (List.getElem?_eq_getElem hj')).sub i hi, hj⟩
  · rw [h.out j (by omega)] at hi; simp at hi

theorem PRep.lesseq {k P S} (h : PRep k P S) (i : Nat) {j : Nat} (hj : j < k) :
    lesseq P i j = .ok (decide (i ∈ S j ∨ i = j)) := by
  unfold Poset.lesseq
  have hj' : j < P.length := Nat.lt_of_lt_of_le hj h.len
  by_cases hij : i < j
  · rw [if_pos hij, Vec.get_ok hj', Res.ok_bind,
      C19_isMember (h.rep j P[j] hj (List.getElem?_eq_getElem hj'))]
    have : i ≠ j := by omega
    simp [this]
  · rw [if_neg hij]
    have : i ∉ S j := fun hi => hij (h.lt hi).1
    simp [this]

theorem PRep.le {P S} (h : PRep P.length P S) (i j : Nat) :
    Le P i j ↔ i < P.length ∧ j < P.length ∧ (i ∈ S j ∨ i = j) := by
  unfold Le
  refine and_congr_right fun _ => and_congr_right fun hj => ?_
  rw [h.lesseq i hj]; simp

/-- the new sets after `new_cover(x,y)` -/
def upd (S : Nat → Finset Nat) (x y : Nat) : Nat → Finset Nat := fun j =>
  if j = y then Insert.insert x (S y ∪ S x) else S j

theorem newCover_spec (nd : Bool) {k P S} (h : PRep k P S) {x y : Nat} (hx : x < y) (hy : y < k) :
    ∃ P', newCover nd P x y = .ok P' ∧ P'.length = P.length ∧ PRep k P' (upd S x y) ∧
      ∀ j, k ≤ j → P'[j]? = P[j]? := by
  have hyl : y < P.length := Nat.lt_of_lt_of_le hy h.len
  have hxl : x < P.length := by omega
  have ry := h.rep y P[y] hy (List.getElem?_eq_getElem hyl)
  have rx := h.rep x P[x] (by omega) (List.getElem?_eq_getElem hxl)
  obtain ⟨u, hu, ru⟩ := C19_union nd ry rx (by omega)
  obtain ⟨v, hv, rv⟩ := C19_insert nd ru hx
  refine ⟨P.set y v, ?_, by simp, ⟨by rw [List.length_set]; exact h.len, by rw [List.length_set]; exact h.small, ?_, ?_⟩, ?_⟩
  · rw [newCover, Vec.get_ok hyl, Res.ok_bind, Vec.get_ok hxl, Res.ok_bind, hu, Res.ok_bind, hv, Res.ok_bind,
      Vec.put_ok hyl]
  · intro j b hj hb
    unfold upd
    by_cases e : j = y
    · subst e
      rw [List.getElem?_set_self hyl] at hb
      cases hb
      rw [if_pos rfl]; exact rv
    · rw [List.getElem?_set_ne (fun h => e h.symm)] at hb
      rw [if_neg e]; exact h.rep j b hj hb
  · intro j hj
    unfold upd
    rw [if_neg (by omega)]; exact h.out j hj
  · intro j hj
    rw [List.getElem?_set_ne (by omega)]

/-- the sets after a sequence of calls of `new_cover` -/
def foldS : (Nat → Finset Nat) → List (Nat × Nat) → (Nat → Finset Nat)
  | S, [] => S
  | S, l :: lks => foldS (upd S l.1 l.2) lks

theorem foldS_append (S : Nat → Finset Nat) (a b : List (Nat × Nat)) : foldS S (a ++ b) = foldS (foldS S a) b := by
  induction a generalizing S with
  | nil => rfl
  | cons l a ih => exact ih _

theorem extend_spec (nd : Bool) {k P S} (h : PRep k P S) (lks : List (Nat × Nat)) (hl : ∀ l ∈ lks, l.1 < l.2 ∧ l.2 < k) :
    ∃ P', extend nd P lks = .ok P' ∧ P'.length = P.length ∧ PRep k P' (foldS S lks) := by
  induction lks generalizing P S with
  | nil => exact ⟨P, rfl, rfl, h⟩
  | cons l lks ih =>
    obtain ⟨P1, e1, l1, h1, -⟩ := newCover_spec nd h (hl l List.mem_cons_self).1 (hl l List.mem_cons_self).2
    obtain ⟨P2, e2, l2, h2⟩ := ih h1 fun m hm => hl m (List.mem_cons_of_mem _ hm)
    exact ⟨P2, by rw [extend, e1, Res.ok_bind, e2], by rw [l2, l1], h2⟩

theorem newCovers_spec (nd : Bool) {k P S} (h : PRep k P S) {y : Nat} (hy : y < k) (c : List Nat) (hc : ∀ x ∈ c, x < y) :
    ∃ P', newCovers nd y P c = .ok P' ∧ P'.length = P.length ∧ PRep k P' (foldS S (c.map (·, y))) ∧
      ∀ j, k ≤ j → P'[j]? = P[j]? := by
  induction c generalizing P S with
  | nil => exact ⟨P, rfl, rfl, h, fun _ _ => rfl⟩
  | cons x c ih =>
    obtain ⟨P1, e1, l1, h1, o1⟩ := newCover_spec nd h (hc x List.mem_cons_self) hy
    obtain ⟨P2, e2, l2, h2, o2⟩ := ih h1 fun m hm => hc m (List.mem_cons_of_mem _ hm)
    exact ⟨P2, by rw [newCovers, e1, Res.ok_bind, e2], by rw [l2, l1], h2, fun j hj => by rw [o2 j hj, o1 j hj]⟩

theorem fresh_spec (k m : Nat) (h : k + m < 2 ^ 32) : ∃ l, fresh k m = .ok l ∧ l.length = m ∧
    ∀ j b, l[j]? = some b → Rep b (k + j) ∅ := by
  induction m generalizing k with
  | zero => exact ⟨[], rfl, rfl, by simp⟩
  | succ m ih =>
    obtain ⟨b, hb, rb⟩ := C19_setCapacity rep_bm0 (n := k) (by omega)
    obtain ⟨l, hl, l1, l2⟩ := ih (k+1) (by omega)
    refine ⟨b :: l, by rw [fresh, hb, Res.ok_bind, hl, Res.ok_bind], by simp [l1], ?_⟩
    intro j c hc
    cases j with
    | zero => simp at hc; subst hc; simpa using rb
    | succ j =>
      simp only [List.getElem?_cons_succ] at hc
      have := l2 j c hc
      rw [show k + (j + 1) = k + 1 + j by omega]; exact this

/-- the links of a Hasse diagram from row `i` on -/
def links : Nat → List (List Nat) → List (Nat × Nat)
  | _, [] => []
  | i, c :: h => c.map (·, i) ++ links (i + 1) h

theorem hasseLoop_spec (nd : Bool) (h : List (List Nat)) (i : Nat) {P S} (hP : PRep i P S) (hlen : P.length = i + h.length)
    (hb : ∀ j, i ≤ j → j < P.length → P[j]? = some bm0)
    (hc : ∀ j c, h[j]? = some c → ∀ x ∈ c, x < i + j) :
    ∃ P', hasseLoop nd i P h = .ok P' ∧ P'.length = P.length ∧ PRep P.length P' (foldS S (links i h)) := by
  induction h generalizing i P S with
  | nil =>
    simp at hlen
    exact ⟨P, rfl, rfl, by rw [hlen]; exact hP⟩
  | cons c h ih =>
    rw [List.length_cons] at hlen
    have hil : i < P.length := by omega
    have hget : Vec.get P i = .ok bm0 := by rw [Vec.get, hb i (Nat.le_refl _) hil]
    have hsm := hP.small
    obtain ⟨b, hb1, rb⟩ := C19_setCapacity rep_bm0 (n := i) (by omega)
    have hP1 : PRep (i+1) (P.set i b) S := by
      refine ⟨by rw [List.length_set]; omega, by rw [List.length_set]; exact hP.small, ?_, fun j hj => hP.out j (by omega)⟩
      intro j d hj hd
      by_cases e : j = i
      · subst e
        rw [List.getElem?_set_self hil] at hd
        cases hd
        rw [hP.out j (Nat.le_refl _)]; simpa using rb
      · rw [List.getElem?_set_ne (fun h => e h.symm)] at hd
        exact hP.rep j d (by omega) hd
    obtain ⟨P2, e2, l2, h2, o2⟩ := newCovers_spec nd hP1 (y := i) (by omega) c (by
      intro x hx
      have := hc 0 c (by simp) x hx
      simpa using this)
    rw [List.length_set] at l2
    obtain ⟨P3, e3, l3, h3⟩ := ih (i+1) h2 (by omega) (by
      intro j hj hj'
      rw [o2 j hj, List.getElem?_set_ne (by omega)]
      exact hb j (by omega) (by omega)) (by
      intro j d hd x hx
      have := hc (j+1) d (by simpa using hd) x hx
      omega)
    refine ⟨P3, ?_, by rw [l3, l2], ?_⟩
    · rw [hasseLoop, hget, Res.ok_bind, hb1, Res.ok_bind, Vec.put_ok hil, Res.ok_bind, e2, Res.ok_bind, e3]
    · rw [l2] at h3
      rw [links, foldS_append]; exact h3

/-! ### closures -/

/-- transitivity of the relation given by sets of smaller elements -/
def TransS (S : Nat → Finset Nat) : Prop := ∀ i j k, i ∈ S j → j ∈ S k → i ∈ S k

theorem upd_spec {S : Nat → Finset Nat} (hS : TransS S) {x y : Nat} (hxy : x ≠ y) (hy : ∀ k, y ∉ S k) :
    TransS (upd S x y) ∧ ∀ i j, i ∈ upd S x y j ↔ Relation.TransGen (fun a b => a ∈ S b ∨ (a, b) = (x, y)) i j := by
  have mem : ∀ i j, i ∈ upd S x y j ↔ i ∈ S j ∨ (j = y ∧ (i = x ∨ i ∈ S x)) := by
    intro i j
    unfold upd
    by_cases h : j = y
    · subst h; rw [if_pos rfl]; simp; tauto
    · rw [if_neg h]; simp [h]
  have htr : TransS (upd S x y) := by
    intro i j k hi hj
    rw [mem] at *
    rcases hj with hj | ⟨rfl, hj⟩
    · rcases hi with hi | ⟨rfl, _⟩
      · exact .inl (hS i j k hi hj)
      · exact absurd hj (hy k)
    · rcases hi with hi | ⟨rfl, hi⟩
      · rcases hj with rfl | hj
        · exact .inr ⟨rfl, .inr hi⟩
        · exact .inr ⟨rfl, .inr (hS i j x hi hj)⟩
      · rcases hj with rfl | hj
        · exact absurd rfl hxy
        · exact absurd hj (hy x)
  refine ⟨htr, fun i j => ⟨fun h => ?_, fun h => ?_⟩⟩
  · rw [mem] at h
    rcases h with h | ⟨rfl, rfl | h⟩
    · exact .single (.inl h)
    · exact .single (.inr rfl)
    · exact (Relation.TransGen.single (r := fun a b => a ∈ S b ∨ (a, b) = (x, j)) (Or.inl h)).tail (.inr rfl)
  · induction h with
    | single h =>
      rw [mem]
      rcases h with h | h
      · exact .inl h
      · cases h; exact .inr ⟨rfl, .inl rfl⟩
    | tail _ h ih =>
      refine htr _ _ _ ih ?_
      rw [mem]
      rcases h with h | h
      · exact .inl h
      · cases h; exact .inr ⟨rfl, .inl rfl⟩

theorem foldS_spec {S : Nat → Finset Nat} (hS : TransS S) (lks : List (Nat × Nat)) (h1 : ∀ l ∈ lks, l.1 ≠ l.2)
    (h2 : ∀ l ∈ lks, ∀ k, l.2 ∉ S k) (h3 : lks.Pairwise (fun a b => a.1 ≠ b.2)) :
    TransS (foldS S lks) ∧
    ∀ i j, i ∈ foldS S lks j ↔ Relation.TransGen (fun a b => a ∈ S b ∨ (a, b) ∈ lks) i j := by
  induction lks generalizing S with
  | nil =>
    refine ⟨hS, fun i j => ⟨fun h => .single (.inl h), fun h => ?_⟩⟩
    induction h with
    | single h => rcases h with h | h; exacts [h, absurd h (by simp)]
    | tail _ h ih => rcases h with h | h; exacts [hS _ _ _ ih h, absurd h (by simp)]
  | cons l lks ih =>
    obtain ⟨u1, u2⟩ := upd_spec hS (h1 l List.mem_cons_self) (h2 l List.mem_cons_self)
    rw [List.pairwise_cons] at h3
    obtain ⟨f1, f2⟩ := ih (S := upd S l.1 l.2) u1 (fun m hm => h1 m (List.mem_cons_of_mem _ hm)) (by
      intro m hm k hk
      unfold upd at hk
      have hn := h2 m (List.mem_cons_of_mem _ hm)
      by_cases e : k = l.2
      · rw [if_pos e] at hk
        rcases Finset.mem_insert.1 hk with hk | hk
        · exact h3.1 m hm hk.symm
        · rcases Finset.mem_union.1 hk with hk | hk
          · exact hn _ hk
          · exact hn _ hk
      · rw [if_neg e] at hk; exact hn _ hk) h3.2
    refine ⟨f1, fun i j => ?_⟩
    show i ∈ foldS (upd S l.1 l.2) lks j ↔ _
    rw [f2]
    constructor
    · intro h
      refine Relation.TransGen.closed (fun a b hab => ?_) _ _ h
      rcases hab with hab | hab
      · rw [u2] at hab
        refine Relation.TransGen.mono ?_ _ _ hab
        rintro a b (h | h)
        · exact .inl h
        · exact .inr (h ▸ List.mem_cons_self)
      · exact .single (.inr (List.mem_cons_of_mem _ hab))
    · intro h
      refine Relation.TransGen.mono ?_ _ _ h
      rintro a b (h | h)
      · exact .inl ((u2 a b).2 (.single (.inl h)))
      · rcases List.mem_cons.1 h with h | h
        · exact .inl ((u2 a b).2 (.single (.inr h)))
        · exact .inr h

theorem mem_links (i : Nat) (h : List (List Nat)) (x y : Nat) :
    (x, y) ∈ links i h ↔ i ≤ y ∧ InRow h x (y - i) := by
  unfold InRow
  induction h generalizing i with
  | nil => simp [links]
  | cons c h ih =>
    rw [links, List.mem_append, ih]
    constructor
    · rintro (hm | ⟨h1, d, h2, h3⟩)
      · obtain ⟨z, hz, e⟩ := List.mem_map.1 hm
        cases e
        exact ⟨Nat.le_refl _, c, by simp, hz⟩
      · refine ⟨by omega, d, ?_, h3⟩
        rw [show y - i = (y - (i+1)) + 1 by omega]; simpa using h2
    · rintro ⟨h1, d, h2, h3⟩
      by_cases e : y = i
      · subst e
        simp at h2; subst h2
        exact .inl (List.mem_map.2 ⟨x, h3, rfl⟩)
      · refine .inr ⟨by omega, d, ?_, h3⟩
        rw [show y - i = (y - (i+1)) + 1 by omega] at h2; simpa using h2

theorem links_pairwise (i : Nat) (h : List (List Nat)) (hc : ∀ x y, InRow h x y → x < i + y) :
    (links i h).Pairwise (fun a b => a.1 ≠ b.2) := by
  induction h generalizing i with
  | nil => simp [links]
  | cons c h ih =>
    have hc0 : ∀ x ∈ c, x < i := fun x hx => hc x 0 ⟨c, by simp, hx⟩
    rw [links, List.pairwise_append]
    refine ⟨?_, ih (i+1) ?_, ?_⟩
    · rw [List.pairwise_map]
      refine List.pairwise_of_forall_mem_list fun a ha b hb => ?_
      have := hc0 a ha
      simp only; omega
    · intro x y ⟨d, h1, h2⟩
      have := hc x (y+1) ⟨d, by simpa using h1, h2⟩
      omega
    · intro a ha b hb
      obtain ⟨z, hz, e⟩ := List.mem_map.1 ha
      subst e
      have hb' : (b.1, b.2) ∈ links (i+1) h := hb
      rw [mem_links] at hb'
      have := hc0 z hz
      simp only; omega

end Verif.Poset
