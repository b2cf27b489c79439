import Verif.Poset.Lemmas
import Mathlib.Tactic.IntervalCases
/-
C30: posets.  `Le P i j` is the answer of `lesseq(i,j)`, see Spec.
-/
namespace Verif.Poset
open Verif.BitMap

theorem Good.sets {P : List BitMap} (h : Good P) : ∃ S, PRep P.length P S ∧ TransS S := by
  have : ∀ j, ∃ S : Finset Nat, (∀ b, P[j]? = some b → Rep b j S) ∧ (P.length ≤ j → S = ∅) := by
    intro j
    cases e : P[j]? with
    | none => exact ⟨∅, by simp, fun _ => rfl⟩
    | some b =>
      obtain ⟨S, hS⟩ := h.rows j b e
      refine ⟨S, fun c hc => by cases hc; exact hS, fun hj => ?_⟩
      rw [List.getElem?_eq_none hj] at e; cases e
  choose S hS using this
  have hP : PRep P.length P S := ⟨Nat.le_refl _, h.small, fun j b _ hb => (hS j).1 b hb, fun j hj => (hS j).2 hj⟩
  refine ⟨S, hP, fun i j k hi hj => ?_⟩
  have h1 := hP.lt hi
  have h2 := hP.lt hj
  have := (hP.le i k).1 (h.trans i j k ((hP.le i j).2 ⟨by omega, by omega, .inl hi⟩) ((hP.le j k).2 ⟨by omega, by omega, .inl hj⟩))
  rcases this.2.2 with h3 | h3
  · exact h3
  · omega

theorem PRep.good {P : List BitMap} {S} (h : PRep P.length P S) (hS : TransS S) : Good P := by
  refine ⟨h.small, fun j b hb => ?_, fun i j k hi hj => ?_⟩
  · have hj : j < P.length := by
      by_contra hn
      rw [List.getElem?_eq_none (by omega)] at hb; cases hb
    exact ⟨_, h.rep j b hj hb⟩
  · rw [h.le] at *
    refine ⟨hi.1, hj.2.1, ?_⟩
    rcases hi.2.2 with a | rfl
    · rcases hj.2.2 with b | rfl
      · exact .inl (hS i j k a b)
      · exact .inl a
    · exact hj.2.2

/-- In a proper poset object `lesseq` always answers, and the relation is a partial order compatible with
the numbering. -/
theorem C30_order {P : List BitMap} (h : Good P) :
    (∀ i j, i < P.length → j < P.length → ∃ b, lesseq P i j = .ok b) ∧
    (∀ i < P.length, Le P i i) ∧ (∀ i j k, Le P i j → Le P j k → Le P i k) ∧
    (∀ i j, Le P i j → Le P j i → i = j) ∧ ∀ i j, Le P i j → i ≤ j := by
  obtain ⟨S, hS, -⟩ := h.sets
  have mono : ∀ i j, Le P i j → i ≤ j := by
    intro i j hij
    rw [hS.le] at hij
    rcases hij.2.2 with h | h
    · have := hS.lt h; omega
    · omega
  refine ⟨fun i j hi hj => ⟨_, hS.lesseq i hj⟩, fun i hi => (hS.le i i).2 ⟨hi, hi, .inr rfl⟩, h.trans, ?_, mono⟩
  intro i j h1 h2
  have := mono i j h1
  have := mono j i h2
  omega

/-- the rows of a poset without relations -/
theorem fresh_prep (n : Nat) (hn : n < 2 ^ 32) : ∃ P, make n = .ok P ∧ P.length = n ∧ PRep n P (fun _ => ∅) := by
  obtain ⟨l, h1, h2, h3⟩ := fresh_spec 0 n (by omega)
  refine ⟨l, h1, h2, ⟨by omega, by omega, fun j b _ hb => ?_, fun _ _ => rfl⟩⟩
  have := h3 j b hb
  simpa using this

theorem empty_trans : TransS (fun _ => ∅) := fun i j k hi _ => by simp at hi

/-- `Poset(n)` has no relations but equality. -/
theorem C30_make (n : Nat) (hn : n < 2 ^ 32) :
    ∃ P, make n = .ok P ∧ P.length = n ∧ Good P ∧ ∀ i j, Le P i j ↔ i < n ∧ i = j := by
  obtain ⟨P, h1, h2, h3⟩ := fresh_prep n hn
  have h3' : PRep P.length P (fun _ => ∅) := by rw [h2]; exact h3
  refine ⟨P, h1, h2, h3'.good empty_trans, fun i j => ?_⟩
  rw [h3'.le, h2]
  constructor
  · rintro ⟨a, b, h | h⟩
    · simp at h
    · exact ⟨a, h⟩
  · rintro ⟨a, rfl⟩; exact ⟨a, a, .inr rfl⟩

/-- reflexive transitive closure within the elements -/
theorem prep_le_trans {P : List BitMap} {S} (h : PRep P.length P S) {r : Nat → Nat → Prop}
    (hS : ∀ i j, i ∈ S j ↔ Relation.TransGen r i j) (i j : Nat) (hj : j < P.length) (hi : i < P.length) :
    Le P i j ↔ Relation.ReflTransGen r i j := by
  rw [h.le, hS, Relation.reflTransGen_iff_eq_or_transGen]
  constructor
  · rintro ⟨_, _, h | h⟩
    · exact .inr h
    · exact .inl h.symm
  · rintro (h | h)
    · exact ⟨hi, hj, .inr h.symm⟩
    · exact ⟨hi, hj, .inl h⟩

/-- The constructor from a Hasse diagram: `lesseq(i,j)` holds exactly if a chain of listed relations leads from
`i` to `j`. -/
theorem C30_ofHasse (nd : Bool) (hasse : List (List Nat)) (hc : Compatible hasse) (hn : hasse.length < 2 ^ 32) :
    ∃ P, ofHasse nd hasse = .ok P ∧ P.length = hasse.length ∧ Good P ∧
      ∀ i j, i < hasse.length → j < hasse.length → (Le P i j ↔ Relation.ReflTransGen (InRow hasse) i j) := by
  have h0 : PRep 0 (List.replicate hasse.length bm0) (fun _ => ∅) :=
    ⟨Nat.zero_le _, by simpa using hn, fun j b hj => absurd hj (by omega), fun _ _ => rfl⟩
  obtain ⟨P, h1, h2, h3⟩ := hasseLoop_spec nd hasse 0 h0 (by simp) (by
    intro j _ hj
    rw [List.length_replicate] at hj
    rw [List.getElem?_replicate, if_pos hj]) (by
    intro j c hj x hx
    have := hc x j ⟨c, hj, hx⟩
    omega)
  rw [List.length_replicate] at h2 h3
  obtain ⟨f1, f2⟩ := foldS_spec empty_trans (links 0 hasse) (by
      rintro ⟨x, y⟩ hl
      rw [mem_links] at hl
      have := hc x y hl.2
      simp only; omega) (by simp) (links_pairwise 0 hasse (by
        intro x y hxy; have := hc x y hxy; omega))
  have h3' : PRep P.length P (foldS (fun _ => ∅) (links 0 hasse)) := by rw [h2]; exact h3
  refine ⟨P, h1, h2, h3'.good f1, fun i j hi hj => ?_⟩
  rw [prep_le_trans h3' f2 i j (by omega) (by omega)]
  have : (fun a b => a ∈ (fun _ : Nat => (∅ : Finset Nat)) b ∨ (a, b) ∈ links 0 hasse) = InRow hasse := by
    funext a b
    simp [mem_links]
  rw [this]

/-- `extend`, under its documented precondition: the new order is generated by the old one and the links. -/
theorem C30_extend (nd : Bool) (P : List BitMap) (hP : Good P) (lks : List (Nat × Nat))
    (h1 : ∀ l ∈ lks, l.1 < l.2 ∧ l.2 < P.length)
    (h2 : ∀ l ∈ lks, ∀ k, Le P l.2 k → k = l.2)
    (h3 : lks.Pairwise (fun a b => a.1 ≠ b.2)) :
    ∃ P', extend nd P lks = .ok P' ∧ P'.length = P.length ∧ Good P' ∧
      ∀ i j, i < P.length → j < P.length →
        (Le P' i j ↔ Relation.ReflTransGen (fun a b => Le P a b ∨ (a, b) ∈ lks) i j) := by
  obtain ⟨S, hS, hT⟩ := hP.sets
  obtain ⟨P', e1, e2, e3⟩ := extend_spec nd hS lks h1
  obtain ⟨f1, f2⟩ := foldS_spec hT lks (fun l hl => by have := h1 l hl; omega) (by
    intro l hl k hk
    have hlt := hS.lt hk
    have := h2 l hl k ((hS.le _ _).2 ⟨by omega, by omega, .inl hk⟩)
    omega) h3
  have e3' : PRep P'.length P' (foldS S lks) := by rw [e2]; exact e3
  refine ⟨P', e1, e2, e3'.good f1, fun i j hi hj => ?_⟩
  rw [prep_le_trans e3' f2 i j (by omega) (by omega)]
  constructor
  · refine Relation.ReflTransGen.mono ?_ i j
    rintro a b (h | h)
    · have := hS.lt h
      exact .inl ((hS.le _ _).2 ⟨by omega, by omega, .inl h⟩)
    · exact .inr h
  · intro h
    induction h with
    | refl => exact .refl
    | @tail b c _ hab ih =>
      have hb : b < P.length := by
        rcases hab with h | h
        · exact h.1
        · have := h1 _ h; simp only at this; omega
      have ih := ih hb
      rcases hab with h | h
      · rcases ((hS.le _ _).1 h).2.2 with h | h
        · exact ih.tail (.inl h)
        · exact h ▸ ih
      · exact ih.tail (.inr h)

/-- A lexicographically sorted list of links satisfies the condition on their order. -/
theorem C30_sorted_links (lks : List (Nat × Nat)) (h1 : ∀ l ∈ lks, l.1 < l.2)
    (hs : lks.Pairwise (fun a b => a.1 < b.1 ∨ a.1 = b.1 ∧ a.2 ≤ b.2)) : lks.Pairwise (fun a b => a.1 ≠ b.2) := by
  refine (List.pairwise_iff_getElem.2 fun i j hi hj hij => ?_)
  have := List.pairwise_iff_getElem.1 hs i j hi hj hij
  have := h1 _ (List.getElem_mem hj)
  omega

/-- `Poset(n,lks)`. -/
theorem C30_ofLinks (nd : Bool) (n : Nat) (hn : n < 2 ^ 32) (lks : List (Nat × Nat))
    (h1 : ∀ l ∈ lks, l.1 < l.2 ∧ l.2 < n) (h3 : lks.Pairwise (fun a b => a.1 ≠ b.2)) :
    ∃ P, ofLinks nd n lks = .ok P ∧ P.length = n ∧ Good P ∧
      ∀ i j, i < n → j < n → (Le P i j ↔ Relation.ReflTransGen (fun a b => (a, b) ∈ lks) i j) := by
  obtain ⟨P, a1, a2, a3⟩ := fresh_prep n hn
  obtain ⟨P', e1, e2, e3⟩ := extend_spec nd a3 lks h1
  obtain ⟨f1, f2⟩ := foldS_spec empty_trans lks (fun l hl => by have := h1 l hl; omega) (by simp) h3
  have hl : P'.length = n := by omega
  have e3' : PRep P'.length P' (foldS (fun _ => ∅) lks) := by rw [hl]; exact e3
  refine ⟨P', by rw [ofLinks, a1, Res.ok_bind, e1], hl, e3'.good f1, fun i j hi hj => ?_⟩
  rw [prep_le_trans e3' f2 i j (by omega) (by omega)]
  have : (fun a b => a ∈ (fun _ : Nat => (∅ : Finset Nat)) b ∨ (a, b) ∈ lks) = fun a b => (a, b) ∈ lks := by
    funext a b; simp
  rw [this]

/-- `new_max(c)`: a new element above the elements of `c` and all that is below them; the order of the other
elements does not change. -/
theorem C30_newMax (nd : Bool) (P : List BitMap) (hP : Good P) (c : List Nat) (hc : ∀ x ∈ c, x < P.length)
    (hn : P.length + 1 < 2 ^ 32) :
    ∃ P', newMax nd P c = .ok P' ∧ P'.length = P.length + 1 ∧ Good P' ∧
      (∀ i j, i < P.length → j < P.length → (Le P' i j ↔ Le P i j)) ∧
      ∀ i, i < P.length → (Le P' i P.length ↔ ∃ x ∈ c, Le P i x) := by
  obtain ⟨S, hS, hT⟩ := hP.sets
  have hS1 : PRep (P.length + 1) (P ++ [BitMap.make P.length]) S := by
    refine ⟨by simp, by simpa using hn, fun j b hj hb => ?_, fun j hj => hS.out j (by omega)⟩
    by_cases h : j < P.length
    · rw [List.getElem?_append_left h] at hb
      exact hS.rep j b h hb
    · have : j = P.length := by omega
      subst this
      simp at hb
      subst hb
      rw [hS.out _ (Nat.le_refl _)]
      exact C19_make (by omega)
  obtain ⟨P', e1, e2, e3, -⟩ := newCovers_spec nd hS1 (y := P.length) (by omega) c hc
  have hl : P'.length = P.length + 1 := by rw [e2]; simp
  obtain ⟨f1, f2⟩ := foldS_spec hT (c.map (·, P.length)) (by
      intro l hl
      obtain ⟨x, hx, rfl⟩ := List.mem_map.1 hl
      have := hc x hx
      simp only; omega) (by
      intro l hl k hk
      obtain ⟨x, hx, rfl⟩ := List.mem_map.1 hl
      have := hS.lt hk
      simp only at this; omega) (by
      rw [List.pairwise_map]
      refine List.pairwise_of_forall_mem_list fun a ha b hb => ?_
      have := hc a ha
      simp only; omega)
  have e3' : PRep P'.length P' (foldS S (c.map (·, P.length))) := by rw [hl]; exact e3
  have mem : ∀ i j, (i ∈ S j ∨ (i, j) ∈ c.map (·, P.length)) ↔ i ∈ S j ∨ (j = P.length ∧ i ∈ c) := by
    intro i j
    refine or_congr_right ?_
    constructor
    · intro h
      obtain ⟨x, hx, e⟩ := List.mem_map.1 h
      cases e; exact ⟨rfl, hx⟩
    · rintro ⟨rfl, hx⟩; exact List.mem_map.2 ⟨i, hx, rfl⟩
  -- chains
  have chain : ∀ i j, Relation.TransGen (fun a b => a ∈ S b ∨ (a, b) ∈ c.map (·, P.length)) i j ↔
      i ∈ S j ∨ (j = P.length ∧ ∃ x ∈ c, i = x ∨ i ∈ S x) := by
    intro i j
    constructor
    · intro h
      induction h with
      | single h =>
        rcases (mem _ _).1 h with h | ⟨h, h'⟩
        · exact .inl h
        · exact .inr ⟨h, _, h', .inl rfl⟩
      | tail _ h ih =>
        rcases ih with ih | ⟨rfl, _⟩
        · rcases (mem _ _).1 h with h | ⟨h, h'⟩
          · exact .inl (hT _ _ _ ih h)
          · exact .inr ⟨h, _, h', .inr ih⟩
        · rcases (mem _ _).1 h with h | ⟨h, h'⟩
          · have := hS.lt h; omega
          · have := hc _ h'; omega
    · rintro (h | ⟨rfl, x, hx, rfl | h⟩)
      · exact .single (.inl h)
      · exact .single ((mem _ _).2 (.inr ⟨rfl, hx⟩))
      · exact (Relation.TransGen.single (r := fun a b => a ∈ S b ∨ (a, b) ∈ c.map (·, P.length)) (.inl h)).tail
          ((mem _ _).2 (.inr ⟨rfl, hx⟩))
  refine ⟨P', e1, hl, e3'.good f1, fun i j hi hj => ?_, fun i hi => ?_⟩
  · rw [e3'.le, hS.le, f2, chain]
    constructor
    · rintro ⟨_, _, (h | h) | h⟩
      · exact ⟨hi, hj, .inl h⟩
      · omega
      · exact ⟨hi, hj, .inr h⟩
    · rintro ⟨_, _, h | h⟩
      · exact ⟨by omega, by omega, .inl (.inl h)⟩
      · exact ⟨by omega, by omega, .inr h⟩
  · rw [e3'.le, f2, chain]
    constructor
    · rintro ⟨_, _, (h | ⟨_, x, hx, h⟩) | h⟩
      · rw [hS.out _ (Nat.le_refl _)] at h; simp at h
      · exact ⟨x, hx, (hS.le _ _).2 ⟨hi, hc x hx, h.symm⟩⟩
      · omega
    · rintro ⟨x, hx, h⟩
      exact ⟨by omega, by omega, .inl (.inr ⟨rfl, x, hx, ((hS.le _ _).1 h).2.2.symm⟩)⟩

/-- `resize(n)`: elements up to `n` keep their relations, new ones have none. -/
theorem C30_resize (P : List BitMap) (hP : Good P) (n : Nat) (hn : n < 2 ^ 32) :
    ∃ P', resize P n = .ok P' ∧ P'.length = n ∧ Good P' ∧
      ∀ i j, i < n → j < n → (Le P' i j ↔ Le P i j ∨ i = j) := by
  obtain ⟨S, hS, hT⟩ := hP.sets
  have hsm := hP.small
  obtain ⟨l, h1, h2, h3⟩ := fresh_spec P.length (n - P.length) (by omega)
  have hlen : (P.take n ++ l).length = n := by
    rw [List.length_append, List.length_take, h2]; omega
  have hR : PRep (P.take n ++ l).length (P.take n ++ l) (fun j => if j < n then S j else ∅) := by
    refine ⟨Nat.le_refl _, by omega, fun j b hj hb => ?_, fun j hj => ?_⟩
    · rw [hlen] at hj
      simp only [if_pos hj]
      by_cases h : j < P.length
      · rw [List.getElem?_append_left (by rw [List.length_take]; omega), List.getElem?_take_of_lt hj] at hb
        exact hS.rep j b h hb
      · rw [List.getElem?_append_right (by rw [List.length_take]; omega)] at hb
        have := h3 _ b hb
        rw [hS.out j (by omega)]
        rw [List.length_take, show P.length + (j - min n P.length) = j by omega] at this
        exact this
    · rw [hlen] at hj
      simp only [if_neg (show ¬ j < n by omega)]
  refine ⟨_, by rw [resize, h1, Res.ok_bind], hlen, hR.good ?_, fun i j hi hj => ?_⟩
  · intro i j k hi hj
    simp only at *
    by_cases hk : k < n
    · rw [if_pos hk] at *
      have := hS.lt hj
      rw [if_pos (show j < n by omega)] at hi
      exact hT i j k hi hj
    · rw [if_neg hk] at hj; simp at hj
  · rw [hR.le, hS.le, hlen, if_pos hj]
    constructor
    · rintro ⟨_, _, h | h⟩
      · have := hS.lt h
        exact .inl ⟨by omega, by omega, .inl h⟩
      · exact .inr h
    · rintro (h | h)
      · exact ⟨hi, hj, h.2.2⟩
      · exact ⟨hi, hj, .inr h⟩

/-- a poset with chains and incomparable elements: 0 < 1, 0 < 2, 1,2 < 3 -/
example : Compatible [[], [0], [0], [1, 2]] ∧ ∃ P, ofHasse false [[], [0], [0], [1, 2]] = .ok P ∧
    Le P 0 3 ∧ ¬ Le P 1 2 := by
  refine ⟨?_, ?_⟩
  · rintro x y ⟨c, h, hx⟩
    have hy : y < 4 := by
      have := (List.getElem?_eq_some_iff.1 h).1
      simpa using this
    interval_cases y <;> simp at h <;> subst h <;> simp at hx <;> omega
  · exact ⟨[⟨0, []⟩, ⟨1, [1]⟩, ⟨2, [1]⟩, ⟨3, [7]⟩], by decide +kernel, ⟨by decide, by decide, by decide +kernel⟩,
      fun h => absurd h.2.2 (by decide +kernel)⟩

/-- links in an order allowed by the precondition, though not sorted -/
example : (∀ l ∈ [(1, 3), (0, 1), (0, 2)], l.1 < l.2 ∧ l.2 < 4) ∧
    ¬ [(1, 3), (0, 1), (0, 2)].Pairwise (fun a b : Nat × Nat => a.1 ≠ b.2) ∧
    [(0, 1), (0, 2), (1, 3)].Pairwise (fun a b : Nat × Nat => a.1 ≠ b.2) ∧
    [(2, 3), (0, 1), (1, 3)].Pairwise (fun a b : Nat × Nat => a.1 ≠ b.2) := by decide

end Verif.Poset
