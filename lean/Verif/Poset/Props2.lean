import Verif.Poset.Props
import Verif.BitMap.Props3
/-
C30: accessors of posets.
-/
namespace Verif.Poset
open Verif.BitMap

variable {P : List BitMap}

theorem PRep.row {S} (h : PRep P.length P S) {j : Nat} (hj : j < P.length) :
    Vec.get P j = .ok P[j] ∧ Rep P[j] j (S j) :=
  ⟨Vec.get_ok hj, h.rep j P[j] hj (List.getElem?_eq_getElem hj)⟩

theorem aboveLoop_spec (nd : Bool) {S} (h : PRep P.length P S) (x : Nat) (m s : Nat) (hm : s + m = P.length)
    {r : BitMap} {T : Finset Nat} (hr : Rep r P.length T) :
    ∃ r' T', aboveLoop nd P x s m r = .ok r' ∧ Rep r' P.length T' ∧
      ∀ k, k ∈ T' ↔ k ∈ T ∨ (s ≤ k ∧ x ∈ S k) := by
  induction m generalizing s r T with
  | zero =>
    refine ⟨r, T, rfl, hr, fun k => ⟨.inl, ?_⟩⟩
    rintro (h' | ⟨h1, h2⟩)
    · exact h'
    · have := h.lt h2; omega
  | succ m ih =>
    obtain ⟨g, rg⟩ := h.row (j := s) (by omega)
    rw [aboveLoop, g, Res.ok_bind, C19_isMember rg, Res.ok_bind]
    by_cases hx : x ∈ S s
    · rw [decide_eq_true hx, if_pos rfl]
      obtain ⟨r1, e1, rr1⟩ := C19_insert nd hr (n := s) (by omega)
      rw [e1, Res.ok_bind]
      obtain ⟨r', T', e, rr, hT⟩ := ih (s+1) (by omega) rr1
      refine ⟨r', T', e, rr, fun k => ?_⟩
      rw [hT, Finset.mem_insert]
      constructor
      · rintro ((rfl | h1) | ⟨h1, h2⟩)
        · exact .inr ⟨Nat.le_refl _, hx⟩
        · exact .inl h1
        · exact .inr ⟨by omega, h2⟩
      · rintro (h1 | ⟨h1, h2⟩)
        · exact .inl (.inr h1)
        · by_cases e : k = s
          · exact .inl (.inl e)
          · exact .inr ⟨by omega, h2⟩
    · rw [decide_eq_false hx, if_neg (by simp), Res.ok_bind]
      obtain ⟨r', T', e, rr, hT⟩ := ih (s+1) (by omega) hr
      refine ⟨r', T', e, rr, fun k => ?_⟩
      rw [hT]
      refine or_congr_right ⟨fun h => ⟨by omega, h.2⟩, fun h => ⟨?_, h.2⟩⟩
      by_contra hn
      have : k = s := by omega
      exact hx (this ▸ h.2)

/-- `above(x)` is the set of elements strictly above `x`. -/
theorem C30_above (nd : Bool) (h : Good P) {x : Nat} (hx : x < P.length) :
    ∃ r T, above nd P x = .ok r ∧ Rep r P.length T ∧ ∀ k, k ∈ T ↔ Le P x k ∧ k ≠ x := by
  obtain ⟨S, hS, -⟩ := h.sets
  have hsm := h.small
  obtain ⟨r, T, e, rr, hT⟩ := aboveLoop_spec nd hS x (P.length - (x+1)) (x+1) (by omega) (C19_make (c := P.length) (by omega))
  refine ⟨r, T, e, rr, fun k => ?_⟩
  rw [hT, hS.le]
  constructor
  · rintro (h1 | ⟨h1, h2⟩)
    · simp at h1
    · have := hS.lt h2
      exact ⟨⟨hx, this.2, .inl h2⟩, by omega⟩
  · rintro ⟨⟨h1, h2, h3 | h3⟩, h4⟩
    · have := hS.lt h3
      exact .inr ⟨by omega, h3⟩
    · exact absurd h3.symm h4

/-- `below(y)` is the set of elements strictly below `y`. -/
theorem C30_below (h : Good P) {y : Nat} (hy : y < P.length) :
    ∃ T, Vec.get P y = .ok P[y] ∧ Rep P[y] y T ∧ ∀ k, k ∈ T ↔ Le P k y ∧ k ≠ y := by
  obtain ⟨S, hS, -⟩ := h.sets
  obtain ⟨g, rg⟩ := hS.row hy
  refine ⟨S y, g, rg, fun k => ?_⟩
  rw [hS.le]
  constructor
  · intro hk
    have := hS.lt hk
    exact ⟨⟨by omega, hy, .inl hk⟩, by omega⟩
  · rintro ⟨⟨_, _, h1 | h1⟩, h2⟩
    · exact h1
    · exact absurd h1 h2

theorem maximaLoop_spec (nd : Bool) {S} (h : PRep P.length P S) (hT : TransS S) {c : Nat} {A : Finset Nat}
    (hc : c ≤ P.length)
    (f x : Nat) (hf : x < f) (hx : x ≤ c) {r : BitMap} {R : Finset Nat} (hr : Rep r c R)
    (hR : ∀ i, i ∈ R ↔ i ∈ A ∧ ∀ j ∈ A, x ≤ j → i ∉ S j) :
    ∃ r' R', maximaLoop nd P f x r = .ok r' ∧ Rep r' c R' ∧ ∀ i, i ∈ R' ↔ i ∈ A ∧ ∀ j ∈ A, i ∉ S j := by
  induction f generalizing x r R with
  | zero => omega
  | succ f ih =>
    have hsm := h.small
    obtain ⟨o, e, h1, h2⟩ := C42_backUp_partial hr (by omega) hx
    rw [maximaLoop, e, Res.ok_bind]
    cases o with
    | none =>
      refine ⟨r, R, rfl, hr, fun i => ?_⟩
      rw [hR]
      refine and_congr_right fun hi => ⟨fun hj j hjA => ?_, fun hj j hjA _ => hj j hjA⟩
      by_cases hxj : x ≤ j
      · exact hj j hjA hxj
      · intro hij
        -- a largest element of `A` below `x` and above `j` would be in `R`
        have hb : ∃ m, m ∈ A ∧ m < x ∧ (j = m ∨ j ∈ S m) ∧ ∀ m' ∈ A, m ∉ S m' ∨ x ≤ m' := by
          have : ∀ (k j : Nat), x - j ≤ k → j ∈ A → j < x → ∃ m, m ∈ A ∧ m < x ∧ (j = m ∨ j ∈ S m) ∧
              ∀ m' ∈ A, m ∉ S m' ∨ x ≤ m' := by
            intro k
            induction k with
            | zero => intro j hk _ hj; omega
            | succ k ihk =>
              intro j hk hjA hjx
              by_cases hm : ∃ m' ∈ A, j ∈ S m' ∧ m' < x
              · obtain ⟨m', a1, a2, a3⟩ := hm
                have := h.lt a2
                obtain ⟨m, b1, b2, b3, b4⟩ := ihk m' (by omega) a1 a3
                refine ⟨m, b1, b2, .inr ?_, b4⟩
                rcases b3 with rfl | b3
                · exact a2
                · exact hT _ _ _ a2 b3
              · push Not at hm
                refine ⟨j, hjA, hjx, .inl rfl, fun m' hm' => ?_⟩
                by_cases hj : j ∈ S m'
                · exact .inr (hm m' hm' hj)
                · exact .inl hj
          exact this _ j (Nat.le_refl _) hjA (by omega)
        obtain ⟨m, a1, a2, a3, a4⟩ := hb
        by_cases hmR : m ∈ R
        · have := h1 rfl m hmR; omega
        · rw [hR] at hmR
          push Not at hmR
          obtain ⟨j', b1, b2, b3⟩ := hmR a1
          have hij' : i ∈ S j' := by
            rcases a3 with rfl | a3
            · exact hT _ _ _ hij b3
            · exact hT _ _ _ (hT _ _ _ hij a3) b3
          exact hj j' b1 b2 hij'
    | some y =>
      obtain ⟨a1, a2, a3⟩ := h2 y rfl
      have hyc := hr.sub y a1
      obtain ⟨g, rg⟩ := h.row (j := y) (by omega)
      obtain ⟨r1, e1, rr1⟩ := C19_andnot nd hr rg (by omega)
      simp only
      rw [g, Res.ok_bind, e1, Res.ok_bind]
      refine ih y (by omega) (by omega) rr1 fun i => ?_
      have hyA := ((hR y).1 a1)
      rw [Finset.mem_sdiff, hR]
      constructor
      · rintro ⟨⟨b1, b2⟩, b3⟩
        refine ⟨b1, fun j hj hyj => ?_⟩
        by_cases hxj : x ≤ j
        · exact b2 j hj hxj
        · by_cases e : j = y
          · subst e; exact b3
          · intro hij
            -- `j` in `A`, strictly between `y` and `x`, was removed before
            by_cases hjR : j ∈ R
            · have := a3 j hjR (by omega); omega
            · rw [hR] at hjR
              push Not at hjR
              obtain ⟨j', c1, c2, c3⟩ := hjR hj
              exact b2 j' c1 c2 (hT _ _ _ hij c3)
      · rintro ⟨b1, b2⟩
        exact ⟨⟨b1, fun j hj hxj => b2 j hj (by omega)⟩, b2 y hyA.1 (Nat.le_refl _)⟩

/-- `maxima(b)`: the elements of `b` that are maximal in `b`. -/
theorem C30_maxima (nd : Bool) (h : Good P) {b : BitMap} {c : Nat} {A : Finset Nat} (hb : Rep b c A) (hc : c ≤ P.length) :
    ∃ r R, maxima nd P b = .ok r ∧ Rep r c R ∧ ∀ i, i ∈ R ↔ i ∈ A ∧ ∀ j ∈ A, Le P i j → j = i := by
  obtain ⟨S, hS, hT⟩ := h.sets
  unfold maxima
  rw [hb.cap]
  obtain ⟨r, R, e, rr, hR⟩ := maximaLoop_spec nd hS hT hc (c+1) c (by omega) (Nat.le_refl _) hb (fun i =>
    ⟨fun hi => ⟨hi, fun j hj hcj => by have := hb.sub j hj; omega⟩, fun hi => hi.1⟩)
  refine ⟨r, R, e, rr, fun i => ?_⟩
  rw [hR]
  refine and_congr_right fun hi => ⟨fun h1 j hj hij => ?_, fun h1 j hj hij => ?_⟩
  · rcases ((hS.le i j).1 hij).2.2 with h2 | h2
    · exact absurd h2 (h1 j hj)
    · exact h2.symm
  · have hlt := hS.lt hij
    have := h1 j hj ((hS.le i j).2 ⟨by omega, hlt.2, .inl hij⟩)
    omega

theorem minimaLoop_spec (nd : Bool) {S} (h : PRep P.length P S) {b : BitMap} {c : Nat} {A : Finset Nat} (hb : Rep b c A)
    (l : List Nat) (hl : ∀ x ∈ l, x < P.length) {r : BitMap} {R : Finset Nat} (hr : Rep r P.length R) :
    ∃ r' R', minimaLoop nd P b l r = .ok r' ∧ Rep r' P.length R' ∧
      ∀ i, i ∈ R' ↔ i ∈ R ∨ (i ∈ l ∧ ∀ j ∈ A, j ∉ S i) := by
  induction l generalizing r R with
  | nil => exact ⟨r, R, rfl, hr, fun i => by simp⟩
  | cons x l ih =>
    have hxP := hl x List.mem_cons_self
    obtain ⟨g, rg⟩ := h.row hxP
    have hd : disjoint P[x] b = true ↔ ∀ j ∈ A, j ∉ S x := by
      rw [C19_disjoint rg hb, Finset.disjoint_right]
    rw [minimaLoop, g, Res.ok_bind]
    simp only
    by_cases hx : disjoint P[x] b = true
    · rw [if_pos hx]
      obtain ⟨r1, e1, rr1⟩ := C19_insert nd hr (n := x) (hl x List.mem_cons_self)
      rw [e1, Res.ok_bind]
      obtain ⟨r', R', e, rr, hR⟩ := ih (fun y hy => hl y (List.mem_cons_of_mem _ hy)) rr1
      refine ⟨r', R', e, rr, fun i => ?_⟩
      rw [hR, Finset.mem_insert, List.mem_cons]
      constructor
      · rintro ((rfl | h1) | ⟨h1, h2⟩)
        · exact .inr ⟨.inl rfl, hd.1 hx⟩
        · exact .inl h1
        · exact .inr ⟨.inr h1, h2⟩
      · rintro (h1 | ⟨rfl | h1, h2⟩)
        · exact .inl (.inr h1)
        · exact .inl (.inl rfl)
        · exact .inr ⟨h1, h2⟩
    · rw [if_neg hx, Res.ok_bind]
      obtain ⟨r', R', e, rr, hR⟩ := ih (fun y hy => hl y (List.mem_cons_of_mem _ hy)) hr
      refine ⟨r', R', e, rr, fun i => ?_⟩
      rw [hR, List.mem_cons]
      refine or_congr_right ⟨fun h => ⟨.inr h.1, h.2⟩, ?_⟩
      rintro ⟨rfl | h1, h2⟩
      · exact absurd (hd.2 h2) hx
      · exact ⟨h1, h2⟩

/-- `minima(b)`: the elements of `b` that are minimal in `b`. -/
theorem C30_minima (nd : Bool) (h : Good P) {b : BitMap} {c : Nat} {A : Finset Nat} (hb : Rep b c A)
    (hA : ∀ i ∈ A, i < P.length) :
    ∃ r R, minima nd P b = .ok r ∧ Rep r P.length R ∧ ∀ i, i ∈ R ↔ i ∈ A ∧ ∀ j ∈ A, Le P j i → j = i := by
  obtain ⟨S, hS, hT⟩ := h.sets
  have hsm := h.small
  obtain ⟨l, e1, -, hl⟩ := C19_elements hb
  obtain ⟨r, R, e, rr, hR⟩ := minimaLoop_spec nd hS hb l (fun x hx => hA x ((hl x).1 hx)) (C19_make (c := P.length) (by omega))
  refine ⟨r, R, by rw [minima, e1, Res.ok_bind, e], rr, fun i => ?_⟩
  rw [hR, hl]
  constructor
  · rintro (h1 | ⟨h1, h2⟩)
    · simp at h1
    · refine ⟨h1, fun j hj hji => ?_⟩
      rcases ((hS.le j i).1 hji).2.2 with h3 | h3
      · exact absurd h3 (h2 j hj)
      · exact h3
  · rintro ⟨h1, h2⟩
    refine .inr ⟨h1, fun j hj hji => ?_⟩
    have hlt := hS.lt hji
    have := h2 j hj ((hS.le j i).2 ⟨by omega, hlt.2, .inl hji⟩)
    omega

/-- `covered_by(y)`: the elements covered by `y`. -/
theorem C30_coveredBy (nd : Bool) (h : Good P) {y : Nat} (hy : y < P.length) :
    ∃ r R, coveredBy nd P y = .ok r ∧ Rep r y R ∧ ∀ i, i ∈ R ↔ Covers P i y := by
  obtain ⟨T, g, rg, hT⟩ := C30_below h hy
  obtain ⟨r, R, e, rr, hR⟩ := C30_maxima nd h rg (by omega)
  refine ⟨r, R, by rw [coveredBy, g, Res.ok_bind, e], rr, fun i => ?_⟩
  rw [hR, hT]
  unfold Covers
  constructor
  · rintro ⟨⟨h1, h2⟩, h3⟩
    refine ⟨h1, h2, fun k hik hky => ?_⟩
    by_cases e : k = y
    · exact .inr e
    · exact .inl (h3 k ((hT k).2 ⟨hky, e⟩) hik)
  · rintro ⟨h1, h2, h3⟩
    refine ⟨⟨h1, h2⟩, fun j hj hij => ?_⟩
    rw [hT] at hj
    rcases h3 j hij hj.1 with h4 | h4
    · exact h4
    · exact absurd h4 hj.2

/-- `covers_of(x)`: the elements that cover `x`. -/
theorem C30_coversOf (nd : Bool) (h : Good P) {x : Nat} (hx : x < P.length) :
    ∃ r R, coversOf nd P x = .ok r ∧ Rep r P.length R ∧ ∀ i, i ∈ R ↔ Covers P x i := by
  obtain ⟨a, T, ea, ra, hT⟩ := C30_above nd h hx
  obtain ⟨r, R, e, rr, hR⟩ := C30_minima nd h ra ra.sub
  refine ⟨r, R, by rw [coversOf, ea, Res.ok_bind, e], rr, fun i => ?_⟩
  rw [hR, hT]
  unfold Covers
  constructor
  · rintro ⟨⟨h1, h2⟩, h3⟩
    refine ⟨h1, fun e => h2 e.symm, fun k hik hky => ?_⟩
    by_cases e : k = x
    · exact .inl e
    · exact .inr (h3 k ((hT k).2 ⟨hik, e⟩) hky)
  · rintro ⟨h1, h2, h3⟩
    refine ⟨⟨h1, fun e => h2 e.symm⟩, fun j hj hij => ?_⟩
    rw [hT] at hj
    rcases h3 j hj.1 hij with h4 | h4
    · exact absurd h4 hj.2
    · exact h4

theorem hasseRows_spec (nd : Bool) (h : Good P) (k : Nat) (hk : k ≤ P.length) :
    ∃ l, hasseRows nd P k = .ok l ∧ l.length = k ∧
      ∀ j c, l[j]? = some c → c.Pairwise (· < ·) ∧ ∀ i, i ∈ c ↔ Covers P i j := by
  induction k with
  | zero => exact ⟨[], rfl, rfl, by simp⟩
  | succ k ih =>
    obtain ⟨l, e, hl, hm⟩ := ih (by omega)
    obtain ⟨r, R, e1, rr, hR⟩ := C30_coveredBy nd h (y := k) (by omega)
    obtain ⟨t, e2, t1, t2⟩ := C19_elements rr
    refine ⟨l ++ [t], by rw [hasseRows, e, Res.ok_bind, e1, Res.ok_bind, e2, Res.ok_bind], by simp [hl], ?_⟩
    intro j c hc
    by_cases hj : j < k
    · rw [List.getElem?_append_left (by omega)] at hc
      exact hm j c hc
    · rw [List.getElem?_append_right (by omega)] at hc
      have hjk : j = k := by
        by_contra hne
        rw [List.getElem?_eq_none (by simp; omega)] at hc; cases hc
      subst hjk
      simp [hl] at hc
      subst hc
      exact ⟨t1, fun i => by rw [t2, hR]⟩

/-- `hasseDiagram()`: the edges are the covering relations, listed in increasing order. -/
theorem C30_hasse (nd : Bool) (h : Good P) :
    ∃ l, hasse nd P = .ok l ∧ l.length = P.length ∧ (∀ c ∈ l, c.Pairwise (· < ·)) ∧
      ∀ i j, InRow l i j ↔ Covers P i j := by
  obtain ⟨l, e, h1, h2⟩ := hasseRows_spec nd h P.length (Nat.le_refl _)
  refine ⟨l, e, h1, fun c hc => ?_, fun i j => ?_⟩
  · obtain ⟨j, hj⟩ := List.mem_iff_getElem?.1 hc
    exact (h2 j c hj).1
  · constructor
    · rintro ⟨c, hc, hi⟩
      exact ((h2 j c hc).2 i).1 hi
    · intro hc
      have hj : j < l.length := by rw [h1]; exact hc.1.2.1
      have hg := List.getElem?_eq_getElem hj
      exact ⟨l[j], hg, ((h2 j _ hg).2 i).2 hc⟩

/-- Every relation is a chain of covering relations. -/
theorem C30_covers_generate (h : Good P) (i j : Nat) (hi : i < P.length) (hj : j < P.length) :
    Le P i j ↔ Relation.ReflTransGen (Covers P) i j := by
  obtain ⟨-, hrefl, htr, hanti, hmono⟩ := C30_order h
  constructor
  · intro hij
    have : ∀ (n i j : Nat), j - i ≤ n → Le P i j → Relation.ReflTransGen (Covers P) i j := by
      intro n
      induction n with
      | zero =>
        intro i j hn hij
        have := hmono i j hij
        have e : i = j := by omega
        rw [e]
      | succ n ih =>
        intro i j hn hij
        by_cases hc : i = j
        · rw [hc]
        · by_cases hb : ∃ k, Le P i k ∧ Le P k j ∧ k ≠ i ∧ k ≠ j
          · obtain ⟨k, a1, a2, a3, a4⟩ := hb
            have := hmono i k a1
            have := hmono k j a2
            exact (ih i k (by omega) a1).trans (ih k j (by omega) a2)
          · refine .single ⟨hij, hc, fun k a1 a2 => ?_⟩
            by_contra hn
            push Not at hn
            exact hb ⟨k, a1, a2, hn.1, hn.2⟩
    exact this _ i j (Nat.le_refl _) hij
  · intro hc
    induction hc with
    | refl => exact hrefl i hi
    | @tail b c _ hbc ih => exact htr i b c (ih hbc.1.1) hbc.1

/-- Round trip: the poset built from the Hasse diagram of a poset has the same relation. -/
theorem C30_hasse_roundTrip (nd : Bool) (h : Good P) :
    ∃ l P', hasse nd P = .ok l ∧ ofHasse nd l = .ok P' ∧ P'.length = P.length ∧ ∀ i j, Le P' i j ↔ Le P i j := by
  obtain ⟨l, e, h1, -, h3⟩ := C30_hasse nd h
  have hmono := (C30_order h).2.2.2.2
  have hrow : InRow l = Covers P := by funext i j; exact propext (h3 i j)
  obtain ⟨P', e', k1, k2, k3⟩ := C30_ofHasse nd l (by
    intro x y hxy
    rw [h3] at hxy
    have := hmono x y hxy.1
    have := hxy.2.1
    omega) (by rw [h1]; exact h.small)
  refine ⟨l, P', e, e', by omega, fun i j => ?_⟩
  by_cases hij : i < P.length ∧ j < P.length
  · rw [k3 i j (by omega) (by omega), hrow, C30_covers_generate h i j hij.1 hij.2]
  · constructor
    · intro hl; exact absurd ⟨by have := hl.1; omega, by have := hl.2.1; omega⟩ hij
    · intro hl; exact absurd ⟨hl.1, hl.2.1⟩ hij

theorem hasseMaxLoop_spec (nd : Bool) (h : Good P) (m : Nat) (hm : m < P.length) (l : List Nat) (hl : ∀ x ∈ l, x ≤ m)
    (g : List (List Nat)) (hg : g.length = m + 1) :
    ∃ g', hasseMaxLoop nd P l g = .ok g' ∧ g'.length = m + 1 ∧
      ∀ j c, g'[j]? = some c → (j ∈ l → ∀ i, i ∈ c ↔ Covers P i j) ∧ (j ∉ l → g[j]? = some c) := by
  induction l generalizing g with
  | nil => exact ⟨g, rfl, hg, fun j c hc => ⟨by simp, fun _ => hc⟩⟩
  | cons x l ih =>
    have hxm := hl x List.mem_cons_self
    obtain ⟨r, R, e1, rr, hR⟩ := C30_coveredBy nd h (y := x) (by omega)
    obtain ⟨t, e2, -, t2⟩ := C19_elements rr
    obtain ⟨g', e3, l3, h3⟩ := ih (fun y hy => hl y (List.mem_cons_of_mem _ hy)) (g.set x t) (by simpa using hg)
    refine ⟨g', ?_, l3, fun j c hc => ?_⟩
    · rw [hasseMaxLoop, e1, Res.ok_bind, e2, Res.ok_bind, Vec.put_ok (by omega), Res.ok_bind, e3]
    · obtain ⟨q1, q2⟩ := h3 j c hc
      by_cases hjl : j ∈ l
      · exact ⟨fun _ => q1 hjl, fun hn => absurd (List.mem_cons_of_mem _ hjl) hn⟩
      · have := q2 hjl
        by_cases hjx : j = x
        · subst hjx
          rw [List.getElem?_set_self (by omega)] at this
          cases this
          exact ⟨fun _ i => by rw [t2, hR], fun hn => absurd List.mem_cons_self hn⟩
        · rw [List.getElem?_set_ne (fun h => hjx h.symm)] at this
          refine ⟨fun hj => ?_, fun _ => this⟩
          rcases List.mem_cons.1 hj with hj | hj
          · exact absurd hj hjx
          · exact absurd hj hjl

/-- `hasseDiagram(max)`: the covering relations between elements that are at most `max`. -/
theorem C30_hasseMax (nd : Bool) (h : Good P) (m : Nat) (hm : m < P.length) :
    ∃ l, hasseMax nd P m = .ok l ∧ l.length = m + 1 ∧ ∀ i j, InRow l i j ↔ Covers P i j ∧ Le P j m := by
  obtain ⟨T, g, rg, hT⟩ := C30_below h hm
  have hsm := h.small
  have hmono := (C30_order h).2.2.2.2
  obtain ⟨c1, e1, r1⟩ := C19_union nd (C19_make (c := m + 1) (by omega)) rg (by omega)
  obtain ⟨c2, e2, r2⟩ := C19_insert nd r1 (n := m) (by omega)
  obtain ⟨t, e3, -, t2⟩ := C19_elements r2
  have ht : ∀ x, x ∈ t ↔ Le P x m := by
    intro x
    rw [t2, Finset.mem_insert, Finset.empty_union, hT]
    constructor
    · rintro (rfl | h1)
      · exact (C30_order h).2.1 x hm
      · exact h1.1
    · intro h1
      by_cases e : x = m
      · exact .inl e
      · exact .inr ⟨h1, e⟩
  obtain ⟨g', e4, l4, h4⟩ := hasseMaxLoop_spec nd h m hm t (fun x hx => hmono x m ((ht x).1 hx))
    (List.replicate (m+1) []) (by simp)
  refine ⟨g', by rw [hasseMax, g, Res.ok_bind, e1, Res.ok_bind, e2, Res.ok_bind, e3, Res.ok_bind, e4], l4, fun i j => ?_⟩
  constructor
  · rintro ⟨c, hc, hi⟩
    obtain ⟨q1, q2⟩ := h4 j c hc
    by_cases hj : j ∈ t
    · exact ⟨(q1 hj i).1 hi, (ht j).1 hj⟩
    · have := List.mem_of_getElem? (q2 hj)
      rw [List.mem_replicate] at this
      rw [this.2] at hi; simp at hi
  · rintro ⟨hc, hjm⟩
    have hj : j < g'.length := by have := hmono j m hjm; omega
    have hg := List.getElem?_eq_getElem hj
    exact ⟨g'[j], hg, ((h4 j _ hg).1 ((ht j).2 hjm) i).2 hc⟩

end Verif.Poset
