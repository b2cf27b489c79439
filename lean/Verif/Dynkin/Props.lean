import Verif.Dynkin.Entries

/-! C65: recognition of Cartan matrices. -/

namespace Verif.Dynkin

open Verif.Weyl (Ty Comp)

/-- `is_Cartan_matrix`: for a square matrix of size at most 32 the answer is given without failure of an
assertion or undefined behaviour, and it is right -/
theorem C65_is_Cartan_matrix (nd : Bool) {n : ℕ} (hn : n ≤ 32) (c : ℕ → ℕ → Int) :
    (Finite n c ∧ ∃ t, lieType nd ⟨n, n, c⟩ = .ok t) ∨
    (¬ Finite n c ∧ lieType nd ⟨n, n, c⟩ = .throw) := by
  unfold lieType
  rcases diagram_spec nd hn c with ⟨d, comps, h1, _, h2⟩ | ⟨h1, h2⟩
  · rw [h1]; exact Or.inl ⟨⟨comps, h2⟩, _, rfl⟩
  · rw [h1]; exact Or.inr ⟨h2, rfl⟩

/-- `Cartan_matrix_type`: the matrix renumbered by the permutation returned is the standard Cartan matrix
of the type returned; the exception is for matrices that are not Cartan matrices, and only for these -/
theorem C65_Cartan_matrix_type (nd : Bool) {r n : ℕ} (hn : n ≤ 32) (c : ℕ → ℕ → Int) :
    (∃ t pi, lieTypePerm nd ⟨r, n, c⟩ = .ok (t, pi) ∧ r = n ∧ pi.Perm (List.range n) ∧
      (∀ p ∈ t, p.1.RankOK p.2) ∧ (t.map Prod.snd).sum = n ∧
      (∀ i j a b, pi[i]? = some a → pi[j]? = some b → c a b = sumEntry t i j) ∧
      lieType nd ⟨r, n, c⟩ = .ok t) ∨
    (lieTypePerm nd ⟨r, n, c⟩ = .throw ∧ (r ≠ n ∨ ¬ Finite n c)) := by
  unfold lieTypePerm
  dsimp only
  by_cases hr : r = n
  · subst hr
    rw [if_neg (by simp)]
    rcases diagram_spec nd hn c with ⟨d, comps, h1, _, h2⟩ | ⟨h1, h2⟩
    · left
      rw [h1, Res.ok_bind]
      dsimp only
      have hty : ∀ p ∈ typeList comps, p.1.RankOK p.2 ∧ p.2 ≤ 32 := by
        intro p hp
        simp only [typeList, List.mem_map] at hp
        obtain ⟨C, hC, rfl⟩ := hp
        exact ⟨h2.ranks C hC, (h2.rank_le hC).trans hn⟩
      refine ⟨typeList comps, perm comps, ?_, rfl, h2.perm, fun p hp => (hty p hp).1, h2.sum,
        fun i j a b hi hj => h2.sumEntry hi hj, by unfold lieType; rw [h1]; rfl⟩
      cases nd with
      | true => rfl
      | false =>
        rw [if_neg (by simp), if_neg (by
          intro h
          rw [List.any_eq_true] at h
          obtain ⟨⟨ty, q⟩, hp, h⟩ := h
          have := (hty _ hp).1
          cases ty <;> simp [Weyl.Ty.RankOK] at this h <;> omega)]
        rw [testRows_ok (List.range r) (by
          intro i hi
          have hl : (perm comps).length = r := by
            rw [perm, h2.perm.length_eq, List.length_range]
          rw [List.mem_range] at hi
          refine ⟨by omega, ?_⟩
          intro j hj
          rw [List.mem_range] at hj
          refine ⟨by omega, ?_⟩
          rw [cartanEntry_spec false _ hty (by rw [h2.sum]; exact hi) (by rw [h2.sum]; exact hj)]
          rw [h2.sumEntry (List.getElem?_eq_getElem (by omega)) (List.getElem?_eq_getElem (by omega))])]
        rfl
    · rw [h1]; exact Or.inr ⟨rfl, Or.inr h2⟩
  · rw [if_pos hr]; exact Or.inr ⟨rfl, Or.inl hr⟩

/-- the entries of the Cartan matrix of a Lie type -/
theorem C65_Lie_type_entry (nd : Bool) (t : LieType) (h : ∀ p ∈ t, p.1.RankOK p.2 ∧ p.2 ≤ 32) {i j : ℕ}
    (hi : i < (t.map Prod.snd).sum) (hj : j < (t.map Prod.snd).sum) :
    t.cartanEntry nd i j = .ok (sumEntry t i j) := cartanEntry_spec nd t h hi hj

/-- a diagram keeps all information of the Cartan matrix -/
theorem C65_diagram_entry (nd : Bool) {n : ℕ} (hn : n ≤ 32) (c : ℕ → ℕ → Int) {d : Diagram}
    {comps : List Comp} (h : diagram nd ⟨n, n, c⟩ = .ok (d, comps)) {i j : ℕ} (hi : i < n) (hj : j < n) :
    d.cartanEntry i j = c i j := by
  rcases diagram_spec nd hn c with ⟨d', comps', h1, h2, -⟩ | ⟨h1, -⟩
  · rw [h1] at h; cases h; exact h2.cartanEntry hi hj
  · rw [h1] at h; cases h

/-- the components found are those from which a Weyl group can be constructed: they meet the hypothesis
of the theorems about Weyl groups -/
theorem C65_components (nd : Bool) {n : ℕ} (hn : n ≤ 32) (c : ℕ → ℕ → Int) {d : Diagram}
    {comps : List Comp} (h : diagram nd ⟨n, n, c⟩ = .ok (d, comps)) :
    IsCartan n c comps ∧ Weyl.IsDynkin n (fun i j => c i.1 j.1) comps := by
  rcases diagram_spec nd hn c with ⟨d', comps', h1, h2, h3⟩ | ⟨h1, -⟩
  · rw [h1] at h; cases h; exact ⟨h3, h3.isDynkin hn⟩
  · rw [h1] at h; cases h

/-- without the condition that the matrix is square `is_Cartan_matrix` fails -/
theorem C65_square_false : ∃ m : Mat, lieType false m = .assertFail ∧ lieType true m = .undefined :=
  ⟨⟨1, 2, fun i j => if i = j then 2 else 0⟩, rfl, rfl⟩

/-- the Cartan matrix of `n` factors of type `A1` -/
def disc (i j : ℕ) : Int := if i = j then 2 else 0

theorem disc_finite (n : ℕ) : Finite n disc := by
  refine ⟨(List.range n).map (fun i => ⟨.A, i, [i]⟩), ?_, ?_, ?_, ?_, ?_⟩
  · intro C hC
    rw [List.mem_map] at hC
    obtain ⟨i, _, rfl⟩ := hC
    exact Nat.le_refl 1
  · intro k hk
    simp only [List.getElem_map, List.getElem_range, ← List.map_take, List.map_map]
    simp only [List.length_map, List.length_range] at hk
    rw [show (Comp.rank ∘ fun i => (⟨.A, i, [i]⟩ : Comp)) = fun _ => 1 from rfl, List.map_const',
      List.sum_replicate]
    simp; omega
  · rw [List.flatMap_map]
    simp
  · intro C hC i j s t hi hj
    rw [List.mem_map] at hC
    obtain ⟨a, _, rfl⟩ := hC
    match i, j, hi, hj with
    | 0, 0, hi, hj => simp at hi hj; subst hi hj; simp [disc, cartan_self]
    | _ + 1, _, hi, _ => simp at hi
    | 0, _ + 1, _, hj => simp at hj
  · intro C hC D hD hne s hs t ht
    rw [List.mem_map] at hC hD
    obtain ⟨a, _, rfl⟩ := hC
    obtain ⟨b, _, rfl⟩ := hD
    simp at hs ht
    subst hs ht
    rw [disc, if_neg]
    intro e; subst e; exact hne rfl

/-- more than 32 simple roots are not supported, and this is not tested -/
theorem C65_size_false : Finite 33 disc ∧ ∀ nd, lieType nd ⟨33, 33, disc⟩ = .undefined := by
  refine ⟨disc_finite 33, ?_⟩
  intro nd
  have hp : Pre 33 disc := (disc_finite 33).elim fun _ h => h.pre
  obtain ⟨d, h1, _⟩ := scan_ok hp
  unfold lieType diagram
  dsimp only
  rw [if_neg (by simp), h1]
  rfl

/-! ### An example: type B3 G2 D4 with nodes in another order -/

/-- the matrix of the example -/
def exEntry (i j : ℕ) : Int :=
  if i = j then 2
  else match i, j with
    | 0, 4 => -1 | 4, 0 => -3                                   -- G2 on 0, 4
    | 1, 3 => -1 | 3, 1 => -1 | 3, 7 => -2 | 7, 3 => -1           -- B3 on 1, 3, 7
    | 2, 6 => -1 | 6, 2 => -1 | 5, 6 => -1 | 6, 5 => -1 | 6, 8 => -1 | 8, 6 => -1 -- D4 on 2, 5, 6, 8
    | _, _ => 0

example : lieTypePerm false ⟨9, 9, exEntry⟩ =
    .ok ([(.B, 3), (.G, 2), (.D, 4)], [1, 3, 7, 0, 4, 2, 6, 5, 8]) ∨
    lieTypePerm false ⟨9, 9, exEntry⟩ =
    .ok ([(.G, 2), (.B, 3), (.D, 4)], [0, 4, 1, 3, 7, 2, 6, 5, 8]) := by decide +kernel

example : Finite 9 exEntry :=
  (C65_is_Cartan_matrix true (by decide) exEntry).elim (fun h => h.1)
    (fun h => absurd h.2 (by decide +kernel))

/-- an affine diagram is refused -/
example : lieType false ⟨2, 2, fun i j => if i = j then 2 else -2⟩ = .throw := by decide +kernel

end Verif.Dynkin
