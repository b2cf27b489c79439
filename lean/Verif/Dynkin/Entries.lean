import Verif.Dynkin.Recognise

/-! The entries of Cartan matrices computed from a diagram or from a Lie type. -/

namespace Verif.Dynkin

open Verif.Weyl (Ty Comp)

/-- all cases with ranks at most 32 -/
def dispatchTest (ty : Ty) (lo hi : ℕ) : Bool :=
  (List.range (hi + 1)).all fun r => decide (r < lo) || (List.range r).all fun a =>
    (List.range 3).all fun d => decide (r ≤ a + d) ||
      (decide (dispatch ty r a d true = cartan ty r a (a + d)) &&
        decide (dispatch ty r a d false = cartan ty r (a + d) a))

theorem dispatch_of_test {ty : Ty} {lo hi r a d : ℕ} (h : dispatchTest ty lo hi = true) (h1 : lo ≤ r)
    (h2 : r ≤ hi) (hd : d ≤ 2) (ha : a + d < r) :
    dispatch ty r a d true = cartan ty r a (a + d) ∧
      dispatch ty r a d false = cartan ty r (a + d) a := by
  unfold dispatchTest at h
  have k1 := List.all_eq_true.1 h r (List.mem_range.2 (by omega))
  rw [Bool.or_eq_true, decide_eq_true_eq] at k1
  have k2 := List.all_eq_true.1 (k1.resolve_left (by omega)) a (List.mem_range.2 (by omega))
  have k3 := List.all_eq_true.1 k2 d (List.mem_range.2 (by omega))
  rw [Bool.or_eq_true, decide_eq_true_eq] at k3
  simpa using k3.resolve_left (by omega)

theorem dispatch_spec {ty : Ty} {r a d : ℕ} (hr : ty.RankOK r) (h32 : r ≤ 32) (hd : d ≤ 2)
    (h : a + d < r) :
    dispatch ty r a d true = cartan ty r a (a + d) ∧ dispatch ty r a d false = cartan ty r (a + d) a := by
  cases ty <;> simp only [Weyl.Ty.RankOK] at hr
  · exact dispatch_of_test (lo := 1) (hi := 32) (by decide +kernel) hr h32 hd h
  · exact dispatch_of_test (lo := 2) (hi := 32) (by decide +kernel) hr h32 hd h
  · exact dispatch_of_test (lo := 2) (hi := 32) (by decide +kernel) hr h32 hd h
  · exact dispatch_of_test (lo := 4) (hi := 32) (by decide +kernel) hr h32 hd h
  · exact dispatch_of_test (lo := 6) (hi := 8) (by decide +kernel) hr.1 hr.2 hd h
  · exact dispatch_of_test (lo := 4) (hi := 4) (by decide +kernel) (by omega) (by omega) hd h
  · exact dispatch_of_test (lo := 2) (hi := 2) (by decide +kernel) (by omega) (by omega) hd h

/-- entries far from the diagonal vanish -/
theorem cartan_far {ty : Ty} {r i j : ℕ} (hr : ty.RankOK r) (hi : i < r) (hj : j < r)
    (h : i + 2 < j ∨ j + 2 < i) : cartan ty r i j = 0 := by
  by_contra h0
  have := (cartan_ne hr hi hj).1 ⟨by omega, h0⟩
  cases ty <;> simp only [Nb] at this <;> omega

theorem entryLoop_spec (nd : Bool) {d : ℕ} (hd : d ≤ 2) : ∀ (t : LieType) (a : ℕ),
    (∀ p ∈ t, p.1.RankOK p.2 ∧ p.2 ≤ 32) → a < (t.map Prod.snd).sum →
    entryLoop nd d true t a = .ok (sumEntry t a (a + d)) ∧
    entryLoop nd d false t a = .ok (sumEntry t (a + d) a) := by
  intro t
  induction t with
  | nil => intro a _ h; simp at h
  | cons p t ih =>
    intro a h ha
    obtain ⟨ty, r⟩ := p
    have hp := h (ty, r) (by simp)
    dsimp only at hp
    rw [entryLoop, entryLoop, sumEntry, sumEntry]
    simp only [List.map_cons, List.sum_cons] at ha
    by_cases h1 : a ≥ r
    · rw [if_pos h1, if_pos h1, if_neg (by omega), if_neg (by omega), if_neg (by omega),
        if_neg (by omega)]
      have := ih (a - r) (fun q hq => h q (by simp [hq])) (by omega)
      rw [show a + d - r = a - r + d by omega]
      exact this
    · rw [if_neg h1, if_neg h1]
      by_cases h2 : a + d ≥ r
      · rw [if_pos h2, if_pos h2, if_neg (by omega), if_pos (by omega), if_neg (by omega),
          if_pos (by omega)]
        exact ⟨rfl, rfl⟩
      · rw [if_neg h2, if_neg h2, if_pos (by omega), if_pos (by omega)]
        have := dispatch_spec hp.1 hp.2 hd (show a + d < r by omega)
        rw [this.1, this.2]
        exact ⟨rfl, rfl⟩

theorem sumEntry_far : ∀ (t : LieType) (i j : ℕ), (∀ p ∈ t, p.1.RankOK p.2) →
    (i + 2 < j ∨ j + 2 < i) → sumEntry t i j = 0 := by
  intro t
  induction t with
  | nil => intro i j _ _; rfl
  | cons p t ih =>
    intro i j h hij
    obtain ⟨ty, r⟩ := p
    rw [sumEntry]
    by_cases h1 : i < r ∧ j < r
    · rw [if_pos h1]; exact cartan_far (h (ty, r) (by simp)) h1.1 h1.2 hij
    · rw [if_neg h1]
      by_cases h2 : i < r ∨ j < r
      · rw [if_pos h2]
      · rw [if_neg h2]; exact ih _ _ (fun q hq => h q (by simp [hq])) (by omega)

/-- the entries computed from a Lie type -/
theorem cartanEntry_spec (nd : Bool) (t : LieType) (h : ∀ p ∈ t, p.1.RankOK p.2 ∧ p.2 ≤ 32) {i j : ℕ}
    (hi : i < (t.map Prod.snd).sum) (hj : j < (t.map Prod.snd).sum) :
    t.cartanEntry nd i j = .ok (sumEntry t i j) := by
  unfold LieType.cartanEntry
  dsimp only
  by_cases hij : i < j
  · rw [if_pos hij, if_pos hij]
    by_cases hd : j - i > 2
    · rw [if_pos hd, sumEntry_far t i j (fun p hp => (h p hp).1) (by omega)]
    · rw [if_neg hd, decide_eq_true hij, (entryLoop_spec nd (by omega) t i h hi).1,
        show i + (j - i) = j by omega]
  · rw [if_neg hij, if_neg hij]
    by_cases hd : i - j > 2
    · rw [if_pos hd, sumEntry_far t i j (fun p hp => (h p hp).1) (by omega)]
    · rw [if_neg hd, decide_eq_false hij, (entryLoop_spec nd (by omega) t j h hj).2,
        show j + (i - j) = i by omega]

/-- the matrix renumbered by the concatenation of the positions -/
theorem sumEntry_perm {c : ℕ → ℕ → Int} : ∀ (comps : List Comp),
    (∀ C ∈ comps, ∀ i j s t, C.position[i]? = some s → C.position[j]? = some t →
      c s t = cartan C.ty C.rank i j) →
    comps.Pairwise (fun C D => ∀ s ∈ C.position, ∀ t ∈ D.position, c s t = 0 ∧ c t s = 0) →
    ∀ i j s t, (perm comps)[i]? = some s → (perm comps)[j]? = some t →
      c s t = sumEntry (typeList comps) i j := by
  intro comps
  induction comps with
  | nil => intro _ _ i j s t h; simp [perm] at h
  | cons C l ih =>
    intro hin hac i j s t hi hj
    rw [List.pairwise_cons] at hac
    have hsp : ∀ {i s : ℕ}, (perm (C :: l))[i]? = some s →
        (i < C.rank ∧ C.position[i]? = some s) ∨ (C.rank ≤ i ∧ (perm l)[i - C.rank]? = some s) := by
      intro i s h
      rw [perm, List.flatMap_cons, List.getElem?_append] at h
      by_cases hlt : i < C.position.length
      · rw [if_pos hlt] at h; exact Or.inl ⟨hlt, h⟩
      · rw [if_neg hlt] at h; exact Or.inr ⟨by rw [Comp.rank]; omega, h⟩
    have hmem : ∀ {i s : ℕ}, (perm l)[i]? = some s → ∃ D ∈ l, s ∈ D.position := by
      intro i s h
      exact List.mem_flatMap.1 (List.mem_of_getElem? h)
    rw [typeList, List.map_cons, sumEntry]
    rcases hsp hi with ⟨h1, h2⟩ | ⟨h1, h2⟩ <;> rcases hsp hj with ⟨h3, h4⟩ | ⟨h3, h4⟩
    · rw [if_pos ⟨h1, h3⟩]; exact hin C (by simp) i j s t h2 h4
    · rw [if_neg (by omega), if_pos (by omega)]
      obtain ⟨D, hD, ht⟩ := hmem h4
      exact (hac.1 D hD s (List.mem_of_getElem? h2) t ht).1
    · rw [if_neg (by omega), if_pos (by omega)]
      obtain ⟨D, hD, hs⟩ := hmem h2
      exact (hac.1 D hD t (List.mem_of_getElem? h4) s hs).2
    · rw [if_neg (by omega), if_neg (by omega)]
      exact ih (fun D hD => hin D (by simp [hD])) hac.2 _ _ s t h2 h4

theorem IsCartan.pairwise {n : ℕ} {c : ℕ → ℕ → Int} {comps : List Comp} (h : IsCartan n c comps) :
    comps.Pairwise (fun C D => ∀ s ∈ C.position, ∀ t ∈ D.position, c s t = 0 ∧ c t s = 0) := by
  have hn : (comps.flatMap Comp.position).Nodup := h.perm.nodup_iff.2 List.nodup_range
  have hd := (List.nodup_flatMap.1 hn).2
  have : comps.Pairwise (fun C D => C ∈ comps ∧ D ∈ comps ∧ C ≠ D) := by
    rw [List.pairwise_iff_forall_sublist]
    intro C D hsub
    have hC : C ∈ comps := hsub.subset (by simp)
    have hD : D ∈ comps := hsub.subset (by simp)
    refine ⟨hC, hD, ?_⟩
    intro e
    subst e
    have := (List.pairwise_iff_forall_sublist.1 hd) hsub
    have hr := h.ranks C hC
    have hpos : 0 < C.position.length := by
      rw [Comp.rank] at hr
      cases hty : C.ty <;> rw [hty] at hr <;> simp only [Weyl.Ty.RankOK] at hr <;> omega
    obtain ⟨x, hx⟩ := List.exists_mem_of_length_pos hpos
    exact this hx hx
  refine this.imp ?_
  rintro C D ⟨hC, hD, hne⟩ s hs t ht
  exact ⟨h.across C hC D hD hne s hs t ht, h.across D hD C hC (Ne.symm hne) t ht s hs⟩

/-- the Lie type and numbering of a Cartan matrix -/
theorem IsCartan.sumEntry {n : ℕ} {c : ℕ → ℕ → Int} {comps : List Comp} (h : IsCartan n c comps)
    {i j s t : ℕ} (hi : (Dynkin.perm comps)[i]? = some s) (hj : (Dynkin.perm comps)[j]? = some t) :
    c s t = sumEntry (typeList comps) i j :=
  sumEntry_perm comps h.inside h.pairwise i j s t hi hj

theorem sum_ranks : ∀ (comps : List Comp),
    ((typeList comps).map Prod.snd).sum = (perm comps).length := by
  intro comps
  induction comps with
  | nil => rfl
  | cons C l ih =>
    simp only [typeList, perm, List.map_cons, List.sum_cons, List.flatMap_cons,
      List.length_append] at ih ⊢
    rw [ih]; rfl

theorem IsCartan.sum {n : ℕ} {c : ℕ → ℕ → Int} {comps : List Comp} (h : IsCartan n c comps) :
    ((typeList comps).map Prod.snd).sum = n := by
  rw [sum_ranks, Dynkin.perm, h.perm.length_eq, List.length_range]

theorem IsCartan.rank_le {n : ℕ} {c : ℕ → ℕ → Int} {comps : List Comp} (h : IsCartan n c comps)
    {C : Comp} (hC : C ∈ comps) : C.rank ≤ n := by
  rw [← h.sum]
  apply List.le_sum_of_mem
  simp only [typeList, List.map_map, List.mem_map]
  exact ⟨C, hC, rfl⟩

theorem testRow_ok {nd : Bool} {c : ℕ → ℕ → Int} {pi : List ℕ} {t : LieType} {i : ℕ}
    (hi : i < pi.length) : ∀ (js : List ℕ), (∀ j ∈ js, ∃ hj : j < pi.length,
      t.cartanEntry nd i j = .ok (c pi[i] pi[j])) → testRow nd c pi t i js = .ok () := by
  intro js
  induction js with
  | nil => intro _; rfl
  | cons j js ih =>
    intro h
    obtain ⟨hj, e⟩ := h j (by simp)
    rw [testRow, e, Res.ok_bind, List.getElem?_eq_getElem hi, List.getElem?_eq_getElem hj]
    dsimp only
    rw [if_neg (by simp)]
    exact ih (fun k hk => h k (by simp [hk]))

theorem testRows_ok {nd : Bool} {c : ℕ → ℕ → Int} {pi : List ℕ} {t : LieType} {cols : List ℕ} :
    ∀ (is : List ℕ), (∀ i ∈ is, ∃ hi : i < pi.length, ∀ j ∈ cols, ∃ hj : j < pi.length,
      t.cartanEntry nd i j = .ok (c pi[i] pi[j])) → testRows nd c pi t cols is = .ok () := by
  intro is
  induction is with
  | nil => intro _; rfl
  | cons i is ih =>
    intro h
    obtain ⟨hi, e⟩ := h i (by simp)
    rw [testRows, testRow_ok hi cols e, Res.ok_bind]
    exact ih (fun k hk => h k (by simp [hk]))

/-- the entries recovered from a diagram -/
theorem Good.cartanEntry {n : ℕ} {c : ℕ → ℕ → Int} {d : Diagram} (hG : Good n c d) {i j : ℕ}
    (hi : i < n) (hj : j < n) : d.cartanEntry i j = c i j := by
  have hc := hG.pre i hi j hj
  unfold Cond at hc
  unfold Diagram.cartanEntry
  by_cases hm : j ∉ d.nbrs i
  · rw [if_pos hm]
    rw [hG.mem_nbrs] at hm
    by_cases e : i = j
    · rw [if_pos e] at hc ⊢; exact hc.symm
    · rw [if_neg e]
      by_contra h0
      exact hm ⟨hi, hj, e, fun h => h0 h.symm⟩
  · rw [if_neg hm]
    rw [not_not, hG.mem_nbrs] at hm
    have hne := hm.2.2.1
    rw [if_neg hne] at hc
    cases hf : d.down.find? (fun e => decide (e.1 = (i, j))) with
    | none =>
      dsimp only
      rw [List.find?_eq_none] at hf
      by_contra h0
      have := hm.2.2.2
      exact hf ((i, j), -c i j) (hG.mem_down.2 ⟨hi, hj, hne, by omega, rfl⟩) (by simp)
    | some e =>
      dsimp only
      have h1 := List.mem_of_find?_eq_some hf
      have h2 := List.find?_some hf
      obtain ⟨⟨a, b⟩, m⟩ := e
      simp at h2
      obtain ⟨rfl, rfl⟩ := h2
      have := (hG.mem_down.1 h1).2.2.2.2
      dsimp only
      omega

theorem cartan_mul_lt {ty : Ty} {m i j : ℕ} (hr : ty.RankOK m) (hj : j < m) (hij : i < j) :
    cartan ty m i j * cartan ty m j i = Weyl.bond ty m i j := by
  have e1 : Weyl.bond ty m i j = Weyl.bondLt ty m i j := by rw [Weyl.bond, if_pos hij]
  have e2 : Weyl.bond ty m j i = Weyl.bondLt ty m i j := by rw [Weyl.bond, if_neg (by omega)]
  unfold cartan
  rw [if_neg (show ¬ i = j by omega), if_neg (show ¬ j = i by omega), e1, e2]
  by_cases h0 : Weyl.bondLt ty m i j = 0
  · rw [if_pos h0, if_pos h0, h0]; rfl
  · rw [if_neg h0, if_neg h0]
    cases ty <;> simp only [Weyl.Ty.RankOK] at hr <;> simp only [Weyl.bondLt] at h0 ⊢ <;>
      split_ifs at h0 ⊢ <;> first | rfl | omega

theorem cartan_mul {ty : Ty} {m i j : ℕ} (hr : ty.RankOK m) (hi : i < m) (hj : j < m) (hne : i ≠ j) :
    cartan ty m i j * cartan ty m j i = Weyl.bond ty m i j := by
  rcases Nat.lt_or_gt_of_ne hne with h | h
  · exact cartan_mul_lt hr hj h
  · rw [Int.mul_comm, cartan_mul_lt hr hi h, Weyl.bond, Weyl.bond, if_pos h, if_neg (by omega)]

/-- the components found satisfy the hypothesis of the construction of Weyl groups -/
theorem IsCartan.isDynkin {n : ℕ} (hn : n ≤ 32) {c : ℕ → ℕ → Int} {comps : List Comp}
    (h : IsCartan n c comps) : Weyl.IsDynkin n (fun i j => c i.1 j.1) comps := by
  refine ⟨hn, h.ranks, h.offsets, h.perm, ?_, ?_⟩
  · intro C hC s t i j hne hi hj
    rw [h.inside C hC i j s.1 t.1 hi hj, h.inside C hC j i t.1 s.1 hj hi]
    have hi' : i < C.rank := by
      by_contra hh
      rw [List.getElem?_eq_none (by rw [Comp.rank] at hh; omega)] at hi; cases hi
    have hj' : j < C.rank := by
      by_contra hh
      rw [List.getElem?_eq_none (by rw [Comp.rank] at hh; omega)] at hj; cases hj
    exact cartan_mul (h.ranks C hC) hi' hj' hne
  · intro C hC D hD hne s t hs ht
    rw [h.across C hC D hD hne s.1 hs t.1 ht, Int.zero_mul]

end Verif.Dynkin
