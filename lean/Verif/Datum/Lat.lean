import Verif.Datum.Dom
/-
Root data on the lattices: pairings, reflections, and the system of positive roots of a subsystem.
-/
namespace Verif.Datum
open Verif.Coxeter CoxeterSystem Verif.Root
open scoped Matrix

variable {n r : Nat} {α αv : Fin n → Fin r → ℤ}

theorem lin_add (x y : Fin n → ℤ) : lin α (x + y) = lin α x + lin α y := by
  simp [lin, add_smul, Finset.sum_add_distrib]

theorem lin_smul (c : ℤ) (x : Fin n → ℤ) : lin α (c • x) = c • lin α x := by
  simp only [lin, Finset.smul_sum, Pi.smul_apply, smul_eq_mul, mul_smul]

theorem lin_neg (x : Fin n → ℤ) : lin α (-x) = -lin α x := by simp [lin]

theorem lin_sub (x y : Fin n → ℤ) : lin α (x - y) = lin α x - lin α y := by rw [sub_eq_add_neg, lin_add, lin_neg, sub_eq_add_neg]

theorem lin_unit (s : Fin n) : lin α (Spec.unit s) = α s := by
  rw [lin, Finset.sum_eq_single s]
  · simp [Spec.unit]
  · intro t _ ht; simp [Spec.unit, ht]
  · simp

theorem lin_dot (x : Fin n → ℤ) (v : Fin r → ℤ) : lin α x ⬝ᵥ v = ∑ s, x s * (α s ⬝ᵥ v) := by
  rw [lin, sum_dotProduct]
  exact Finset.sum_congr rfl fun s _ => by rw [smul_dotProduct, smul_eq_mul]

theorem pair_lin (x y : Fin n → ℤ) : lin α x ⬝ᵥ lin αv y = form (cart α αv) x y := by
  rw [lin_dot, form]
  refine Finset.sum_congr rfl fun s _ => ?_
  rw [dotProduct_comm, lin_dot, Finset.mul_sum]
  refine Finset.sum_congr rfl fun t _ => ?_
  rw [dotProduct_comm]; ring

theorem lin_refl (x a y : Fin n → ℤ) : lin α (x - form (cart α αv) x y • a) = refl (lin α a) (lin αv y) (lin α x) := by
  rw [lin_sub, lin_smul, refl, pair_lin]

theorem lin_corefl (x a y : Fin n → ℤ) : lin αv (y - form (cart α αv) a y • x) = refl (lin αv x) (lin α a) (lin αv y) := by
  rw [lin_sub, lin_smul, refl, dotProduct_comm, pair_lin]

theorem lin_list (l : List Nat) (R : Nat → Fin n → ℤ) : lin α (l.map R).sum = (l.map fun k => lin α (R k)).sum := by
  induction l with
  | nil => simp [lin]
  | cons a l ih => rw [List.map_cons, List.sum_cons, lin_add, ih, List.map_cons, List.sum_cons]

section
variable {M : CoxeterMatrix (Fin n)} {W : Type} [Group W] {pc : Bool} {N : Nat} {R R' : Nat → Fin n → ℤ} {S : Nat → Prop}

/-- the form defined by the Cartan matrix is nondegenerate, hence the simple roots are independent -/
theorem form_zero [Finite W] {C : Fin n → Fin n → ℤ} (cs : CoxeterSystem M W) (h : IsCartan C M) {x : Fin n → ℤ} (hx : ∀ s, form C x (root s) = 0) : x = 0 := by
  obtain ⟨Q, q1, q2, q3, q5, q4⟩ := exists_inner' cs h
  by_contra hne
  have hz : ∀ s, Q x (root s) = 0 := fun s => by
    have := q4 (isRoot_simple (cs := cs) (h := h) s) x
    rw [hx s] at this
    omega
  have q2a : ∀ a b c, Q (a + b) c = Q a c + Q b c := fun a b c => by
    have := q2 (a + b) b c
    rw [add_sub_cancel_right] at this; omega
  have hsum : ∀ (T : Finset (Fin n)), Q (∑ s ∈ T, x s • root s) x = 0 := by
    intro T
    induction T using Finset.induction_on with
    | empty =>
      have := q3 0 (∑ s ∈ (∅ : Finset (Fin n)), x s • root s) x
      simpa using this
    | insert a T ha ih => rw [Finset.sum_insert ha, q2a, q3, ih, q1, hz]; simp
  have e : x = ∑ s, x s • root s := by
    funext i
    rw [Finset.sum_apply, Finset.sum_eq_single i]
    · simp [root]
    · intro t _ ht
      simp [root, Ne.symm ht]
    · simp
  have h1 := hsum Finset.univ
  rw [← e] at h1
  have := q5 x hne
  omega

variable [Finite W] (cs : CoxeterSystem M W) (h : IsCartan (cart α αv) M)
include cs h

theorem lin_inj {x y : Fin n → ℤ} (e : lin α x = lin α y) : x = y := by
  have : x - y = 0 := form_zero cs h fun s => by
    have := pair_lin (α := α) (αv := αv) (x - y) (root s)
    rw [lin_sub, e, sub_self, zero_dotProduct] at this
    exact this.symm
  exact sub_eq_zero.1 this

variable (hN : Spec.Numbering (cart α αv) pc N R R') (hS : Spec.Subsystem (cart α αv) N R R' S)
include hN hS

theorem sub_cosum {a : Nat} (ha : S a) (han : N ≤ a) : ∃ l : List Nat, (∀ d ∈ l, Spec.IsSimpleIn N R S d) ∧ R' a = (l.map R').sum := by
  induction a using Nat.strong_induction_on with
  | _ a ih =>
    by_cases hs : Spec.IsSimpleIn N R S a
    · exact ⟨[a], by simpa using hs, by simp⟩
    · obtain ⟨d, hd, hp⟩ := sub_exists cs h hN hS ha han
      have hne : a ≠ d := fun e => hs (e ▸ hd)
      obtain ⟨m, hm, e⟩ := hS.refl hd.1 ha
      have hla := hS.lt a ha
      have hld := hS.lt d hd.1
      have hlm := hS.lt m hm
      obtain ⟨-, hmn⟩ := sub_refl_pos cs h hN hS hd ha han hne hlm e
      have hlt := (hN.reflected_lt cs h hld hd.2.1 hla hlm e).1.2 hp
      have e' := hN.co_refl cs h hld hla hlm e
      obtain ⟨t, ht⟩ := hN.isRoot cs h hla
      obtain ⟨u, hu⟩ := hN.isRoot cs h hld
      have hq : 0 < form (cart α αv) (R d) (R' a) := (hu.pair ht).1.mp hp
      obtain ⟨l, h1, h2⟩ := ih m hlt hm hmn
      refine ⟨List.replicate (form (cart α αv) (R d) (R' a)).toNat d ++ l, ?_, ?_⟩
      · intro x hx
        rcases List.mem_append.1 hx with hx | hx
        · rw [(List.mem_replicate.1 hx).2]; exact hd
        · exact h1 x hx
      · rw [List.map_append, List.sum_append, ← h2, e', List.map_replicate, List.sum_replicate]
        rw [← natCast_zsmul, Int.toNat_of_nonneg hq.le]
        abel

open Classical in
/-- the positive roots of a subsystem, with its simple roots -/
theorem sub_sys {ι : Type} {g : ι → ℕ} (hg : ∀ a, Spec.IsSimpleIn N R S a ↔ ∃ i, g i = a) :
    Sys ((Finset.range (2 * N)).filter fun k => N ≤ k ∧ S k) g (fun k => lin α (R k)) (fun k => lin αv (R' k)) where
  mem := fun i => by
    have := (hg (g i)).2 ⟨i, rfl⟩
    simp only [Finset.mem_filter, Finset.mem_range]
    exact ⟨hS.lt _ this.1, this.2.1, this.1⟩
  two := fun b hb => by
    simp only [Finset.mem_filter, Finset.mem_range] at hb
    obtain ⟨t, ht⟩ := hN.isRoot cs h hb.1
    rw [pair_lin]; exact ht.form_self
  perm := fun i b hb hne => by
    simp only [Finset.mem_filter, Finset.mem_range] at hb
    have hi := (hg (g i)).2 ⟨i, rfl⟩
    obtain ⟨m, hm, e⟩ := hS.refl hi.1 hb.2.2
    have hlm := hS.lt m hm
    have e' := hN.co_refl cs h (hS.lt _ hi.1) hb.1 hlm e
    obtain ⟨-, hmn⟩ := sub_refl_pos cs h hN hS hi hb.2.2 hb.2.1 hne hlm e
    refine ⟨m, ?_, ?_, ?_, ?_⟩
    · simp only [Finset.mem_filter, Finset.mem_range]
      exact ⟨hlm, hmn, hm⟩
    · rintro rfl
      obtain ⟨t, ht⟩ := hN.isRoot cs h (hS.lt _ hi.1)
      -- the root `b` would be the negative of the simple root
      have e2 : R b = R (g i) + form (cart α αv) (R b) (R' (g i)) • R (g i) := by rw [eq_sub_iff_add_eq.1 e]
      have h3 : form (cart α αv) (R b) (R' (g i)) = 2 + form (cart α αv) (R b) (R' (g i)) * 2 := by
        conv_lhs => rw [e2]
        rw [form_add_left, form_smul_left, ht.form_self]
      have h4 : form (cart α αv) (R b) (R' (g i)) = -2 := by omega
      rw [h4] at e2
      have h5 : R b = R (2 * N - 1 - g i) := by
        rw [(hN.minus (hS.lt _ hi.1)).1, e2]; funext j; simp; ring
      have h6 := hN.inj _ hb.1 _ (by have := hS.lt _ hi.1; omega) h5
      have := hi.2.1; omega
    · show lin α (R m) = _
      rw [e, lin_refl]
    · show lin αv (R' m) = _
      rw [e', lin_corefl]
  inj := fun b hb c hc hh => by
    simp only [Finset.mem_filter, Finset.mem_range] at hb hc
    rcases hh with hh | hh
    · exact hN.inj _ hb.1 _ hc.1 (lin_inj cs h hh)
    · obtain ⟨t, ht⟩ := hN.isRoot cs h hb.1
      obtain ⟨u, hu⟩ := hN.isRoot cs h hc.1
      have e : R' b = R' c := by
        have hd : IsCartan (cart αv α) M := by
          have := h.dual
          have e2 : (fun s t => cart α αv t s) = cart αv α := by funext s t; exact dotProduct_comm _ _
          exact e2 ▸ this
        exact lin_inj cs hd hh
      refine hN.inj _ hb.1 _ hc.1 ?_
      have := hu.dual
      rw [← e] at this
      exact ((ht.dual).unique this).1
  pos := fun b hb => by
    simp only [Finset.mem_filter, Finset.mem_range] at hb
    have key : ∀ l : List Nat, (∀ d ∈ l, Spec.IsSimpleIn N R S d) → ∃ l' : List ι, l = l'.map g := by
      intro l hl
      induction l with
      | nil => exact ⟨[], rfl⟩
      | cons a l ih =>
        obtain ⟨l', rfl⟩ := ih fun d hd => hl d (List.mem_cons_of_mem _ hd)
        obtain ⟨i, rfl⟩ := (hg a).1 (hl a (by simp))
        exact ⟨i :: l', rfl⟩
    obtain ⟨l, h1, h2⟩ := sub_sum cs h hN hS hb.2.2 hb.2.1
    obtain ⟨l2, h3, h4⟩ := sub_cosum cs h hN hS hb.2.2 hb.2.1
    obtain ⟨l', rfl⟩ := key l h1
    obtain ⟨l2', rfl⟩ := key l2 h3
    refine ⟨⟨l', ?_⟩, ⟨l2', ?_⟩⟩
    · rw [h2, lin_list, List.map_map]; rfl
    · rw [h4, lin_list, List.map_map]; rfl

end

end Verif.Datum
