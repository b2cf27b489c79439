import Verif.Root.Iface
/-
Subsystems of a root system: sets of roots closed under their reflections; their simple roots.
-/
namespace Verif.Root
open Verif.Coxeter CoxeterSystem

/-- `S` is a set of root numbers that contains, with two roots, the reflection of one in the other. -/
structure Spec.Subsystem {rk : Nat} (C : Fin rk → Fin rk → ℤ) (N : Nat) (R R' : Nat → Fin rk → ℤ) (S : Nat → Prop) : Prop where
  lt : ∀ a, S a → a < 2 * N
  closed : ∀ a b, S a → S b → ∃ m, S m ∧ ∀ i, R m i = R b i - Spec.pair C (R b) (R' a) * R a i

/-- positive roots of `S` that are not the sum of two positive roots of `S` -/
def Spec.IsSimpleIn {rk : Nat} (N : Nat) (R : Nat → Fin rk → ℤ) (S : Nat → Prop) (a : Nat) : Prop :=
  S a ∧ N ≤ a ∧ ¬ ∃ b c, S b ∧ N ≤ b ∧ S c ∧ N ≤ c ∧ ∀ i, R a i = R b i + R c i

section
variable {rk : Nat} {M : CoxeterMatrix (Fin rk)} {W : Type} [Group W] {cs : CoxeterSystem M W} {C : Fin rk → Fin rk → ℤ} {h : IsCartan C M}
variable {pc : Bool} {N : Nat} {R R' : Nat → Fin rk → ℤ} {S : Nat → Prop}

theorem Spec.Numbering.isRoot (hN : Spec.Numbering C pc N R R') (cs : CoxeterSystem M W) (h : IsCartan C M) {k : Nat} (hk : k < 2 * N) : ∃ t, Verif.Coxeter.IsRoot cs h (R k) (R' k) t :=
  (spec_isRoot cs h _ _).mp (hN.root k hk)

theorem Spec.Numbering.minus (hN : Spec.Numbering C pc N R R') {k : Nat} (hk : k < 2 * N) : R (2 * N - 1 - k) = -R k ∧ R' (2 * N - 1 - k) = -R' k :=
  ⟨funext (hN.neg k hk).1, funext (hN.neg k hk).2⟩

theorem Spec.Numbering.lev_pos (hN : Spec.Numbering C pc N R R') (cs : CoxeterSystem M W) (h : IsCartan C M) {k : Nat} (hk : k < 2 * N) (hn : N ≤ k) : 0 < lev (R k) ∧ 0 < lev (R' k) := by
  obtain ⟨t, ht⟩ := hN.isRoot cs h hk
  exact ⟨Verif.Coxeter.lev_pos (fun i => (hN.pos k hk hn i).1) ht.ne_zero, Verif.Coxeter.lev_pos (fun i => (hN.pos k hk hn i).2) ht.dual.ne_zero⟩

theorem lev_neg {v : Fin rk → ℤ} : lev (-v) = -lev v := by simp [lev]
theorem lev_add {v w : Fin rk → ℤ} : lev (v + w) = lev v + lev w := by simp [lev, Finset.sum_add_distrib]
theorem lev_sub_smul (x y : Fin rk → ℤ) (c : ℤ) : lev (x - c • y) = lev x - c * lev y := by simp [lev, Finset.mul_sum]

theorem Spec.Numbering.sign (hN : Spec.Numbering C pc N R R') (cs : CoxeterSystem M W) (h : IsCartan C M) {k : Nat} (hk : k < 2 * N) : (N ≤ k ↔ 0 < lev (R k)) ∧ (N ≤ k ↔ 0 < lev (R' k)) := by
  by_cases hn : N ≤ k
  · have := hN.lev_pos cs h hk hn
    exact ⟨iff_of_true hn this.1, iff_of_true hn this.2⟩
  · have := hN.lev_pos cs h (k := 2 * N - 1 - k) (by omega) (by omega)
    rw [(hN.minus hk).1, (hN.minus hk).2, lev_neg, lev_neg] at this
    exact ⟨iff_of_false hn (by omega), iff_of_false hn (by omega)⟩

theorem Spec.Numbering.sign_of (hN : Spec.Numbering C pc N R R') (cs : CoxeterSystem M W) (h : IsCartan C M) {k : Nat} (hk : k < 2 * N) :
    (N ≤ k ↔ ∀ i, 0 ≤ R k i) ∧ (k < N ↔ ∀ i, R k i ≤ 0) := by
  have h1 := (hN.sign cs h hk).1
  have hneg : (∀ i, R k i ≤ 0) → lev (R k) ≤ 0 := fun hc => Finset.sum_nonpos fun i _ => hc i
  refine ⟨⟨fun hn i => (hN.pos k hk hn i).1, fun hp => ?_⟩, ⟨fun hn i => ?_, fun hp => ?_⟩⟩
  · obtain ⟨t, ht⟩ := hN.isRoot cs h hk
    exact h1.mpr (Verif.Coxeter.lev_pos hp ht.ne_zero)
  · have := (hN.pos (2 * N - 1 - k) (by omega) (by omega) i).1
    rw [(hN.minus hk).1, Pi.neg_apply] at this
    omega
  · have := hneg hp
    by_contra hc
    have := h1.mp (by omega)
    omega

/-- one of the two systems of vectors gives the order of the numbering -/
theorem Spec.Numbering.lev_lt (hN : Spec.Numbering C pc N R R') (cs : CoxeterSystem M W) (h : IsCartan C M) {k l : Nat} (hk : k < 2 * N) (hl : l < 2 * N)
    (h1 : lev (R k) < lev (R l)) (h2 : lev (R' k) < lev (R' l)) : k < l := by
  have hord : ∀ k l, N ≤ k → k < l → l < 2 * N → lev (R k) ≤ lev (R l) ∨ lev (R' k) ≤ lev (R' l) := by
    intro k l hk hkl hl
    have := hN.order k l hk hkl hl
    cases pc with
    | false =>
      simp only [Bool.false_eq_true, if_false] at this
      exact .inl (by rcases this with this | ⟨this, -⟩; exacts [le_of_lt this, le_of_eq this])
    | true =>
      simp only [if_true] at this
      exact .inr (by rcases this with this | ⟨this, -⟩; exacts [le_of_lt this, le_of_eq this])
  by_contra hc
  have hne : l ≠ k := by rintro rfl; omega
  by_cases hkn : N ≤ k
  · by_cases hln : N ≤ l
    · rcases hord l k hln (by omega) hk with h3 | h3 <;> omega
    · have a1 := (hN.sign cs h hk).1
      have a2 := (hN.sign cs h hl).1
      omega
  · have hln : l < N := by omega
    have h3 := hord (2 * N - 1 - k) (2 * N - 1 - l) (by omega) (by omega) (by omega)
    rw [(hN.minus hk).1, (hN.minus hk).2, (hN.minus hl).1, (hN.minus hl).2, lev_neg, lev_neg, lev_neg, lev_neg] at h3
    rcases h3 with h3 | h3 <;> omega

/-- the coroot of a reflected root -/
theorem Spec.Numbering.co_refl (hN : Spec.Numbering C pc N R R') (cs : CoxeterSystem M W) (h : IsCartan C M) {a b m : Nat} (ha : a < 2 * N) (hb : b < 2 * N) (hm : m < 2 * N)
    (e : R m = R b - form C (R b) (R' a) • R a) : R' m = R' b - form C (R a) (R' b) • R' a := by
  obtain ⟨t, ht⟩ := hN.isRoot cs h ha
  obtain ⟨u, hu⟩ := hN.isRoot cs h hb
  obtain ⟨v, hv⟩ := hN.isRoot cs h hm
  have h1 := hu.act t
  rw [ht.refl, ← e] at h1
  rw [(hv.unique h1).1, ht.dual.refl, form_swap]

/-- A reflection in a positive root lowers the number of a root just if the pairing is positive. -/
theorem Spec.Numbering.reflected_lt [Finite W] (hN : Spec.Numbering C pc N R R') (cs : CoxeterSystem M W) (h : IsCartan C M) {a b m : Nat} (ha : a < 2 * N) (han : N ≤ a) (hb : b < 2 * N)
    (hm : m < 2 * N) (e : R m = R b - form C (R b) (R' a) • R a) : (m < b ↔ 0 < form C (R b) (R' a)) ∧ (b < m ↔ form C (R b) (R' a) < 0) := by
  have e' := hN.co_refl cs h ha hb hm e
  obtain ⟨t, ht⟩ := hN.isRoot cs h ha
  obtain ⟨u, hu⟩ := hN.isRoot cs h hb
  have hp := ht.pair hu
  have l1 := hN.lev_pos cs h ha han
  have q1 : lev (R m) = lev (R b) - form C (R b) (R' a) * lev (R a) := by rw [e, lev_sub_smul]
  have q2 : lev (R' m) = lev (R' b) - form C (R a) (R' b) * lev (R' a) := by rw [e', lev_sub_smul]
  have d1 : 0 < form C (R b) (R' a) → m < b := fun hc => by
    have := mul_pos hc l1.1
    have := mul_pos (hp.1.mp hc) l1.2
    exact hN.lev_lt cs h hm hb (by omega) (by omega)
  have d2 : form C (R b) (R' a) < 0 → b < m := fun hc => by
    have hc' : form C (R a) (R' b) < 0 := by
      have h1 := hp.1
      have h2 := hp.2.1
      omega
    have := mul_neg_of_neg_of_pos hc l1.1
    have := mul_neg_of_neg_of_pos hc' l1.2
    exact hN.lev_lt cs h hb hm (by omega) (by omega)
  have d3 : form C (R b) (R' a) = 0 → m = b := fun hc => hN.inj m hm b hb (by rw [e, hc, zero_smul, sub_zero])
  refine ⟨⟨fun h3 => ?_, d1⟩, ⟨fun h3 => ?_, d2⟩⟩
  all_goals
    rcases lt_trichotomy (form C (R b) (R' a)) 0 with hc | hc | hc
    · have := d2 hc; omega
    · have := d3 hc; omega
    · have := d1 hc; omega

/-! ### simple roots of a subsystem -/

theorem Spec.Subsystem.refl (hS : Spec.Subsystem C N R R' S) {a b : Nat} (ha : S a) (hb : S b) : ∃ m, S m ∧ R m = R b - form C (R b) (R' a) • R a := by
  obtain ⟨m, hm, e⟩ := hS.closed a b ha hb
  exact ⟨m, hm, funext e⟩

variable (hN : Spec.Numbering C pc N R R') (hS : Spec.Subsystem C N R R' S) (cs) (h)
include hN hS cs h

theorem sub_neg {a : Nat} (ha : S a) : S (2 * N - 1 - a) := by
  have hl := hS.lt a ha
  obtain ⟨m, hm, e⟩ := hS.refl ha ha
  obtain ⟨t, ht⟩ := hN.isRoot cs h hl
  have : m = 2 * N - 1 - a := by
    refine hN.inj m (hS.lt m hm) _ (by omega) ?_
    rw [(hN.minus hl).1, e, ht.form_self, two_smul]
    abel
  rwa [← this]

theorem sub_sub [Finite W] {a b : Nat} (ha : S a) (hb : S b) (hne : b ≠ a) (hp : 0 < form C (R b) (R' a)) : ∃ m, S m ∧ R m = R b - R a := by
  have hla := hS.lt a ha
  have hlb := hS.lt b hb
  obtain ⟨t, ht⟩ := hN.isRoot cs h hla
  obtain ⟨u, hu⟩ := hN.isRoot cs h hlb
  have hpr := ht.pair hu
  have h1 : R b ≠ R a := fun e => hne (hN.inj b hlb a hla e)
  have h2 : R b ≠ -R a := by
    intro e
    rw [e, form_neg_left, ht.form_self] at hp
    omega
  have h3 := hpr.2.2 h1 h2
  have h4 := hpr.1.mp hp
  by_cases hc : form C (R b) (R' a) = 1
  · obtain ⟨m, hm, e⟩ := hS.refl ha hb
    exact ⟨m, hm, by rw [e, hc, one_smul]⟩
  · have hc' : form C (R a) (R' b) = 1 := by
      generalize form C (R b) (R' a) = x at *
      generalize form C (R a) (R' b) = y at *
      by_contra hy
      have : 2 ≤ x := by omega
      have : 2 ≤ y := by omega
      nlinarith
    obtain ⟨m, hm, e⟩ := hS.refl hb ha
    refine ⟨_, sub_neg cs h hN hS hm, ?_⟩
    rw [(hN.minus (hS.lt m hm)).1, e, hc', one_smul]
    abel

theorem sub_sum_pos {a : Nat} (hs : Spec.IsSimpleIn N R S a) {b c : Nat} (hb : S b) (hc : S c) (e : R a = R b + R c) : ¬ (N ≤ b ∧ N ≤ c) := by
  rintro ⟨h1, h2⟩
  exact hs.2.2 ⟨b, c, hb, h1, hc, h2, fun i => congrFun e i⟩

/-- distinct simple roots have pairings that are not positive -/
theorem sub_obtuse [Finite W] {a b : Nat} (ha : Spec.IsSimpleIn N R S a) (hb : Spec.IsSimpleIn N R S b) (hne : b ≠ a) : form C (R b) (R' a) ≤ 0 := by
  by_contra hc
  obtain ⟨m, hm, e⟩ := sub_sub cs h hN hS ha.1 hb.1 hne (by omega)
  by_cases hmn : N ≤ m
  · exact sub_sum_pos cs h hN hS hb ha.1 hm (by rw [e]; abel) ⟨ha.2.1, hmn⟩
  · have hl := hS.lt m hm
    refine sub_sum_pos cs h hN hS ha hb.1 (sub_neg cs h hN hS hm) ?_ ⟨hb.2.1, by omega⟩
    rw [(hN.minus hl).1, e]
    abel

/-- positive roots of the subsystem are sums of simple ones -/
theorem sub_sum {a : Nat} (ha : S a) (han : N ≤ a) : ∃ l : List Nat, (∀ d ∈ l, Spec.IsSimpleIn N R S d) ∧ R a = (l.map R).sum := by
  obtain ⟨m, hm⟩ : ∃ m : Nat, lev (R a) = m := ⟨(lev (R a)).toNat, by have := (hN.lev_pos cs h (hS.lt a ha) han).1; omega⟩
  induction m using Nat.strong_induction_on generalizing a with
  | _ m ih =>
    by_cases hs : Spec.IsSimpleIn N R S a
    · exact ⟨[a], by simpa using hs, by simp⟩
    · have : ∃ b c, S b ∧ N ≤ b ∧ S c ∧ N ≤ c ∧ ∀ i, R a i = R b i + R c i := by
        by_contra hc
        exact hs ⟨ha, han, hc⟩
      obtain ⟨b, c, hb, hbn, hc, hcn, e⟩ := this
      have e' : R a = R b + R c := funext e
      have l1 := (hN.lev_pos cs h (hS.lt b hb) hbn).1
      have l2 := (hN.lev_pos cs h (hS.lt c hc) hcn).1
      have l3 : lev (R a) = lev (R b) + lev (R c) := by rw [e', lev_add]
      obtain ⟨l, p1, p2⟩ := ih (lev (R b)).toNat (by omega) hb hbn (by omega)
      obtain ⟨l', q1, q2⟩ := ih (lev (R c)).toNat (by omega) hc hcn (by omega)
      refine ⟨l ++ l', fun d hd => ?_, by rw [List.map_append, List.sum_append, ← p2, ← q2, e']⟩
      rcases List.mem_append.mp hd with hd | hd
      exacts [p1 d hd, q1 d hd]

omit hN hS cs h [Group W] in
theorem form_list (y : Fin rk → ℤ) : ∀ l : List Nat, form C (l.map R).sum y = (l.map fun d => form C (R d) y).sum
  | [] => by simp [form]
  | d :: l => by rw [List.map_cons, List.sum_cons, List.map_cons, List.sum_cons, form_add_left, form_list y l]

/-- a positive root has a positive pairing with a simple one -/
theorem sub_exists [Finite W] {a : Nat} (ha : S a) (han : N ≤ a) : ∃ d, Spec.IsSimpleIn N R S d ∧ 0 < form C (R a) (R' d) := by
  obtain ⟨l, h1, h2⟩ := sub_sum cs h hN hS ha han
  obtain ⟨t, ht⟩ := hN.isRoot cs h (hS.lt a ha)
  have h3 := ht.form_self
  nth_rewrite 1 [h2] at h3
  rw [form_list] at h3
  have : ∃ d ∈ l, 0 < form C (R d) (R' a) := by
    by_contra hc
    push Not at hc
    have : ∀ l : List Nat, (∀ d ∈ l, form C (R d) (R' a) ≤ 0) → (l.map fun d => form C (R d) (R' a)).sum ≤ 0 := by
      intro l
      induction l with
      | nil => simp
      | cons d l ih =>
        intro hl
        have h1 := hl d (by simp)
        have h2 := ih fun d hd => hl d (by simp [hd])
        rw [List.map_cons, List.sum_cons]
        omega
    have := this l hc
    omega
  obtain ⟨d, hd, hp⟩ := this
  obtain ⟨u, hu⟩ := hN.isRoot cs h (hS.lt d (h1 d hd).1)
  exact ⟨d, h1 d hd, (ht.pair hu).1.mp hp⟩

/-- a simple reflection makes only its own root negative -/
theorem sub_refl_pos [Finite W] {a b m : Nat} (ha : Spec.IsSimpleIn N R S a) (hb : S b) (hbn : N ≤ b) (hne : b ≠ a) (hm : m < 2 * N) (e : R m = R b - form C (R b) (R' a) • R a) :
    S m ∧ N ≤ m := by
  have hla := hS.lt a ha.1
  have hlb := hS.lt b hb
  have hSm : S m := by
    obtain ⟨m', hm', e'⟩ := hS.refl ha.1 hb
    rwa [hN.inj m hm m' (hS.lt _ hm') (by rw [e, e'])]
  refine ⟨hSm, ?_⟩
  obtain ⟨t, ht⟩ := hN.isRoot cs h hla
  obtain ⟨u, hu⟩ := hN.isRoot cs h hlb
  have l1 := (hN.lev_pos cs h hla ha.2.1).1
  have l2 := (hN.lev_pos cs h hlb hbn).1
  have lm : lev (R m) = lev (R b) - form C (R b) (R' a) * lev (R a) := by rw [e, lev_sub_smul]
  by_cases hc : form C (R b) (R' a) ≤ 0
  · rw [(hN.sign cs h hm).1, lm]
    have := mul_nonpos_of_nonpos_of_nonneg hc (le_of_lt l1)
    omega
  · have hp := ht.pair hu
    have hc0 : 0 < form C (R b) (R' a) := by omega
    have hc3 : form C (R b) (R' a) ≤ 3 := by
      have h1 : R b ≠ R a := fun e => hne (hN.inj b hlb a hla e)
      have h2 : R b ≠ -R a := by
        intro e
        rw [e, form_neg_left, ht.form_self] at hc0
        omega
      have h3 := hp.2.2 h1 h2
      have h4 := hp.1.mp hc0
      nlinarith
    -- going down one step keeps positive
    have step : ∀ x y, S x → N ≤ x → S y → R y = R x - R a → N ≤ y := by
      intro x y hx hxn hy exy
      by_contra hyn
      have hly := hS.lt y hy
      refine sub_sum_pos cs h hN hS ha hx (sub_neg cs h hN hS hy) ?_ ⟨hxn, by omega⟩
      rw [(hN.minus hly).1, exy]
      abel
    obtain ⟨p, hp1, hp2⟩ := sub_sub cs h hN hS ha.1 hb hne hc0
    have hpn := step b p hb hbn hp1 hp2
    have hcases : form C (R b) (R' a) = 1 ∨ form C (R b) (R' a) = 2 ∨ form C (R b) (R' a) = 3 := by omega
    rcases hcases with h1 | h1 | h1
    · rw [h1, one_smul] at e
      rwa [hN.inj m hm p (hS.lt p hp1) (by rw [e, hp2])]
    · refine step p m hp1 hpn hSm ?_
      rw [e, h1, hp2, two_smul]
      abel
    · obtain ⟨q, hq1, hq2⟩ := hS.refl ha.1 hp1
      have hf : form C (R p) (R' a) = 1 := by rw [hp2, form_sub_left, h1, ht.form_self]; rfl
      rw [hf, one_smul] at hq2
      have hqn := step p q hp1 hpn hq1 hq2
      refine step q m hq1 hqn hSm ?_
      rw [e, h1, hq2, hp2, show (3 : ℤ) = 1 + 1 + 1 by rfl, add_smul, add_smul, one_smul]
      abel

/-- a simple root that can be subtracted has a smaller number -/
theorem sub_lt [Finite W] {a d : Nat} (ha : S a) (han : N ≤ a) (hd : Spec.IsSimpleIn N R S d) (hne : d ≠ a) (hp : 0 < form C (R a) (R' d)) : d < a := by
  have hla := hS.lt a ha
  have hld := hS.lt d hd.1
  obtain ⟨m, hm, e⟩ := hS.refl hd.1 ha
  have hlm := hS.lt m hm
  have hmn := (sub_refl_pos cs h hN hS hd ha han (Ne.symm hne) hlm e).2
  have e' := hN.co_refl cs h hld hla hlm e
  obtain ⟨t, ht⟩ := hN.isRoot cs h hld
  obtain ⟨u, hu⟩ := hN.isRoot cs h hla
  have hp' := (ht.pair hu).1.mp hp
  have l1 := hN.lev_pos cs h hlm hmn
  have l2 := hN.lev_pos cs h hld hd.2.1
  rw [e, e', lev_sub_smul, lev_sub_smul] at l1
  have g : ∀ x y : ℤ, 0 < x → 0 < y → y ≤ x * y := fun x y hx hy => by nlinarith
  have := g _ _ hp l2.1
  have := g _ _ hp' l2.2
  exact hN.lev_lt cs h hld hla (by omega) (by omega)

/-- simple roots are those positive roots that have no positive pairing with another simple root -/
theorem sub_simple_iff [Finite W] {a : Nat} : Spec.IsSimpleIn N R S a ↔ (S a ∧ N ≤ a) ∧ ¬ ∃ d, Spec.IsSimpleIn N R S d ∧ d ≠ a ∧ 0 < form C (R a) (R' d) := by
  constructor
  · intro ha
    refine ⟨⟨ha.1, ha.2.1⟩, ?_⟩
    rintro ⟨d, hd, hne, hp⟩
    have := sub_obtuse cs h hN hS hd ha (Ne.symm hne)
    omega
  · rintro ⟨⟨h1, h2⟩, h3⟩
    obtain ⟨d, hd, hp⟩ := sub_exists cs h hN hS h1 h2
    by_cases hda : d = a
    · rwa [← hda]
    · exact absurd ⟨d, hd, hda, hp⟩ h3

end
end Verif.Root
