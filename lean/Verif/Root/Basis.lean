import Verif.Root.Sub
/-
The functions `simpleBasis` and `pos_simples` find the simple roots of a subsystem.
-/
namespace Verif.Root
open Verif.Coxeter CoxeterSystem

theorem bits_put {b : List Bool} {m : Nat} {P : Nat → Prop} (hb : Spec.Bits b m P) {i : Nat} (hi : i < m) (v : Bool) :
    ∃ b', Vec.put b i v = .ok b' ∧ Spec.Bits b' m fun k => if k = i then v = true else P k := by
  refine ⟨b.set i v, Vec.put_ok (by rw [hb.1]; exact hi) v, by simp [hb.1], fun k hk => ?_⟩
  have h1 := hb.2 k hk
  rw [RS.bit] at h1 ⊢
  by_cases hki : k = i
  · subst hki
    beta_reduce
    rw [if_pos rfl, List.getElem?_set_self (by rw [hb.1]; exact hk)]
    rfl
  · beta_reduce
    rw [if_neg hki, List.getElem?_set_ne (Ne.symm hki)]
    exact h1

theorem bits_mem {b : List Bool} {m : Nat} {P : Nat → Prop} (hb : Spec.Bits b m P) (k : Nat) : k ∈ members b ↔ k < m ∧ P k := by
  rw [members, List.mem_filter, List.mem_range, hb.1]
  constructor
  · rintro ⟨h1, h2⟩
    exact ⟨h1, (hb.2 k h1).mp h2⟩
  · rintro ⟨h1, h2⟩
    exact ⟨h1, (hb.2 k h1).mpr h2⟩

theorem members_sorted (b : List Bool) : (members b).Pairwise (· < ·) := List.Pairwise.filter _ (List.pairwise_lt_range)

theorem range_split (n : Nat) {p : Nat} (hp : p < n) : List.range' p (n - p) = p :: List.range' (p + 1) (n - (p + 1)) := by
  rw [show n - p = (n - (p + 1)) + 1 by omega, List.range'_succ]

section
variable {rk : Nat} {M : CoxeterMatrix (Fin rk)} {W : Type} [Group W] [Finite W] (cs : CoxeterSystem M W) {C : Fin rk → Fin rk → ℤ} (h : IsCartan C M)
variable {nd pc : Bool} {N : Nat} {R R' : Nat → Fin rk → ℤ} {S : Nat → Prop} {rs : RS}
variable (hN : Spec.Numbering C pc N R R') (hA : Spec.Answers nd C pc N R R' rs)
include hN hA

omit [Group W] [Finite W] hN in
theorem acc_reflected {a b : Nat} (ha : a < 2 * N) (hb : b < 2 * N) : ∃ m < 2 * N, rs.reflected a b = .ok m ∧ R m = R b - form C (R b) (R' a) • R a := by
  obtain ⟨m, hm, h1, h2, -⟩ := hA.reflected a ha b hb
  exact ⟨m, hm, h1, funext h2⟩

omit [Group W] [Finite W] hN in
theorem acc_isPos (a : Nat) : rs.isPos a = true ↔ N ≤ a := by rw [RS.isPos, decide_eq_true_iff, hA.numPos]

variable (hS : Spec.Subsystem C N R R' S)
include cs h hS

/-- reflecting in a simple root of a subsystem -/
theorem sub_step {a b : Nat} (ha : Spec.IsSimpleIn N R S a) (hb : S b) (hbn : N ≤ b) (hne : b ≠ a) :
    ∃ g, rs.reflected a b = .ok g ∧ (g < b ↔ 0 < form C (R b) (R' a)) ∧ rs.isPos g = true := by
  obtain ⟨m, hm, h1, h2⟩ := acc_reflected hA (hS.lt a ha.1) (hS.lt b hb)
  exact ⟨m, h1, (hN.reflected_lt cs h (hS.lt a ha.1) ha.2.1 (hS.lt b hb) hm h2).1, (acc_isPos hA m).mpr (sub_refl_pos cs h hN hS ha hb hbn hne hm h2).2⟩

theorem basisInner_ok {sub : List Bool} (hsub : Spec.Bits sub (2 * N) fun k => S k ∧ N ≤ k) {a : Nat} (ha : Spec.IsSimpleIn N R S a) : ∀ (d p : Nat), p + d = 2 * N →
    ∀ (cand : List Bool) (P : Nat → Prop), Spec.Bits cand (2 * N) P → ∃ cand', rs.basisInner sub a (List.range' p d) cand = .ok cand' ∧
      Spec.Bits cand' (2 * N) fun k => P k ∧ ¬ (p ≤ k ∧ (S k ∧ N ≤ k) ∧ k ≠ a ∧ 0 < form C (R k) (R' a)) := by
  intro d
  induction d with
  | zero =>
    intro p hp cand P hc
    refine ⟨cand, rfl, bits_congr hc fun k hk => ⟨fun h1 => ⟨h1, fun h2 => by omega⟩, fun h1 => h1.1⟩⟩
  | succ d ih =>
    intro p hp cand P hc
    rw [List.range'_succ]
    have skip : ∀ cand' P', Spec.Bits cand' (2 * N) P' → (∀ k < 2 * N, P' k ↔ P k ∧ ¬ (k = p ∧ (S k ∧ N ≤ k) ∧ k ≠ a ∧ 0 < form C (R k) (R' a))) →
        ∃ cand'', rs.basisInner sub a (List.range' (p + 1) d) cand' = .ok cand'' ∧
        Spec.Bits cand'' (2 * N) fun k => P k ∧ ¬ (p ≤ k ∧ (S k ∧ N ≤ k) ∧ k ≠ a ∧ 0 < form C (R k) (R' a)) := by
      intro cand' P' hc' hP
      obtain ⟨c, h1, h2⟩ := ih (p + 1) (by omega) cand' P' hc'
      refine ⟨c, h1, bits_congr h2 fun k hk => ?_⟩
      rw [hP k hk]
      constructor
      · rintro ⟨⟨g1, g2⟩, g3⟩
        refine ⟨g1, fun g4 => ?_⟩
        by_cases hkp : k = p
        · exact g2 ⟨hkp, g4.2⟩
        · exact g3 ⟨by omega, g4.2⟩
      · rintro ⟨g1, g2⟩
        exact ⟨⟨g1, fun g3 => g2 ⟨by omega, g3.2⟩⟩, fun g3 => g2 ⟨by omega, g3.2⟩⟩
    rw [RS.basisInner]
    by_cases hb : RS.bit sub p = true
    · rw [if_pos hb]
      have hb' := (hsub.2 p (by omega)).mp hb
      by_cases hap : a = p
      · rw [if_pos hap]
        exact skip cand P hc fun k hk => ⟨fun g => ⟨g, fun g2 => g2.2.2.1 (by omega)⟩, fun g => g.1⟩
      · rw [if_neg hap]
        obtain ⟨g, g1, g2, g3⟩ := sub_step cs h hN hA hS ha hb'.1 hb'.2 (Ne.symm hap)
        rw [g1, Res.ok_bind]
        by_cases hlt : g < p
        · rw [if_pos hlt, if_pos g3]
          obtain ⟨c, c1, c2⟩ := bits_put hc (i := p) (by omega) false
          rw [c1, Res.ok_bind]
          refine skip c _ c2 fun k hk => ?_
          by_cases hkp : k = p
          · subst hkp
            rw [if_pos rfl]
            exact ⟨fun g => by simp at g, fun g => absurd ⟨rfl, hb', Ne.symm hap, g2.mp hlt⟩ g.2⟩
          · rw [if_neg hkp]
            exact ⟨fun g => ⟨g, fun g' => hkp g'.1⟩, fun g => g.1⟩
        · rw [if_neg hlt]
          refine skip cand P hc fun k hk => ⟨fun g => ⟨g, ?_⟩, fun g => g.1⟩
          rintro ⟨rfl, -, -, g5⟩
          exact hlt (g2.mpr g5)
    · rw [if_neg hb]
      refine skip cand P hc fun k hk => ⟨fun g => ⟨g, ?_⟩, fun g => g.1⟩
      rintro ⟨rfl, g4, -⟩
      exact hb ((hsub.2 k hk).mpr g4)

theorem basisLoop_ok {sub : List Bool} (hsub : Spec.Bits sub (2 * N) fun k => S k ∧ N ≤ k) : ∀ (d p : Nat), p + d = 2 * N → ∀ (cand : List Bool),
    Spec.Bits cand (2 * N) (fun k => (S k ∧ N ≤ k) ∧ ¬ ∃ g < p, Spec.IsSimpleIn N R S g ∧ g ≠ k ∧ 0 < form C (R k) (R' g)) →
    ∃ cand', rs.basisLoop sub (List.range' p d) cand = .ok cand' ∧ Spec.Bits cand' (2 * N) fun k => Spec.IsSimpleIn N R S k := by
  intro d
  induction d with
  | zero =>
    intro p hp cand hc
    refine ⟨cand, rfl, bits_congr hc fun k hk => ?_⟩
    rw [sub_simple_iff cs h hN hS]
    constructor
    · rintro ⟨h1, h2⟩
      refine ⟨h1, ?_⟩
      rintro ⟨g, g1, g2, g3⟩
      exact h2 ⟨g, by have := hS.lt g g1.1; omega, g1, g2, g3⟩
    · rintro ⟨h1, h2⟩
      exact ⟨h1, fun ⟨g, _, g1⟩ => h2 ⟨g, g1⟩⟩
  | succ d ih =>
    intro p hp cand hc
    rw [List.range'_succ, RS.basisLoop]
    by_cases hb : RS.bit cand p = true
    · rw [if_pos hb]
      obtain ⟨h1, h2⟩ := (hc.2 p (by omega)).mp hb
      have hs : Spec.IsSimpleIn N R S p := by
        rw [sub_simple_iff cs h hN hS]
        refine ⟨h1, ?_⟩
        rintro ⟨g, g1, g2, g3⟩
        exact h2 ⟨g, sub_lt cs h hN hS h1.1 h1.2 g1 g2 g3, g1, g2, g3⟩
      obtain ⟨c, c1, c2⟩ := basisInner_ok cs h hN hA hS hsub hs (2 * N) 0 (by omega) cand _ hc
      rw [hsub.1, List.range_eq_range', c1, Res.ok_bind]
      have hbp : RS.bit c p = true := (c2.2 p (by omega)).mpr ⟨⟨h1, h2⟩, fun g => g.2.2.1 rfl⟩
      rw [if_pos hbp]
      refine ih (p + 1) (by omega) c (bits_congr c2 fun k hk => ?_)
      constructor
      · rintro ⟨⟨g1, g2⟩, g3⟩
        refine ⟨g1, ?_⟩
        rintro ⟨g, g4, g5, g6, g7⟩
        by_cases hgp : g = p
        · subst hgp
          exact g3 ⟨by omega, g1, Ne.symm g6, g7⟩
        · exact g2 ⟨g, by omega, g5, g6, g7⟩
      · rintro ⟨g1, g2⟩
        exact ⟨⟨g1, fun ⟨g, g4, g5⟩ => g2 ⟨g, by omega, g5⟩⟩, fun g3 => g2 ⟨p, by omega, hs, Ne.symm g3.2.2.1, g3.2.2.2⟩⟩
    · rw [if_neg hb]
      refine ih (p + 1) (by omega) cand (bits_congr hc fun k hk => ?_)
      have hns : ¬ Spec.IsSimpleIn N R S p := by
        intro hs
        refine hb ((hc.2 p (by omega)).mpr ⟨⟨hs.1, hs.2.1⟩, ?_⟩)
        rintro ⟨g, -, g1, g2, g3⟩
        have := sub_obtuse cs h hN hS g1 hs (Ne.symm g2)
        omega
      constructor
      · rintro ⟨g1, g2⟩
        refine ⟨g1, ?_⟩
        rintro ⟨g, g4, g5, g6⟩
        by_cases hgp : g = p
        · exact hns (hgp ▸ g5)
        · exact g2 ⟨g, by omega, g5, g6⟩
      · rintro ⟨g1, g2⟩
        exact ⟨g1, fun ⟨g, g4, g5⟩ => g2 ⟨g, by omega, g5⟩⟩

/-- `simpleBasis` lists the simple roots of the subsystem -/
theorem simpleBasis_ok {b : List Bool} {T : Nat → Prop} (hb : Spec.Bits b (2 * N) T) (hT : ∀ k, N ≤ k → k < 2 * N → (T k ↔ S k)) :
    ∃ l, rs.simpleBasis b = .ok l ∧ l.Pairwise (· < ·) ∧ ∀ k, k ∈ l ↔ Spec.IsSimpleIn N R S k := by
  have hsub : Spec.Bits ((List.range b.length).map fun k => RS.bit b k && decide (rs.numPos ≤ k)) (2 * N) fun k => S k ∧ N ≤ k := by
    rw [hb.1]
    refine bits_map fun k hk => ?_
    rw [Bool.and_eq_true, decide_eq_true_iff, hA.numPos, hb.2 k hk]
    constructor
    · rintro ⟨h1, h2⟩
      exact ⟨(hT k h2 hk).mp h1, h2⟩
    · rintro ⟨h1, h2⟩
      exact ⟨(hT k h2 hk).mpr h1, h2⟩
  obtain ⟨c, c1, c2⟩ := basisLoop_ok cs h hN hA hS hsub (2 * N) 0 (by omega) _ (bits_congr hsub fun k hk => ⟨fun g => ⟨g, by rintro ⟨g, g1, -⟩; omega⟩, fun g => g.1⟩)
  refine ⟨members c, ?_, members_sorted c, fun k => ?_⟩
  · rw [RS.simpleBasis]
    rw [show (List.map (fun k => RS.bit b k && decide (rs.numPos ≤ k)) (List.range b.length)).length = 2 * N from hsub.1,
      List.range_eq_range' (n := 2 * N), c1]
    rfl
  · rw [bits_mem c2]
    exact ⟨fun g => g.2, fun g => ⟨hS.lt k g.1, g⟩⟩

theorem posInner_ok {i : Nat} (hi : i < N) (ha : Spec.IsSimpleIn N R S (N + i)) : ∀ (d p : Nat), p + d = N → i < p →
    ∀ (s : List Bool) (P : Nat → Prop), Spec.Bits s N P → (∀ j, P j → S (N + j)) → ∃ s', rs.posInner nd (N + i) (List.range' p d) s = .ok (s', true) ∧
      Spec.Bits s' N fun k => P k ∧ ¬ (p ≤ k ∧ 0 < form C (R (N + k)) (R' (N + i))) := by
  intro d
  induction d with
  | zero =>
    intro p hp hip s P hs hP
    exact ⟨s, rfl, bits_congr hs fun k hk => ⟨fun h1 => ⟨h1, fun h2 => by omega⟩, fun h1 => h1.1⟩⟩
  | succ d ih =>
    intro p hp hip s P hs hP
    rw [List.range'_succ, RS.posInner]
    have skip : ∀ s' P', Spec.Bits s' N P' → (∀ j, P' j → P j) → (∀ k < N, P' k ↔ P k ∧ ¬ (k = p ∧ 0 < form C (R (N + k)) (R' (N + i)))) →
        ∃ s'', rs.posInner nd (N + i) (List.range' (p + 1) d) s' = .ok (s'', true) ∧
        Spec.Bits s'' N fun k => P k ∧ ¬ (p ≤ k ∧ 0 < form C (R (N + k)) (R' (N + i))) := by
      intro s' P' hc' hsb hP'
      obtain ⟨c, h1, h2⟩ := ih (p + 1) (by omega) (by omega) s' P' hc' fun j hj => hP j (hsb j hj)
      refine ⟨c, h1, bits_congr h2 fun k hk => ?_⟩
      rw [hP' k hk]
      constructor
      · rintro ⟨⟨g1, g2⟩, g3⟩
        refine ⟨g1, fun g4 => ?_⟩
        by_cases hkp : k = p
        · exact g2 ⟨hkp, g4.2⟩
        · exact g3 ⟨by omega, g4.2⟩
      · rintro ⟨g1, g2⟩
        exact ⟨⟨g1, fun g3 => g2 ⟨by omega, g3.2⟩⟩, fun g3 => g2 ⟨by omega, g3.2⟩⟩
    by_cases hb : RS.bit s p = true
    · have hb' := hP p ((hs.2 p (by omega)).mp hb)
      obtain ⟨g, g1, g2, g3⟩ := sub_step cs h hN hA hS ha hb' (by omega) (by omega)
      rw [if_pos hb, hA.posNbr p (by omega), Res.ok_bind, g1, Res.ok_bind]
      by_cases hlt : g < N + p
      · rw [if_pos hlt, if_pos g3]
        obtain ⟨c, c1, c2⟩ := bits_put hs (i := p) (by omega) false
        rw [c1, Res.ok_bind]
        refine skip c _ c2 (fun j => ?_) fun k hk => ?_
        · by_cases hj : j = p
          · rw [if_pos hj]
            intro hc
            simp at hc
          · rw [if_neg hj]
            exact id
        · by_cases hkp : k = p
          · subst hkp
            rw [if_pos rfl]
            exact ⟨fun g => by simp at g, fun g => absurd ⟨rfl, g2.mp hlt⟩ g.2⟩
          · rw [if_neg hkp]
            exact ⟨fun g => ⟨g, fun g' => hkp g'.1⟩, fun g => g.1⟩
      · rw [if_neg hlt]
        refine skip s P hs (fun _ => id) fun k hk => ⟨fun g => ⟨g, ?_⟩, fun g => g.1⟩
        rintro ⟨rfl, g5⟩
        exact hlt (g2.mpr g5)
    · rw [if_neg hb]
      refine skip s P hs (fun _ => id) fun k hk => ⟨fun g => ⟨g, ?_⟩, fun g => g.1⟩
      rintro ⟨rfl, -⟩
      exact hb ((hs.2 k hk).mpr g)

theorem posLoop_ok : ∀ (d p : Nat), p + d = N → ∀ (s : List Bool) (r : List Nat),
    Spec.Bits s N (fun k => S (N + k) ∧ ¬ ∃ g < p, g < k ∧ Spec.IsSimpleIn N R S (N + g) ∧ 0 < form C (R (N + k)) (R' (N + g))) →
    r.Pairwise (· < ·) → (∀ k, k ∈ r ↔ k < N + p ∧ Spec.IsSimpleIn N R S k) →
    ∃ r', rs.posLoop nd N (List.range' p d) s r = .ok r' ∧ r'.Pairwise (· < ·) ∧ ∀ k, k ∈ r' ↔ Spec.IsSimpleIn N R S k := by
  intro d
  induction d with
  | zero =>
    intro p hp s r hs hr hm
    exact ⟨r, rfl, hr, fun k => by rw [hm k]; exact ⟨fun g => g.2, fun g => ⟨by have := hS.lt k g.1; omega, g⟩⟩⟩
  | succ d ih =>
    intro p hp s r hs hr hm
    rw [List.range'_succ, RS.posLoop]
    have hiff : RS.bit s p = true ↔ Spec.IsSimpleIn N R S (N + p) := by
      rw [hs.2 p (by omega), sub_simple_iff cs h hN hS]
      constructor
      · rintro ⟨h1, h2⟩
        refine ⟨⟨h1, by omega⟩, ?_⟩
        rintro ⟨g, g1, g2, g3⟩
        have hlt := sub_lt cs h hN hS h1 (by omega) g1 g2 g3
        have hgn := g1.2.1
        obtain ⟨g, rfl⟩ := Nat.exists_eq_add_of_le hgn
        exact h2 ⟨g, by omega, by omega, g1, g3⟩
      · rintro ⟨h1, h2⟩
        exact ⟨h1.1, fun ⟨g, g1, g2, g3, g4⟩ => h2 ⟨N + g, g3, by omega, g4⟩⟩
    by_cases hb : RS.bit s p = true
    · have hsp := hiff.mp hb
      obtain ⟨c, c1, c2⟩ := posInner_ok cs h hN hA hS (i := p) (by omega) hsp (N - (p + 1)) (p + 1) (by omega) (by omega) s _ hs fun j hj => hj.1
      rw [if_pos hb, hA.posNbr p (by omega), Res.ok_bind, c1, Res.ok_bind]
      dsimp only
      rw [if_pos rfl]
      refine ih (p + 1) (by omega) c (r ++ [N + p]) (bits_congr c2 fun k hk => ?_) ?_ fun k => ?_
      · constructor
        · rintro ⟨⟨g1, g2⟩, g3⟩
          refine ⟨g1, ?_⟩
          rintro ⟨g, g4, g5, g6, g7⟩
          by_cases hgp : g = p
          · subst hgp
            exact g3 ⟨by omega, g7⟩
          · exact g2 ⟨g, by omega, g5, g6, g7⟩
        · rintro ⟨g1, g2⟩
          exact ⟨⟨g1, fun ⟨g, g4, g5⟩ => g2 ⟨g, by omega, g5⟩⟩, fun g3 => g2 ⟨p, by omega, by omega, hsp, g3.2⟩⟩
      · rw [List.pairwise_append]
        refine ⟨hr, List.pairwise_singleton _ _, fun x hx y hy => ?_⟩
        rw [List.mem_singleton] at hy
        have := ((hm x).mp hx).1
        omega
      · rw [List.mem_append, List.mem_singleton, hm k]
        constructor
        · rintro (g | rfl)
          · exact ⟨by omega, g.2⟩
          · exact ⟨by omega, hsp⟩
        · rintro ⟨g1, g2⟩
          by_cases hkp : k = N + p
          · exact .inr hkp
          · exact .inl ⟨by omega, g2⟩
    · rw [if_neg hb]
      have hns : ¬ Spec.IsSimpleIn N R S (N + p) := fun g => hb (hiff.mpr g)
      refine ih (p + 1) (by omega) s r (bits_congr hs fun k hk => ?_) hr fun k => ?_
      · constructor
        · rintro ⟨g1, g2⟩
          refine ⟨g1, ?_⟩
          rintro ⟨g, g4, g5, g6, g7⟩
          by_cases hgp : g = p
          · exact hns (hgp ▸ g6)
          · exact g2 ⟨g, by omega, g5, g6, g7⟩
        · rintro ⟨g1, g2⟩
          exact ⟨g1, fun ⟨g, g4, g5⟩ => g2 ⟨g, by omega, g5⟩⟩
      · rw [hm k]
        constructor
        · rintro ⟨g1, g2⟩
          exact ⟨by omega, g2⟩
        · rintro ⟨g1, g2⟩
          exact ⟨by have : k ≠ N + p := (fun e => hns (e ▸ g2)); omega, g2⟩

/-- `pos_simples` lists the simple roots of the subsystem -/
theorem posSimples_ok {b : List Bool} (hb : Spec.Bits b N fun k => S (N + k)) :
    ∃ l, rs.posSimples nd b = .ok l ∧ l.Pairwise (· < ·) ∧ ∀ k, k ∈ l ↔ Spec.IsSimpleIn N R S k := by
  rw [RS.posSimples, hb.1, List.range_eq_range']
  refine posLoop_ok cs h hN hA hS N 0 (by omega) b [] (bits_congr hb fun k hk => ⟨fun g => ⟨g, by rintro ⟨g, g1, -⟩; omega⟩, fun g => g.1⟩) List.Pairwise.nil fun k => ?_
  constructor
  · intro hk
    simp at hk
  · rintro ⟨h1, h2⟩
    have := h2.2.1
    omega

end
end Verif.Root
