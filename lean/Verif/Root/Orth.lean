import Verif.Root.Lookup
import Verif.Root.Indep
/-
Replacing an orthogonal set of roots by a strongly orthogonal one.
-/
namespace Verif.Root
open Verif.Coxeter CoxeterSystem

section
variable {rk : Nat} {M : CoxeterMatrix (Fin rk)} {W : Type} [Group W] {C : Fin rk → Fin rk → ℤ}
variable {nd pc : Bool} {N : Nat} {R R' : Nat → Fin rk → ℤ} {rs : RS}
variable (cs : CoxeterSystem M W) (h : IsCartan C M) (hN : Spec.Numbering C pc N R R') (hA : Spec.Answers nd C pc N R R' rs) (hl : rs.coroots.length = rs.roots.length)

/-- two orthogonal roots `α`, `β` whose sum is a root `γ` -/
theorem orth_sum [Finite W] {α α' β β' γ γ' : Fin rk → ℤ} {t u v : W} (ha : Verif.Coxeter.IsRoot cs h α α' t) (hb : Verif.Coxeter.IsRoot cs h β β' u) (hc : Verif.Coxeter.IsRoot cs h γ γ' v)
    (h1 : form C α β' = 0) (h2 : form C β α' = 0) (e : γ = α + β) {Q : (Fin rk → ℤ) → (Fin rk → ℤ) → ℤ} (q1 : ∀ x y, Q x y = Q y x)
    (q2 : ∀ x y z, Q (x - y) z = Q x z - Q y z) (q5 : ∀ x, x ≠ 0 → 0 < Q x x)
    (q6 : ∀ {α α' : Fin rk → ℤ} {t : W}, Verif.Coxeter.IsRoot cs h α α' t → ∀ x, 2 * Q x α = form C x α' * Q α α) :
    Q γ γ = 2 * Q α α ∧ Q β β = Q α α ∧ ∀ x, 2 * form C x γ' = form C x α' + form C x β' := by
  have qadd : ∀ x y z, Q (x + y) z = Q x z + Q y z := by
    intro x y z
    have h1 := q2 (x + y) y z
    rw [add_sub_cancel_right] at h1
    omega
  have qaddr : ∀ x y z, Q x (y + z) = Q x y + Q x z := fun x y z => by rw [q1, qadd, q1 y, q1 z]
  have a0 := q5 α ha.ne_zero
  have b0 := q5 β hb.ne_zero
  have c0 := q5 γ hc.ne_zero
  have hab : Q α β = 0 := by
    have := q6 hb α
    rw [h1] at this
    omega
  have hba : Q β α = 0 := by rw [q1]; exact hab
  have hcc : Q γ γ = Q α α + Q β β := by
    rw [e, qadd, qaddr, qaddr, hab, hba]
    ring
  have hac : Q α γ = Q α α := by rw [e, qaddr, hab, add_zero]
  have hca : form C γ α' = 2 := by rw [e, form_add_left, ha.form_self, h2, add_zero]
  have hne1 : γ ≠ α := by
    intro hx
    rw [e] at hx
    exact hb.ne_zero (by simpa using hx)
  have hne2 : γ ≠ -α := by
    intro hx
    have : form C (-α) α' = 2 := by rw [← hx, hca]
    rw [form_neg_left, ha.form_self] at this
    omega
  have h3 := (ha.pair hc).2.2 hne1 hne2
  have h4 := (ha.pair hc).1.mp (by omega)
  rw [hca] at h3
  have h5 : form C α γ' = 1 := by omega
  have h6 := q6 hc α
  rw [h5, hac] at h6
  refine ⟨by omega, by omega, fun x => ?_⟩
  have k1 := q6 ha x
  have k2 := q6 hb x
  have k3 := q6 hc x
  have hbb : Q β β = Q α α := by omega
  rw [e, qaddr, ← e, show Q γ γ = 2 * Q α α by omega] at k3
  rw [hbb] at k2
  have : (2 * form C x γ') * Q α α = (form C x α' + form C x β') * Q α α := by linarith
  exact Int.eq_of_mul_eq_mul_right (by omega) this

/-- no sum of a long root `γ` of a system of type B2 and a root orthogonal to the short roots `α`, `β` of that system is a root -/
theorem orth_long [Finite W] {α α' β β' γ γ' θ θ' ρ ρ' : Fin rk → ℤ} {t u v w z : W} (ha : Verif.Coxeter.IsRoot cs h α α' t) (hb : Verif.Coxeter.IsRoot cs h β β' u)
    (hc : Verif.Coxeter.IsRoot cs h γ γ' v) (hd : Verif.Coxeter.IsRoot cs h θ θ' w) (he : Verif.Coxeter.IsRoot cs h ρ ρ' z)
    (h1 : form C α β' = 0) (h2 : form C β α' = 0) (h3 : form C θ α' = 0) (h4 : form C θ β' = 0) (h5 : form C α θ' = 0) (h6 : form C β θ' = 0) (e : γ = α + β) (e' : ρ = γ + θ) : False := by
  obtain ⟨Q, q1, q2, q3, q5, q6⟩ := exists_inner' cs h
  obtain ⟨k1, k2, k3⟩ := orth_sum cs h ha hb hc h1 h2 e q1 q2 q5 q6
  have g1 : form C θ γ' = 0 := by
    have := k3 θ
    rw [h3, h4] at this
    omega
  have g2 : form C γ θ' = 0 := by rw [e, form_add_left, h5, h6, add_zero]
  obtain ⟨l1, l2, l3⟩ := orth_sum cs h hc hd he g2 g1 e' q1 q2 q5 q6
  have g3 : form C ρ α' = 2 := by rw [e', e, form_add_left, form_add_left, ha.form_self, h2, h3]; rfl
  have m1 := q6 ha ρ
  have m2 := q6 he α
  have a0 := q5 α ha.ne_zero
  rw [q1 α ρ, m1, g3, l1, k1] at m2
  have : (4 * form C α ρ') * Q α α = 2 * Q α α := by linarith
  have := Int.eq_of_mul_eq_mul_right (by omega) this
  omega

/-- `s` is a set of mutually orthogonal roots -/
def Spec.Orthogonal {rk : Nat} (C : Fin rk → Fin rk → ℤ) (R R' : Nat → Fin rk → ℤ) (S : Nat → Prop) : Prop := ∀ a b, S a → S b → a ≠ b → Spec.pair C (R a) (R' b) = 0

/-- no sum of two different elements is a root -/
def Spec.NoSums {rk : Nat} (N : Nat) (R : Nat → Fin rk → ℤ) (S : Nat → Prop) : Prop := ∀ a b, S a → S b → a ≠ b → ¬ ∃ m < 2 * N, ∀ i, R m i = R a i + R b i

/-- for a set of mutually orthogonal roots, the difference of `x` and its image by the product of the reflections -/
def Spec.drop {rk : Nat} (C : Fin rk → Fin rk → ℤ) (N : Nat) (R R' : Nat → Fin rk → ℤ) (s : List Bool) (x : Fin rk → ℤ) : Fin rk → ℤ :=
  fun i => ∑ k ∈ Finset.range (2 * N), if RS.bit s k then Spec.pair C x (R' k) * R k i else 0

def NoSum (N : Nat) (R : Nat → Fin rk → ℤ) (a b : Nat) : Prop := ∀ m < 2 * N, R m ≠ R a + R b

theorem NoSum.symm {a b : Nat} (g : NoSum N R a b) : NoSum N R b a := fun m hm => by rw [add_comm]; exact g m hm

/-- invariant of the outer loop -/
structure OInv (C : Fin rk → Fin rk → ℤ) (N : Nat) (R R' : Nat → Fin rk → ℤ) (s0 : List Bool) (p : Nat) (s : List Bool) : Prop where
  len : s.length = 2 * N
  orth : ∀ a b, RS.bit s a = true → RS.bit s b = true → a ≠ b → form C (R a) (R' b) = 0
  done : ∀ a b, RS.bit s a = true → RS.bit s b = true → a < b → a < N ∨ b < p → NoSum N R a b
  drop : ∀ x, Spec.drop C N R R' s x = Spec.drop C N R R' s0 x

include cs h hN hA hl in
theorem longStep_ok [Finite W] {s0 s : List Bool} {i j : Nat} (hI : OInv C N R R' s0 i s) (hi : RS.bit s i = true) (hj : RS.bit s j = true) (hjN : N ≤ j) (hji : j < i) {m : Nat} (hm : m < 2 * N)
    (em : R m = R i + R j) : ∃ s', rs.longStep nd i j s = .ok s' ∧ OInv C N R R' s0 (i + 1) s' := by
  have hi2 : i < 2 * N := hI.len ▸ bit_lt hi
  have hj2 : j < 2 * N := by omega
  obtain ⟨H, H'⟩ := hN.half cs h
  obtain ⟨s1, s2⟩ := hA.stored hl
  obtain ⟨ti, hti⟩ := hN.isRoot cs h hi2
  obtain ⟨tj, htj⟩ := hN.isRoot cs h hj2
  obtain ⟨tm, htm⟩ := hN.isRoot cs h hm
  have hij : form C (R i) (R' j) = 0 := hI.orth i j hi hj (by omega)
  have hji' : form C (R j) (R' i) = 0 := hI.orth j i hj hi (by omega)
  obtain ⟨Q, q1, q2, q3, q5, q6⟩ := exists_inner' cs h
  obtain ⟨k1, k2, k3⟩ := orth_sum cs h hti htj htm hij hji' em q1 q2 q5 q6
  -- the two new roots
  have hmN : N ≤ m := by
    rw [(hN.sign cs h hm).1, em, lev_add]
    have := (hN.lev_pos cs h hi2 (by omega)).1
    have := (hN.lev_pos cs h hj2 hjN).1
    omega
  have g1 := hN.minus hm
  obtain ⟨n, hn, n1, n2, n3⟩ := hA.reflected j hj2 (2 * N - 1 - m) (by omega)
  have c1 : form C (R (2 * N - 1 - m)) (R' j) = -2 := by
    rw [g1.1, form_neg_left, em, form_add_left, hij, htj.form_self]
    rfl
  have c2 : form C (R j) (R' (2 * N - 1 - m)) = -1 := by
    have := k3 (R j)
    rw [hji', htj.form_self] at this
    rw [g1.2, form_neg_right]
    omega
  have en : R n = R j - R i := by
    funext x
    rw [n2, pair_eq, c1, g1.1, em]
    simp only [Pi.neg_apply, Pi.add_apply, Pi.sub_apply]
    ring
  have en' : R' n = R' j - R' m := by
    funext x
    rw [n3, pair_eq, c2, g1.2]
    simp only [Pi.neg_apply, Pi.sub_apply]
    ring
  have hf1 : ∀ x, 2 * form C x (R' (2 * N - 1 - m)) = -(form C x (R' i) + form C x (R' j)) := by
    intro x
    rw [g1.2, form_neg_right, ← k3]
    ring
  have hf2 : ∀ x, 2 * form C x (R' n) = form C x (R' j) - form C x (R' i) := by
    intro x
    have := k3 x
    rw [en', form_sub_right]
    omega
  have hnN : n < N := by
    by_contra hc
    have h1 := hf2 (R i)
    rw [hij, hti.form_self] at h1
    have h2 : form C (R i) (R' n) = -1 := by omega
    have := (hN.reflected_lt cs h hn (by omega) hi2 hj2 (by rw [h2, en]; simp)).2.mpr (by omega)
    omega
  obtain ⟨tn, htn⟩ := hN.isRoot cs h hn
  obtain ⟨tg, htg⟩ := hN.isRoot cs h (k := 2 * N - 1 - m) (by omega)
  -- they are not in the set
  have hgi : form C (R (2 * N - 1 - m)) (R' i) = -2 := by
    rw [g1.1, form_neg_left, em, form_add_left, hji', hti.form_self]
    rfl
  have hni : form C (R n) (R' i) = -2 := by
    rw [en, form_sub_left, hji', hti.form_self]
    rfl
  have hgs : RS.bit s (2 * N - 1 - m) = false := by
    by_contra hc
    have := hI.orth (2 * N - 1 - m) i (by simpa using hc) hi (by omega)
    omega
  have hns : RS.bit s n = false := by
    by_contra hc
    have := hI.orth n i (by simpa using hc) hi (by omega)
    omega
  have hgn : 2 * N - 1 - m ≠ n := by
    intro e
    have e1 : R (2 * N - 1 - m) = R n := by rw [e]
    rw [g1.1, em, en] at e1
    refine htj.ne_zero (funext fun x => ?_)
    have := congrFun e1 x
    simp only [Pi.neg_apply, Pi.add_apply, Pi.sub_apply] at this
    simp only [Pi.zero_apply]
    omega
  -- the computation
  have hb0 : Spec.Bits s (2 * N) fun k => RS.bit s k = true := ⟨hI.len, fun k _ => Iff.rfl⟩
  obtain ⟨b1, p1, d1⟩ := bits_put hb0 (i := 2 * N - 1 - m) (by omega) true
  obtain ⟨b2, p2, d2⟩ := bits_put d1 hn true
  obtain ⟨b3, p3, d3⟩ := bits_put d2 hi2 false
  obtain ⟨b4, p4, d4⟩ := bits_put d3 hj2 false
  have hbit : ∀ k < 2 * N, RS.bit b4 k = true ↔ k ≠ i ∧ k ≠ j ∧ (k = 2 * N - 1 - m ∨ k = n ∨ RS.bit s k = true) := by
    intro k hk
    rw [d4.2 k hk]
    beta_reduce
    by_cases q1 : k = j
    · simp [q1]
    · by_cases q2 : k = i
      · simp [q1, q2]
      · by_cases q3 : k = n
        · rw [if_neg q1, if_neg q2, if_pos q3]
          exact iff_of_true rfl ⟨q2, q1, .inr (.inl q3)⟩
        · rw [if_neg q1, if_neg q2, if_neg q3]
          by_cases q4 : k = 2 * N - 1 - m
          · rw [if_pos q4]
            exact iff_of_true rfl ⟨q2, q1, .inl q4⟩
          · rw [if_neg q4]
            exact ⟨fun g => ⟨q2, q1, .inr (.inr g)⟩, fun g => g.2.2.elim (fun e => absurd e q4) (fun g => g.elim (fun e => absurd e q3) id)⟩
  have hstep : rs.longStep nd i j s = .ok b4 := by
    have i1 : rs.isPos i = true := (acc_isPos hA i).mpr (by omega)
    have j1 : rs.isPos j = true := (acc_isPos hA j).mpr hjN
    have v1 : Vec.get rs.roots (i - rs.numPos) = .ok (enc (R i)) := by rw [s1, hA.numPos, row_get _ (by omega), show N + (i - N) = i by omega]
    have v2 : Vec.get rs.roots (j - rs.numPos) = .ok (enc (R j)) := by rw [s1, hA.numPos, row_get _ (by omega), show N + (j - N) = j by omega]
    rw [RS.longStep, if_pos i1, Res.assertIn_bind nd i1, v1, Res.ok_bind, if_pos i1, Res.assertIn_bind nd j1, if_neg (by rw [hA.numPos]; omega), v2, Res.ok_bind, addV_enc, ← em,
      (H.lookupIn s1 hA.numPos nd).1 m hm, Res.ok_bind, Res.assertIn_bind nd (decide_eq_true (by rw [hA.numRoots]; omega)), bitSet, p1, Res.ok_bind, n1, Res.ok_bind, bitSet, p2, Res.ok_bind, p3,
      Res.ok_bind, p4]
  have old : ∀ k, RS.bit b4 k = true → k = 2 * N - 1 - m ∨ k = n ∨ (k ≠ i ∧ k ≠ j ∧ RS.bit s k = true) := by
    intro k hk
    have := (hbit k (d4.1 ▸ bit_lt hk)).mp hk
    tauto
  -- the new roots and the remaining ones
  have newOrth : ∀ k, RS.bit s k = true → k ≠ i → k ≠ j → (form C (R k) (R' (2 * N - 1 - m)) = 0 ∧ form C (R (2 * N - 1 - m)) (R' k) = 0) ∧ form C (R k) (R' n) = 0 ∧ form C (R n) (R' k) = 0 := by
    intro k hk h1 h2
    have o1 := hI.orth k i hk hi h1
    have o2 := hI.orth k j hk hj h2
    have o3 := hI.orth i k hi hk (Ne.symm h1)
    have o4 := hI.orth j k hj hk (Ne.symm h2)
    have f1 := hf1 (R k)
    have f2 := hf2 (R k)
    refine ⟨⟨by omega, ?_⟩, by omega, ?_⟩
    · rw [g1.1, form_neg_left, em, form_add_left, o3, o4]
      rfl
    · rw [en, form_sub_left, o3, o4]
      rfl
  have newNew : form C (R (2 * N - 1 - m)) (R' n) = 0 ∧ form C (R n) (R' (2 * N - 1 - m)) = 0 := by
    have f1 := hf2 (R (2 * N - 1 - m))
    have f2 := hf1 (R n)
    have c3 : form C (R n) (R' j) = 2 := by rw [en, form_sub_left, htj.form_self, hij]; rfl
    omega
  have newSum : ∀ k, RS.bit s k = true → k ≠ i → k ≠ j → NoSum N R (2 * N - 1 - m) k ∧ NoSum N R n k := by
    intro k hk h1 h2
    have hk2 : k < 2 * N := hI.len ▸ bit_lt hk
    obtain ⟨tk, htk⟩ := hN.isRoot cs h hk2
    have o1 := hI.orth k i hk hi h1
    have o2 := hI.orth k j hk hj h2
    have o3 := hI.orth i k hi hk (Ne.symm h1)
    have o4 := hI.orth j k hj hk (Ne.symm h2)
    constructor
    · intro r hr er
      obtain ⟨tr, htr⟩ := hN.isRoot cs h hr
      refine orth_long cs h hti.neg htj.neg htg htk htr ?_ ?_ ?_ ?_ ?_ ?_ (by rw [g1.1, em]; abel) er <;> simp [form_neg_left, form_neg_right, *]
    · intro r hr er
      obtain ⟨tr, htr⟩ := hN.isRoot cs h hr
      refine orth_long cs h hti.neg htj htn htk htr ?_ ?_ ?_ ?_ ?_ ?_ (by rw [en]; abel) er <;> simp [form_neg_left, form_neg_right, *]
  have newNewSum : NoSum N R (2 * N - 1 - m) n := by
    intro r hr er
    refine H.dbl (2 * N - 1 - i) (by omega) r hr ?_
    rw [er, g1.1, em, en, (hN.minus hi2).1]
    abel
  refine ⟨b4, hstep, d4.1, fun a b ha hb hab => ?_, fun a b ha hb hab hd => ?_, fun x => ?_⟩
  · rcases old a ha with ea | ea | ⟨a1, a2, a3⟩ <;> rcases old b hb with eb | eb | ⟨c1, c2, c3⟩
    · omega
    · rw [ea, eb]; exact newNew.1
    · rw [ea]; exact (newOrth b c3 c1 c2).1.2
    · rw [ea, eb]; exact newNew.2
    · omega
    · rw [ea]; exact (newOrth b c3 c1 c2).2.2
    · rw [eb]; exact (newOrth a a3 a1 a2).1.1
    · rw [eb]; exact (newOrth a a3 a1 a2).2.1
    · exact hI.orth a b a3 c3 hab
  · rcases old a ha with ea | ea | ⟨a1, a2, a3⟩ <;> rcases old b hb with eb | eb | ⟨c1, c2, c3⟩
    · omega
    · rw [ea, eb]; exact newNewSum
    · rw [ea]; exact (newSum b c3 c1 c2).1
    · rw [ea, eb]; exact newNewSum.symm
    · omega
    · rw [ea]; exact (newSum b c3 c1 c2).2
    · rw [eb]; exact (newSum a a3 a1 a2).1.symm
    · rw [eb]; exact (newSum a a3 a1 a2).2.symm
    · exact hI.done a b a3 c3 hab (by omega)
  · rw [← hI.drop x]
    funext y
    have hF : ∀ k ∈ Finset.range (2 * N), (if RS.bit b4 k then Spec.pair C x (R' k) * R k y else 0) = (if RS.bit s k then Spec.pair C x (R' k) * R k y else 0) +
        (if k = 2 * N - 1 - m then Spec.pair C x (R' k) * R k y else 0) + (if k = n then Spec.pair C x (R' k) * R k y else 0) -
        (if k = i then Spec.pair C x (R' k) * R k y else 0) - (if k = j then Spec.pair C x (R' k) * R k y else 0) := by
      intro k hk
      have hb := hbit k (Finset.mem_range.mp hk)
      by_cases q1 : k = j
      · have : RS.bit b4 k = false := by simpa [q1] using hb
        rw [this, q1, if_neg (by simp), if_pos hj, if_neg (by omega), if_neg (by omega), if_neg (by omega), if_pos rfl]
        ring
      · by_cases q2 : k = i
        · have : RS.bit b4 k = false := by simpa [q2] using hb
          rw [this, q2, if_neg (by simp), if_pos hi, if_neg (by omega), if_neg (by omega), if_pos rfl, if_neg (by omega)]
          ring
        · by_cases q3 : k = n
          · have : RS.bit b4 k = true := by rw [hb]; exact ⟨q2, q1, .inr (.inl q3)⟩
            rw [this, q3, if_pos rfl, if_neg (by rw [hns]; simp), if_neg (Ne.symm hgn), if_pos rfl, if_neg (by omega), if_neg (by omega)]
            ring
          · by_cases q4 : k = 2 * N - 1 - m
            · have : RS.bit b4 k = true := by rw [hb]; exact ⟨q2, q1, .inl q4⟩
              rw [this, q4, if_pos rfl, if_neg (by rw [hgs]; simp), if_pos rfl, if_neg hgn, if_neg (by omega), if_neg (by omega)]
              ring
            · have : RS.bit b4 k = RS.bit s k := by
                rw [Bool.eq_iff_iff, hb]
                simp [q1, q2, q3, q4]
              rw [this, if_neg q4, if_neg q3, if_neg q2, if_neg q1]
              ring
    have hm' : 2 * N - 1 - m ∈ Finset.range (2 * N) := Finset.mem_range.mpr (by omega)
    rw [Spec.drop, Spec.drop, Finset.sum_congr rfl hF, Finset.sum_sub_distrib, Finset.sum_sub_distrib, Finset.sum_add_distrib, Finset.sum_add_distrib, Finset.sum_ite_eq', Finset.sum_ite_eq',
      Finset.sum_ite_eq', Finset.sum_ite_eq', if_pos hm', if_pos (Finset.mem_range.mpr hn), if_pos (Finset.mem_range.mpr hi2), if_pos (Finset.mem_range.mpr hj2)]
    simp only [pair_eq]
    have f1 := hf1 x
    have f2 := hf2 x
    have e1 : R (2 * N - 1 - m) y = -(R i y + R j y) := by rw [g1.1, em]; rfl
    have e2 : R n y = R j y - R i y := by rw [en]; rfl
    rw [e1, e2]
    generalize form C x (R' i) = u at *
    generalize form C x (R' j) = v at *
    generalize form C x (R' n) = q at *
    have : form C x (R' (2 * N - 1 - m)) = q - v := by omega
    rw [this]
    have : u = v - 2 * q := by omega
    rw [this]
    ring

include cs h hN hA hl in
theorem longInner_ok [Finite W] {s0 s : List Bool} {i : Nat} (hI : OInv C N R R' s0 i s) (hi : RS.bit s i = true) : ∀ (d p : Nat), p + d = i → (∀ k < p, RS.bit s k = true → NoSum N R k i) →
    ∃ s', rs.longInner nd i (List.range' p d) s = .ok s' ∧ OInv C N R R' s0 (i + 1) s'
  | 0, p, hp, hc => by
    refine ⟨s, by rw [List.range'_zero, RS.longInner], hI.len, hI.orth, fun a b ha hb hab hd => ?_, hI.drop⟩
    by_cases hbi : b = i
    · rw [hbi]
      exact hc a (by omega) ha
    · exact hI.done a b ha hb hab (by omega)
  | d + 1, p, hp, hc => by
    have hi2 : i < 2 * N := hI.len ▸ bit_lt hi
    rw [List.range'_succ, RS.longInner]
    by_cases hb : RS.bit s p = true
    · obtain ⟨x, x1, x2⟩ := hA.sumIsRoot i hi2 p (by omega)
      rw [if_pos hb, x1, Res.ok_bind]
      by_cases hx : x = true
      · obtain ⟨m, hm, em⟩ := x2.mp hx
        rw [if_pos hx]
        by_cases hpN : p < N
        · exact absurd (show R m = R p + R i by rw [add_comm]; exact funext em) (hI.done p i hb hi (by omega) (.inl hpN) m hm)
        · exact longStep_ok cs h hN hA hl hI hi hb (by omega) (by omega) hm (funext em)
      · rw [if_neg hx]
        refine longInner_ok hI hi d (p + 1) (by omega) fun k hk hbk => ?_
        by_cases hkp : k = p
        · intro m hm em
          exact hx (x2.mpr ⟨m, hm, fun y => by rw [em, hkp, Pi.add_apply, add_comm]⟩)
        · exact hc k (by omega) hbk
    · rw [if_neg hb]
      refine longInner_ok hI hi d (p + 1) (by omega) fun k hk hbk => ?_
      by_cases hkp : k = p
      · exact absurd (hkp ▸ hbk) hb
      · exact hc k (by omega) hbk

include cs h hN hA hl in
theorem longLoop_ok [Finite W] {s0 : List Bool} : ∀ (d p : Nat), p + d = 2 * N → ∀ s, OInv C N R R' s0 p s → ∃ s', rs.longLoop nd (List.range' p d) s = .ok s' ∧ OInv C N R R' s0 (2 * N) s'
  | 0, p, hp, s, hI => ⟨s, by rw [List.range'_zero, RS.longLoop], by rwa [← hp]⟩
  | d + 1, p, hp, s, hI => by
    rw [List.range'_succ, RS.longLoop]
    by_cases hb : RS.bit s p = true
    · obtain ⟨s1, e1, I1⟩ := longInner_ok cs h hN hA hl hI hb p 0 (by omega) (by simp)
      rw [if_pos hb, List.range_eq_range', e1, Res.ok_bind]
      exact longLoop_ok d (p + 1) (by omega) s1 I1
    · rw [if_neg hb]
      refine longLoop_ok d (p + 1) (by omega) s ⟨hI.len, hI.orth, fun a b ha hb' hab hd => ?_, hI.drop⟩
      have : b ≠ p := fun e => hb (e ▸ hb')
      exact hI.done a b ha hb' hab (by omega)

include cs h hN hA hl in
/-- `long_orthogonalize`, for sets of positive roots -/
theorem longOrth_ok [Finite W] {s : List Bool} {P : Nat → Prop} (hs : Spec.Bits s (2 * N) P) (hP : ∀ k < 2 * N, P k → N ≤ k) (ho : Spec.Orthogonal C R R' fun k => k < 2 * N ∧ P k) :
    ∃ r, rs.longOrthogonalize nd s = .ok r ∧ r.length = 2 * N ∧ Spec.Orthogonal C R R' (fun k => RS.bit r k = true) ∧ Spec.NoSums N R (fun k => RS.bit r k = true) ∧
      Spec.drop C N R R' r = Spec.drop C N R R' s := by
  have hb : ∀ k, RS.bit s k = true → k < 2 * N ∧ P k := fun k hk => ⟨hs.1 ▸ bit_lt hk, (hs.2 k (hs.1 ▸ bit_lt hk)).mp hk⟩
  obtain ⟨r, r1, I⟩ := longLoop_ok cs h hN hA hl (s0 := s) (2 * N) 0 (by omega) s ⟨hs.1, fun a b ha hb' hab => ho a b (hb a ha) (hb b hb') hab, fun a b ha _ _ hd => by
    have := hP a (hb a ha).1 (hb a ha).2
    omega, fun _ => rfl⟩
  refine ⟨r, by rw [RS.longOrthogonalize, hs.1, List.range_eq_range', r1], I.len, fun a b ha hb hab => I.orth a b ha hb hab, fun a b ha hb hab ⟨m, hm, em⟩ => ?_, funext I.drop⟩
  have hb2 : b < 2 * N := I.len ▸ bit_lt hb
  have ha2 : a < 2 * N := I.len ▸ bit_lt ha
  rcases Nat.lt_or_gt_of_ne hab with hlt | hlt
  · exact I.done a b ha hb hlt (.inr hb2) m hm (funext em)
  · exact (I.done b a hb ha hlt (.inr ha2)).symm m hm (funext em)

end
end Verif.Root
