import Verif.Datum.Make
import Mathlib.LinearAlgebra.Reflection
/-
The accessors of root data.
-/
namespace Verif.Datum
open Verif Verif.Mat Verif.Root Verif.Coxeter CoxeterSystem
open scoped Matrix

variable {n r : Nat} {α αv : Fin n → Fin r → ℤ} {nd pc : Bool} {comps : List Weyl.Comp} {N : Nat} {R R' : Nat → Fin n → ℤ} {rd : RD}

/-! ### the full system of roots -/

section
variable {C : Fin n → Fin n → ℤ} {rs : RS} (hs : Spec.System nd C comps pc rs N R R')
include hs

theorem full_sub : Spec.Subsystem C N R R' (fun k => k < 2 * N) where
  lt := fun _ h => h
  closed := fun a b ha hb => by
    obtain ⟨m, hm, -, h1, -⟩ := hs.answers.reflected a ha b hb
    exact ⟨m, hm, h1⟩

theorem full_simple (a : Nat) : Spec.IsSimpleIn N R (fun k => k < 2 * N) a ↔ ∃ i : Fin n, N + i.1 = a := by
  have := hs.cartan.finite
  have cs := (Weyl.coxMatrix C).toCoxeterSystem
  have h := hs.cartan.isCartan
  have hN := hs.numbering
  have key : ∀ i : Fin n, Spec.IsSimpleIn N R (fun k => k < 2 * N) (N + i.1) := by
    intro i
    have hi := i.2
    refine ⟨by have := hN.simple.1; omega, by omega, ?_⟩
    rintro ⟨b, c, hb, hbn, hc, hcn, e⟩
    have l1 := (hN.lev_pos cs h hb hbn).1
    have l2 := (hN.lev_pos cs h hc hcn).1
    have e' : R (N + i) = R b + R c := funext e
    have l3 : lev (R (N + i)) = lev (R b) + lev (R c) := by rw [e', lev_add]
    have l4 : lev (R (N + i)) = 1 := by rw [(hN.simple.2 i).1]; simp [lev, Spec.unit]
    omega
  constructor
  · intro ha
    obtain ⟨t, ht⟩ := hN.isRoot cs h ha.1
    have hex : ∃ i : Fin n, 0 < form C (R a) (R' (N + i)) := by
      by_contra hc
      push Not at hc
      have h2 := ht.form_self
      have h3 : form C (R a) (R' a) = ∑ i, R' a i * form C (R a) (Spec.unit i) := by
        have hu : ∀ t, form C (R a) (Spec.unit t) = ∑ s, R a s * C s t := fun t => by
          rw [form]
          refine Finset.sum_congr rfl fun s _ => ?_
          rw [Finset.sum_eq_single t]
          · simp [Spec.unit]
          · intro b _ hb
            simp [Spec.unit, hb]
          · simp
        rw [form, Finset.sum_comm]
        refine Finset.sum_congr rfl fun t _ => ?_
        rw [hu, Finset.mul_sum]
        exact Finset.sum_congr rfl fun s _ => by ring
      have h4 : ∑ i, R' a i * form C (R a) (Spec.unit i) ≤ 0 := Finset.sum_nonpos fun i _ => by
        have := hc i
        rw [(hN.simple.2 i).2] at this
        exact mul_nonpos_of_nonneg_of_nonpos (hN.pos a ha.1 ha.2.1 i).2 this
      omega
    obtain ⟨i, hi⟩ := hex
    refine ⟨i, ?_⟩
    by_contra hne
    have := sub_obtuse cs h hN (full_sub hs) (key i) ha (fun e => hne e.symm)
    omega
  · rintro ⟨i, rfl⟩
    exact key i

end

theorem pos_range (N : Nat) : ((Finset.range (2 * N)).filter fun k => N ≤ k ∧ k < 2 * N) = (Finset.range N).map (addLeftEmbedding N) := by
  ext k
  simp only [Finset.mem_filter, Finset.mem_range, Finset.mem_map, addLeftEmbedding_apply]
  constructor
  · rintro ⟨h1, h2, -⟩; exact ⟨k - N, by omega, by omega⟩
  · rintro ⟨a, h1, rfl⟩; omega

section
variable {rs : RS} (hs : Spec.System nd (cart α αv) comps pc rs N R R')
include hs

theorem full_sys : Sys ((Finset.range N).map (addLeftEmbedding N)) (fun i : Fin n => N + i.1) (fun k => lin α (R k)) (fun k => lin αv (R' k)) := by
  have := hs.cartan.finite
  have h := sub_sys (Weyl.coxMatrix (cart α αv)).toCoxeterSystem hs.cartan.isCartan hs.numbering (full_sub hs) (full_simple hs)
  rw [← pos_range]
  convert h

theorem simple_lin (i : Fin n) : lin α (R (N + i)) = α i ∧ lin αv (R' (N + i)) = αv i := by
  rw [(hs.numbering.simple.2 i).1, (hs.numbering.simple.2 i).2, lin_unit, lin_unit]; exact ⟨rfl, rfl⟩

theorem rho_two (s : Fin n) : (∑ k ∈ Finset.range N, lin α (R (N + k))) ⬝ᵥ αv s = 2 ∧ (∑ k ∈ Finset.range N, lin αv (R' (N + k))) ⬝ᵥ α s = 2 := by
  have h1 := (full_sys hs).rho s
  have h2 := (full_sys hs).swap.rho s
  rw [Finset.sum_map] at h1 h2
  rw [(simple_lin hs s).2] at h1
  rw [(simple_lin hs s).1] at h2
  exact ⟨h1, h2⟩

theorem all_inj {k l : Nat} (hk : k < 2 * N) (hl : l < 2 * N) (h : lin α (R k) = lin α (R l) ∨ lin αv (R' k) = lin αv (R' l)) : k = l := by
  have := hs.cartan.finite
  have cs := (Weyl.coxMatrix (cart α αv)).toCoxeterSystem
  have hc := hs.cartan.isCartan
  refine hs.numbering.inj _ hk _ hl ?_
  rcases h with h | h
  · exact lin_inj cs hc h
  · have hd : IsCartan (cart αv α) (Weyl.coxMatrix (cart α αv)) := cart_swap (α := α) (αv := αv) ▸ hc.dual
    have e := lin_inj cs hd h
    obtain ⟨t, ht⟩ := hs.numbering.isRoot cs hc hk
    obtain ⟨u, hu⟩ := hs.numbering.isRoot cs hc hl
    have := hu.dual
    rw [← e] at this
    exact ((ht.dual).unique this).1

end

theorem reflMat_mulVec (a c v : Fin r → ℤ) : reflMat a c *ᵥ v = refl a c v ∧ v ᵥ* reflMat a c = refl c a v := by
  constructor
  · funext i
    simp only [reflMat, Matrix.mulVec, Matrix.of_apply, dotProduct, sub_mul, Finset.sum_sub_distrib, refl, Pi.sub_apply, Pi.smul_apply, smul_eq_mul]
    simp only [ite_mul, one_mul, zero_mul, Finset.sum_ite_eq, Finset.mem_univ, if_true]
    rw [Finset.sum_mul]
    congr 1
    exact Finset.sum_congr rfl fun j _ => by ring
  · funext i
    simp only [reflMat, Matrix.vecMul, Matrix.of_apply, dotProduct, mul_sub, Finset.sum_sub_distrib, refl, Pi.sub_apply, Pi.smul_apply, smul_eq_mul]
    simp only [mul_ite, mul_one, mul_zero, Finset.sum_ite_eq', Finset.mem_univ, if_true]
    rw [Finset.sum_mul]
    congr 1
    exact Finset.sum_congr rfl fun j _ => by ring

/-! ### accessors -/

section
variable (H : Holds nd α αv comps pc N R R' rd)
include H

theorem root_ok {k : Nat} (hk : k < 2 * N) : rd.root nd k = .ok (List.ofFn (lin α (R k))) := by
  rw [RD.root, H.sys.answers.numRoots, Res.assertIn_bind nd (by simpa using hk), H.roots, get_vk _ hk]

theorem coroot_ok {k : Nat} (hk : k < 2 * N) : rd.coroot nd k = .ok (List.ofFn (lin αv (R' k))) := by
  rw [RD.coroot, H.sys.answers.numRoots, Res.assertIn_bind nd (by simpa using hk), H.coroots, get_vk _ hk]

theorem simple_lt (s : Fin n) : N + s.1 < 2 * N := by have := H.sys.numbering.simple.1; have := s.2; omega

theorem simpleRoot_ok (s : Fin n) : rd.simpleRoot nd s = .ok (List.ofFn (α s)) := by
  have hs : (s : Nat) < rd.ssRank := by rw [RD.ssRank, H.sys.answers.rank]; exact s.2
  rw [RD.simpleRoot, Res.assertIn_bind nd (by simpa using hs), H.sys.answers.numPos, H.roots, get_vk _ (simple_lt H s), (simple_lin H.sys s).1]

theorem simpleCoroot_ok (s : Fin n) : rd.simpleCoroot nd s = .ok (List.ofFn (αv s)) := by
  have hs : (s : Nat) < rd.ssRank := by rw [RD.ssRank, H.sys.answers.rank]; exact s.2
  rw [RD.simpleCoroot, Res.assertIn_bind nd (by simpa using hs), H.sys.answers.numPos, H.coroots, get_vk _ (simple_lt H s), (simple_lin H.sys s).2]

theorem reflect_ok (v : Fin r → ℤ) (d : ℤ) {k : Nat} (hk : k < 2 * N) :
    rd.reflect nd k (List.ofFn v) d = .ok (List.ofFn (v - (v ⬝ᵥ lin αv (R' k) + d) • lin α (R k))) := by
  rw [RD.reflect, root_ok H hk, Res.ok_bind, coroot_ok H hk, Res.ok_bind, C45_dot, Res.ok_bind, C45_vecSubMul, dotProduct_comm]

theorem coreflect_ok (v : Fin r → ℤ) (d : ℤ) {k : Nat} (hk : k < 2 * N) :
    rd.coreflect nd (List.ofFn v) k d = .ok (List.ofFn (v - (v ⬝ᵥ lin α (R k) + d) • lin αv (R' k))) := by
  rw [RD.coreflect, root_ok H hk, coroot_ok H hk, Res.ok_bind, Res.ok_bind, C45_dot, Res.ok_bind, C45_vecSubMul, dotProduct_comm]

theorem simpleReflect_ok (v : Fin r → ℤ) (d : ℤ) (s : Fin n) : rd.simpleReflect nd s (List.ofFn v) d = .ok (List.ofFn (v - (v ⬝ᵥ αv s + d) • α s)) := by
  rw [RD.simpleReflect, H.sys.answers.simpleNbr, Res.ok_bind, reflect_ok H _ _ (simple_lt H s), (simple_lin H.sys s).1, (simple_lin H.sys s).2]

theorem simpleCoreflect_ok (v : Fin r → ℤ) (d : ℤ) (s : Fin n) : rd.simpleCoreflect nd (List.ofFn v) s d = .ok (List.ofFn (v - (v ⬝ᵥ α s + d) • αv s)) := by
  rw [RD.simpleCoreflect, H.sys.answers.simpleNbr, Res.ok_bind, coreflect_ok H _ _ (simple_lt H s), (simple_lin H.sys s).1, (simple_lin H.sys s).2]

theorem rootReflection_ok {k : Nat} (hk : k < 2 * N) : rd.rootReflection k = .ok (enc (reflMat (lin α (R k)) (lin αv (R' k)))) := by
  rw [RD.rootReflection, H.rank, identity_tb, Res.ok_bind, H.roots, get_vk _ hk, Res.ok_bind, H.coroots, get_vk _ hk, Res.ok_bind]
  rw [enc_tb]
  refine forUp_ok (fun t => tb r r fun i j => if i < t then ex (reflMat (lin α (R k)) (lin αv (R' k))) i j else if i = j then 1 else 0) ?_ ?_ ?_
  · exact tb_congr fun i j _ _ => by simp
  · exact tb_congr fun i j hi _ => by simp [hi]
  · intro t _ ht
    have ht' : t < r := by omega
    refine forUp_ok (fun u => tb r r fun i j => if i < t ∨ i = t ∧ j < u then ex (reflMat (lin α (R k)) (lin αv (R' k))) i j else if i = j then 1 else 0) ?_ ?_ ?_
    · exact tb_congr fun i j _ _ => by simp
    · refine tb_congr fun i j hi hj => ?_
      by_cases h : i < t + 1
      · rw [if_pos h, if_pos (by omega)]
      · rw [if_neg h, if_neg (by omega)]
    · intro u _ hu
      have hu' : u < r := by omega
      beta_reduce
      rw [get_tb _ ht' hu', Res.ok_bind, ofFn_vk, get_vk _ ht', Res.ok_bind, ofFn_vk, get_vk _ hu', Res.ok_bind, set_tb _ ht' hu']
      congr 1
      refine tb_congr fun i j hi hj => ?_
      by_cases h : i = t ∧ j = u
      · obtain ⟨rfl, rfl⟩ := h
        rw [if_pos ⟨rfl, rfl⟩, if_neg (show ¬ (i < i ∨ i = i ∧ j < j) by omega), if_pos (show i < i ∨ i = i ∧ j < j + 1 by omega), exv_lt _ hi, exv_lt _ hj, ex_lt _ hi hj]
        simp [reflMat, Fin.ext_iff]
      · rw [if_neg h]
        by_cases h2 : i < t ∨ i = t ∧ j < u
        · rw [if_pos h2, if_pos (show i < t ∨ i = t ∧ j < u + 1 by omega)]
        · rw [if_neg h2, if_neg (show ¬ (i < t ∨ i = t ∧ j < u + 1) by omega)]

theorem simpleReflection_ok (s : Fin n) : rd.simpleReflection nd s = .ok (enc (reflMat (α s) (αv s))) := by
  rw [RD.simpleReflection, H.sys.answers.simpleNbr, Res.ok_bind, rootReflection_ok H (simple_lt H s), (simple_lin H.sys s).1, (simple_lin H.sys s).2]

theorem reflectLeft_ok {m : Nat} (M : Matrix (Fin r) (Fin m) ℤ) {k : Nat} (hk : k < 2 * N) :
    rd.reflectLeft nd k (enc M) = .ok (enc (reflMat (lin α (R k)) (lin αv (R' k)) * M)) := by
  have h1 : (enc M).rows = r := rfl
  have h2 : (enc M).cols = m := rfl
  rw [RD.reflectLeft, h1, H.rank, Res.assertIn_bind nd (by simp), h2, enc_tb, enc_tb]
  simp only [coroot_ok H hk, root_ok H hk, Res.ok_bind]
  set X := reflMat (lin α (R k)) (lin αv (R' k)) * M with hX
  have hval : ∀ i j (hi : i < r) (hj : j < m), ex X i j = ex M i j - lin α (R k) ⟨i, hi⟩ * ∑ t ∈ Finset.range r, exv (lin αv (R' k)) t * ex M t j := by
    intro i j hi hj
    rw [ex_lt _ hi hj, ex_lt _ hi hj, hX]
    have := congrFun (reflMat_mulVec (lin α (R k)) (lin αv (R' k)) (fun t => M t ⟨j, hj⟩)).1 ⟨i, hi⟩
    have e : (reflMat (lin α (R k)) (lin αv (R' k)) * M) ⟨i, hi⟩ ⟨j, hj⟩ = (reflMat (lin α (R k)) (lin αv (R' k)) *ᵥ fun t => M t ⟨j, hj⟩) ⟨i, hi⟩ := rfl
    rw [e, this, refl, Pi.sub_apply, Pi.smul_apply, smul_eq_mul, mul_comm, Finset.sum_range]
    congr 2
    refine Finset.sum_congr rfl fun t _ => ?_
    rw [exv_fin, ex_lt _ t.2 hj, mul_comm]
  refine forUp_ok (fun u => tb r m fun i j => if j < u then ex X i j else ex M i j) ?_ ?_ ?_
  · exact tb_congr fun i j _ _ => by simp
  · exact tb_congr fun i j _ hj => by simp [hj]
  · intro u _ hu
    have hu' : u < m := by omega
    rw [sumUp r (fun t => exv (lin αv (R' k)) t * ex M t u), Res.ok_bind]
    · refine forUp_ok (fun t => tb r m fun i j => if j < u ∨ j = u ∧ i < t then ex X i j else ex M i j) ?_ ?_ ?_
      · exact tb_congr fun i j _ _ => by simp
      · refine tb_congr fun i j hi hj => ?_
        by_cases h : j < u + 1
        · rw [if_pos h, if_pos (by omega)]
        · rw [if_neg h, if_neg (by omega)]
      · intro t _ ht
        have ht' : t < r := by omega
        beta_reduce
        rw [get_tb _ ht' hu', Res.ok_bind, ofFn_vk, get_vk _ ht', Res.ok_bind, set_tb _ ht' hu']
        congr 1
        refine tb_congr fun i j hi hj => ?_
        by_cases h : i = t ∧ j = u
        · obtain ⟨rfl, rfl⟩ := h
          rw [if_pos ⟨rfl, rfl⟩, if_neg (by omega), if_pos (by omega), hval _ _ hi hj, exv_lt _ hi]
        · rw [if_neg h]
          by_cases h2 : j < u ∨ j = u ∧ i < t
          · rw [if_pos h2, if_pos (by omega)]
          · rw [if_neg h2, if_neg (by omega)]
    · intro t ht s
      rw [ofFn_vk, get_vk _ ht, Res.ok_bind, get_tb _ ht hu', Res.ok_bind, if_neg (by omega)]

theorem reflectRight_ok {m : Nat} (M : Matrix (Fin m) (Fin r) ℤ) {k : Nat} (hk : k < 2 * N) :
    rd.reflectRight nd (enc M) k = .ok (enc (M * reflMat (lin α (R k)) (lin αv (R' k)))) := by
  have h1 : (enc M).rows = m := rfl
  have h2 : (enc M).cols = r := rfl
  rw [RD.reflectRight, h2, H.rank, Res.assertIn_bind nd (by simp), h1, enc_tb, enc_tb]
  simp only [coroot_ok H hk, root_ok H hk, Res.ok_bind]
  set X := M * reflMat (lin α (R k)) (lin αv (R' k)) with hX
  have hval : ∀ i j (hi : i < m) (hj : j < r), ex X i j = ex M i j - (∑ t ∈ Finset.range r, ex M i t * exv (lin α (R k)) t) * lin αv (R' k) ⟨j, hj⟩ := by
    intro i j hi hj
    rw [ex_lt _ hi hj, ex_lt _ hi hj, hX]
    have := congrFun (reflMat_mulVec (lin α (R k)) (lin αv (R' k)) (M ⟨i, hi⟩)).2 ⟨j, hj⟩
    have e : (M * reflMat (lin α (R k)) (lin αv (R' k))) ⟨i, hi⟩ ⟨j, hj⟩ = (M ⟨i, hi⟩ ᵥ* reflMat (lin α (R k)) (lin αv (R' k))) ⟨j, hj⟩ := rfl
    rw [e, this, refl, Pi.sub_apply, Pi.smul_apply, smul_eq_mul, Finset.sum_range]
    congr 2
    refine Finset.sum_congr rfl fun t _ => ?_
    rw [exv_fin, ex_lt _ hi t.2]
  refine forUp_ok (fun u => tb m r fun i j => if i < u then ex X i j else ex M i j) ?_ ?_ ?_
  · exact tb_congr fun i j _ _ => by simp
  · exact tb_congr fun i j hi _ => by simp [hi]
  · intro u _ hu
    have hu' : u < m := by omega
    rw [sumUp r (fun t => ex M u t * exv (lin α (R k)) t), Res.ok_bind]
    · refine forUp_ok (fun t => tb m r fun i j => if i < u ∨ i = u ∧ j < t then ex X i j else ex M i j) ?_ ?_ ?_
      · exact tb_congr fun i j _ _ => by simp
      · refine tb_congr fun i j hi hj => ?_
        by_cases h : i < u + 1
        · rw [if_pos h, if_pos (by omega)]
        · rw [if_neg h, if_neg (by omega)]
      · intro t _ ht
        have ht' : t < r := by omega
        beta_reduce
        rw [get_tb _ hu' ht', Res.ok_bind, ofFn_vk, get_vk _ ht', Res.ok_bind, set_tb _ hu' ht']
        congr 1
        refine tb_congr fun i j hi hj => ?_
        by_cases h : i = u ∧ j = t
        · obtain ⟨rfl, rfl⟩ := h
          rw [if_pos ⟨rfl, rfl⟩, if_neg (by omega), if_pos (by omega), hval _ _ hi hj, exv_lt _ hj]
        · rw [if_neg h]
          by_cases h2 : i < u ∨ i = u ∧ j < t
          · rw [if_pos h2, if_pos (by omega)]
          · rw [if_neg h2, if_neg (by omega)]
    · intro t ht s
      rw [get_tb _ hu' ht, Res.ok_bind, ofFn_vk, get_vk _ ht, Res.ok_bind, if_neg (by omega)]

end

end Verif.Datum
