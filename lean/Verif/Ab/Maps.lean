import Verif.Ab.Lemmas
import Verif.Mat.Props
import Verif.Mat.PropsLattice
import Verif.Mat.PropsDiag
import Verif.BitMap.Props4
/-
Pairings, endomorphisms and homomorphisms of finite abelian groups.
-/
namespace Verif.Ab

open Finset
open Verif.Mat (Mat tab vk tb enc forUp forDown forUp_ok forDown_ok forUp_inv get_vk put_vk vk_ofFn vk_congr forVec replicate_vk length_vk get_tb set_tb
  tb_congr enc_tb tab_ok)

variable {r : Nat} {t : Fin r → Nat} [hz : ∀ i, NeZero (t i)]

/-! ### sums modulo a number -/

theorem modSum {n : Nat} (hn : n < 2 ^ 64) (h0 : 0 < n) (F : Nat → Nat) (k : Nat) {body : Nat → Nat → Res Nat}
    (h : ∀ i, i < k → ∀ m, m < n → body i m = .ok (Arith.modAdd m (F i % n) n)) : forUp body k 0 0 = .ok ((∑ i ∈ range k, F i) % n) := by
  refine forUp_ok (fun i => (∑ i ∈ range i, F i) % n) ?_ ?_ ?_
  · simp
  · rw [Nat.zero_add]
  · intro i _ hi
    rw [h i (by omega) _ (Nat.mod_lt _ h0), Arith.C15_modAdd hn (Nat.mod_lt _ h0) (Nat.mod_lt _ h0), ← Nat.add_mod, Finset.sum_range_succ]

theorem modProd_mod {a b n : Nat} (hn : 0 < n) (h : a * b < 2 ^ 64) : ∃ c, Arith.modProd a b n = .ok (c, a * b % n) := by
  rw [Arith.modProd, if_neg hn.ne']
  exact ⟨_, by rw [Nat.mod_eq_of_lt (a := a * b) (b := 18446744073709551616) h]⟩

/-! ### pairing -/

/-- the canonical pairing with values in the cyclic group of order `ann t` -/
def pair (g h : G t) : Nat := (∑ i, (g i).val * (h i).val * (ann t / t i)) % ann t

theorem cotype_vk (t : Fin r → Nat) : (grp t).cotype = vk r (ext 0 fun i => ann t / t i) := ofFn_ext 0 _

theorem pairing_spec (hc : Chain t) (h32 : ann t ≤ 2 ^ 32) (g h : G t) : pairing (grp t) (arr g) (arr h) = .ok (pair g h) := by
  rw [pairing, annihilator_spec, Res.ok_bind, type_length, arr_vk, arr_vk, cotype_vk]
  rw [modSum (n := ann t) (by omega) ann_pos (fun i => av g i * av h i * ext 0 (fun i => ann t / t i) i), pair, Finset.sum_range]
  · simp [av]
  · intro i hi m hm
    rw [get_vk _ hi, Res.ok_bind, get_vk _ hi, Res.ok_bind, get_vk _ hi, Res.ok_bind, ext_lt _ hi]
    have h1 := av_lt_ext g hi
    have h2 := av_lt_ext h hi
    rw [ext_lt _ hi] at h1 h2
    have h3 := hc.dvd_ann ⟨i, hi⟩
    have h4 := le_ann' hc ⟨i, hi⟩
    have h5 : av h i * (ann t / t ⟨i, hi⟩) < ann t := by
      obtain ⟨c, hc'⟩ := h3
      rw [hc', Nat.mul_div_cancel_left _ (tpos _)]
      have : 0 < c := Nat.pos_of_ne_zero fun h0 => by rw [h0] at hc'; have := ann_pos (t := t); omega
      exact Nat.mul_lt_mul_of_pos_right h2 this
    rw [Nat.mod_eq_of_lt (by omega : av h i * (ann t / t ⟨i, hi⟩) < 18446744073709551616), Arith.C15_modProd h32 (by omega) h5, Res.ok_bind, Res.pure_eq,
      ← mul_assoc]
where
  le_ann' (hc : Chain t) (i : Fin r) : t i ≤ ann t := Nat.le_of_dvd ann_pos (hc.dvd_ann i)

theorem pair_lt (g h : G t) : pair g h < ann t := Nat.mod_lt _ ann_pos

theorem pairingTorsion_spec (nd : Bool) (hc : Chain t) (h32 : ann t ≤ 2 ^ 32) (g h : G t) {e : Nat} (he : e ≤ 2 ^ 32) (hd : ann t ∣ pair g h * e) :
    pairingTorsion nd (grp t) (arr g) (arr h) e = .ok (pair g h * e / ann t) := by
  rw [pairingTorsion, annihilator_spec, Res.ok_bind, pairing_spec hc h32, Res.ok_bind, if_neg ann_pos.ne']
  have h1 := pair_lt g h
  have h2 : pair g h * e < 18446744073709551616 := by
    rcases Nat.eq_zero_or_pos e with rfl | he0
    · omega
    · have := Nat.mul_lt_mul_of_pos_right (lt_of_lt_of_le h1 h32) he0
      have := Nat.mul_le_mul_left (2 ^ 32) he
      omega
  rw [Nat.mod_eq_of_lt h2, Res.assertIn_bind nd (decide_eq_true (Nat.mod_eq_zero_of_dvd hd)), Res.pure_eq]

/-! ### endomorphisms -/

/-- the map given by a matrix -/
def act (q : Matrix (Fin r) (Fin r) Nat) (g : G t) : G t := fun i => ∑ j, (q i j : ZMod (t i)) * ((g j).val : ZMod (t i))

theorem leftRow (q : Matrix (Fin r) (Fin r) Nat) (hs : ∏ i, t i < 2 ^ 64) (hq : ∀ i j, q i j * t j ≤ 2 ^ 64) (g : G t) {i : Nat} (hi : i < r) :
    forUp (leftStep (grp t) (arr g) (enc q) i) r 0 0 = .ok (av (act q g) i) := by
  have hti : t ⟨i, hi⟩ < 2 ^ 64 := lt_of_le_of_lt (le_prod _) hs
  rw [modSum (n := t ⟨i, hi⟩) hti (tpos _) (fun j => av g j * Mat.ex q i j)]
  · congr 1
    rw [av_lt _ hi, act]
    have : ∑ j, (q ⟨i, hi⟩ j : ZMod (t ⟨i, hi⟩)) * ((g j).val : ZMod (t ⟨i, hi⟩)) = ((∑ j ∈ range r, av g j * Mat.ex q i j : Nat) : ZMod (t ⟨i, hi⟩)) := by
      rw [Finset.sum_range, Nat.cast_sum]
      refine Finset.sum_congr rfl fun j _ => ?_
      rw [Nat.cast_mul, mul_comm, av_lt _ j.2]
      congr 2
      exact (Mat.ex_fin q ⟨i, hi⟩ j).symm
    rw [this, ZMod.val_natCast]
  · intro j hj m hm
    rw [leftStep, type_vk, get_vk _ hi, Res.ok_bind, arr_vk, get_vk _ hj, Res.ok_bind, enc_tb, get_tb _ hi hj, Res.ok_bind, ext_lt _ hi]
    obtain ⟨c, hc⟩ := modProd_mod (a := av g j) (b := Mat.ex q i j) (tpos (t := t) ⟨i, hi⟩) (by
      have h1 := av_lt_ext g hj
      rw [ext_lt _ hj] at h1
      have h2 := hq ⟨i, hi⟩ ⟨j, hj⟩
      rw [← Mat.ex_fin q ⟨i, hi⟩ ⟨j, hj⟩] at h2
      simp only at h2
      rcases Nat.eq_zero_or_pos (Mat.ex q i j) with h0 | h0
      · rw [h0]; omega
      · have := Nat.mul_lt_mul_of_pos_left h1 h0
        rw [Nat.mul_comm]; omega)
    rw [hc, Res.ok_bind, Res.pure_eq]

theorem leftArr_spec (q : Matrix (Fin r) (Fin r) Nat) (hs : ∏ i, t i < 2 ^ 64) (hq : ∀ i j, q i j * t j ≤ 2 ^ 64) (g : G t) :
    leftArr (grp t) (arr g) (enc q) = .ok (arr (act q g)) := by
  rw [leftArr, show (enc q).rows = r from rfl, show (enc q).cols = r from rfl]
  rw [arr_vk (act q g)]
  refine forUp_ok (fun i => vk r fun k => if k < i then av (act q g) k else av g k) ?_ ?_ ?_
  · rw [arr_vk]; exact vk_congr fun k _ => by simp
  · exact vk_congr fun k hk => if_pos (by omega)
  · intro i _ hi
    have hi' : i < r := by omega
    rw [leftRow q hs hq g hi', Res.ok_bind, put_vk _ hi']
    congr 1
    refine vk_congr fun k hk => ?_
    by_cases c : k = i
    · subst c; rw [if_pos rfl, if_pos (by omega)]
    · rw [if_neg c]
      by_cases c' : k < i
      · rw [if_pos c', if_pos (by omega)]
      · rw [if_neg c', if_neg (by omega)]

theorem leftNbr_spec (q : Matrix (Fin r) (Fin r) Nat) (hs : ∏ i, t i < 2 ^ 64) (hq : ∀ i j, q i j * t j ≤ 2 ^ 64) (g : G t) :
    leftNbr (grp t) (nbr g) (enc q) = .ok (nbr (act q g)) := by
  rw [leftNbr, toArray_nbr, Res.ok_bind, leftArr_spec q hs hq, Res.ok_bind, toNbr_arr hs.le]

/-- a matrix defines an endomorphism if its entries kill what they have to -/
theorem act_add (q : Matrix (Fin r) (Fin r) Nat) (hq : ∀ i j, t i ∣ q i j * t j) (g h : G t) : act q (g + h) = act q g + act q h := by
  funext i
  simp only [act, Pi.add_apply]
  rw [← Finset.sum_add_distrib]
  refine Finset.sum_congr rfl fun j _ => ?_
  rw [← mul_add, ZMod.val_add]
  have h0 : ((q i j * t j : Nat) : ZMod (t i)) = 0 := (ZMod.natCast_eq_zero_iff _ _).2 (hq i j)
  rw [Nat.cast_mul] at h0
  have e := Nat.mod_add_div ((g j).val + (h j).val) (t j)
  have e' := congrArg (Nat.cast (R := ZMod (t i))) e
  rw [← Nat.cast_add, ← e', Nat.cast_add, Nat.cast_mul, mul_add, ← mul_assoc, h0]
  simp

/-- entries reduced modulo the orders -/
def endo (t : Fin r → Nat) (q : Matrix (Fin r) (Fin r) Int) : Matrix (Fin r) (Fin r) Nat := Matrix.of fun i j => (q i j % t i).toNat

theorem reduced {x : Int} {n : Nat} (nd : Bool) (hn : 0 < n) (h63 : n < 2 ^ 63) (hx : Arith.fits 64 x) :
    ∃ y, Arith.remainder nd 64 x (Arith.toS 64 (n : Nat)) = .ok y ∧ Arith.toU 64 y = (x % n).toNat := by
  have hS : Arith.toS 64 (n : Int) = n := Arith.toS_small (by norm_num) (by omega) (by norm_num; omega)
  rw [hS]
  have hf : Arith.fits 64 (n : Int) := ⟨by norm_num, by norm_num; omega⟩
  refine ⟨x % n, Arith.C13_remainder nd (by norm_num) hx hf (by omega), ?_⟩
  have := Int.emod_nonneg x (show (n : Int) ≠ 0 by omega)
  have h2 := Int.emod_lt_of_pos x (show (0 : Int) < n by omega)
  rw [Arith.toU_nonneg this (by norm_num; omega)]

theorem toEndomorphism_spec (nd : Bool) (h63 : ∀ i, t i < 2 ^ 63) (q : Matrix (Fin r) (Fin r) Int) (hq : ∀ i j, Arith.fits 64 (q i j)) :
    toEndomorphism nd (enc q) (grp t) = .ok (enc (endo t q)) := by
  rw [toEndomorphism, show (enc q).rows = r from rfl, show (enc q).cols = r from rfl, Mat.blank_tb, type_vk, enc_tb, enc_tb (endo t q)]
  refine forUp_ok (fun s => tb r r fun i j => if j < s then Mat.ex (endo t q) i j else 0) ?_ ?_ ?_
  · exact tb_congr fun i j _ _ => by simp
  · exact tb_congr fun i j _ hj => if_pos (by omega)
  · intro j _ hj
    have hj' : j < r := by omega
    rw [Mat.forCol_tb _ j hj' 0 r (by omega) _ (fun i => Mat.ex (endo t q) i j)]
    · congr 1; apply tb_congr; intro i c hi hc
      by_cases e : c = j
      · subst e; rw [if_pos (by omega), if_pos (by omega), Nat.sub_zero]
      · rw [if_neg (by omega)]
        by_cases e' : c < j
        · rw [if_pos e', if_pos (by omega)]
        · rw [if_neg e', if_neg (by omega)]
    · intro i hi g _
      rw [Nat.zero_add, get_tb _ hi hj', Res.ok_bind, get_vk _ hi, Res.ok_bind, ext_lt _ hi]
      have hx := Mat.ex_fin q ⟨i, hi⟩ ⟨j, hj'⟩
      have hy := Mat.ex_fin (endo t q) ⟨i, hi⟩ ⟨j, hj'⟩
      simp only at hx hy
      obtain ⟨y, h1, h2⟩ := reduced nd (tpos ⟨i, hi⟩) (h63 ⟨i, hi⟩) (hq ⟨i, hi⟩ ⟨j, hj'⟩)
      rw [hx, h1, Res.ok_bind, h2, set_tb _ hi hj', hy]
      rfl

theorem ofWeight_spec (nd : Bool) (h63 : ∀ i, t i < 2 ^ 63) (v : Fin r → Int) (hv : ∀ i, Arith.fits 64 (v i)) :
    ofWeight nd (grp t) (List.ofFn v) = .ok (arr (fun i => (v i : ZMod (t i)) : G t)) := by
  rw [ofWeight, weightArray, List.length_ofFn, type_length, replicate_vk, type_vk, arr_vk]
  refine forUp_ok (fun i => vk r fun k => if k < i then av (fun i => (v i : ZMod (t i)) : G t) k else 0) ?_ ?_ ?_
  · exact vk_congr fun k _ => by simp
  · exact vk_congr fun k hk => if_pos (by omega)
  · intro i _ hi
    have hi' : i < r := by omega
    have hg : Vec.get (List.ofFn v) i = .ok (v ⟨i, hi'⟩) := by
      rw [Vec.get_ok (by simpa using hi')]; simp
    rw [hg, Res.ok_bind, get_vk _ hi', Res.ok_bind, ext_lt _ hi']
    obtain ⟨y, h1, h2⟩ := reduced nd (tpos ⟨i, hi'⟩) (h63 ⟨i, hi'⟩) (hv ⟨i, hi'⟩)
    rw [h1, Res.ok_bind, h2, put_vk _ hi']
    congr 1
    refine vk_congr fun k hk => ?_
    by_cases c : k = i
    · subst c
      rw [if_pos rfl, if_pos (by omega), av_lt _ hk]
      have := ZMod.val_intCast (n := t ⟨k, hk⟩) (v ⟨k, hk⟩)
      omega
    · rw [if_neg c]
      by_cases c' : k < i
      · rw [if_pos c', if_pos (by omega)]
      · rw [if_neg c', if_neg (by omega)]

/-! ### transposition -/

/-- the transposed matrix -/
def transp (t : Fin r → Nat) (e : Matrix (Fin r) (Fin r) Nat) : Matrix (Fin r) (Fin r) Nat :=
  Matrix.of fun j i => t j / (t i).gcd (t j) * (e i j / (t i / (t i).gcd (t j)))

theorem transpose_spec (e : Matrix (Fin r) (Fin r) Nat) (he : ∀ i j, e i j * t j < 2 ^ 64) :
    transpose (enc e) (grp t) = .ok (enc (transp t e)) := by
  rw [transpose, show (enc e).rows = r from rfl, show (enc e).cols = r from rfl, Mat.blank_tb, type_vk, enc_tb, enc_tb (transp t e)]
  refine forUp_ok (fun s => tb r r fun j i => if i < s then Mat.ex (transp t e) j i else 0) ?_ ?_ ?_
  · exact tb_congr fun i j _ _ => by simp
  · exact tb_congr fun i j _ hj => if_pos (by omega)
  · intro i _ hi
    have hi' : i < r := by omega
    rw [Mat.forCol_tb _ i hi' 0 r (by omega) _ (fun j => Mat.ex (transp t e) j i)]
    · congr 1; apply tb_congr; intro j c hj hc
      by_cases e : c = i
      · subst e; rw [if_pos (by omega), if_pos (by omega), Nat.sub_zero]
      · rw [if_neg (by omega)]
        by_cases e' : c < i
        · rw [if_pos e', if_pos (by omega)]
        · rw [if_neg e', if_neg (by omega)]
    · intro j hj g _
      rw [Nat.zero_add, get_vk _ hi', Res.ok_bind, get_vk _ hj, Res.ok_bind, Arith.C14_unsignedGcd _ (ext_pos j), Res.ok_bind, get_tb _ hi' hj]
      have hni : 0 < ext 1 t i / (ext 1 t i).gcd (ext 1 t j) :=
        Nat.div_pos (Nat.le_of_dvd (ext_pos i) (Nat.gcd_dvd_left _ _)) (Nat.gcd_pos_of_pos_left _ (ext_pos i))
      rw [if_neg hni.ne', Res.ok_bind, set_tb _ hj hi']
      have hx := Mat.ex_fin e ⟨i, hi'⟩ ⟨j, hj⟩
      have hy := Mat.ex_fin (transp t e) ⟨j, hj⟩ ⟨i, hi'⟩
      simp only at hx hy
      rw [hx, hy, ext_lt _ hi', ext_lt _ hj]
      rw [Nat.mod_eq_of_lt]
      · rfl
      · have h1 : t ⟨j, hj⟩ / (t ⟨i, hi'⟩).gcd (t ⟨j, hj⟩) ≤ t ⟨j, hj⟩ := Nat.div_le_self _ _
        have h2 : e ⟨i, hi'⟩ ⟨j, hj⟩ / (t ⟨i, hi'⟩ / (t ⟨i, hi'⟩).gcd (t ⟨j, hj⟩)) ≤ e ⟨i, hi'⟩ ⟨j, hj⟩ := Nat.div_le_self _ _
        have h3 := Nat.mul_le_mul h1 h2
        have h4 := he ⟨i, hi'⟩ ⟨j, hj⟩
        rw [Nat.mul_comm] at h4
        omega

omit hz in
/-- the pairing is linear in the entries, not just in their classes -/
theorem pair_cast (hc : Chain t) (a b : Fin r → Nat) (g h : G t) (hg : ∀ i, (g i) = (a i : ZMod (t i))) (hh : ∀ i, h i = (b i : ZMod (t i))) :
    ((∑ i, a i * b i * (ann t / t i) : Nat) : ZMod (ann t)) = (pair g h : Nat) := by
  rw [pair, ZMod.natCast_mod]
  push_cast
  refine Finset.sum_congr rfl fun i _ => ?_
  have hk : ((t i * (ann t / t i) : Nat) : ZMod (ann t)) = 0 := by
    rw [Nat.mul_div_cancel' (hc.dvd_ann i)]; simp
  rw [hg, hh, ZMod.val_natCast, ZMod.val_natCast]
  have ea := congrArg (Nat.cast (R := ZMod (ann t))) (Nat.mod_add_div (a i) (t i))
  have eb := congrArg (Nat.cast (R := ZMod (ann t))) (Nat.mod_add_div (b i) (t i))
  rw [← ea, ← eb]
  push_cast at hk ⊢
  linear_combination ((a i / t i : Nat) * ((b i % t i : Nat) + (t i : ZMod (ann t)) * (b i / t i : Nat)) + (a i % t i : Nat) * (b i / t i : Nat)) * hk

theorem transp_adjoint (hc : Chain t) (e : Matrix (Fin r) (Fin r) Nat) (he : ∀ i j, t i ∣ e i j * t j) (g h : G t) :
    pair (act e g) h = pair g (act (transp t e) h) := by
  have hcast : ((pair (act e g) h : Nat) : ZMod (ann t)) = (pair g (act (transp t e) h) : Nat) := by
    rw [← pair_cast hc (fun i => ∑ j, e i j * (g j).val) (fun i => (h i).val) (act e g) h (fun i => by rw [act]; push_cast; rfl) (fun i => by simp),
      ← pair_cast hc (fun i => (g i).val) (fun i => ∑ j, transp t e i j * (h j).val) g (act (transp t e) h) (fun i => by simp)
        (fun i => by rw [act]; push_cast; rfl)]
    congr 1
    simp only [Finset.sum_mul, Finset.mul_sum]
    rw [Finset.sum_comm]
    refine Finset.sum_congr rfl fun j _ => Finset.sum_congr rfl fun i _ => ?_
    -- both terms have the same coefficient
    have hcoef : e i j * (ann t / t i) = transp t e j i * (ann t / t j) := by
      show _ = t j / (t i).gcd (t j) * (e i j / (t i / (t i).gcd (t j))) * (ann t / t j)
      have hd : 0 < (t i).gcd (t j) := Nat.gcd_pos_of_pos_left _ (tpos i)
      obtain ⟨p, hp⟩ := Nat.gcd_dvd_left (t i) (t j)
      obtain ⟨q, hq⟩ := Nat.gcd_dvd_right (t i) (t j)
      have hcop : p.gcd q = 1 := by
        have := Nat.gcd_mul_left ((t i).gcd (t j)) p q
        rw [← hp, ← hq] at this
        exact Nat.eq_of_mul_eq_mul_left hd (by omega)
      have hp0 : 0 < p := Nat.pos_of_ne_zero fun h => by rw [h] at hp; have := tpos (t := t) i; omega
      have hq0 : 0 < q := Nat.pos_of_ne_zero fun h => by rw [h] at hq; have := tpos (t := t) j; omega
      have hp' : t i / (t i).gcd (t j) = p := Nat.div_eq_of_eq_mul_right hd hp
      have hq' : t j / (t i).gcd (t j) = q := Nat.div_eq_of_eq_mul_right hd hq
      rw [hp', hq']
      have hpe : p ∣ e i j := by
        have h1 := he i j
        have h2 : (t i).gcd (t j) * p ∣ (t i).gcd (t j) * (e i j * q) := by
          rw [← hp]
          refine h1.trans (dvd_of_eq ?_)
          calc e i j * t j = e i j * ((t i).gcd (t j) * q) := by rw [← hq]
            _ = _ := by ring
        exact Nat.Coprime.dvd_of_dvd_mul_right hcop (Nat.dvd_of_mul_dvd_mul_left hd h2)
      obtain ⟨k, hk⟩ := hpe
      rw [hk, Nat.mul_div_cancel_left _ hp0]
      obtain ⟨c, hc1⟩ := hc.dvd_ann i
      obtain ⟨c', hc2⟩ := hc.dvd_ann j
      have e1 : ann t / t i = c := Nat.div_eq_of_eq_mul_right (tpos i) hc1
      have e2 : ann t / t j = c' := Nat.div_eq_of_eq_mul_right (tpos j) hc2
      rw [e1, e2]
      have : (t i).gcd (t j) * (p * c) = (t i).gcd (t j) * (q * c') := by
        rw [← mul_assoc, ← hp, ← hc1, ← mul_assoc, ← hq, ← hc2]
      have := Nat.eq_of_mul_eq_mul_left hd this
      calc p * k * c = k * (p * c) := by ring
        _ = k * (q * c') := by rw [this]
        _ = _ := by ring
    calc e i j * (g j).val * (h i).val * (ann t / t i) = e i j * (ann t / t i) * ((g j).val * (h i).val) := by ring
      _ = transp t e j i * (ann t / t j) * ((g j).val * (h i).val) := by rw [hcoef]
      _ = _ := by ring
  have := (ZMod.natCast_eq_natCast_iff' _ _ _).1 hcast
  rwa [Nat.mod_eq_of_lt (pair_lt _ _), Nat.mod_eq_of_lt (pair_lt _ _)] at this

end Verif.Ab
