import Verif.Ab.Spec
import Verif.Arith.PropsArith
import Verif.Mat.Solve
import Mathlib.GroupTheory.Exponent
import Mathlib.GroupTheory.SpecificGroups.Cyclic
/-
Conversions and arithmetic in finite abelian groups.
-/
namespace Verif.Ab

open Finset
open Verif.Mat (vk forUp forDown forUp_ok forDown_ok forUp_inv get_vk put_vk vk_ofFn vk_congr forVec replicate_vk length_vk)

variable {r : Nat} {t : Fin r → Nat} [hz : ∀ i, NeZero (t i)]

/-- entries of a vector, and a default value beyond -/
def ext {n : Nat} (d : Nat) (v : Fin n → Nat) (k : Nat) : Nat := if h : k < n then v ⟨k, h⟩ else d

@[simp] theorem ext_fin {n d : Nat} (v : Fin n → Nat) (i : Fin n) : ext d v i = v i := by rw [ext, dif_pos i.2]
theorem ext_lt {n d : Nat} (v : Fin n → Nat) {k : Nat} (h : k < n) : ext d v k = v ⟨k, h⟩ := by rw [ext, dif_pos h]
theorem ofFn_ext {n : Nat} (d : Nat) (v : Fin n → Nat) : List.ofFn v = vk n (ext d v) := by rw [vk_ofFn]; simp

theorem type_vk (t : Fin r → Nat) : (grp t).type = vk r (ext 1 t) := ofFn_ext 1 t
theorem type_length (t : Fin r → Nat) : (grp t).type.length = r := by rw [type_vk, length_vk]

/-- components of an element, as function on all numbers -/
def av (g : G t) (k : Nat) : Nat := ext 0 (fun i => (g i).val) k

theorem arr_vk (g : G t) : arr g = vk r (av g) := ofFn_ext 0 _
theorem av_lt {k : Nat} (g : G t) (h : k < r) : av g k = (g ⟨k, h⟩).val := ext_lt _ h

theorem tpos (i : Fin r) : 0 < t i := Nat.pos_of_ne_zero (hz i).out

theorem ext_pos (k : Nat) : 0 < ext 1 t k := by
  unfold ext
  split
  · exact tpos _
  · exact Nat.one_pos

theorem av_lt_ext (g : G t) {k : Nat} (h : k < r) : av g k < ext 1 t k := by
  rw [av_lt g h, ext_lt _ h]; exact ZMod.val_lt _

theorem prod_pos : 0 < ∏ i, t i := Finset.prod_pos fun i _ => tpos i

theorem le_prod (i : Fin r) : t i ≤ ∏ i, t i := Nat.le_of_dvd prod_pos (Finset.dvd_prod_of_mem t (mem_univ i))

/-- product of the first orders -/
theorem prodFin (t : Fin r → Nat) {i : Nat} (h : i ≤ r) : ∏ j : Fin i, t (Fin.castLE h j) = ∏ k ∈ range i, ext 1 t k := by
  rw [Finset.prod_range]
  refine Finset.prod_congr rfl fun j _ => ?_
  rw [ext_lt _ (by omega)]; rfl

/-! ### numbers and arrays -/

/-- components as elements of `Fin` -/
def fz (g : G t) (i : Fin r) : Fin (t i) := ⟨(g i).val, ZMod.val_lt _⟩

theorem nbr_eq (g : G t) : nbr g = (finPiFinEquiv (fz g) : Nat) := rfl

theorem nbr_lt (g : G t) : nbr g < ∏ i, t i := by rw [nbr_eq]; exact Fin.is_lt _

theorem nbr_inj {g h : G t} (e : nbr g = nbr h) : g = h := by
  rw [nbr_eq, nbr_eq] at e
  have := finPiFinEquiv.injective (Fin.ext e)
  funext i
  exact ZMod.val_injective _ (congrArg Fin.val (congrFun this i))

theorem digit_symm (x : Fin (∏ i, t i)) (i : Fin r) :
    (finPiFinEquiv.symm x i : Nat) = x / (∏ j : Fin i, t (Fin.castLE i.is_lt.le j)) % t i := rfl

/-- the element with a given number -/
def ofNbr (t : Fin r → Nat) (x : Nat) : G t := fun i => ((x / (∏ j : Fin i, t (Fin.castLE i.is_lt.le j)) % t i : Nat) : ZMod (t i))

theorem val_ofNbr (x : Nat) (i : Fin r) : (ofNbr t x i).val = x / (∏ j : Fin i, t (Fin.castLE i.is_lt.le j)) % t i := by
  rw [ofNbr, ZMod.val_cast_of_lt (Nat.mod_lt _ (tpos i))]

theorem nbr_ofNbr {x : Nat} (h : x < ∏ i, t i) : nbr (ofNbr t x) = x := by
  rw [nbr_eq]
  have : fz (ofNbr t x) = finPiFinEquiv.symm ⟨x, h⟩ := by
    funext i
    apply Fin.ext
    rw [digit_symm]
    exact val_ofNbr x i
  rw [this, Equiv.apply_symm_apply]

theorem ofNbr_nbr (g : G t) : ofNbr t (nbr g) = g := nbr_inj (nbr_ofNbr (nbr_lt g))

theorem toArrayInto_spec (x : Nat) : toArrayInto (List.replicate r 0) x (vk r (ext 1 t)) = .ok (arr (ofNbr t x)) := by
  have key := forUp_ok (body := fun i (s : List Nat × Nat) => do
      let ti ← Vec.get (vk r (ext 1 t)) i
      if ti = 0 then .undefined else return (← Vec.put s.1 i (s.2 % ti), s.2 / ti)) (k := r) (a := 0) (s := (List.replicate r 0, x))
    (t := (arr (ofNbr t x), x / ∏ k ∈ range r, ext 1 t k))
    (fun i => (vk r fun k => if k < i then av (ofNbr t x) k else 0, x / ∏ k ∈ range i, ext 1 t k)) ?_ ?_ ?_
  · rw [toArrayInto, List.length_replicate, key]; rfl
  · rw [replicate_vk]; simp
  · rw [arr_vk, Nat.zero_add]
    congr 1
    exact vk_congr fun k hk => if_pos (by omega)
  · intro i _ hi
    have hi' : i < r := by omega
    simp only
    rw [get_vk _ hi', Res.ok_bind, if_neg (ext_pos i).ne', put_vk _ hi', Res.ok_bind, Res.pure_eq]
    congr 2
    · refine vk_congr fun k hk => ?_
      by_cases c : k = i
      · subst c
        rw [if_pos rfl, if_pos (by omega), av_lt _ hi', val_ofNbr, ext_lt _ hi', prodFin t hi'.le]
      · rw [if_neg c]
        by_cases c' : k < i
        · rw [if_pos c', if_pos (by omega)]
        · rw [if_neg c', if_neg (by omega)]
    · rw [Nat.div_div_eq_div_mul, Finset.prod_range_succ]

theorem toArray_spec (x : Nat) : toArray (grp t) x = .ok (arr (ofNbr t x)) := by
  rw [toArray, type_length, type_vk, toArrayInto_spec]

theorem toArray_nbr (g : G t) : toArray (grp t) (nbr g) = .ok (arr g) := by rw [toArray_spec, ofNbr_nbr]

theorem toNbr_vk (a T : Nat → Nat) (n : Nat) :
    toNbr (vk n a) (vk n T) = .ok ((∑ k ∈ range n, a k * ∏ j ∈ range k, T j) % 2 ^ 64) := by
  let Q : Nat → Nat := fun i => ∑ k ∈ range (n - i), a (i + k) * ∏ j ∈ range k, T (i + j)
  have hQ : ∀ i, i < n → Q i = Q (i + 1) * T i + a i := by
    intro i hi
    simp only [Q]
    rw [show n - i = n - (i + 1) + 1 by omega, Finset.sum_range_succ', Finset.prod_range_zero, mul_one, Nat.add_zero, Finset.sum_mul]
    congr 1
    refine Finset.sum_congr rfl fun k _ => ?_
    rw [Finset.prod_range_succ', Nat.add_zero, ← mul_assoc]
    congr 2
    · congr 1; omega
    · refine Finset.prod_congr rfl fun j _ => ?_
      congr 1; omega
  rw [toNbr, length_vk]
  refine forDown_ok (fun i => Q i % 2 ^ 64) ?_ ?_ ?_
  · simp [Q]
  · simp [Q]
  · intro i hi
    rw [get_vk _ hi, Res.ok_bind, get_vk _ hi, Res.ok_bind, Res.pure_eq, hQ i hi]
    congr 1
    simp [Nat.add_mod, Nat.mul_mod]

theorem nbr_range (g : G t) : ∑ k ∈ range r, av g k * ∏ j ∈ range k, ext 1 t j = nbr g := by
  rw [Finset.sum_range, nbr]
  refine Finset.sum_congr rfl fun i _ => ?_
  rw [av_lt g i.2, prodFin]

theorem toNbr_arr (hs : ∏ i, t i ≤ 2 ^ 64) (g : G t) : toNbr (arr g) (grp t).type = .ok (nbr g) := by
  rw [arr_vk, type_vk, toNbr_vk, nbr_range, Nat.mod_eq_of_lt (lt_of_lt_of_le (nbr_lt g) hs)]

/-! ### addition, subtraction, multiples -/

theorem addArr_arr (hs : ∏ i, t i < 2 ^ 64) (g h : G t) : addArr (grp t) (arr g) (arr h) = .ok (arr (g + h)) := by
  rw [addArr, arr_vk g, arr_vk h, arr_vk (g + h), type_vk, length_vk]
  rw [forVec (n := r) (fun i x => Arith.modAdd x (av h i) (ext 1 t i)) (by omega)]
  · congr 1
    refine vk_congr fun k hk => ?_
    rw [if_pos (by omega), Arith.C15_modAdd ?_ (av_lt_ext g hk) (av_lt_ext h hk), av_lt _ hk, av_lt _ hk, av_lt _ hk, ext_lt _ hk, Pi.add_apply,
      ZMod.val_add]
    rw [ext_lt _ hk]; exact lt_of_le_of_lt (le_prod _) hs
  · intro a i _ hi
    have hi' : i < r := by omega
    rw [get_vk _ hi', Res.ok_bind, get_vk _ hi', Res.ok_bind, get_vk _ hi', Res.ok_bind, put_vk _ hi']
    rfl

theorem val_sub' {n : Nat} [NeZero n] (a b : ZMod n) : (a - b).val = if b.val ≤ a.val then a.val - b.val else a.val + (n - b.val) := by
  by_cases c : b.val ≤ a.val
  · rw [if_pos c, ZMod.val_sub c]
  · rw [if_neg c]
    have hb := ZMod.val_lt b
    have : a - b = ((a.val + (n - b.val) : Nat) : ZMod n) := by
      rw [Nat.cast_add, Nat.cast_sub hb.le]; simp [sub_eq_add_neg]
    rw [this, ZMod.val_cast_of_lt (by omega)]

theorem subArr_arr (hs : ∏ i, t i < 2 ^ 64) (g h : G t) : subArr (grp t) (arr g) (arr h) = .ok (arr (g - h)) := by
  rw [subArr, arr_vk g, arr_vk h, arr_vk (g - h), type_vk, length_vk]
  rw [forVec (n := r) (fun i x => if av h i ≤ x then x - av h i
    else (x + (ext 1 t i + (18446744073709551616 - av h i)) % 18446744073709551616) % 18446744073709551616) (by omega)]
  · congr 1
    refine vk_congr fun k hk => ?_
    have h1 := av_lt_ext g hk
    have h2 := av_lt_ext h hk
    have h3 : ext 1 t k < 2 ^ 64 := by rw [ext_lt _ hk]; exact lt_of_le_of_lt (le_prod _) hs
    rw [if_pos (by omega), av_lt (g - h) hk, Pi.sub_apply, val_sub', ← av_lt g hk, ← av_lt h hk, ← ext_lt (d := 1) t hk]
    by_cases c : av h k ≤ av g k
    · rw [if_pos c, if_pos c]
    · rw [if_neg c, if_neg c]; omega
  · intro a i _ hi
    have hi' : i < r := by omega
    rw [get_vk _ hi', Res.ok_bind, get_vk _ hi', Res.ok_bind]
    by_cases c : av h i ≤ a i
    · rw [if_pos c, put_vk _ hi', if_pos c]
    · rw [if_neg c, get_vk _ hi', Res.ok_bind, put_vk _ hi', if_neg c]

theorem addArrNbr_spec (hs : ∏ i, t i < 2 ^ 64) (g h : G t) : addArrNbr (grp t) (arr g) (nbr h) = .ok (arr (g + h)) := by
  rw [addArrNbr, toArray_nbr, Res.ok_bind, addArr_arr hs]

theorem addNbrArr_spec (hs : ∏ i, t i < 2 ^ 64) (g h : G t) : addNbrArr (grp t) (nbr g) (arr h) = .ok (nbr (g + h)) := by
  rw [addNbrArr, toArray_nbr, Res.ok_bind, addArr_arr hs, Res.ok_bind, toNbr_arr hs.le]

theorem add_spec (hs : ∏ i, t i < 2 ^ 64) (g h : G t) : add (grp t) (nbr g) (nbr h) = .ok (nbr (g + h)) := by
  rw [add, toArray_nbr, Res.ok_bind, addNbrArr_spec hs]

theorem prod_spec (hs : ∏ i, t i < 2 ^ 64) (g : G t) (n : Nat) (hn : ∀ i, n * t i ≤ 2 ^ 64) : prod (grp t) (nbr g) n = .ok (nbr (n • g)) := by
  rw [prod, toArray_nbr, Res.ok_bind, arr_vk, type_length]
  have key := forVec (n := r) (α := Nat) (a := 0) (len := r) (body := fun i (a : List Nat) => do
    let p ← Arith.modProd (← Vec.get a i) n (← Vec.get (grp t).type i)
    Vec.put a i p.2) (fun i x => x * n % 18446744073709551616 % ext 1 t i) (by omega) ?_ (av g)
  · rw [key, Res.ok_bind]
    have : (vk r fun k => if 0 ≤ k ∧ k < 0 + r then av g k * n % 18446744073709551616 % ext 1 t k else av g k) = arr (n • g) := by
      rw [arr_vk]
      refine vk_congr fun k hk => ?_
      have h1 := av_lt_ext g hk
      have h2 : av g k * n < 18446744073709551616 := by
        have := hn ⟨k, hk⟩
        rw [← ext_lt (d := 1) t hk] at this
        rcases Nat.eq_zero_or_pos n with rfl | c
        · omega
        · have := Nat.mul_lt_mul_of_pos_left h1 c
          rw [Nat.mul_comm]; omega
      rw [if_pos (by omega), Nat.mod_eq_of_lt h2, av_lt (n • g) hk, Pi.smul_apply, ext_lt _ hk, av_lt _ hk]
      have : n • g ⟨k, hk⟩ = (((g ⟨k, hk⟩).val * n : Nat) : ZMod (t ⟨k, hk⟩)) := by
        rw [Nat.cast_mul, ZMod.natCast_val, ZMod.cast_id, nsmul_eq_mul, mul_comm]
      rw [this, ZMod.val_natCast]
    rw [this, toNbr_arr hs.le]
  · intro a i _ hi
    have hi' : i < r := by omega
    rw [get_vk _ hi', Res.ok_bind, type_vk, get_vk _ hi', Res.ok_bind, Arith.modProd, if_neg (ext_pos i).ne', Res.ok_bind, put_vk _ hi']

/-! ### orders -/

theorem order_spec (hs : ∏ i, t i < 2 ^ 64) (g : G t) : order (grp t) (nbr g) = .ok (addOrderOf g) := by
  rw [order, toArray_nbr, Res.ok_bind, type_length, arr_vk]
  have key := forUp_inv (body := fun i (n : Nat) => do
      let l ← Arith.lcm n (← Arith.divGcd (← Vec.get (grp t).type i) (← Vec.get (vk r (av g)) i))
      return l.1) (fun i n => 0 < n ∧ ∀ m, n ∣ m ↔ ∀ k : Fin r, k.val < i → addOrderOf (g k) ∣ m) r 0 1
    ⟨Nat.one_pos, fun m => ⟨fun _ k h => absurd h (Nat.not_lt_zero _), fun _ => one_dvd m⟩⟩ ?_
  · obtain ⟨n, h1, h2, h3⟩ := key
    rw [h1]
    congr 1
    have : ∀ m, n ∣ m ↔ addOrderOf g ∣ m := by
      intro m
      rw [h3, addOrderOf_dvd_iff_nsmul_eq_zero, funext_iff]
      constructor
      · intro h i; exact addOrderOf_dvd_iff_nsmul_eq_zero.1 (h i (by omega))
      · intro h i _; exact addOrderOf_dvd_iff_nsmul_eq_zero.2 (h i)
    exact Nat.dvd_antisymm ((this _).2 dvd_rfl) ((this _).1 dvd_rfl)
  · intro i n _ hi ⟨hn, hd⟩
    have hi' : i < r := by omega
    rw [type_vk, get_vk _ hi', Res.ok_bind, get_vk _ hi', Res.ok_bind, Arith.C14_divGcd _ (ext_pos i), Res.ok_bind]
    have ho : ext 1 t i / (av g i).gcd (ext 1 t i) = addOrderOf (g ⟨i, hi'⟩) := by
      have := ZMod.addOrderOf_coe (g ⟨i, hi'⟩).val (hz ⟨i, hi'⟩).out
      rw [ZMod.natCast_val, ZMod.cast_id] at this
      rw [this, ext_lt _ hi', av_lt _ hi', Nat.gcd_comm]
    rw [ho]
    have hdvd : ∀ k : Fin r, addOrderOf (g k) ∣ ∏ i, t i := fun k =>
      (addOrderOf_dvd_iff_nsmul_eq_zero.2 (by simp)).trans (Finset.dvd_prod_of_mem t (mem_univ k))
    have hnp : n ∣ ∏ i, t i := (hd _).2 fun k _ => hdvd k
    have hl : Nat.lcm n (addOrderOf (g ⟨i, hi'⟩)) ∣ ∏ i, t i := Nat.lcm_dvd hnp (hdvd _)
    obtain ⟨p, hp, -⟩ := Arith.C14_lcm (b := addOrderOf (g ⟨i, hi'⟩)) hn (lt_of_le_of_lt (Nat.le_of_dvd prod_pos hnp) hs)
      (lt_of_le_of_lt (Nat.le_of_dvd prod_pos hl) hs)
    rw [hp, Res.ok_bind]
    refine ⟨_, rfl, Nat.pos_of_dvd_of_pos hl prod_pos, fun m => ?_⟩
    rw [Nat.lcm_dvd_iff, hd]
    constructor
    · rintro ⟨h1, h2⟩ k hk
      rcases Nat.lt_succ_iff_lt_or_eq.1 hk with c | c
      · exact h1 k c
      · obtain rfl : k = ⟨i, hi'⟩ := Fin.ext c
        exact h2
    · intro h
      exact ⟨fun k hk => h k (by omega), h ⟨i, hi'⟩ (by simp)⟩

omit hz in
theorem Chain.dvd (hc : Chain t) {i j : Nat} (hij : i ≤ j) (hj : j < r) : t ⟨i, by omega⟩ ∣ t ⟨j, hj⟩ := by
  induction j, hij using Nat.le_induction with
  | base => exact dvd_rfl
  | succ j hij ih => exact (ih (by omega)).trans (hc j hj)

omit hz in
theorem Chain.dvd_ann (hc : Chain t) (i : Fin r) : t i ∣ ann t := by
  have h := i.2
  rw [ann, dif_pos (by omega)]
  exact hc.dvd (by omega) _

omit hz in
theorem annihilator_spec (t : Fin r → Nat) : annihilator (grp t) = .ok (ann t) := by
  rw [annihilator, type_length]
  by_cases h : r = 0
  · rw [if_pos h, ann, dif_neg (by omega)]
  · rw [if_neg h, type_vk, get_vk _ (by omega), ann, dif_pos (by omega), ext_lt _ (by omega)]

theorem ann_pos : 0 < ann t := by
  unfold ann
  split
  · exact tpos _
  · exact Nat.one_pos

omit hz in
theorem ann_exponent (hc : Chain t) : AddMonoid.exponent (G t) = ann t := by
  rw [AddMonoid.exponent_pi]
  apply Nat.dvd_antisymm
  · refine Finset.lcm_dvd fun i _ => ?_
    rw [ZMod.exponent]; exact hc.dvd_ann i
  · unfold ann
    split
    · rename_i h
      have := Finset.dvd_lcm (f := fun i => AddMonoid.exponent (ZMod (t i))) (mem_univ (⟨r - 1, by omega⟩ : Fin r))
      rw [ZMod.exponent] at this
      exact this
    · exact one_dvd _

omit hz in
theorem make_spec [∀ i, NeZero (t i)] (nd : Bool) (hs : ∏ i, t i < 2 ^ 64) (hc : Chain t) : make nd (List.ofFn t) = .ok (grp t) := by
  rw [make, List.length_ofFn, ofFn_ext 1]
  have key := forUp_ok (body := makeStep nd (vk r (ext 1 t))) (k := r) (a := 0) (s := (1, List.replicate r 0))
    (t := ((grp t).size, (grp t).cotype))
    (fun i => (∏ k ∈ range i, ext 1 t k, vk r fun k => if k < i then ann t / ext 1 t k else 0)) ?_ ?_ ?_
  · rw [key, Res.ok_bind, ← type_vk]; rfl
  · rw [replicate_vk]; simp
  · rw [Nat.zero_add, Finset.prod_range]
    simp only [ext_fin]
    congr 1
    show _ = List.ofFn fun i => ann t / t i
    rw [vk_ofFn]
    congr 1; funext i
    rw [if_pos i.2, ext_fin]
  · intro i _ hi
    have hi' : i < r := by omega
    have hd : i + 1 < r → ext 1 t i ∣ ext 1 t (i + 1) := fun h => by
      rw [ext_lt _ hi', ext_lt _ h]; exact hc i h
    have hle : ∏ k ∈ range (i + 1), ext 1 t k < 2 ^ 64 := by
      refine lt_of_le_of_lt ?_ hs
      have : ∏ i, t i = ∏ k ∈ range r, ext 1 t k := by rw [Finset.prod_range]; simp
      rw [this]
      exact Finset.prod_le_prod_of_subset_of_one_le' (range_subset_range.2 (by omega)) fun k _ _ => ext_pos k
    rw [makeStep, get_vk _ hi', Res.ok_bind, if_neg (ext_pos i).ne', length_vk]
    rw [Res.assertIn_bind nd, get_vk _ (by omega), Res.ok_bind, put_vk _ hi', Res.ok_bind, Res.pure_eq]
    · simp only
      rw [← Finset.prod_range_succ, Nat.mod_eq_of_lt (b := 18446744073709551616) hle]
      congr 2
      refine vk_congr fun k hk => ?_
      have hann : ext 1 t (r - 1) = ann t := by rw [ext_lt _ (by omega), ann, dif_pos (by omega)]
      by_cases c : k = i
      · subst c; rw [if_pos rfl, if_pos (by omega), hann]
      · rw [if_neg c]
        by_cases c' : k < i
        · rw [if_pos c', if_pos (by omega)]
        · rw [if_neg c', if_neg (by omega)]
    · rw [Bool.or_eq_true, decide_eq_true_eq, decide_eq_true_eq]
      rcases Nat.lt_or_ge (i + 1) r with c | c
      · right
        rw [Mat.getElem?_vk, if_pos c]
        exact Nat.mod_eq_zero_of_dvd (hd c)
      · left; omega

end Verif.Ab
