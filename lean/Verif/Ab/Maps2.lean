import Verif.Ab.Maps
import Verif.Ab.Sets
/-
Homomorphisms given by rows, and bases of inverse images.
-/
namespace Verif.Ab

open Finset
open Verif.Mat (Mat tab vk tb enc forUp forDown forUp_ok forDown_ok forUp_inv get_vk put_vk vk_ofFn vk_congr forVec replicate_vk length_vk get_tb set_tb
  tb_congr enc_tb tab_ok fill_tb)
open Verif.BitMap (BitMap Rep)
open Matrix

variable {r r' : Nat} {t : Fin r → Nat} [hz : ∀ i, NeZero (t i)] {u : Fin r' → Nat} [hu : ∀ i, NeZero (u i)]

/-! ### homomorphisms -/

/-- data of the homomorphism with a given matrix -/
def hom (t : Fin r → Nat) (u : Fin r' → Nat) (m : Matrix (Fin r') (Fin r) Nat) : Hom :=
  ⟨List.ofFn t, List.ofFn u, List.ofFn fun j => (ann t).lcm (ann u) / t j, List.ofFn fun i => (ann t).lcm (ann u) / u i, (ann t).lcm (ann u), enc m⟩

theorem cotypes_spec (M : Nat) : cotypes M (List.ofFn t) = .ok (List.ofFn fun j => M / t j) := by
  rw [cotypes, List.length_ofFn, ofFn_ext 1, vk_ofFn']
  refine tab_ok _ fun i hi => ?_
  rw [get_vk _ hi, Res.ok_bind, if_neg (ext_pos i).ne', Res.pure_eq]
where
  vk_ofFn' {t : Fin r → Nat} {M : Nat} : (List.ofFn fun j => M / t j) = vk r fun i => M / ext 1 t i := by
    rw [vk_ofFn]; simp

theorem homMake_spec (h64 : (ann t).lcm (ann u) < 2 ^ 64) (m : Matrix (Fin r') (Fin r) Nat) :
    Hom.make (List.ofFn fun i => List.ofFn (m i)) (grp t) (grp u) = .ok (hom t u m) := by
  rw [Hom.make, annihilator_spec, Res.ok_bind, annihilator_spec, Res.ok_bind]
  obtain ⟨p, hp, -⟩ := Arith.C14_lcm (a := ann t) (b := ann u) ann_pos (lt_of_le_of_lt (Nat.le_of_dvd (Nat.lcm_pos ann_pos ann_pos) (Nat.dvd_lcm_left _ _)) h64) h64
  rw [hp, Res.ok_bind, type_length, type_length, Mat.blank_tb]
  rw [fill_tb _ (Mat.ex m)]
  · rw [Res.ok_bind]
    show (do return (⟨List.ofFn t, List.ofFn u, ← cotypes _ (List.ofFn t), ← cotypes _ (List.ofFn u), _, _⟩ : Hom)) = _
    rw [cotypes_spec, Res.ok_bind, cotypes_spec, Res.ok_bind, Res.pure_eq, ← enc_tb]
    rfl
  · intro i j hi hj g
    rw [Vec.get_ok (by simpa using hi), Res.ok_bind, Vec.get_ok (by simpa using hj), Res.ok_bind, set_tb _ hi hj]
    have := Mat.ex_fin m ⟨i, hi⟩ ⟨j, hj⟩
    simp only at this
    simp [this]

/-- the sum that a homomorphism reduces -/
def rowSum (u : Fin r' → Nat) (m : Matrix (Fin r') (Fin r) Nat) (g : G t) (i : Fin r') : Nat :=
  ∑ j, m i j * ((ann t).lcm (ann u) / t j * (g j).val)

theorem homRow (hc : Chain t) (h32 : (ann t).lcm (ann u) ≤ 2 ^ 32) (m : Matrix (Fin r') (Fin r) Nat) (hm : ∀ i j, m i j < 2 ^ 32) (g : G t) (i : Fin r') :
    forUp ((hom t u m).step (arr g) i) (arr g).length 0 0 = .ok (rowSum u m g i % (ann t).lcm (ann u)) := by
  have hM : 0 < (ann t).lcm (ann u) := Nat.lcm_pos ann_pos ann_pos
  have hl : (arr g).length = r := by rw [arr_vk, length_vk]
  rw [hl, modSum (n := (ann t).lcm (ann u)) (by omega) hM (fun j => Mat.ex m i j * (ext 0 (fun j => (ann t).lcm (ann u) / t j) j * av g j)), rowSum, Finset.sum_range]
  · congr 2
    refine Finset.sum_congr rfl fun j _ => ?_
    rw [av_lt _ j.2, ext_fin, Mat.ex_fin]
  · intro j hj d hd
    have hco : (hom t u m).cosource = vk r (ext 0 fun j => (ann t).lcm (ann u) / t j) := ofFn_ext 0 _
    have hdt : t ⟨j, hj⟩ ∣ (ann t).lcm (ann u) := (hc.dvd_ann _).trans (Nat.dvd_lcm_left _ _)
    have h1 : (ann t).lcm (ann u) / t ⟨j, hj⟩ * av g j < (ann t).lcm (ann u) := by
      obtain ⟨c, hc'⟩ := hdt
      rw [hc', Nat.mul_div_cancel_left _ (tpos _), Nat.mul_comm c]
      have : 0 < c := Nat.pos_of_ne_zero fun h0 => by rw [h0] at hc'; omega
      have h2 := av_lt_ext g hj
      rw [ext_lt _ hj] at h2
      exact Nat.mul_lt_mul_of_pos_right h2 this
    have hx := Mat.ex_fin m i ⟨j, hj⟩
    simp only at hx
    rw [Hom.step, show (hom t u m).mat = enc m from rfl, enc_tb, get_tb _ i.2 hj, Res.ok_bind, hco, get_vk _ hj, Res.ok_bind, arr_vk, get_vk _ hj, Res.ok_bind,
      ext_lt _ hj, Nat.mod_eq_of_lt (by omega : (ann t).lcm (ann u) / t ⟨j, hj⟩ * av g j < 18446744073709551616)]
    obtain ⟨c, hc'⟩ := modProd_mod (a := Mat.ex m i j) (b := (ann t).lcm (ann u) / t ⟨j, hj⟩ * av g j) hM (by
      have := Nat.mul_lt_mul'' (hm i ⟨j, hj⟩) (lt_of_lt_of_le h1 h32)
      rw [hx]; omega)
    rw [show (hom t u m).ann = (ann t).lcm (ann u) from rfl, hc', Res.ok_bind, Res.pure_eq]

theorem codest_get (m : Matrix (Fin r') (Fin r) Nat) (i : Fin r') : Vec.get (hom t u m).codest i = .ok ((ann t).lcm (ann u) / u i) := by
  show Vec.get (List.ofFn fun i => (ann t).lcm (ann u) / u i) i = _
  rw [Vec.get_ok (by simp)]; simp

theorem homApply_spec (nd : Bool) (hc : Chain t) (hc' : Chain u) (h32 : (ann t).lcm (ann u) ≤ 2 ^ 32) (m : Matrix (Fin r') (Fin r) Nat) (hm : ∀ i j, m i j < 2 ^ 32)
    (g : G t) (y : G u) (hy : ∀ i, (((y i).val * ((ann t).lcm (ann u) / u i) : Nat) : ZMod ((ann t).lcm (ann u))) = (rowSum u m g i : Nat)) :
    (hom t u m).apply nd (arr g) = .ok (arr y) := by
  have hM : 0 < (ann t).lcm (ann u) := Nat.lcm_pos ann_pos ann_pos
  rw [Hom.apply, show (hom t u m).dest.length = r' from List.length_ofFn, arr_vk y]
  refine tab_ok _ fun i hi => ?_
  have h1 := homRow hc h32 m hm g ⟨i, hi⟩
  simp only at h1
  have h2 := codest_get (t := t) (u := u) m ⟨i, hi⟩
  simp only at h2
  rw [h1, Res.ok_bind, h2, Res.ok_bind]
  have hd : u ⟨i, hi⟩ ∣ (ann t).lcm (ann u) := (hc'.dvd_ann _).trans (Nat.dvd_lcm_right _ _)
  have hpos : 0 < (ann t).lcm (ann u) / u ⟨i, hi⟩ := Nat.div_pos (Nat.le_of_dvd hM hd) (tpos _)
  have h3 := (ZMod.natCast_eq_natCast_iff' _ _ _).1 (hy ⟨i, hi⟩)
  have h4 : (y ⟨i, hi⟩).val * ((ann t).lcm (ann u) / u ⟨i, hi⟩) < (ann t).lcm (ann u) := by
    have := Nat.mul_lt_mul_of_pos_right (ZMod.val_lt (y ⟨i, hi⟩)) hpos
    rwa [Nat.mul_div_cancel' hd] at this
  rw [Nat.mod_eq_of_lt h4] at h3
  rw [if_neg hpos.ne', ← h3, Res.assertIn_bind nd (decide_eq_true (Nat.mul_mod_left _ _)), Res.pure_eq, Nat.mul_div_cancel _ hpos, av_lt _ hi]

/-- a loop that fails an assertion at some stage, and has a result at the other ones -/
theorem tab_fail {α : Type} {f : Nat → Res α} {n : Nat} (h : ∀ i, i < n → f i = .assertFail ∨ ∃ r, f i = .ok r) (ht : ∃ i, i < n ∧ f i = .assertFail) :
    tab n f = .assertFail := by
  obtain ⟨t, htn, ht⟩ := ht
  have key : ∀ k a (l : List α), a + k = n → a ≤ t → forUp (fun i v => do let x ← f i; pure (v ++ [x])) k a l = .assertFail := by
    intro k
    induction k with
    | zero => intro a l h1 h2; omega
    | succ k ih =>
      intro a l h1 h2
      rw [forUp]
      rcases h a (by omega) with hf | ⟨r, hf⟩
      · simp only [hf]; rfl
      · simp only [hf, Res.ok_bind]
        refine ih (a + 1) _ (by omega) ?_
        rcases Nat.eq_or_lt_of_le h2 with e | e
        · subst e; rw [hf] at ht; exact absurd ht (by simp)
        · exact e
  exact key n 0 [] (by omega) (by omega)

/-- the assertion fails on other elements -/
theorem homApply_fail (hc : Chain t) (h32 : (ann t).lcm (ann u) ≤ 2 ^ 32) (hc' : Chain u) (m : Matrix (Fin r') (Fin r) Nat) (hm : ∀ i j, m i j < 2 ^ 32)
    (g : G t) (hg : ∃ i, ¬((ann t).lcm (ann u) / u i ∣ rowSum u m g i)) : (hom t u m).apply false (arr g) = .assertFail := by
  have hM : 0 < (ann t).lcm (ann u) := Nat.lcm_pos ann_pos ann_pos
  rw [Hom.apply, show (hom t u m).dest.length = r' from List.length_ofFn]
  have hrow : ∀ i (hi : i < r'), (do
      let d ← forUp ((hom t u m).step (arr g) i) (arr g).length 0 0
      let c ← Vec.get (hom t u m).codest i
      if c = 0 then (.undefined : Res Nat)
      else
        Res.assertIn false (decide (d % c = 0))
        return d / c) = if (ann t).lcm (ann u) / u ⟨i, hi⟩ ∣ rowSum u m g ⟨i, hi⟩ then
          .ok (rowSum u m g ⟨i, hi⟩ % (ann t).lcm (ann u) / ((ann t).lcm (ann u) / u ⟨i, hi⟩)) else .assertFail := by
    intro i hi
    have h1 := homRow hc h32 m hm g ⟨i, hi⟩
    have h2 := codest_get (t := t) (u := u) m ⟨i, hi⟩
    simp only at h1 h2
    have hd : u ⟨i, hi⟩ ∣ (ann t).lcm (ann u) := (hc'.dvd_ann _).trans (Nat.dvd_lcm_right _ _)
    have hpos : 0 < (ann t).lcm (ann u) / u ⟨i, hi⟩ := Nat.div_pos (Nat.le_of_dvd hM hd) (tpos _)
    have hdd : (ann t).lcm (ann u) / u ⟨i, hi⟩ ∣ (ann t).lcm (ann u) := Nat.div_dvd_of_dvd hd
    rw [h1, Res.ok_bind, h2, Res.ok_bind, if_neg hpos.ne', Nat.mod_mod_of_dvd _ hdd]
    by_cases c : (ann t).lcm (ann u) / u ⟨i, hi⟩ ∣ rowSum u m g ⟨i, hi⟩
    · rw [if_pos c, Res.assertIn_bind false (decide_eq_true (Nat.mod_eq_zero_of_dvd c)), Res.pure_eq]
    · rw [if_neg c, decide_eq_false (fun h => c (Nat.dvd_of_mod_eq_zero h))]; rfl
  apply tab_fail
  · intro i hi
    rw [hrow i hi]
    split
    · exact .inr ⟨_, rfl⟩
    · exact .inl rfl
  · obtain ⟨i, hi⟩ := hg
    exact ⟨i, i.2, by rw [hrow i i.2, if_neg hi]⟩

/-! ### `basis` -/

/-- generators of the inverse image: multiples of the standard basis, and elements -/
def gens (t : Fin r → Nat) (l : List Nat) (i j : Nat) : Int :=
  if j < r then (if i = j then (ext 1 t i : Int) else 0) else (av (ofNbr t (l[j - r]?.getD 0)) i : Int)

theorem toWeight_spec (h31 : ∀ i, t i < 2 ^ 31) (x : Nat) : toWeight (grp t) (List.replicate r 0) x = .ok (vk r fun i => (av (ofNbr t x) i : Int)) := by
  have key := forUp_ok (body := fun i (s : List Int × Nat) => do
      let ti ← Vec.get (vk r (ext 1 t)) i
      if ti = 0 then .undefined else return (← Vec.put s.1 i (Arith.toS 32 (s.2 % ti : Nat)), s.2 / ti)) (k := r) (a := 0) (s := (List.replicate r 0, x))
    (t := (vk r fun i => (av (ofNbr t x) i : Int), x / ∏ k ∈ range r, ext 1 t k))
    (fun i => (vk r fun k => if k < i then (av (ofNbr t x) k : Int) else 0, x / ∏ k ∈ range i, ext 1 t k)) ?_ ?_ ?_
  · rw [toWeight, type_length, type_vk, key]; rfl
  · rw [replicate_vk]; simp
  · rw [Nat.zero_add]
    congr 1
    exact vk_congr fun k hk => if_pos (by omega)
  · intro i _ hi
    have hi' : i < r := by omega
    simp only
    rw [get_vk _ hi', Res.ok_bind, if_neg (ext_pos i).ne', put_vk _ hi', Res.ok_bind, Res.pure_eq]
    congr 2
    · refine vk_congr fun k hk => ?_
      by_cases c : k = i
      · subst c
        have h1 : x / (∏ k ∈ range k, ext 1 t k) % ext 1 t k < ext 1 t k := Nat.mod_lt _ (ext_pos k)
        have h2 := h31 ⟨k, hi'⟩
        rw [← ext_lt (d := 1) t hi'] at h2
        have hS : Arith.toS 32 ((x / (∏ k ∈ range k, ext 1 t k) % ext 1 t k : Nat) : Int) = ((x / (∏ k ∈ range k, ext 1 t k) % ext 1 t k : Nat) : Int) := by
          generalize x / (∏ k ∈ range k, ext 1 t k) % ext 1 t k = y at h1
          exact Arith.toS_small (by norm_num) (by omega) (by norm_num; omega)
        rw [if_pos rfl, if_pos (by omega), hS, av_lt _ hi', val_ofNbr, ext_lt _ hi', prodFin t hi'.le]
      · rw [if_neg c]
        by_cases c' : k < i
        · rw [if_pos c', if_pos (by omega)]
        · rw [if_neg c', if_neg (by omega)]
    · rw [Nat.div_div_eq_div_mul, Finset.prod_range_succ]

theorem basisMatrix (nd : Bool) (h31 : ∀ i, t i < 2 ^ 31) (l : List Nat) : (do
    let M ← forUp (fun i (M : Mat Int) => do M.set i i (Arith.toS 32 (← Vec.get (grp t).type i : Nat))) r 0 (Mat.blank r (r + l.length))
    forUp (fun i (M : Mat Int) => do Mat.setColumn nd M (r + i) (← toWeight (grp t) (List.replicate r 0) (← Vec.get l i))) l.length 0 M) =
    .ok (tb r (r + l.length) (gens t l)) := by
  have h1 := forUp_ok (body := fun i (M : Mat Int) => do M.set i i (Arith.toS 32 (← Vec.get (grp t).type i : Nat))) (k := r) (a := 0)
    (s := Mat.blank r (r + l.length)) (t := tb r (r + l.length) fun i j => if i = j then (ext 1 t i : Int) else 0)
    (fun s => tb r (r + l.length) fun i j => if i < s ∧ i = j then (ext 1 t i : Int) else 0) ?_ ?_ ?_
  · rw [h1, Res.ok_bind]
    refine forUp_ok (fun s => tb r (r + l.length) fun i j => if j < r + s then gens t l i j else 0) ?_ ?_ ?_
    · refine tb_congr fun i j hi hj => ?_
      simp only [gens, Nat.add_zero]
      by_cases c : j < r
      · rw [if_pos c, if_pos c]
      · rw [if_neg c, if_neg (by omega)]
    · exact tb_congr fun i j hi hj => if_pos (by omega)
    · intro s _ hs
      have hs' : s < l.length := by omega
      rw [Vec.get_ok hs', Res.ok_bind, toWeight_spec h31, Res.ok_bind, Mat.setColumn_tb nd _ (by omega)]
      congr 1
      refine tb_congr fun i j hi hj => ?_
      by_cases c : j = r + s
      · subst c
        rw [if_pos rfl, if_pos (by omega), gens, if_neg (by omega)]
        simp [hs']
      · rw [if_neg c]
        by_cases c' : j < r + s
        · rw [if_pos c', if_pos (by omega)]
        · rw [if_neg c', if_neg (by omega)]
  · rw [Mat.blank_tb]; exact tb_congr fun i j _ _ => by simp
  · exact tb_congr fun i j hi _ => by simp [hi]
  · intro s _ hs
    have hs' : s < r := by omega
    have h2 := h31 ⟨s, hs'⟩
    rw [← ext_lt (d := 1) t hs'] at h2
    rw [type_vk, get_vk _ hs', Res.ok_bind, Arith.toS_small (by norm_num) (by omega) (by norm_num; omega), set_tb _ hs' (by omega)]
    congr 1
    refine tb_congr fun i j hi hj => ?_
    by_cases c : i = s ∧ j = s
    · obtain ⟨rfl, rfl⟩ := c
      rw [if_pos ⟨rfl, rfl⟩, if_pos ⟨by omega, rfl⟩]
    · rw [if_neg c]
      by_cases c' : i < s ∧ i = j
      · rw [if_pos c', if_pos ⟨by omega, c'.2⟩]
      · rw [if_neg c', if_neg (by omega)]

/-- reduction of vectors -/
def red (t : Fin r → Nat) : (Fin r → Int) →+ G t where
  toFun v := fun i => (v i : ZMod (t i))
  map_zero' := by funext i; simp
  map_add' v w := by funext i; simp

/-- the matrix of generators -/
def genMat (t : Fin r → Nat) (l : List Nat) : Matrix (Fin r) (Fin (r + l.length)) Int := Matrix.of fun i j => gens t l i j

theorem red_col_lt (l : List Nat) (j : Fin (r + l.length)) (h : j.val < r) : red t (fun i => genMat t l i j) = 0 := by
  funext i
  show ((gens t l i j : Int) : ZMod (t i)) = 0
  rw [gens, if_pos h]
  split
  · simp
  · simp

theorem red_col_ge (l : List Nat) (k : Fin l.length) : red t (fun i => genMat t l i (Fin.natAdd r k)) = ofNbr t l[k] := by
  funext i
  show ((gens t l i (r + k) : Int) : ZMod (t i)) = _
  rw [gens, if_neg (by omega), av_lt _ i.2]
  simp

theorem kernel_mem (l : List Nat) {v : Fin r → Int} (hv : red t v = 0) : ∃ x, genMat t l *ᵥ x = v := by
  have hd : ∀ i, (t i : Int) ∣ v i := fun i => (ZMod.intCast_zmod_eq_zero_iff_dvd _ _).1 (congrFun hv i)
  choose q hq using hd
  refine ⟨fun j => if h : j.val < r then q ⟨j, h⟩ else 0, ?_⟩
  funext i
  rw [Matrix.mulVec, dotProduct, Fin.sum_univ_add]
  rw [Finset.sum_eq_single i]
  · rw [hq i]
    simp [genMat, gens]
  · intro j _ hj
    have : ¬ (i.val = j.val) := fun h => hj (Fin.ext h.symm)
    simp [genMat, gens, this]
  · simp

theorem mem_inverse (l : List Nat) (S : Set (G t)) (hl : ∀ g : G t, nbr g ∈ l ↔ g ∈ S) (hlt : ∀ x ∈ l, x < ∏ i, t i) (v : Fin r → Int) :
    red t v ∈ AddSubgroup.closure S ↔ ∃ x, genMat t l *ᵥ x = v := by
  have hcol : ∀ x, red t (genMat t l *ᵥ x) = ∑ j, x j • red t (fun i => genMat t l i j) := by
    intro x
    have : genMat t l *ᵥ x = ∑ j, x j • fun i => genMat t l i j := by
      funext i
      simp [Matrix.mulVec, dotProduct, mul_comm]
    rw [this, map_sum]
    simp only [map_zsmul]
  constructor
  · intro h
    have : ∃ w, red t w = red t v ∧ ∃ x, genMat t l *ᵥ x = w := by
      refine AddSubgroup.closure_induction (p := fun g _ => ∃ w, red t w = g ∧ ∃ x, genMat t l *ᵥ x = w) ?_ ?_ ?_ ?_ h
      · intro g hg
        obtain ⟨k, hk, e⟩ := List.mem_iff_getElem.1 ((hl g).2 hg)
        refine ⟨fun i => genMat t l i (Fin.natAdd r ⟨k, hk⟩), ?_, Pi.single (Fin.natAdd r ⟨k, hk⟩) 1, ?_⟩
        · rw [red_col_ge]
          show ofNbr t l[k] = g
          rw [e, ofNbr_nbr]
        · rw [Matrix.mulVec_single_one]; rfl
      · exact ⟨0, map_zero _, 0, by simp⟩
      · rintro g h _ _ ⟨w, rfl, x, rfl⟩ ⟨w', rfl, x', rfl⟩
        exact ⟨_, map_add _ _ _, x + x', by rw [Matrix.mulVec_add]⟩
      · rintro g _ ⟨w, rfl, x, rfl⟩
        exact ⟨_, map_neg _ _, -x, by rw [Matrix.mulVec_neg]⟩
    obtain ⟨w, hw, x, hx⟩ := this
    obtain ⟨y, hy⟩ := kernel_mem (t := t) l (v := v - w) (by rw [map_sub, hw, sub_self])
    exact ⟨x + y, by rw [Matrix.mulVec_add, hx, hy]; simp⟩
  · rintro ⟨x, rfl⟩
    rw [hcol]
    refine sum_mem fun j _ => AddSubgroup.zsmul_mem _ ?_ _
    by_cases c : j.val < r
    · rw [red_col_lt l j c]; exact zero_mem _
    · obtain ⟨k, hk⟩ : ∃ k : Fin l.length, j = Fin.natAdd r k := ⟨⟨j - r, by omega⟩, Fin.ext (by simp; omega)⟩
      rw [hk, red_col_ge]
      refine AddSubgroup.subset_closure ((hl _).1 ?_)
      have hmem : l[k] ∈ l := List.getElem_mem _
      rw [nbr_ofNbr (hlt _ hmem)]
      exact hmem

theorem basis_spec (nd : Bool) (hc : Chain t) (h31 : ∀ i, t i < 2 ^ 31) {b : BitMap} {S : Set (G t)} (hb : Reps b S) :
    ∃ (B : Matrix (Fin r) (Fin r) Int) (D : List Int) (hD : D.length = r), basis nd b (grp t) = .ok (Mat.cols (Matrix.of fun i j => B i j * D[j.val]'(by omega))) ∧
      (B.det = 1 ∨ B.det = -1) ∧ (∀ d ∈ D, 0 < d) ∧ (∀ s (h : s + 1 < D.length), D[s] ∣ D[s + 1]) ∧
      Mat.IsBasis (Matrix.of fun i j => B i j * D[j.val]'(by omega)) fun v => red t v ∈ AddSubgroup.closure S := by
  obtain ⟨F, f1, f2⟩ := hb
  obtain ⟨l, e, -, hl⟩ := Verif.BitMap.C19_elements f1
  have hmem : ∀ v, red t v ∈ AddSubgroup.closure S ↔ ∃ x, genMat t l *ᵥ x = v :=
    mem_inverse l S (fun g => (hl _).trans (f2 g)) fun x hx => f1.sub x ((hl x).1 hx)
  have hann : (ann t : Int) ≠ 0 := by have := ann_pos (t := t); omega
  have hmul : ∀ v, ∃ x, genMat t l *ᵥ x = (ann t : Int) • v := by
    intro v
    refine kernel_mem l ?_
    funext i
    show (((ann t : Int) * v i : Int) : ZMod (t i)) = 0
    rw [ZMod.intCast_zmod_eq_zero_iff_dvd]
    exact Dvd.dvd.mul_right (Int.natCast_dvd_natCast.2 (hc.dvd_ann i)) _
  have hA : Mat.KillsTorsion (genMat t l) (ann t) := fun v c _ _ => hmul v
  have h64 : ann t < 2 ^ 64 := by
    unfold ann
    split
    · have := h31 ⟨r - 1, by omega⟩; omega
    · norm_num
  obtain ⟨B, D, U, h1, hm, hn, h2, hU, hB, hpos, hdvd⟩ := Mat.smithBasis_spec nd (genMat t l) (L := ann t) ann_pos h64 hA
  have hspan := Mat.adapted_span hm hn hU h2
  -- sums of columns as products
  have hsum : ∀ y : Fin D.length → Int, (∑ i, (y i * D[i]) • fun k => B k (i.castLE hm)) = B *ᵥ fun k => if h : k.val < D.length then y ⟨k, h⟩ * D[k.val] else 0 := by
    intro y
    funext k
    rw [Matrix.mulVec, dotProduct, Finset.sum_apply]
    symm
    refine (Finset.sum_of_injOn (Fin.castLE hm) (fun a _ b _ h => Fin.castLE_injective hm h) (fun _ _ => Finset.mem_coe.2 (mem_univ _)) ?_ ?_).symm
    · intro i _ hi
      have : ¬ i.val < D.length := fun h => hi ⟨⟨i, h⟩, by simp, Fin.ext rfl⟩
      rw [dif_neg this, mul_zero]
    · intro i _
      rw [dif_pos (show (Fin.castLE hm i).val < D.length from i.2)]
      simp [mul_comm]
  have hinj : Function.Injective (B *ᵥ ·) := Matrix.mulVec_injective_of_isUnit ((Matrix.isUnit_iff_isUnit_det B).2 hB)
  have hD : D.length = r := by
    by_contra hne
    have hlt : D.length < r := by omega
    obtain ⟨y, hy⟩ := (hspan _).1 (hmul (B *ᵥ Pi.single ⟨D.length, hlt⟩ 1))
    rw [hsum, ← Matrix.mulVec_smul] at hy
    have := congrFun (hinj hy) ⟨D.length, hlt⟩
    simp at this
    exact hann (by exact_mod_cast this)
  refine ⟨B, D, hD, ?_, Int.isUnit_iff.1 hB, hpos, hdvd, ?_, ?_⟩
  · have hM := basisMatrix (t := t) nd h31 l
    rw [basis, generators, e, Res.ok_bind, type_length]
    simp only
    have hM' : ∀ {β : Type} (k : Mat Int → Res β), (do
        let M ← forUp (fun i (M : Mat Int) => do M.set i i (Arith.toS 32 (← Vec.get (grp t).type i : Nat))) r 0 (Mat.blank r (r + l.length))
        let M ← forUp (fun i (M : Mat Int) => do Mat.setColumn nd M (r + i) (← toWeight (grp t) (List.replicate r 0) (← Vec.get l i))) l.length 0 M
        k M) = k (tb r (r + l.length) (gens t l)) := by
      intro β k
      rw [← Ab.bind_assoc, hM, Res.ok_bind]
    rw [hM', Mat.tb_enc]
    show (do
      let s ← Mat.smithBasis nd (enc (genMat t l))
      tab s.2.length fun j => do
        let c ← Mat.column nd s.1 j
        let d ← Vec.get s.2 j
        return c.map (· * d)) = _
    rw [h1, Res.ok_bind]
    have hk : ∀ j : Fin r, (do
        let c ← Mat.column nd (enc B) j
        let d ← Vec.get D j
        return c.map (· * d)) = .ok (List.ofFn fun i => B i j * D[j.val]'(by omega)) := by
      intro j
      rw [enc_tb, Mat.column_tb nd _ j.2, Res.ok_bind, Vec.get_ok (by omega : j.val < D.length), Res.ok_bind, Res.pure_eq, vk_ofFn]
      congr 1
      rw [List.map_ofFn]
      congr 1
      funext i
      simp [Mat.ex_fin]
    refine (congrArg (fun n => tab n fun j => do
        let c ← Mat.column nd (enc B) j
        let d ← Vec.get D j
        return c.map (· * d)) hD).trans ?_
    exact Mat.tab_cols _ hk
  · intro v
    rw [hmem, hspan]
    have hK : ∀ c : Fin r → Int, (Matrix.of fun i j => B i j * D[j.val]'(by omega) : Matrix (Fin r) (Fin r) Int) *ᵥ c = B *ᵥ fun k => c k * D[k.val]'(by omega) := by
      intro c
      funext i
      simp only [Matrix.mulVec, dotProduct, Matrix.of_apply]
      exact Finset.sum_congr rfl fun j _ => by ring
    constructor
    · rintro ⟨y, rfl⟩
      refine ⟨fun k => y ⟨k, by omega⟩, ?_⟩
      rw [hK, hsum]
      congr 1
      funext k
      rw [dif_pos (by omega)]
    · rintro ⟨c, rfl⟩
      refine ⟨fun k => c ⟨k, by omega⟩, ?_⟩
      rw [hK, hsum]
      congr 1
      funext k
      rw [dif_pos (by omega)]
  · intro c c' h
    have hK : ∀ c : Fin r → Int, (Matrix.of fun i j => B i j * D[j.val]'(by omega) : Matrix (Fin r) (Fin r) Int) *ᵥ c = B *ᵥ fun k => c k * D[k.val]'(by omega) := by
      intro c
      funext i
      simp only [Matrix.mulVec, dotProduct, Matrix.of_apply]
      exact Finset.sum_congr rfl fun j _ => by ring
    have h := (hK c).symm.trans (Eq.trans h (hK c'))
    funext k
    have := congrFun (hinj h) k
    have hp := hpos _ (List.getElem_mem (by omega : k.val < D.length))
    exact Int.eq_of_mul_eq_mul_right hp.ne' this

end Verif.Ab
