import Verif.Ab.Maps2
/-
C38: finite abelian groups.

The specification is `Verif/Ab/Spec.lean`: the group is the product `G t` of the cyclic groups `ZMod (t i)`, an array lists the components of an
element, a number has these components as digits in the mixed radix system of `t`, and a bitmap holds the numbers of the elements of a set.
-/
namespace Verif.Ab

open Finset
open Verif.Mat (Mat enc cols IsBasis)
open Verif.BitMap (BitMap Rep)

variable {r r' : Nat} {t : Fin r → Nat} [hz : ∀ i, NeZero (t i)] {u : Fin r' → Nat} [hu : ∀ i, NeZero (u i)]

/-- the group used in the examples: of order 96 -/
def t0 : Fin 3 → Nat := ![2, 4, 12]

instance : ∀ i, NeZero (t0 i) := fun i => ⟨by revert i; decide⟩

theorem t0_prod : ∏ i, t0 i = 96 := by decide
theorem t0_chain : Chain t0 := by
  intro i h
  have : i = 0 ∨ i = 1 := by omega
  rcases this with rfl | rfl
  · show t0 0 ∣ t0 1; decide
  · show t0 1 ∣ t0 2; decide
theorem t0_ann : ann t0 = 12 := by decide

/-- an element of that group -/
def g0 : G t0 := fun i => ((2 * i.val + 1 : Nat) : ZMod (t0 i))

/-! ### construction and conversions -/

/-- C38: the constructor computes the order of the group and the cotypes, and its assertion holds for a chain of divisors. -/
theorem C38_make (nd : Bool) (hs : ∏ i, t i < 2 ^ 64) (hc : Chain t) :
    make nd (List.ofFn t) = .ok ⟨∏ i, t i, List.ofFn t, List.ofFn fun i => ann t / t i⟩ := make_spec nd hs hc

example : ∏ i, t0 i < 2 ^ 64 ∧ Chain t0 ∧ make false [2, 4, 12] = .ok ⟨96, [2, 4, 12], [6, 3, 1]⟩ :=
  ⟨by rw [t0_prod]; norm_num, t0_chain, by decide +kernel⟩

/-- C38: the numbering is a bijection from the group to the numbers below its order. -/
theorem C38_numbering : Set.BijOn (nbr (t := t)) Set.univ (Set.Iio (∏ i, t i)) :=
  ⟨fun g _ => nbr_lt g, fun _ _ _ _ h => nbr_inj h, fun x hx => ⟨ofNbr t x, trivial, nbr_ofNbr hx⟩⟩

/-- C38: conversion of a number to an array. -/
theorem C38_toArray (g : G t) : toArray (grp t) (nbr g) = .ok (arr g) := toArray_nbr g

/-- C38: conversion of an array to a number. -/
theorem C38_toNbr (hs : ∏ i, t i ≤ 2 ^ 64) (g : G t) : toNbr (arr g) (grp t).type = .ok (nbr g) := toNbr_arr hs g

/-- C38: conversion of an integral vector reduces its entries. -/
theorem C38_ofWeight (nd : Bool) (h63 : ∀ i, t i < 2 ^ 63) (v : Fin r → Int) (hv : ∀ i, Arith.fits 64 (v i)) :
    ofWeight nd (grp t) (List.ofFn v) = .ok (arr (fun i => (v i : ZMod (t i)) : G t)) := ofWeight_spec nd h63 v hv

/-- C38: conversion of a number to an integral vector gives its components. -/
theorem C38_toWeight (h31 : ∀ i, t i < 2 ^ 31) (g : G t) :
    toWeight (grp t) (List.replicate r 0) (nbr g) = .ok (List.ofFn fun i => ((g i).val : Int)) := by
  rw [toWeight_spec h31, ofNbr_nbr, Mat.vk_ofFn]
  congr 2
  funext i
  rw [av_lt g i.2]

example : (∀ i, t0 i < 2 ^ 31) ∧ (∀ i, t0 i < 2 ^ 63) ∧ nbr g0 = 47 ∧ toArray ⟨96, [2, 4, 12], [6, 3, 1]⟩ 47 = .ok [1, 3, 5] ∧
    toNbr [1, 3, 5] [2, 4, 12] = .ok 47 ∧ ofWeight false ⟨96, [2, 4, 12], [6, 3, 1]⟩ [-1, 7, -7] = .ok [1, 3, 5] := by decide +kernel

/-! ### arithmetic -/

/-- C38: addition of arrays. -/
theorem C38_addArray (hs : ∏ i, t i < 2 ^ 64) (g h : G t) : addArr (grp t) (arr g) (arr h) = .ok (arr (g + h)) := addArr_arr hs g h

/-- C38: subtraction of arrays. -/
theorem C38_subtract (hs : ∏ i, t i < 2 ^ 64) (g h : G t) : subArr (grp t) (arr g) (arr h) = .ok (arr (g - h)) := subArr_arr hs g h

/-- C38: the mixed forms of addition. -/
theorem C38_addMixed (hs : ∏ i, t i < 2 ^ 64) (g h : G t) :
    addArrNbr (grp t) (arr g) (nbr h) = .ok (arr (g + h)) ∧ addNbrArr (grp t) (nbr g) (arr h) = .ok (nbr (g + h)) :=
  ⟨addArrNbr_spec hs g h, addNbrArr_spec hs g h⟩

/-- C38: addition of numbers. -/
theorem C38_add (hs : ∏ i, t i < 2 ^ 64) (g h : G t) : add (grp t) (nbr g) (nbr h) = .ok (nbr (g + h)) := add_spec hs g h

/-- C38: multiples. -/
theorem C38_prod (hs : ∏ i, t i < 2 ^ 64) (g : G t) (n : Nat) (hn : ∀ i, n * t i ≤ 2 ^ 64) : prod (grp t) (nbr g) n = .ok (nbr (n • g)) :=
  prod_spec hs g n hn

/-- C38: the order of an element. -/
theorem C38_order (hs : ∏ i, t i < 2 ^ 64) (g : G t) : order (grp t) (nbr g) = .ok (addOrderOf g) := order_spec hs g

omit hz in
/-- C38: the annihilator is the exponent of the group. -/
theorem C38_annihilator (hc : Chain t) : annihilator (grp t) = .ok (AddMonoid.exponent (G t)) := by
  rw [annihilator_spec, ann_exponent hc]

example : add ⟨96, [2, 4, 12], [6, 3, 1]⟩ 47 47 = .ok 84 ∧ subArr ⟨96, [2, 4, 12], [6, 3, 1]⟩ [0, 1, 3] [1, 3, 5] = .ok [1, 2, 10] ∧
    prod ⟨96, [2, 4, 12], [6, 3, 1]⟩ 47 7 = .ok 91 ∧ order ⟨96, [2, 4, 12], [6, 3, 1]⟩ 47 = .ok 12 := by decide +kernel

/-- C38: the pairing of two elements, with values modulo the annihilator. -/
theorem C38_pairing (hc : Chain t) (h32 : ann t ≤ 2 ^ 32) (g h : G t) :
    pairing (grp t) (arr g) (arr h) = .ok ((∑ i, (g i).val * (h i).val * (ann t / t i)) % ann t) := pairing_spec hc h32 g h

/-- C38: the pairing as a multiple of `1/e`, when it is one. -/
theorem C38_pairingTorsion (nd : Bool) (hc : Chain t) (h32 : ann t ≤ 2 ^ 32) (g h : G t) {e : Nat} (he : e ≤ 2 ^ 32) (hd : ann t ∣ pair g h * e) :
    pairingTorsion nd (grp t) (arr g) (arr h) e = .ok (pair g h * e / ann t) := pairingTorsion_spec nd hc h32 g h he hd

example : ann t0 ≤ 2 ^ 32 ∧ pair g0 (2 • g0) = 8 ∧ ann t0 ∣ pair g0 (2 • g0) * 6 ∧ pairing ⟨96, [2, 4, 12], [6, 3, 1]⟩ [1, 3, 5] [0, 2, 10] = .ok 8 ∧
    pairingTorsion false ⟨96, [2, 4, 12], [6, 3, 1]⟩ [1, 3, 5] [0, 2, 10] 6 = .ok 4 := by decide +kernel

/-! ### sets -/

/-- C38: the coset of a set by an element; the bitmap that receives it need only have the right capacity. -/
theorem C38_coset (nd : Bool) {b c : BitMap} {S T : Set (G t)} (hb : Reps b S) (hc : Reps c T) (x : G t) :
    ∃ c', coset nd c b (nbr x) (grp t) = .ok c' ∧ Reps c' {g | ∃ h ∈ S, g = h + x} := coset_spec nd hb hc x

/-- C38: the order of an element modulo a subgroup is its order in the quotient. -/
theorem C38_orderModulo {b : BitMap} (H : AddSubgroup (G t)) (hb : Reps b (H : Set (G t))) (x : G t) :
    orderMod (grp t) b (nbr x) = .ok (addOrderOf (x : G t ⧸ H)) := by
  have hmem : ∀ n : Nat, n • x ∈ (H : Set (G t)) ↔ n • (x : G t ⧸ H) = 0 := fun n => by
    rw [SetLike.mem_coe, ← QuotientAddGroup.mk_nsmul, QuotientAddGroup.eq_zero_iff]
  have hpos : 0 < addOrderOf (x : G t ⧸ H) := addOrderOf_pos _
  refine orderMod_spec hb x hpos ?_ ((hmem _).2 (addOrderOf_nsmul_eq_zero _)) fun m h0 hm h => ?_
  · refine Nat.le_of_dvd prod_pos (addOrderOf_dvd_iff_nsmul_eq_zero.2 ((hmem _).1 ?_))
    have : (∏ i, t i) • x = 0 := by
      funext i
      obtain ⟨c, hc⟩ := Finset.dvd_prod_of_mem t (mem_univ i)
      rw [Pi.smul_apply, hc, mul_comm, mul_smul]
      simp
    rw [this]; exact H.zero_mem
  · have := Nat.le_of_dvd h0 (addOrderOf_dvd_iff_nsmul_eq_zero.2 ((hmem m).1 h))
    omega

/-- C38: `generateSubgroup` gives the subgroup generated by a subgroup and an element. -/
theorem C38_generateSubgroup (nd : Bool) (hc : Chain t) (h32 : ann t ≤ 2 ^ 32) {b : BitMap} (H : AddSubgroup (G t)) (hb : Reps b (H : Set (G t))) (x : G t) :
    ∃ c, generateSubgroup nd b (nbr x) (grp t) = .ok c ∧ Reps c ((H ⊔ AddSubgroup.zmultiples x : AddSubgroup (G t)) : Set (G t)) := by
  obtain ⟨c, h1, h2⟩ := generate_spec nd hc h32 hb x
  refine ⟨c, h1, ?_⟩
  convert h2 using 1
  ext g
  rw [SetLike.mem_coe, AddSubgroup.mem_sup]
  simp only [Set.mem_ofPred_eq]
  constructor
  · rintro ⟨y, hy, z, hz, rfl⟩
    obtain ⟨k, rfl⟩ := AddSubgroup.mem_zmultiples_iff.1 hz
    refine ⟨y, hy, (k % (addOrderOf x : Int)).toNat, ?_⟩
    have hpos : 0 < addOrderOf x := addOrderOf_pos x
    rw [← natCast_zsmul, Int.toNat_of_nonneg (Int.emod_nonneg _ (by omega)), mod_addOrderOf_zsmul]
  · rintro ⟨y, hy, k, rfl⟩
    exact ⟨y, hy, k • x, AddSubgroup.nsmul_mem_zmultiples x k, rfl⟩

/-- C38: `quotReps` gives a set with exactly one element in each coset, the one with smallest number. -/
theorem C38_quotReps (nd : Bool) {b : BitMap} (H : AddSubgroup (G t)) (hb : Reps b (H : Set (G t))) :
    ∃ (q : BitMap) (S : Set (G t)), quotReps nd b (grp t) = .ok q ∧ Reps q S ∧ (∀ g, ∃! s, s ∈ S ∧ (s : G t ⧸ H) = g) ∧
      ∀ s ∈ S, ∀ g : G t, (g : G t ⧸ H) = s → nbr s ≤ nbr g := by
  obtain ⟨q, h1, h2⟩ := quotReps_spec nd H hb
  have hR : Equivalence fun x y : G t => y - x ∈ H := by
    refine ⟨fun x => by simp, fun {x y} h => ?_, fun {x y z} h h' => ?_⟩
    · have := H.neg_mem h
      rwa [neg_sub] at this
    · have := H.add_mem h' h
      rwa [sub_add_sub_cancel] at this
  have hq : ∀ x y : G t, (x : G t ⧸ H) = y ↔ y - x ∈ H := fun x y => by
    rw [QuotientAddGroup.eq, neg_add_eq_sub]
  refine ⟨q, _, h1, h2, fun g => ?_, fun s hs g hg => hs g ((hq g s).1 hg)⟩
  obtain ⟨g, rfl⟩ := QuotientAddGroup.mk_surjective g
  simpa only [hq] using smallest_unique hR g

/-- C38: `cycGenerators` gives a set with exactly one generator of each cyclic subgroup, the one with smallest number, whatever group the previous
call was for, except when that group has the same type. -/
theorem C38_cycGenerators (nd : Bool) (hc : Chain t) (h32 : ann t ≤ 2 ^ 32) {l : List Nat} {b : BitMap} {c : Nat} {F : Finset Nat}
    (hb : Rep b c F) (hroom : ∏ i, t i + 64 ≤ 2 ^ 64) (hl : l ≠ List.ofFn t) :
    ∃ (q : BitMap) (S : Set (G t)), cycGenerators nd (l, b) (grp t) = .ok (List.ofFn t, q) ∧ Reps q S ∧
      (∀ C : AddSubgroup (G t), IsAddCyclic C → ∃! s, s ∈ S ∧ AddSubgroup.zmultiples s = C) ∧
      ∀ s ∈ S, ∀ g : G t, AddSubgroup.zmultiples g = AddSubgroup.zmultiples s → nbr s ≤ nbr g := by
  obtain ⟨q, h1, h2⟩ := cycGenerators_spec nd hc h32 hb hroom hl
  have hR : Equivalence fun x y : G t => AddSubgroup.zmultiples x = AddSubgroup.zmultiples y :=
    ⟨fun _ => rfl, fun h => h.symm, fun h h' => h.trans h'⟩
  refine ⟨q, _, h1, h2, fun C hC => ?_, fun s hs g hg => hs g hg⟩
  obtain ⟨g, rfl⟩ := AddSubgroup.isAddCyclic_iff_exists_zmultiples_eq_top C |>.1 hC
  exact smallest_unique hR g

omit hz in
/-- C38: a second call for a group of the same type gives the stored set. -/
theorem C38_cycGenerators_again (nd : Bool) (b : BitMap) : cycGenerators nd (List.ofFn t, b) (grp t) = .ok (List.ofFn t, b) := if_neg (fun h => h rfl)

/-- C38 fails for the group with no factors, if it is the first one: the static group has the same type, and the bitmap is still empty. -/
theorem C38_cycGenerators_false (nd : Bool) :
    make nd [] = .ok ⟨1, [], []⟩ ∧ cycGenerators nd cycInit ⟨1, [], []⟩ = .ok ([], ⟨0, []⟩) := ⟨rfl, rfl⟩

example : Rep (⟨0, []⟩ : BitMap) 0 ∅ ∧ ∏ i, t0 i + 64 ≤ 2 ^ 64 ∧ ([] : List Nat) ≠ List.ofFn t0 :=
  ⟨Verif.BitMap.C19_make (by norm_num), by rw [t0_prod]; norm_num, by decide⟩

example : (cycGenerators false cycInit ⟨8, [2, 4], [2, 1]⟩) = .ok ([2, 4], ⟨8, [0b01111111 - 0b01000000]⟩) := by decide +kernel

/-- the hypotheses on sets are met: the zero subgroup, and the subgroup generated by an element -/
example : ∃ b, Reps b ((⊥ : AddSubgroup (G t0)) : Set (G t0)) ∧
    ∃ c, generateSubgroup false b (nbr g0) (grp t0) = .ok c ∧ Reps c ((⊥ ⊔ AddSubgroup.zmultiples g0 : AddSubgroup (G t0)) : Set (G t0)) := by
  have hroom : ∏ i, t0 i + 64 ≤ 2 ^ 64 := by rw [t0_prod]; norm_num
  obtain ⟨b, -, hb⟩ := Verif.BitMap.C19_insert false (Verif.BitMap.C19_make hroom) (n := 0) (by rw [t0_prod]; norm_num)
  have : Reps b ((⊥ : AddSubgroup (G t0)) : Set (G t0)) := by
    refine ⟨_, hb, fun g => ?_⟩
    have h0 : nbr (0 : G t0) = 0 := by decide
    constructor
    · intro h
      have : nbr g = 0 := by simpa using h
      exact nbr_inj (this.trans h0.symm)
    · intro h
      have : g = 0 := h
      subst this
      simpa using h0
  exact ⟨b, this, C38_generateSubgroup false t0_chain (by rw [t0_ann]; norm_num) ⊥ this g0⟩

/-- C38: elementary abelian 2-groups are recognised by their type. -/
theorem C38_isElementaryAbelian (l : List Nat) : isElementaryAbelian l = true ↔ ∀ c ∈ l, c = 2 := by
  induction l with
  | nil => simp [isElementaryAbelian]
  | cons c l ih =>
    rw [isElementaryAbelian]
    by_cases h : c = 2
    · simp [h, ih]
    · simp [h]

/-! ### endomorphisms, homomorphisms, bases -/

/-- C38: action of a matrix; the entries must be small enough for the products to fit. -/
theorem C38_leftApply (q : Matrix (Fin r) (Fin r) Nat) (hs : ∏ i, t i < 2 ^ 64) (hq : ∀ i j, q i j * t j ≤ 2 ^ 64) (g : G t) :
    leftArr (grp t) (arr g) (enc q) = .ok (arr (act q g)) ∧ leftNbr (grp t) (nbr g) (enc q) = .ok (nbr (act q g)) :=
  ⟨leftArr_spec q hs hq g, leftNbr_spec q hs hq g⟩

/-- C38: that action is an endomorphism if the matrix respects the orders. -/
theorem C38_leftApply_add (q : Matrix (Fin r) (Fin r) Nat) (hq : ∀ i j, t i ∣ q i j * t j) (g h : G t) : act q (g + h) = act q g + act q h := act_add q hq g h

/-- C38: an integral matrix becomes the matrix of its residues. -/
theorem C38_toEndomorphism (nd : Bool) (h63 : ∀ i, t i < 2 ^ 63) (q : Matrix (Fin r) (Fin r) Int) (hq : ∀ i j, Arith.fits 64 (q i j)) :
    toEndomorphism nd (enc q) (grp t) = .ok (enc (Matrix.of fun i j => (q i j % t i).toNat)) := toEndomorphism_spec nd h63 q hq

/-- C38: the transposed endomorphism is the adjoint one for the pairing. -/
theorem C38_transpose (hc : Chain t) (e : Matrix (Fin r) (Fin r) Nat) (he : ∀ i j, t i ∣ e i j * t j) (h64 : ∀ i j, e i j * t j < 2 ^ 64) :
    ∃ e' : Matrix (Fin r) (Fin r) Nat, transpose (enc e) (grp t) = .ok (enc e') ∧ ∀ g h : G t, pair (act e g) h = pair g (act e' h) :=
  ⟨_, transpose_spec e h64, transp_adjoint hc e he⟩

/-- an endomorphism of the group of the examples -/
def q0 : Matrix (Fin 3) (Fin 3) Nat := !![1, 1, 1; 2, 3, 1; 6, 3, 5]

example : (∀ i j, t0 i ∣ q0 i j * t0 j) ∧ (∀ i j, q0 i j * t0 j < 2 ^ 64) ∧
    leftArr ⟨96, [2, 4, 12], [6, 3, 1]⟩ [1, 3, 5] ⟨3, 3, [1, 1, 1, 2, 3, 1, 6, 3, 5]⟩ = .ok [1, 0, 4] ∧
    transpose ⟨3, 3, [1, 1, 1, 2, 3, 1, 6, 3, 5]⟩ ⟨96, [2, 4, 12], [6, 3, 1]⟩ = .ok ⟨3, 3, [1, 1, 1, 2, 3, 1, 6, 3, 5]⟩ := by decide +kernel

/-- C38: the constructor of homomorphisms stores the matrix and the strides in the cyclic group of order the common annihilator. -/
theorem C38_hom_make (h64 : (ann t).lcm (ann u) < 2 ^ 64) (m : Matrix (Fin r') (Fin r) Nat) :
    Hom.make (List.ofFn fun i => List.ofFn (m i)) (grp t) (grp u) =
      .ok ⟨List.ofFn t, List.ofFn u, List.ofFn fun j => (ann t).lcm (ann u) / t j, List.ofFn fun i => (ann t).lcm (ann u) / u i, (ann t).lcm (ann u), enc m⟩ :=
  homMake_spec h64 m

/-- C38: the image of an element `g`, for embeddings of all factors of source and destination in one cyclic group, of order the common annihilator `M`:
component `i` of the image is the element of factor `i` that is embedded as `∑ j, m i j * (embedding of component j of g)`. -/
theorem C38_hom_apply (nd : Bool) (hc : Chain t) (hc' : Chain u) (h32 : (ann t).lcm (ann u) ≤ 2 ^ 32) (m : Matrix (Fin r') (Fin r) Nat) (hm : ∀ i j, m i j < 2 ^ 32)
    (g : G t) (y : G u) (hy : ∀ i, (((y i).val * ((ann t).lcm (ann u) / u i) : Nat) : ZMod ((ann t).lcm (ann u))) =
      ((∑ j, m i j * ((ann t).lcm (ann u) / t j * (g j).val) : Nat) : ZMod ((ann t).lcm (ann u)))) :
    (hom t u m).apply nd (arr g) = .ok (arr y) := homApply_spec nd hc hc' h32 m hm g y hy

/-- C38: if there is no such element, the assertion fails. -/
theorem C38_hom_apply_fail (hc : Chain t) (h32 : (ann t).lcm (ann u) ≤ 2 ^ 32) (hc' : Chain u) (m : Matrix (Fin r') (Fin r) Nat) (hm : ∀ i j, m i j < 2 ^ 32)
    (g : G t) (hg : ∃ i, ¬((ann t).lcm (ann u) / u i ∣ ∑ j, m i j * ((ann t).lcm (ann u) / t j * (g j).val))) :
    (hom t u m).apply false (arr g) = .assertFail := homApply_fail hc h32 hc' m hm g hg

example : (∀ j : Fin 3, !![1, 1, (0 : Nat)] 0 j < 2 ^ 32) ∧
    (do
      let h ← Hom.make [[1, 1, 0]] ⟨96, [2, 4, 12], [6, 3, 1]⟩ ⟨4, [4], [1]⟩
      h.apply false [1, 3, 5]) = .ok [1] ∧
    (do
      let h ← Hom.make [[1, 1, 1]] ⟨96, [2, 4, 12], [6, 3, 1]⟩ ⟨4, [4], [1]⟩
      h.apply false [1, 3, 5]) = .assertFail := by decide +kernel

/-- C38 fails for the number form of the application of a homomorphism: the result does not depend on the element.  Here the identity of the cyclic group
of order 4. -/
theorem C38_hom_applyNbr_false (nd : Bool) : ∃ h, Hom.make [[1]] ⟨4, [4], [1]⟩ ⟨4, [4], [1]⟩ = .ok h ∧ h.apply nd [3] = .ok [3] ∧ h.applyNbr nd 3 = .ok 0 := by
  refine ⟨⟨[4], [4], [1], [1], 4, ⟨1, 1, [1]⟩⟩, ?_, ?_, ?_⟩ <;> cases nd <;> decide +kernel

/-- C38 fails for the meaning of matrix entries that the comments state, "entry (i,j) expresses component i of the image of generator j": for the embedding
of the group of order 2 in the one of order 4, given by the entry 2 (a multiple of 4/gcd(2,4), as required), the image of the generator is 0; and for
the entry 1, which is said not to define a homomorphism, it is 2. -/
theorem C38_hom_entries_false (nd : Bool) :
    (∃ h, Hom.make [[2]] ⟨2, [2], [1]⟩ ⟨4, [4], [1]⟩ = .ok h ∧ h.apply nd [1] = .ok [0]) ∧
    (∃ h, Hom.make [[1]] ⟨2, [2], [1]⟩ ⟨4, [4], [1]⟩ = .ok h ∧ h.apply nd [1] = .ok [2]) := by
  refine ⟨⟨⟨[2], [4], [2], [1], 4, ⟨1, 1, [2]⟩⟩, ?_, ?_⟩, ⟨⟨[2], [4], [2], [1], 4, ⟨1, 1, [1]⟩⟩, ?_, ?_⟩⟩ <;> cases nd <;> decide +kernel

/-- C38: `basis` gives a basis of the lattice of the integral vectors that represent elements of the subgroup generated by the given set; this basis is
adapted: it consists of multiples, by a chain of positive divisors, of a basis of the lattice of all vectors. -/
theorem C38_basis (nd : Bool) (hc : Chain t) (h31 : ∀ i, t i < 2 ^ 31) {b : BitMap} {S : Set (G t)} (hb : Reps b S) :
    ∃ (B : Matrix (Fin r) (Fin r) Int) (D : List Int) (hD : D.length = r), basis nd b (grp t) = .ok (cols (Matrix.of fun i j => B i j * D[j.val]'(by omega))) ∧
      (B.det = 1 ∨ B.det = -1) ∧ (∀ d ∈ D, 0 < d) ∧ (∀ s (h : s + 1 < D.length), D[s] ∣ D[s + 1]) ∧
      IsBasis (Matrix.of fun i j => B i j * D[j.val]'(by omega)) fun v => (fun i => (v i : ZMod (t i)) : G t) ∈ AddSubgroup.closure S := basis_spec nd hc h31 hb

example : (do
    let b ← Verif.BitMap.insert false (Verif.BitMap.make 96) 47
    basis false b ⟨96, [2, 4, 12], [6, 3, 1]⟩) = .ok [[1, 3, 5], [0, 2, -10], [0, 0, 4]] := by decide +kernel

end Verif.Ab
