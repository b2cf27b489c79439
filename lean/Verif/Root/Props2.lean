import Verif.Root.Props
import Verif.Root.Basis
import Verif.Root.Words
import Verif.Root.Extend
import Verif.Root.Neg
import Verif.Root.Comps
import Verif.Root.Long
import Verif.Root.MaxOrth
/-
Properties C49 to C55: what is computed from root systems.  In all theorems `rs` is an object obtained from the constructors for a Cartan
matrix of finite type, and `R`, `R'` number its roots and coroots; by C48 there always is such a numbering, and it is the one of the accessors.
-/
namespace Verif.Root
open Verif.Coxeter CoxeterSystem

/-- `rs` is an object obtained from the constructors, and `R k`, `R' k` are the coefficients of its root and coroot number `k < 2 * N` -/
structure Spec.System {rk : Nat} (nd : Bool) (C : Fin rk → Fin rk → ℤ) (comps : List Weyl.Comp) (pc : Bool) (rs : RS) (N : Nat) (R R' : Nat → Fin rk → ℤ) : Prop where
  cartan : Spec.Cartan C comps
  built : Spec.Built nd C pc rs
  numbering : Spec.Numbering C pc N R R'
  answers : Spec.Answers nd C pc N R R' rs

section
variable {rk : Nat} {C : Fin rk → Fin rk → ℤ} {comps : List Weyl.Comp} {nd pc : Bool} {rs : RS} {N : Nat} {R R' : Nat → Fin rk → ℤ}

theorem Spec.System.lens (hs : Spec.System nd C comps pc rs N R R') : rs.coroots.length = rs.roots.length := by
  obtain ⟨M, W, g, cs, h, hf, n, β, β', fd, fa, fl, hn, H⟩ := built_real hs.cartan hs.built
  rw [H.roots, H.coroots]
  simp

/-- every object obtained from the constructors has a numbering -/
theorem C49_exists (hC : Spec.Cartan C comps) (hB : Spec.Built nd C pc rs) : ∃ N R R', Spec.System nd C comps pc rs N R R' := by
  obtain ⟨N, R, R', h1, h2⟩ := C48_built hC hB
  exact ⟨N, R, R', hC, hB, h1, h2⟩

/-- **C49**: for a subsystem `S`, of which only the positive roots need be marked in the argument, `simpleBasis` returns the simple roots of `S`
in increasing order. -/
theorem C49_simpleBasis (hs : Spec.System nd C comps pc rs N R R') {S : Nat → Prop} (hS : Spec.Subsystem C N R R' S) {b : List Bool} {T : Nat → Prop}
    (hb : Spec.Bits b (2 * N) T) (hT : ∀ k, N ≤ k → k < 2 * N → (T k ↔ S k)) :
    ∃ l, rs.simpleBasis b = .ok l ∧ l.Pairwise (· < ·) ∧ ∀ k, k ∈ l ↔ Spec.IsSimpleIn N R S k :=
  have := hs.cartan.finite
  simpleBasis_ok (Weyl.coxMatrix C).toCoxeterSystem hs.cartan.isCartan hs.numbering hs.answers hS hb hT

/-- **C49**: `pos_simples`, whose argument only has the positive roots, returns the same. -/
theorem C49_posSimples (hs : Spec.System nd C comps pc rs N R R') {S : Nat → Prop} (hS : Spec.Subsystem C N R R' S) {b : List Bool}
    (hb : Spec.Bits b N fun k => S (N + k)) :
    ∃ l, rs.posSimples nd b = .ok l ∧ l.Pairwise (· < ·) ∧ ∀ k, k ∈ l ↔ Spec.IsSimpleIn N R S k :=
  have := hs.cartan.finite
  posSimples_ok (Weyl.coxMatrix C).toCoxeterSystem hs.cartan.isCartan hs.numbering hs.answers hS hb

/-- **C49**: these simple roots are a basis of the subsystem: each positive root of it is a sum of them, distinct ones have a pairing that is not
positive, and they are linearly independent. -/
theorem C49_basis (hs : Spec.System nd C comps pc rs N R R') {S : Nat → Prop} (hS : Spec.Subsystem C N R R' S) {l : List Nat} (hl : l.Pairwise (· < ·))
    (hm : ∀ k, k ∈ l ↔ Spec.IsSimpleIn N R S k) :
    (∀ a, S a → N ≤ a → ∃ m : List Nat, (∀ d ∈ m, d ∈ l) ∧ ∀ i, R a i = (m.map fun d => R d i).sum) ∧
    (∀ a ∈ l, ∀ b ∈ l, a ≠ b → Spec.pair C (R a) (R' b) ≤ 0) ∧
    ∀ c : Nat → ℤ, (∀ i, (l.map fun k => c k * R k i).sum = 0) → ∀ k ∈ l, c k = 0 := by
  have := hs.cartan.finite
  have cs := (Weyl.coxMatrix C).toCoxeterSystem
  have h := hs.cartan.isCartan
  refine ⟨fun a ha han => ?_, fun a ha b hb hab => ?_, sub_indep cs h hs.numbering hS hl fun k hk => (hm k).mp hk⟩
  · obtain ⟨m, m1, m2⟩ := sub_sum cs h hs.numbering hS ha han
    refine ⟨m, fun d hd => (hm d).mpr (m1 d hd), fun i => ?_⟩
    rw [m2]
    clear m1 m2
    induction m with
    | nil => rfl
    | cons d m ih => rw [List.map_cons, List.sum_cons, Pi.add_apply, ih, List.map_cons, List.sum_cons]
  · exact sub_obtuse cs h hs.numbering hS ((hm b).mp hb) ((hm a).mp ha) hab

/-- **C50**: both `permuted_root` functions apply the Weyl word to the root, and at the same time to its coroot. -/
theorem C50_permuted (hs : Spec.System nd C comps pc rs N R R') (w : List (Fin rk)) {r : Nat} (hr : r < 2 * N) :
    (∃ m < 2 * N, rs.permutedLeft (w.map Fin.val) r = .ok m ∧ R m = Spec.act C w (R r) ∧ R' m = Spec.act (fun i j => C j i) w (R' r)) ∧
    (∃ m < 2 * N, rs.permutedRight r (w.map Fin.val) = .ok m ∧ R m = Spec.act C w.reverse (R r) ∧ R' m = Spec.act (fun i j => C j i) w.reverse (R' r)) :=
  permuted_ok hs.answers w hr

/-- **C50**: `reflection_word` is a reduced palindrome that acts as the reflection. -/
theorem C50_reflectionWord (hs : Spec.System nd C comps pc rs N R R') {a : Nat} (ha : a < 2 * N) :
    ∃ w : List (Fin rk), rs.reflectionWord a = .ok (w.map Fin.val) ∧ w.reverse = w ∧ Spec.Reduced C w ∧ ∀ x i, Spec.act C w x i = x i - Spec.pair C x (R' a) * R a i :=
  have := hs.cartan.finite
  reflectionWord_ok (Weyl.coxMatrix C).toCoxeterSystem hs.cartan.isCartan hs.numbering hs.answers hs.cartan.dynkin.rank_le ha

/-- **C50**: `conjugate_to_simple` makes the root, or its negative if it is negative, a simple root, by a word that is as short as possible. -/
theorem C50_conjugate (hs : Spec.System nd C comps pc rs N R R') {a : Nat} (ha : a < 2 * N) : ∃ (w : List (Fin rk)) (j : Fin rk),
    rs.conjugate nd a = .ok (w.map Fin.val, j.1) ∧ Spec.Reduced C (w ++ [j] ++ w.reverse) ∧ Spec.act C w.reverse (if N ≤ a then R a else -R a) = Spec.unit j :=
  have := hs.cartan.finite
  conjugate_ok (Weyl.coxMatrix C).toCoxeterSystem hs.cartan.isCartan hs.numbering hs.answers hs.cartan.dynkin.rank_le ha

/-- **C50**: `image` gives the image of a set of roots under a Weyl word. -/
theorem C50_image (hs : Spec.System nd C comps pc rs N R R') (w : List (Fin rk)) {b : List Bool} {P : Nat → Prop} (hb : Spec.Bits b (2 * N) P) :
    ∃ r, rs.image (w.map Fin.val) b = .ok r ∧ Spec.Bits r (2 * N) fun y => ∃ x < 2 * N, P x ∧ R y = Spec.act C w (R x) :=
  image_ok hs.numbering hs.answers w hb

/-- **C50**: `pos_to_neg` gives the positive roots made negative by a Weyl word. -/
theorem C50_posToNeg (hs : Spec.System nd C comps pc rs N R R') (w : List (Fin rk)) :
    ∃ r, rs.posToNeg nd (w.map Fin.val) = .ok r ∧ Spec.Bits r (2 * N) fun k => (∀ i, 0 ≤ R k i) ∧ ∀ i, Spec.act C w (R k) i ≤ 0 := by
  have := hs.cartan.finite
  obtain ⟨r, r1, r2⟩ := posToNeg_ok (Weyl.coxMatrix C).toCoxeterSystem hs.cartan.isCartan hs.numbering hs.answers w
  refine ⟨r, r1, bits_congr r2 fun k hk => ?_⟩
  rw [(hs.numbering.sign_of (Weyl.coxMatrix C).toCoxeterSystem hs.cartan.isCartan hk).1]

/-- **C51**: if the roots `im i` have the same Cartan matrix as the simple roots, then `extend_to_roots` is the permutation of the roots that is linear
and sends each simple root `i` to `im i`; it sends coroots to the corresponding coroots. -/
theorem C51_extend (hs : Spec.System nd C comps pc rs N R R') {im : Fin rk → Nat} (him : ∀ i, im i < 2 * N) (hv : ∀ i j, Spec.pair C (R (im i)) (R' (im j)) = C i j) :
    ∃ p : List Nat, rs.extend nd (List.ofFn im) = .ok p ∧ p.length = 2 * N ∧ p.Nodup ∧
      ∀ k < 2 * N, ∃ m < 2 * N, p[k]? = some m ∧ (∀ j, R m j = ∑ i, R k i * R (im i) j) ∧ ∀ j, R' m j = ∑ i, R' k i * R' (im i) j :=
  have := hs.cartan.finite
  extend_ok hs.numbering hs.answers him hv hs.cartan.dynkin.rank_le (Weyl.coxMatrix C).toCoxeterSystem hs.cartan.isCartan

/-- **C51**: for a permutation of the simple roots that respects the Cartan matrix, `root_permutation` permutes the coefficients of all roots. -/
theorem C51_twist (hs : Spec.System nd C comps pc rs N R R') {f : Fin rk → Fin rk} (hf : Function.Injective f) (hv : ∀ i j, C (f i) (f j) = C i j) :
    ∃ p : List Nat, rs.twistPerm nd (List.ofFn fun i => (f i).1) = .ok p ∧ p.length = 2 * N ∧ p.Nodup ∧
      ∀ k < 2 * N, ∃ m < 2 * N, p[k]? = some m ∧ ∀ i, R m (f i) = R k i ∧ R' m (f i) = R' k i :=
  have := hs.cartan.finite
  twist_ok (Weyl.coxMatrix C).toCoxeterSystem hs.cartan.isCartan hs.numbering hs.answers hs.cartan.dynkin.rank_le hf hv

/-- **C52**: `components` partitions a set of roots in the smallest parts that are orthogonal to each other. -/
theorem C52_components (hs : Spec.System nd C comps pc rs N R R') {b : List Bool} {P : Nat → Prop} (hb : Spec.Bits b (2 * N) P) :
    ∃ r, rs.components b = .ok r ∧ Spec.Components C R R' (2 * N) P r :=
  have := hs.cartan.finite
  components_ok (Weyl.coxMatrix C).toCoxeterSystem hs.cartan.isCartan hs.numbering hs.answers hb

/-- **C52**: `is_long_root` tells whether some root has a coroot whose value at the given root is greater than 1 in absolute value. -/
theorem C52_isLongRoot (hs : Spec.System nd C comps pc rs N R R') {a : Nat} (ha : a < 2 * N) :
    ∃ x, rs.isLongRoot nd a = .ok x ∧ (x = true ↔ ∃ k < 2 * N, R k ≠ R a ∧ R k ≠ -R a ∧ 2 ≤ |Spec.pair C (R a) (R' k)|) :=
  have := hs.cartan.finite
  isLongRoot_ok (Weyl.coxMatrix C).toCoxeterSystem hs.cartan.isCartan hs.numbering hs.answers hs.cartan.dynkin.rank_le ha

/-- **C52**: the same for coroots. -/
theorem C52_isLongCoroot (hs : Spec.System nd C comps pc rs N R R') {a : Nat} (ha : a < 2 * N) :
    ∃ x, rs.isLongCoroot nd a = .ok x ∧ (x = true ↔ ∃ k < 2 * N, R k ≠ R a ∧ R k ≠ -R a ∧ 2 ≤ |Spec.pair C (R k) (R' a)|) :=
  have := hs.cartan.finite
  isLongCoroot_ok (Weyl.coxMatrix C).toCoxeterSystem hs.cartan.isCartan hs.numbering hs.answers hs.cartan.dynkin.rank_le ha

/-- **C53**, what holds of it: when the sum of two roots is a root, `root_add` returns the number of the negative of that sum, and otherwise
the number of roots; similarly for `coroot_add`. -/
theorem C53_add_partial (hs : Spec.System nd C comps pc rs N R R') {a b : Nat} (ha : a < 2 * N) (hb : b < 2 * N) :
    ((∀ m < 2 * N, (∀ i, R m i = R a i + R b i) → ∃ n < 2 * N, rs.rootAdd nd a b = .ok n ∧ ∀ i, R n i = -R m i) ∧
      ((¬ ∃ m < 2 * N, ∀ i, R m i = R a i + R b i) → rs.rootAdd nd a b = .ok (2 * N))) ∧
    ((∀ m < 2 * N, (∀ i, R' m i = R' a i + R' b i) → ∃ n < 2 * N, rs.corootAdd nd a b = .ok n ∧ ∀ i, R' n i = -R' m i) ∧
      ((¬ ∃ m < 2 * N, ∀ i, R' m i = R' a i + R' b i) → rs.corootAdd nd a b = .ok (2 * N))) := by
  obtain ⟨⟨h1, h2⟩, h3, h4⟩ := add_ok hs.numbering hs.answers hs.lens (Weyl.coxMatrix C).toCoxeterSystem hs.cartan.isCartan ha hb
  refine ⟨⟨fun m hm e => ⟨2 * N - 1 - m, by omega, h1 m hm (funext e), (hs.numbering.neg m hm).1⟩, fun g => h2 fun m hm e => g ⟨m, hm, congrFun e⟩⟩,
    fun m hm e => ⟨2 * N - 1 - m, by omega, h3 m hm (funext e), (hs.numbering.neg m hm).2⟩, fun g => h4 fun m hm e => g ⟨m, hm, congrFun e⟩⟩

/-- **C54**: `additive_closure` gives the smallest set of roots (or of coroots) that contains the given ones and is closed under negation and under sums that are roots (coroots). -/
theorem C54_additiveClosure (hs : Spec.System nd C comps pc rs N R R') {P : Nat → Prop} {g : List Bool} (hg : Spec.Bits g (2 * N) P) :
    (∃ s, rs.additiveClosure nd false g = .ok s ∧ Spec.Bits s (2 * N) (Spec.Closure N R P)) ∧ ∃ s, rs.additiveClosure nd true g = .ok s ∧ Spec.Bits s (2 * N) (Spec.Closure N R' P) :=
  closure_ok hs.numbering hs.answers hs.lens (Weyl.coxMatrix C).toCoxeterSystem hs.cartan.isCartan hg

/-- **C55**, what holds of it: for a set of mutually orthogonal positive roots, `long_orthogonalize` returns a set of mutually orthogonal roots, no two of which have
a root as their sum, and such that the product of the reflections is the same. -/
theorem C55_longOrthogonalize_partial (hs : Spec.System nd C comps pc rs N R R') {s : List Bool} {P : Nat → Prop} (hb : Spec.Bits s (2 * N) P) (hP : ∀ k < 2 * N, P k → ∀ i, 0 ≤ R k i)
    (ho : Spec.Orthogonal C R R' fun k => k < 2 * N ∧ P k) :
    ∃ r, rs.longOrthogonalize nd s = .ok r ∧ r.length = 2 * N ∧ Spec.Orthogonal C R R' (fun k => RS.bit r k = true) ∧ Spec.NoSums N R (fun k => RS.bit r k = true) ∧
      Spec.drop C N R R' r = Spec.drop C N R R' s :=
  have := hs.cartan.finite
  longOrth_ok (Weyl.coxMatrix C).toCoxeterSystem hs.cartan.isCartan hs.numbering hs.answers hs.lens hb
    (fun k hk hp => (hs.numbering.sign_of (Weyl.coxMatrix C).toCoxeterSystem hs.cartan.isCartan hk).1.mpr (hP k hk hp)) ho

/-- **C55**: `max_orth` passes through positive roots of the subsystem `S` that are mutually orthogonal and noncompact when they are passed through, until all positive roots of `S`
orthogonal to them are compact; it returns a set of mutually orthogonal roots, no two of which have a root as their sum, with the same product of reflections. -/
theorem C55_maxOrth (hs : Spec.System nd C comps pc rs N R R') {S nc : Nat → Prop} {sb nb : List Bool} (hS : Spec.Bits sb (2 * N) S) (hnc : Spec.Bits nb (2 * N) nc)
    (hsub : ∀ k, N ≤ k → k < 2 * N → nc k → S k) :
    ∃ (l : List Nat) (r : List Bool), rs.maxOrth nd nb sb = .ok r ∧
      (∀ a ∈ l, a < 2 * N ∧ S a ∧ N ≤ a) ∧ Spec.Orthogonal C R R' (· ∈ l) ∧ (∀ a l', (a :: l') <:+ l → Spec.Noncompact N R nc l' a) ∧
      (∀ b, N ≤ b → b < 2 * N → S b → (∀ a ∈ l, Spec.pair C (R a) (R' b) = 0) → ¬ Spec.Noncompact N R nc l b) ∧
      r.length = 2 * N ∧ Spec.Orthogonal C R R' (fun k => RS.bit r k = true) ∧ Spec.NoSums N R (fun k => RS.bit r k = true) ∧
      ∀ x i, Spec.drop C N R R' r x i = (l.map fun a => Spec.pair C x (R' a) * R a i).sum :=
  have := hs.cartan.finite
  maxOrth_ok (Weyl.coxMatrix C).toCoxeterSystem hs.cartan.isCartan hs.numbering hs.answers hs.lens hS hnc hsub

end

/-- **C53** fails: in type A2 the simple roots have numbers 3 and 4 and their sum has number 5, but `root_add` returns 0. -/
theorem C53_add_false : (do
    let rs ← RS.make false [[2, -1], [-1, 2]] false
    .ok (← rs.rootExpr 3, ← rs.rootExpr 4, ← rs.rootExpr 5, ← rs.rootAdd false 3 4, ← rs.corootAdd false 3 4) : Res _) = .ok ([1, 0], [0, 1], [1, 1], 0, 0) := by
  decide +kernel

/-- **C55** fails: in type B2 with simple roots 4 and 5, where 5 is short, the roots 5 and 1 are orthogonal but of different signs;
`long_orthogonalize` fails an assertion, or without assertions reads outside the list of roots. -/
theorem C55_longOrthogonalize_false : (do
    let rs ← RS.make false [[2, -2], [-1, 2]] false
    .ok (← rs.rootExpr 5, ← rs.rootExpr 1, ← rs.isOrthogonal 5 1) : Res _) = .ok ([0, 1], [-1, -1], true) ∧
    ((do (← RS.make false [[2, -2], [-1, 2]] false).longOrthogonalize false [false, true, false, false, false, true, false, false] : Res _) = .assertFail) ∧
    ((do (← RS.make true [[2, -2], [-1, 2]] false).longOrthogonalize true [false, true, false, false, false, true, false, false] : Res _) = .undefined) := by
  decide +kernel

/-! ### an example: type B3+G2 -/

theorem exSystem : ∃ rs N R R', Spec.System false Weyl.exC Weyl.exComps true rs N R R' := by
  obtain ⟨rs, N, R, R', h1, h2, h3⟩ := C48_make false true exCartan
  exact ⟨rs, N, R, R', exCartan, .make h1, h2, h3⟩

/-- the set of all roots is a subsystem -/
example : ∃ rs N R R' S, Spec.System false Weyl.exC Weyl.exComps true rs N R R' ∧ Spec.Subsystem Weyl.exC N R R' S ∧ S N := by
  obtain ⟨rs, N, R, R', hs⟩ := exSystem
  have hle := hs.numbering.simple.1
  refine ⟨rs, N, R, R', (· < 2 * N), hs, ⟨fun _ => id, fun a b ha hb => ?_⟩, by omega⟩
  obtain ⟨m, hm, -, e, -⟩ := hs.answers.reflected a ha b hb
  exact ⟨m, hm, e⟩

/-- the images of the simple roots under their negation have the same Cartan matrix -/
example : ∃ rs N R R', ∃ im : Fin 5 → Nat, Spec.System false Weyl.exC Weyl.exComps true rs N R R' ∧ (∀ i, im i < 2 * N) ∧ ∀ i j, Spec.pair Weyl.exC (R (im i)) (R' (im j)) = Weyl.exC i j := by
  obtain ⟨rs, N, R, R', hs⟩ := exSystem
  have hle := hs.numbering.simple.1
  refine ⟨rs, N, R, R', fun i => 2 * N - 1 - (N + i), hs, fun i => by dsimp only; omega, fun i j => ?_⟩
  have hi := i.2
  have hj := j.2
  rw [(hs.numbering.minus (k := N + i) (by omega)).1, (hs.numbering.minus (k := N + j) (by omega)).2, (hs.numbering.simple.2 i).1, (hs.numbering.simple.2 j).2, unit_eq, unit_eq, pair_eq, form_neg_left,
    form_neg_right, neg_neg, form_root_root]

/-- a set of one root, as argument of `long_orthogonalize` and `max_orth` -/
example : ∃ rs N R R' s, Spec.System false Weyl.exC Weyl.exComps true rs N R R' ∧ Spec.Bits s (2 * N) (· = N) ∧ Spec.Orthogonal Weyl.exC R R' (fun k => k < 2 * N ∧ k = N) := by
  obtain ⟨rs, N, R, R', hs⟩ := exSystem
  exact ⟨rs, N, R, R', (List.range (2 * N)).map fun k => decide (k = N), hs, bits_map fun k _ => by simp, fun a b ha hb hab => absurd (ha.2.trans hb.2.symm) hab⟩

end Verif.Root
