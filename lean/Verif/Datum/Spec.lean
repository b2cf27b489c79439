import Verif.Datum.Model
import Verif.Root.Props2
import Verif.Mat.PropsLattice
/-
Specification for C69 and C70: root data, and dominant weights.  The lattices of weights and coweights are `Fin r → ℤ`, with pairing `⬝ᵥ`.
-/
namespace Verif.Datum
open Verif Verif.Mat Verif.Root
open scoped Matrix

variable {n r : Nat}

/-- the combination of the vectors `α s` with coefficients `x s` -/
def lin (α : Fin n → Fin r → ℤ) (x : Fin n → ℤ) : Fin r → ℤ := ∑ s, x s • α s

/-- the matrix with columns `α s` -/
def colMat (α : Fin n → Fin r → ℤ) : Matrix (Fin r) (Fin n) ℤ := Matrix.of fun i s => α s i

/-- the Cartan matrix of a list of simple roots and coroots -/
abbrev cart (α αv : Fin n → Fin r → ℤ) : Fin n → Fin n → ℤ := fun s t => α s ⬝ᵥ αv t

/-- the reflection `v ↦ v - ⟨v,c⟩ a` -/
def refl (a c v : Fin r → ℤ) : Fin r → ℤ := v - (v ⬝ᵥ c) • a

/-- the matrix of the reflection -/
def reflMat (a c : Fin r → ℤ) : Matrix (Fin r) (Fin r) ℤ := Matrix.of fun i j => (if i = j then 1 else 0) - a i * c j

/-- action of a word in reflections on a weight, the last letter acting first -/
def act {ι : Type} (ro co : ι → Fin r → ℤ) : List ι → (Fin r → ℤ) → Fin r → ℤ
  | [], v => v
  | s :: w, v => refl (ro s) (co s) (act ro co w v)

/-- action on a coweight from the right, the first letter acting first -/
def coact {ι : Type} (ro co : ι → Fin r → ℤ) (v : Fin r → ℤ) : List ι → Fin r → ℤ
  | [] => v
  | s :: w => coact ro co (refl (co s) (ro s) v) w

/-- actions with offsets: the reflections have a translated centre -/
def sact (ro co : Fin n → Fin r → ℤ) (d : Fin n → ℤ) : List (Fin n) → (Fin r → ℤ) → Fin r → ℤ
  | [], v => v
  | s :: w, v => sact ro co d w v - (sact ro co d w v ⬝ᵥ co s + d s) • ro s

def scoact (ro co : Fin n → Fin r → ℤ) (d : Fin n → ℤ) (v : Fin r → ℤ) : List (Fin n) → Fin r → ℤ
  | [] => v
  | s :: w => scoact ro co d (v - (v ⬝ᵥ ro s + d s) • co s) w

/-- the subgroup spanned by the vectors `α s` has a quotient without torsion -/
def Saturated (α : Fin n → Fin r → ℤ) : Prop := ∀ (v : Fin r → ℤ) (m : ℤ), m ≠ 0 → (∃ x, m • v = lin α x) → ∃ x, v = lin α x

/-- The accessors of the root datum `rd` give what they should: its simple roots and coroots are `α` and `αv`, and the coefficients of its roots
and coroots are `R` and `R'`. -/
structure IsDatum (nd : Bool) (α αv : Fin n → Fin r → ℤ) (N : Nat) (R R' : Nat → Fin n → ℤ) (rd : RD) : Prop where
  rank : rd.rank = r
  ssRank : rd.ssRank = n
  isSemisimple : rd.isSemisimple = decide (r = n)
  root : ∀ k < 2 * N, rd.root nd k = .ok (List.ofFn (lin α (R k)))
  coroot : ∀ k < 2 * N, rd.coroot nd k = .ok (List.ofFn (lin αv (R' k)))
  simpleRoot : ∀ s : Fin n, rd.simpleRoot nd s = .ok (List.ofFn (α s))
  simpleCoroot : ∀ s : Fin n, rd.simpleCoroot nd s = .ok (List.ofFn (αv s))
  posRoot : ∀ k < N, rd.posRoot nd k = .ok (List.ofFn (lin α (R (N + k))))
  posCoroot : ∀ k < N, rd.posCoroot nd k = .ok (List.ofFn (lin αv (R' (N + k))))
  /-- different numbers are different roots, also as weights -/
  inj : ∀ k < 2 * N, ∀ l < 2 * N, lin α (R k) = lin α (R l) ∨ lin αv (R' k) = lin αv (R' l) → k = l
  rootIndex : ∀ k < 2 * N, rd.rootIndex (List.ofFn (lin α (R k))) = k
  rootIndex_none : ∀ v : Fin r → ℤ, (∀ k < 2 * N, v ≠ lin α (R k)) → rd.rootIndex (List.ofFn v) = 2 * N
  corootIndex : ∀ k < 2 * N, rd.corootIndex (List.ofFn (lin αv (R' k))) = k
  corootIndex_none : ∀ v : Fin r → ℤ, (∀ k < 2 * N, v ≠ lin αv (R' k)) → rd.corootIndex (List.ofFn v) = 2 * N
  isRoot : ∀ v : Fin r → ℤ, rd.isRoot (List.ofFn v) = true ↔ ∃ k < 2 * N, v = lin α (R k)
  /-- the sums of positive roots and coroots -/
  twoRho : rd.twoRho = List.ofFn (∑ k ∈ Finset.range N, lin α (R (N + k)))
  dualTwoRho : rd.dualTwoRho = List.ofFn (∑ k ∈ Finset.range N, lin αv (R' (N + k)))
  rho : ∀ s, (∑ k ∈ Finset.range N, lin α (R (N + k))) ⬝ᵥ αv s = 2 ∧ (∑ k ∈ Finset.range N, lin αv (R' (N + k))) ⬝ᵥ α s = 2
  /-- fundamental weights, given by numerator and denominator: combinations of roots, dual to the simple coroots -/
  fundamentalWeight : ∀ s : Fin n, ∃ x d, rd.fundamentalWeight s = .ok (List.ofFn (lin α x), d) ∧ 0 < d ∧ ∀ t, lin α x ⬝ᵥ αv t = if t = s then d else 0
  fundamentalCoweight : ∀ s : Fin n, ∃ x d, rd.fundamentalCoweight s = .ok (List.ofFn (lin αv x), d) ∧ 0 < d ∧ ∀ t, lin αv x ⬝ᵥ α t = if t = s then d else 0
  /-- coweights orthogonal to the roots, and weights orthogonal to the coroots -/
  radical : ∃ (k : Nat) (K : Matrix (Fin r) (Fin k) ℤ), rd.radical = cols K ∧ rd.radicalRank = k ∧ IsBasis K fun y => ∀ s, y ⬝ᵥ α s = 0
  coradical : ∃ (k : Nat) (K : Matrix (Fin r) (Fin k) ℤ), rd.coradical = cols K ∧ IsBasis K fun y => ∀ s, y ⬝ᵥ αv s = 0
  isAdjoint : rd.isAdjoint = true ↔ Saturated α
  isSimplyConnected : rd.isSimplyConnected = true ↔ Saturated αv
  scalarProduct : ∀ (v : Fin r → ℤ), ∀ k < 2 * N, rd.scalarProduct nd (List.ofFn v) k = .ok (v ⬝ᵥ lin αv (R' k))
  cartan : ∀ s t : Fin n, rd.cartan nd s t = .ok (α s ⬝ᵥ αv t)
  /-- reflections of weights and coweights -/
  reflect : ∀ (v : Fin r → ℤ) (d : ℤ), ∀ k < 2 * N, rd.reflect nd k (List.ofFn v) d = .ok (List.ofFn (v - (v ⬝ᵥ lin αv (R' k) + d) • lin α (R k)))
  coreflect : ∀ (v : Fin r → ℤ) (d : ℤ), ∀ k < 2 * N, rd.coreflect nd (List.ofFn v) k d = .ok (List.ofFn (v - (v ⬝ᵥ lin α (R k) + d) • lin αv (R' k)))
  simpleReflect : ∀ (v : Fin r → ℤ) (d : ℤ) (s : Fin n), rd.simpleReflect nd s (List.ofFn v) d = .ok (List.ofFn (v - (v ⬝ᵥ αv s + d) • α s))
  simpleCoreflect : ∀ (v : Fin r → ℤ) (d : ℤ) (s : Fin n), rd.simpleCoreflect nd (List.ofFn v) s d = .ok (List.ofFn (v - (v ⬝ᵥ α s + d) • αv s))
  /-- reflections of matrices -/
  reflMat_mulVec : ∀ a c v : Fin r → ℤ, reflMat a c *ᵥ v = refl a c v ∧ v ᵥ* reflMat a c = refl c a v
  rootReflection : ∀ k < 2 * N, rd.rootReflection k = .ok (enc (reflMat (lin α (R k)) (lin αv (R' k))))
  simpleReflection : ∀ s : Fin n, rd.simpleReflection nd s = .ok (enc (reflMat (α s) (αv s)))
  reflectLeft : ∀ (m : Nat) (M : Matrix (Fin r) (Fin m) ℤ), ∀ k < 2 * N, rd.reflectLeft nd k (enc M) = .ok (enc (reflMat (lin α (R k)) (lin αv (R' k)) * M))
  reflectRight : ∀ (m : Nat) (M : Matrix (Fin m) (Fin r) ℤ), ∀ k < 2 * N, rd.reflectRight nd (enc M) k = .ok (enc (M * reflMat (lin α (R k)) (lin αv (R' k))))
  simpleReflectLeft : ∀ (m : Nat) (M : Matrix (Fin r) (Fin m) ℤ) (s : Fin n), rd.simpleReflectLeft nd s (enc M) = .ok (enc (reflMat (α s) (αv s) * M))
  simpleReflectRight : ∀ (m : Nat) (M : Matrix (Fin m) (Fin r) ℤ) (s : Fin n), rd.simpleReflectRight nd (enc M) s = .ok (enc (M * reflMat (α s) (αv s)))
  /-- the permutation of the roots by a matrix that permutes them -/
  rootPermutation : ∀ q : Matrix (Fin r) (Fin r) ℤ, (∀ k < 2 * N, ∃ m < 2 * N, q *ᵥ lin α (R k) = lin α (R m)) →
    (∀ k < 2 * N, ∀ l < 2 * N, q *ᵥ lin α (R k) = q *ᵥ lin α (R l) → k = l) →
    ∃ p : List Nat, rd.rootPermutation nd (enc q) = .ok p ∧ p.length = 2 * N ∧ ∀ k < 2 * N, ∃ m < 2 * N, p[k]? = some m ∧ q *ᵥ lin α (R k) = lin α (R m)
  /-- actions of Weyl words -/
  act : ∀ (w : List (Fin n)) (v : Fin r → ℤ), rd.act nd (w.map Fin.val) (List.ofFn v) = .ok (List.ofFn (act α αv w v))
  actInverse : ∀ (w : List (Fin n)) (v : Fin r → ℤ), rd.actInverse nd (List.ofFn v) (w.map Fin.val) = .ok (List.ofFn (Datum.act α αv w.reverse v))
  actionMatrix : ∀ w : List (Fin n), ∃ A : Matrix (Fin r) (Fin r) ℤ, rd.actionMatrix nd (w.map Fin.val) = .ok (enc A) ∧ ∀ v, A *ᵥ v = Datum.act α αv w v
  dualAct : ∀ (w : List (Fin n)) (v : Fin r → ℤ), rd.dualAct nd (List.ofFn v) (w.map Fin.val) = .ok (List.ofFn (coact α αv v w)) ∧
    ∀ x, coact α αv v w ⬝ᵥ x = v ⬝ᵥ Datum.act α αv w x
  shiftedAct : ∀ (d : Fin n → ℤ) (w : List (Fin n)) (v : Fin r → ℤ), rd.shiftedAct nd (w.map Fin.val) (List.ofFn v) (List.ofFn d) = .ok (List.ofFn (sact α αv d w v))
  shiftedDualAct : ∀ (d : Fin n → ℤ) (w : List (Fin n)) (v : Fin r → ℤ), rd.shiftedDualAct nd (List.ofFn d) (List.ofFn v) (w.map Fin.val) = .ok (List.ofFn (scoact α αv d v w))

/-- objects obtained by calling the constructors -/
inductive Built (nd : Bool) : (Fin n → Fin r → ℤ) → (Fin n → Fin r → ℤ) → Bool → RD → Prop
  | make {α αv : Fin n → Fin r → ℤ} {pc : Bool} {rd : RD} : RD.make nd ⟨enc (colMat α), enc (colMat αv), pc⟩ = .ok rd → Built nd α αv pc rd
  | dual {α αv : Fin n → Fin r → ℤ} {pc : Bool} {rd rd' : RD} : Built nd α αv pc rd → RD.dual nd rd = .ok rd' → Built nd αv α (!pc) rd'

/-- `w` is a shortest word that sends a dominant weight to `v`, and `v'` is that dominant weight, the only one in the orbit of `v`. -/
structure IsFactor {ι : Type} (ro co : ι → Fin r → ℤ) (v : Fin r → ℤ) (w : List ι) (v' : Fin r → ℤ) : Prop where
  dominant : ∀ i, 0 ≤ v' ⬝ᵥ co i
  factor : act ro co w v' = v
  unique : ∀ w', (∀ i, 0 ≤ act ro co w' v ⬝ᵥ co i) → act ro co w' v = v'
  shortest : ∀ w', (∀ i, 0 ≤ act ro co w' v ⬝ᵥ co i) → w.length ≤ w'.length

/-- the same for coweights -/
structure IsCofactor {ι : Type} (ro co : ι → Fin r → ℤ) (v : Fin r → ℤ) (w : List ι) (v' : Fin r → ℤ) : Prop where
  dominant : ∀ i, 0 ≤ v' ⬝ᵥ ro i
  factor : coact ro co v' w = v
  unique : ∀ w', (∀ i, 0 ≤ coact ro co v w' ⬝ᵥ ro i) → coact ro co v w' = v'
  shortest : ∀ w', (∀ i, 0 ≤ coact ro co v w' ⬝ᵥ ro i) → w.length ≤ w'.length

/-- what the functions that make weights and coweights dominant return, for the group generated by the reflections in all simple roots -/
structure Dominance (nd : Bool) (α αv : Fin n → Fin r → ℤ) (rd : RD) : Prop where
  factorDominant : ∀ v : Fin r → ℤ, ∃ (w : List (Fin n)) (v' : Fin r → ℤ), rd.factorDominant nd (List.ofFn v) = .ok (w.map Fin.val, List.ofFn v') ∧ IsFactor α αv v w v'
  factorCodominant : ∀ v : Fin r → ℤ, ∃ (w : List (Fin n)) (v' : Fin r → ℤ), rd.factorCodominant nd (List.ofFn v) = .ok (w.map Fin.val, List.ofFn v') ∧ IsCofactor α αv v w v'
  toDominant : ∀ v : Fin r → ℤ, ∃ w : List (Fin n), rd.toDominant nd (List.ofFn v) = .ok (w.map Fin.val) ∧ (∀ s, 0 ≤ act α αv w v ⬝ᵥ αv s) ∧
    ∀ w', (∀ s, 0 ≤ act α αv w' v ⬝ᵥ αv s) → w.length ≤ w'.length
  toCodominant : ∀ v : Fin r → ℤ, ∃ w : List (Fin n), rd.toCodominant nd (List.ofFn v) = .ok (w.map Fin.val) ∧ (∀ s, 0 ≤ coact α αv v w ⬝ᵥ α s) ∧
    ∀ w', (∀ s, 0 ≤ coact α αv v w' ⬝ᵥ α s) → w.length ≤ w'.length
  makeDominant : ∀ v : Fin r → ℤ, ∃ w, rd.makeDominant nd (List.ofFn v) = .ok (List.ofFn (act α αv w v)) ∧ ∀ s, 0 ≤ act α αv w v ⬝ᵥ αv s
  makeCodominant : ∀ v : Fin r → ℤ, ∃ w, rd.makeCodominant nd (List.ofFn v) = .ok (List.ofFn (coact α αv v w)) ∧ ∀ s, 0 ≤ coact α αv v w ⬝ᵥ α s
  /-- a shortest word for the inverse of a matrix that acts like a word -/
  wordOfInverse : ∀ (q : Matrix (Fin r) (Fin r) ℤ) (u : List (Fin n)), (∀ v, q *ᵥ v = act α αv u v) → ∃ w : List (Fin n), rd.wordOfInverse nd (enc q) = .ok (w.map Fin.val) ∧
    (∀ v, act α αv w (q *ᵥ v) = v) ∧ ∀ w', (∀ v, act α αv w' (q *ᵥ v) = v) → w.length ≤ w'.length

/-- the same for the group generated by the reflections in the roots numbered `G`; letters are positions in `G` -/
structure DominanceG (nd : Bool) (α αv : Fin n → Fin r → ℤ) (R R' : Nat → Fin n → ℤ) (G : List Nat) (rd : RD) : Prop where
  factorDominant : ∀ v : Fin r → ℤ, ∃ (w : List (Fin G.length)) (v' : Fin r → ℤ), rd.factorDominantG nd G (List.ofFn v) = .ok (w.map Fin.val, List.ofFn v') ∧
    IsFactor (fun i : Fin G.length => lin α (R G[i])) (fun i : Fin G.length => lin αv (R' G[i])) v w v'
  factorCodominant : ∀ v : Fin r → ℤ, ∃ (w : List (Fin G.length)) (v' : Fin r → ℤ), rd.factorCodominantG nd G (List.ofFn v) = .ok (w.map Fin.val, List.ofFn v') ∧
    IsCofactor (fun i : Fin G.length => lin α (R G[i])) (fun i : Fin G.length => lin αv (R' G[i])) v w v'
  toDominant : ∀ v : Fin r → ℤ, ∃ w : List (Fin G.length), rd.toDominantG nd G (List.ofFn v) = .ok (w.map Fin.val) ∧
    (∀ i : Fin G.length, 0 ≤ act (fun i : Fin G.length => lin α (R G[i])) (fun i : Fin G.length => lin αv (R' G[i])) w v ⬝ᵥ lin αv (R' G[i])) ∧
    ∀ w', (∀ i : Fin G.length, 0 ≤ act (fun i : Fin G.length => lin α (R G[i])) (fun i : Fin G.length => lin αv (R' G[i])) w' v ⬝ᵥ lin αv (R' G[i])) → w.length ≤ w'.length
  toCodominant : ∀ v : Fin r → ℤ, ∃ w : List (Fin G.length), rd.toCodominantG nd G (List.ofFn v) = .ok (w.map Fin.val) ∧
    (∀ i : Fin G.length, 0 ≤ coact (fun i : Fin G.length => lin α (R G[i])) (fun i : Fin G.length => lin αv (R' G[i])) v w ⬝ᵥ lin α (R G[i])) ∧
    ∀ w', (∀ i : Fin G.length, 0 ≤ coact (fun i : Fin G.length => lin α (R G[i])) (fun i : Fin G.length => lin αv (R' G[i])) v w' ⬝ᵥ lin α (R G[i])) → w.length ≤ w'.length

/-- a root datum obtained from the constructors, with the numbering of its roots and coroots by the base class -/
structure System (nd : Bool) (α αv : Fin n → Fin r → ℤ) (comps : List Weyl.Comp) (pc : Bool) (rd : RD) (N : Nat) (R R' : Nat → Fin n → ℤ) : Prop where
  cartan : Spec.Cartan (cart α αv) comps
  built : Built nd α αv pc rd
  base : Spec.System nd (cart α αv) comps pc rd.rs N R R'

end Verif.Datum
