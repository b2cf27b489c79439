import Verif.Vec
import Verif.BitSet.Model
/-
Model of `Permutation` (/repo/sources/utilities/permutations.h, permutations_def.h,
permutations.cpp): a vector of numbers.  The bitmaps `seen` are modelled by the list of their
bits (the class `BitMap` itself is the subject of C19).
-/
namespace Verif.Perm
open Verif

variable {α : Type}

/-- loop of the identity constructor (permutations.cpp L32), `i` from the end -/
def identLoop : Nat → List Nat → Res (List Nat)
  | 0, v => .ok v
  | i + 1, v => do identLoop i (← Vec.put v i i)

/-- identity constructor (permutations.cpp L29-33) -/
def ident (n : Nat) : Res (List Nat) := identLoop n (List.replicate n 0)

/-- loop of the inverse constructor (permutations.cpp L38) -/
def invLoop (pi : List Nat) : Nat → List Nat → Res (List Nat)
  | 0, v => .ok v
  | i + 1, v => do invLoop pi i (← Vec.put v (← Vec.get pi i) i)

/-- inverse constructor (permutations.cpp L35-39) -/
def inverse (pi : List Nat) : Res (List Nat) := invLoop pi pi.length (List.replicate pi.length 0)

/-- loop of `compose` (permutations.cpp L60-62); `c` is the copy, `m` the number of passes to go -/
def composeLoop (b c : List Nat) (n : Nat) : Nat → Nat → List Nat → Res (List Nat)
  | 0, _, a => .ok a
  | m + 1, j, a => do
    let x ← Vec.get b j
    let y ← Vec.get c x
    composeLoop b c n m (j + 1) (← Vec.put a (j + n) y)

/-- `compose(a,b,n)` (permutations.cpp L56-63); the range copied must be inside `a` -/
def compose (a b : List Nat) (n : Nat) : Res (List Nat) :=
  if n + b.length ≤ a.length then composeLoop b ((a.drop n).take b.length) n b.length 0 a else .undefined

/-- loop of `pull_back` (permutations_def.h L39-40) -/
def pullLoop (v : List α) : List Nat → List α → Res (List α)
  | [], r => .ok r
  | x :: pi, r => do pullLoop v pi (r ++ [← Vec.get v x])

/-- `pull_back` (permutations_def.h L32-43) -/
def pullBack (nd : Bool) (pi : List Nat) (v : List α) : Res (List α) := do
  Res.assertIn nd (v.length == pi.length)
  pullLoop v pi []

/-- `renumbering` of a vector (permutations.cpp L92-100): the same loop with the roles exchanged -/
def renumbering (pi : List Nat) (v : List Nat) : Res (List Nat) := pullLoop pi v []

/-- loop of `renumber` with an exception value (permutations.cpp L126-128) -/
def renumberLoop (pi : List Nat) (except : Option Nat) : List Nat → List Nat → Res (List Nat)
  | [], r => .ok r
  | x :: v, r => do
    let y ← (if some x = except then (pure x : Res Nat) else Vec.get pi x)
    renumberLoop pi except v (r ++ [y])

/-- `renumber(v)` and `renumber(v,except)` (permutations.cpp L112-129) -/
def renumber (pi : List Nat) (except : Option Nat) (v : List Nat) : Res (List Nat) := renumberLoop pi except v []

/-- loop of `renumbering` of a bitmap given by its elements (permutations.cpp L105-106) -/
def renumberSetLoop (pi : List Nat) : List Nat → List Bool → Res (List Bool)
  | [], r => .ok r
  | x :: b, r => do renumberSetLoop pi b (← Vec.put r (← Vec.get pi x) true)

/-- `renumbering` of a bitmap (permutations.cpp L102-109) -/
def renumberSet (pi : List Nat) (b : List Nat) : Res (List Bool) :=
  renumberSetLoop pi b (List.replicate pi.length false)

/-- inner loop of `permute` (permutations_def.h L75-79): follow the cycle from `j` to `i`; the
results are `tmp`, `v` and `seen` -/
def cycleLoop (pi : List Nat) (i : Nat) : Nat → Nat → α → List α → List Bool → Res (α × List α × List Bool)
  | 0, _, _, _, _ => .outOfFuel
  | k + 1, j, tmp, v, seen =>
    if j = i then .ok (tmp, v, seen)
    else do
      let x ← Vec.get v j
      let v ← Vec.put v j tmp
      let seen ← Vec.put seen j true
      cycleLoop pi i k (← Vec.get pi j) x v seen

/-- outer loop of `permute` (permutations_def.h L68-82), `m` passes to go -/
def permuteLoop (pi : List Nat) : Nat → Nat → List α → List Bool → Res (List α)
  | 0, _, v, _ => .ok v
  | m + 1, i, v, seen => do
    let s ← Vec.get seen i
    if s then permuteLoop pi m (i + 1) v seen
    else do
      let seen ← Vec.put seen i true
      let j ← Vec.get pi i
      if j = i then permuteLoop pi m (i + 1) v seen
      else do
        let tmp ← Vec.get v i
        let r ← cycleLoop pi i (pi.length + 1) j tmp v seen
        permuteLoop pi m (i + 1) (← Vec.put r.2.1 i r.1) r.2.2

/-- `permute` (permutations_def.h L61-83) -/
def permute (nd : Bool) (pi : List Nat) (v : List α) : Res (List α) := do
  Res.assertIn nd (decide (v.length ≥ pi.length))
  permuteLoop pi pi.length 0 v (List.replicate pi.length false)

/-- loop of `is_identity` (permutations.cpp L134-136) -/
def isIdentLoop (pi : List Nat) : Nat → Nat → Res Bool
  | 0, _ => .ok true
  | m + 1, i => do
    let j ← Vec.get pi i
    if j ≠ i then pure false else isIdentLoop pi m (i + 1)

/-- `is_identity` (permutations.cpp L131-138) -/
def isIdentity (pi : List Nat) : Res Bool := isIdentLoop pi pi.length 0

/-- the `do`-`while` loop of `is_negative` (permutations.cpp L147-153) -/
def signLoop (nd : Bool) (pi : List Nat) (i : Nat) : Nat → Nat → Bool → List Bool → Res (Bool × List Bool)
  | 0, _, _, _ => .outOfFuel
  | k + 1, j, result, seen => do
    let s ← Vec.get seen j
    Res.assertIn nd (!s)
    let seen ← Vec.put seen j true
    let j ← Vec.get pi j
    if j ≠ i then signLoop nd pi i k j (!result) seen else pure (!result, seen)

/-- outer loop of `is_negative` (permutations.cpp L145-153) -/
def negLoop (nd : Bool) (pi : List Nat) : Nat → Nat → Bool → List Bool → Res Bool
  | 0, _, result, _ => .ok result
  | m + 1, i, result, seen => do
    let s ← Vec.get seen i
    if s then negLoop nd pi m (i + 1) result seen
    else do
      let j ← Vec.get pi i
      if j = i then negLoop nd pi m (i + 1) result seen
      else do
        let r ← signLoop nd pi i (pi.length + 1) j result seen
        negLoop nd pi m (i + 1) r.1 r.2

/-- `is_negative` (permutations.cpp L140-155) -/
def isNegative (nd : Bool) (pi : List Nat) : Res Bool :=
  negLoop nd pi pi.length 0 false (List.replicate pi.length false)

/-- `sign` (permutations.h L81) -/
def sign (nd : Bool) (pi : List Nat) : Res Int := do pure (if ← isNegative nd pi then -1 else 1)

/-- loop of `fixed_points` (permutations.cpp L159-161) -/
def fixedLoop (pi : List Nat) : Nat → Nat → List Bool → Res (List Bool)
  | 0, _, r => .ok r
  | m + 1, i, r => do
    let j ← Vec.get pi i
    if j = i then fixedLoop pi m (i + 1) (← Vec.put r i true) else fixedLoop pi m (i + 1) r

/-- `fixed_points` (permutations.cpp L157-163) -/
def fixedPoints (pi : List Nat) : Res (List Bool) := fixedLoop pi pi.length 0 (List.replicate pi.length false)

/-- first loop of `standardization` (permutations.cpp L261-265); `count` holds `unsigned int` -/
def countLoop (nd : Bool) (a : List Nat) : Nat → List Nat → Res (List Nat)
  | 0, count => .ok count
  | i + 1, count => do
    let x ← Vec.get a i
    Res.assertIn nd (decide (x < count.length))
    let c ← Vec.get count x
    countLoop nd a i (← Vec.put count x ((c + 1) % 4294967296))

/-- second loop (permutations.cpp L268-271), `m` passes to go; also gives the final `sum` -/
def cumulLoop : Nat → Nat → Nat → List Nat → Res (Nat × List Nat)
  | 0, _, sum, count => .ok (sum, count)
  | m + 1, i, sum, count => do
    let ci ← Vec.get count i
    let count ← Vec.put count i sum
    cumulLoop m (i + 1) ((sum + ci) % 4294967296) count

/-- last loop (permutations.cpp L280-281) -/
def placeLoop (a : List Nat) : Nat → Nat → List Nat → List Nat → Res (List Nat)
  | 0, _, _, r => .ok r
  | m + 1, i, count, r => do
    let x ← Vec.get a i
    let c ← Vec.get count x
    let r ← Vec.put r i c
    placeLoop a m (i + 1) (← Vec.put count x ((c + 1) % 4294967296)) r

/-- `standardization(a,bound,stops)` for `U=unsigned int` (permutations.cpp L256-284): the
permutation, and what is put in `*stops` -/
def standardize (nd : Bool) (a : List Nat) (bound : Nat) : Res (List Nat × List Nat) := do
  let count ← countLoop nd a a.length (List.replicate bound 0)
  let s ← cumulLoop bound 0 0 count
  let r ← placeLoop a a.length 0 s.2 (List.replicate a.length 0)
  pure (r, s.2 ++ [s.1])

/-- last loop of `standardization` by comparison (permutations_def.h L107-108) -/
def rankLoop : List (α × Nat) → Nat → List Nat → Res (List Nat)
  | [], _, r => .ok r
  | e :: aux, k, r => do rankLoop aux (k + 1) (← Vec.put r e.2 k)

/-- `standardization(first,last,less)` (permutations_def.h L91-110); `std::stable_sort` is
modelled by Lean's merge sort, which is stable -/
def standardizeBy (less : α → α → Bool) (l : List α) : Res (List Nat) :=
  let aux := l.zipIdx.mergeSort (fun x y => !less y.1 x.1)
  rankLoop aux 0 (List.replicate l.length 0)

open Verif.BitSet in
/-- loop of `pull_back` for bit sets (permutations.cpp L72-73); `BitSet<RANK_MAX>` is one chunk -/
def pullBitsLoop (nd : Bool) (pi : List Nat) (v : B1) : Nat → Nat → B1 → Res B1
  | 0, _, r => .ok r
  | m + 1, i, r => do
    let b ← v.test nd (← Vec.get pi i)
    pullBitsLoop nd pi v m (i + 1) (← r.setTo i b)

open Verif.BitSet in
/-- `pull_back` for bit sets (permutations.cpp L65-76) -/
def pullBits (nd : Bool) (pi : List Nat) (v : B1) : Res B1 := do
  Res.assertIn nd (decide (pi.length ≤ 32))
  pullBitsLoop nd pi v pi.length 0 ⟨0⟩

open Verif.BitSet in
/-- loop of `permute_bits` (permutations.cpp L85-86) -/
def permuteBitsLoop (nd : Bool) (pi : List Nat) (v : B1) : Nat → Nat → B1 → Res B1
  | 0, _, r => .ok r
  | m + 1, i, r => do
    let b ← v.test nd i
    permuteBitsLoop nd pi v m (i + 1) (← r.setTo (← Vec.get pi i) b)

open Verif.BitSet in
/-- `permute_bits` (permutations.cpp L78-89) -/
def permuteBits (nd : Bool) (pi : List Nat) (v : B1) : Res B1 := do
  Res.assertIn nd (decide (pi.length ≤ 32))
  permuteBitsLoop nd pi v pi.length 0 ⟨0⟩

end Verif.Perm
