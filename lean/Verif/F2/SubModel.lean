import Verif.F2.Model
/-
Model of `Subspace<dim>` and `Subquotient<dim>` of /repo/sources/structure/subquotient.h, subquotient.cpp.
As in `Verif.F2.Model` a `BitSet<dim>` is a natural number.
-/
namespace Verif.F2
open Verif

/-! ### `Subspace` -/

/-- `Subspace<dim>` (subquotient.h L51-55) -/
structure Sub where
  basis : List BV
  support : Nat
  rank : Nat
  deriving DecidableEq, Repr

/-- `Subspace()`, `Subspace(n)` (subquotient.h L62, L64) -/
def Sub.zero (n : Nat) : Sub := ⟨[], 0, n⟩

/-- the condition of the assertion of the constructor (subquotient.cpp L42) -/
def firstSize (b : List BV) (n : Nat) : Bool :=
  match b with
  | [] => true
  | v :: _ => v.size = n

/-- constructor from a list of vectors (subquotient.cpp L36-46) -/
def Sub.ofVectors (nd : Bool) (dim : Nat) (b : List BV) (n : Nat) : Res Sub := do
  Res.assertIn nd (firstSize b n)
  let (t, a) ← gaussJordan nd dim b
  pure ⟨a, t, n⟩

/-- constructor from a matrix (subquotient.cpp L52-60) -/
def Sub.ofMatrix (nd : Bool) (dim : Nat) (M : BM) : Res Sub := do
  let b ← M.image nd dim
  let (t, a) ← gaussJordan nd dim b
  pure ⟨a, t, M.rows⟩

/-- `basis(j)` (subquotient.h L72-76) -/
def Sub.basisAt (nd : Bool) (s : Sub) (j : Nat) : Res BV := do
  Res.assertIn nd (j < s.rank)
  Vec.get s.basis j

/-- `dimension` (subquotient.h L79) -/
def Sub.dimension (s : Sub) : Nat := s.basis.length

/-- `support_perp` (subquotient.h L85-86) -/
def Sub.supportPerp (s : Sub) : Res Nat := do pure (s.support ^^^ (← BitSet.ltM s.rank))

/-- the loop of `basis_perp` (subquotient.cpp L79-87), over the members `j` of the new support -/
def perpLoop (nd : Bool) (dim : Nat) (s : Sub) : List Nat → Res (List BV)
  | [] => .ok []
  | j :: l => do
    let gen ← BV.unit nd dim s.rank j
    let gen ← copyLoop nd dim j (members s.support) s.basis gen
    pure (gen :: (← perpLoop nd dim s l))

/-- `basis_perp` (subquotient.cpp L73-89) -/
def Sub.basisPerp (nd : Bool) (dim : Nat) (s : Sub) : Res (List BV) := do
  perpLoop nd dim s (members (← s.supportPerp))

/-- `representative`, `mod_image`, `mod_reduce` (subquotient.cpp L119-137, subquotient.h L115-121) -/
def Sub.representative (nd : Bool) (dim : Nat) (s : Sub) (v : BV) : Res BV := do
  Res.assertIn nd (v.size = s.rank)
  let pv ← v.slice dim s.support
  Res.assertIn nd (pv.size = s.dimension)
  let w ← combination nd dim s.basis s.rank pv.data
  Res.assertIn nd (w.size = s.rank)
  v.add nd w

/-- `contains` (subquotient.cpp L91-93) -/
def Sub.contains (nd : Bool) (dim : Nat) (s : Sub) (v : BV) : Res Bool := do
  pure (← s.representative nd dim v).isZero

/-- `contains` for a list (subquotient.cpp L95-101) -/
def Sub.containsAll (nd : Bool) (dim : Nat) (s : Sub) : List BV → Res Bool
  | [] => .ok true
  | v :: l => do
    if ← s.contains nd dim v then s.containsAll nd dim l else pure false

/-- `toBasis` (subquotient.h L89-97); the assertion is evaluated only when assertions are compiled in -/
def Sub.toBasis (nd : Bool) (dim : Nat) (s : Sub) (v : BV) : Res BV := do
  Res.assertIn nd (← (if nd then pure true else s.contains nd dim v : Res Bool))
  let v ← v.slice dim s.support
  Res.assertIn nd (v.size = s.dimension)
  pure v

/-- `fromBasis` (subquotient.h L100-106) -/
def Sub.fromBasis (nd : Bool) (dim : Nat) (s : Sub) (v : BV) : Res BV := do
  Res.assertIn nd (v.size = s.dimension)
  combination nd dim s.basis s.rank v.data

/-- the loop of `apply` (subquotient.cpp L155-159) -/
def applyLoop (nd : Bool) (dim : Nat) (r : BM) : List BV → Res (List BV)
  | [] => .ok []
  | v :: l => do
    let w ← r.mulVec nd dim v
    Res.assertIn nd (w.size = r.rows)
    pure (w :: (← applyLoop nd dim r l))

/-- `apply` (subquotient.cpp L148-163) -/
def Sub.apply (nd : Bool) (dim : Nat) (s : Sub) (r : BM) : Res Sub := do
  Res.assertIn nd (r.columns = s.rank)
  let b ← applyLoop nd dim r s.basis
  Sub.ofVectors nd dim b r.rows

/-! ### `Subquotient` -/

/-- `Subquotient<dim>` (subquotient.h L144-170) -/
structure Subq where
  space : Sub
  sub : Sub
  rel : Nat
  deriving DecidableEq, Repr

/-- the loop of `BitSet::slice` (bitset.cpp L50-53) over the members of `c` -/
def bsSliceLoop (dim val : Nat) : List Nat → Nat → Nat → Res Nat
  | [], _, r => .ok r
  | i :: l, count, r => do
    if ← bsTest dim val i then bsSliceLoop dim val l (count + 1) (← bsSet dim r count true) else bsSliceLoop dim val l (count + 1) r

/-- `BitSet::slice` (bitset.cpp L44-54) -/
def bsSlice (dim val c : Nat) : Res Nat := bsSliceLoop dim val (members c) 0 0

/-- difference of sets, `operator-` (bitset.h L374-375) -/
def bsDiff (a b : Nat) : Nat := a ^^^ (a &&& b)

/-- the relative support (subquotient.cpp L195-196, L211-212) -/
def relSupport (dim : Nat) (space sub : Sub) : Res Nat := bsSlice dim (bsDiff space.support sub.support) space.support

/-- constructor (subquotient.cpp L185-198) -/
def Subq.make (nd : Bool) (dim : Nat) (bsp bsub : List BV) (n : Nat) : Res Subq := do
  let space ← Sub.ofVectors nd dim bsp n
  let sub ← Sub.ofVectors nd dim bsub n
  Res.assertIn nd (← (if nd then pure true else space.containsAll nd dim bsub : Res Bool))
  Res.assertIn nd (bsDiff sub.support space.support = 0)
  pure ⟨space, sub, ← relSupport dim space sub⟩

/-- `dimension` (subquotient.h L190-191) -/
def Subq.dimension (q : Subq) : Nat := q.space.dimension - q.sub.dimension

/-- the loop of `basis` (subquotient.h L205-206), over the members of the relative support -/
def subqBasisLoop (nd : Bool) (space : Sub) : List Nat → Res (List BV)
  | [] => .ok []
  | i :: l => do
    let b ← space.basisAt nd i
    pure (b :: (← subqBasisLoop nd space l))

/-- `basis` (subquotient.h L203-208) -/
def Subq.basis (nd : Bool) (q : Subq) : Res (List BV) := subqBasisLoop nd q.space (members q.rel)

/-- `toBasis` (subquotient.h L243-256) -/
def Subq.toBasis (nd : Bool) (dim : Nat) (q : Subq) (v : BV) : Res BV := do
  let result ← q.sub.representative nd dim v
  let result ← q.space.toBasis nd dim result
  Res.assertIn nd (result.size = q.space.dimension)
  let result ← result.slice dim q.rel
  Res.assertIn nd (result.size = q.dimension)
  pure result

/-- `fromBasis` (subquotient.h L259-265) -/
def Subq.fromBasis (nd : Bool) (dim : Nat) (q : Subq) (v : BV) : Res BV := do
  Res.assertIn nd (v.size = q.dimension)
  let v ← v.unslice dim q.rel q.space.dimension
  q.space.fromBasis nd dim v

/-- `apply` (subquotient.cpp L204-213) -/
def Subq.apply (nd : Bool) (dim : Nat) (q : Subq) (r : BM) : Res Subq := do
  let space ← q.space.apply nd dim r
  let sub ← q.sub.apply nd dim r
  pure ⟨space, sub, ← relSupport dim space sub⟩

/-- `addColumn` (bitvector.h L453-456) -/
def BM.addColumn (nd : Bool) (A : BM) (v : BV) : Res BM := do
  Res.assertIn nd (v.size = A.rows)
  pure ⟨A.cols ++ [v.data], A.rows, A.columns + 1⟩

/-- the loop of `subquotientMap` (subquotient.cpp L273-294), over the members of the support of the source -/
def subqMapLoop (nd : Bool) (dim : Nat) (source dest : Subq) (m : BM) : List Nat → BM → Res BM
  | [], result => .ok result
  | i :: l, result => do
    let v ← m.mulVec nd dim (← source.space.basisAt nd i)
    Res.assertIn nd (v.size = dest.space.rank)
    let v ← dest.toBasis nd dim v
    Res.assertIn nd (v.size = dest.dimension)
    subqMapLoop nd dim source dest m l (← result.addColumn nd v)

/-- `subquotientMap` (subquotient.cpp L261-296) -/
def subquotientMap (nd : Bool) (dim : Nat) (source dest : Subq) (m : BM) : Res BM := do
  Res.assertIn nd (m.columns = source.space.rank)
  Res.assertIn nd (m.rows = dest.space.rank)
  let result ← BM.zero nd dim dest.dimension 0
  subqMapLoop nd dim source dest m (members source.rel) result

end Verif.F2
