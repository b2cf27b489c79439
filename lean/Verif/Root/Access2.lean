import Verif.Root.Access
/-
Model of some functions that use the accessors of `RootSystem` (sources/structure/rootdata.cpp L1516-1541, L1741-1759).
-/
namespace Verif.Root.RS

/-- the loop deciding whether a component adheres to `alpha` (rootdata.cpp L1527-1528) -/
def stick (rs : RS) (alpha : Nat) : List Nat → Res Bool
  | [] => .ok false
  | beta :: bs => do
    if ← rs.isOrthogonal alpha beta then stick rs alpha bs else .ok true

/-- the loop over the components found so far (rootdata.cpp L1524-1533): those that stay, and those that adhere to `alpha` -/
def adhereLoop (rs : RS) (alpha : Nat) : List (List Bool) → List (List Bool) → List (List Bool) → Res (List (List Bool) × List (List Bool))
  | [], stay, adh => .ok (stay, adh)
  | c :: cs, stay, adh => do
    if ← stick rs alpha (members c) then adhereLoop rs alpha cs stay (adh ++ [c]) else adhereLoop rs alpha cs (stay ++ [c]) adh

/-- the loop uniting the components that adhere (rootdata.cpp L1537-1538) -/
def uniteLoop : List (List Bool) → List Bool → List Bool
  | [], c => c
  | d :: ds, c => uniteLoop ds (orBits c d)

/-- the loop over the roots (rootdata.cpp L1521-1539) -/
def compLoop (rs : RS) (cap : Nat) : List Nat → List (List Bool) → Res (List (List Bool))
  | [], r => .ok r
  | alpha :: as, r => do
    let (stay, adh) ← adhereLoop rs alpha r [] []
    let c ← bitSet (List.replicate cap false) alpha
    compLoop rs cap as (stay ++ [uniteLoop adh c])

/-- `components` (rootdata.cpp L1516-1541) -/
def components (rs : RS) (roots : List Bool) : Res (List (List Bool)) := compLoop rs roots.length (members roots) []

/-- the loop of `is_long_root` (rootdata.cpp L1744-1746) -/
def longRootLoop (rs : RS) (a : Nat) : List Nat → Res Bool
  | [] => .ok false
  | j :: js => do if (← rs.bracket a j) < -1 then .ok true else longRootLoop rs a js

/-- `is_long_root` (rootdata.cpp L1741-1748) -/
def isLongRoot (nd : Bool) (rs : RS) (alpha : Nat) : Res Bool := do
  let (_, s) ← rs.conjugate nd alpha
  longRootLoop rs (rs.numPos - 1 - s) (List.range rs.numPos)

/-- the loop of `is_long_coroot` (rootdata.cpp L1753-1755) -/
def longCorootLoop (rs : RS) (a : Nat) : List Nat → Res Bool
  | [] => .ok false
  | i :: is => do if (← rs.bracket i a) < -1 then .ok true else longCorootLoop rs a is

/-- `is_long_coroot` (rootdata.cpp L1750-1757) -/
def isLongCoroot (nd : Bool) (rs : RS) (alpha : Nat) : Res Bool := do
  let (_, s) ← rs.conjugate nd alpha
  longCorootLoop rs (rs.numPos - 1 - s) (List.range rs.numPos)

/-! ### maximal orthogonal sets of noncompact roots -/

/-- the inner loop of `max_orth` (gradings.cpp L67-71): remaining candidates and noncompact roots -/
def maxInner (rs : RS) (alpha : Nat) : List Nat → List Bool → List Bool → Res (List Bool × List Bool)
  | [], sub, ncr => .ok (sub, ncr)
  | k :: ks, sub, ncr => do
    if !(← rs.isOrthogonal alpha k) then do maxInner rs alpha ks (← Vec.put sub k false) ncr
    else if ← rs.sumIsRoot alpha k then do maxInner rs alpha ks sub (← Vec.put ncr k (!(← Vec.get ncr k)))
    else maxInner rs alpha ks sub ncr

/-- the loop of `max_orth` (gradings.cpp L63-74), with a bound on the number of passes -/
def maxLoop (rs : RS) : Nat → List Bool → List Bool → List Bool → Res (List Bool)
  | 0, _, _, _ => .outOfFuel
  | f + 1, sub, ncr, result =>
    match members ncr with
    | [] => .ok result
    | alpha :: _ => do
      let result ← bitSet result alpha
      let (sub, ncr) ← maxInner rs alpha (members sub) sub ncr
      maxLoop rs f sub (andBits ncr sub) result

/-- `gradings::max_orth` (gradings.cpp L51-76) -/
def maxOrth (nd : Bool) (rs : RS) (nonCompact subsys : List Bool) : Res (List Bool) := do
  let r ← maxLoop rs (rs.numRoots + 1) (andBits subsys rs.posSet) (andBits nonCompact rs.posSet) (List.replicate rs.numRoots false)
  rs.longOrthogonalize nd r

end Verif.Root.RS
