import Verif.Common
import Verif.Poly.Model
import Verif.KL.Spec

/-!
# Model of the computation of Kazhdan-Lusztig-Vogan polynomials

Modelled: `klsupport::KLSupport` (klsupport.h, klsupport.cpp), `kl::KL_table` (kl.h, kl.cpp) with
its two recursions, and `down_set` (blocks.cpp).

Conventions.
* A block element that can be `UndefBlock` is an `Option Nat`, with `none` for `UndefBlock`.
* A `RankFlags` is the increasing list of its members; `firstBit` is the head of that list.
* Where the program stores the index of a polynomial in a hash table, the model stores the
  polynomial itself (the hash table is the subject of other claims); a polynomial is its list of
  coefficients as in `Verif.Poly.Model`, and `M` is the number of values of `KLCoeff` (`2^32`).
* `nd` tells whether the program was compiled without assertions.
* Not modelled: memory exhaustion, interrupts, progress reports.
-/

namespace Verif.KL

open Verif.Poly (safeAdd safeAdd1 safeSubtract safeSubtract1 safeDivide safeQuotient)

/-- the data of `Block_base` that are used here, blocks.h 63-168 -/
structure Block where
  rank : Nat
  size : Nat
  length : Nat → Nat
  status : Nat → Nat → Status
  crossImage : Nat → Nat → Option Nat
  cayleyImage : Nat → Nat → Option Nat × Option Nat

abbrev Pol := List Nat

/-- the number by which the enumeration represents a status, descents.h 40-41 -/
def Status.toNat : Status → Nat
  | .complexAscent => 0 | .realNonparity => 1 | .imaginaryTypeI => 2 | .imaginaryTypeII => 3
  | .imaginaryCompact => 4 | .complexDescent => 5 | .realTypeII => 6 | .realTypeI => 7

/-- `DescentStatus::isDescent`, descents.h 71 -/
def isDescent (v : Status) : Bool := (v.toNat &&& 4) != 0

/-- `DescentStatus::isDirectRecursion`, descents.h 72-73 -/
def isDirectRecursion (v : Status) : Bool := (v.toNat &&& 5) == 5

namespace Block
variable (b : Block)

/-- `Block_base::cayley`, blocks.h 138-143 -/
def cayley (s x : Nat) : Option Nat × Option Nat :=
  if !isDescent (b.status s x) then b.cayleyImage s x else (none, none)

/-- `Block_base::inverseCayley`, blocks.h 145-150 -/
def inverseCayley (s x : Nat) : Option Nat × Option Nat :=
  if isDescent (b.status s x) then b.cayleyImage s x else (none, none)

/-- `Block_base::unique_ascent`, blocks.h 152-159 -/
def uniqueAscent (nd : Bool) (s x : Nat) : Res (Option Nat) :=
  if b.status s x = .complexAscent then .ok (b.crossImage s x)
  else do
    Res.assertIn nd (decide (b.status s x = .imaginaryTypeI))
    .ok (b.cayleyImage s x).1

/-- the loop over `z` in the constructor, klsupport.cpp 57-59: `z` runs from `z` over `n` more
elements; the inner loop pushes `z` until the size of the vector exceeds the length of `z` -/
def lengthStopLoop : Nat → Nat → List Nat → List Nat
  | _, 0, v => v
  | z, n+1, v => lengthStopLoop (z+1) n (v ++ List.replicate (b.length z + 1 - v.length) z)

/-- `KLSupport::length_stop`, klsupport.cpp 52-63 -/
def lengthStop : List Nat := b.lengthStopLoop 0 b.size [] ++ [b.size]

/-- `KLSupport::length_less`, klsupport.h 64-65 -/
def lengthLess (l : Nat) : Res Nat :=
  match b.lengthStop[l]? with | some z => .ok z | none => .undefined

/-- `KLSupport::length_floor`, klsupport.h 66 -/
def lengthFloor (y : Nat) : Res Nat := b.lengthLess (b.length y)

/-- `KLSupport::l`, klsupport.h 62-63; without assertions the difference wraps -/
def lDiff (nd : Bool) (y x : Nat) : Res Nat := do
  Res.assertIn nd (decide (b.length x ≤ b.length y))
  .ok ((b.length y + 2^16 - b.length x) % 2^16)

/-- `KLSupport::descent_set`, klsupport.cpp 76-88; computed once for all elements by the
constructor -/
def descentSet (x : Nat) : List Nat :=
  (List.range b.rank).filter (fun s => isDescent (b.status s x))

/-- `KLSupport::good_ascent_set`, klsupport.cpp 76-88 -/
def goodAscentSet (x : Nat) : List Nat :=
  (List.range b.rank).filter
    (fun s => !isDescent (b.status s x) && decide (b.status s x ≠ .imaginaryTypeII))

/-- `KLSupport::ascent_descent`, klsupport.h 80-82; `none` when there is no bit -/
def ascentDescent (x y : Nat) : Option Nat :=
  ((b.descentSet y).filter (fun s => decide (s ∉ b.descentSet x))).head?

/-- `KLSupport::is_extremal`, klsupport.h 121-122 -/
def isExtremal (x : Nat) (A : List Nat) : Bool := A.all (fun s => decide (s ∈ b.descentSet x))

/-- `KLSupport::is_primitive`, klsupport.h 123-124 -/
def isPrimitive (x : Nat) (A : List Nat) : Bool :=
  ((b.goodAscentSet x).filter (fun s => decide (s ∈ A))).isEmpty

/-- `KLSupport::prim_back_up`, klsupport.h 138-142 -/
def primBackUp (A : List Nat) : Nat → Option Nat
  | 0 => none
  | x+1 => if b.isPrimitive x A then some x else primBackUp A x

/-- `down_set`, blocks.cpp 204-229.  The list is built from the front, then sorted and freed of
repetitions by methods that are the subject of other claims.  An `UndefBlock` in the list is
taken as an error; the theorems show that none occurs. -/
def downSetFrom (y : Nat) : List Nat → List Nat → Res (List Nat)
  | [], acc => .ok ((acc.mergeSort (fun a c => decide (a ≤ c))).dedup)
  | s :: l, acc =>
    match b.status s y with
    | .complexDescent =>
      match b.crossImage s y with
      | some x => downSetFrom y l (x :: acc)
      | none => .undefined
    | .realTypeI =>
      match b.inverseCayley s y with
      | (some x, some x') => downSetFrom y l (x' :: x :: acc)
      | _ => .undefined
    | .realTypeII =>
      match (b.inverseCayley s y).1 with
      | some x => downSetFrom y l (x :: acc)
      | none => .undefined
    | _ => downSetFrom y l acc

def downSet (y : Nat) : Res (List Nat) := b.downSetFrom y (b.descentSet y) []

/-- `KL_table::first_direct_recursion`, kl.cpp 255-266 -/
def firstDirectRecursion (y : Nat) : Option Nat :=
  (List.range b.rank).find? (fun s => isDirectRecursion (b.status s y))

/-- `KL_table::first_nice_and_real`, kl.cpp 276-294 -/
def firstNiceAndReal (x y : Nat) : Option Nat :=
  (List.range b.rank).find? (fun s =>
    decide (b.status s y = .realNonparity) &&
      (decide (b.status s x = .complexAscent) || decide (b.status s x = .imaginaryTypeII) ||
        decide (b.status s x = .imaginaryCompact)))

/-- the inner loop of `first_endgame_pair`, kl.cpp 338-342 -/
def endgameT (sx y : Nat) : Option Nat :=
  (List.range b.rank).find? (fun t =>
    decide (b.status t y = .realTypeII) &&
      (decide (b.status t sx = .imaginaryTypeI) || decide (b.status t sx = .imaginaryTypeII)))

/-- `KL_table::first_endgame_pair`, kl.cpp 323-346: `none` for failure, `some (s,none)` for a
second component equal to the rank -/
def endgameLoop (x y : Nat) : List Nat → Option (Nat × Option Nat)
  | [] => none
  | s :: l =>
    if b.status s y = .realNonparity ∧ b.status s x = .imaginaryTypeI then
      match b.crossImage s x with
      | none => some (s, none)
      | some sx =>
        match b.endgameT sx y with
        | some t => some (s, some t)
        | none => endgameLoop x y l
    else endgameLoop x y l

def firstEndgamePair (x y : Nat) : Option (Nat × Option Nat) :=
  b.endgameLoop x y (List.range b.rank)

end Block

/-- `KLSupport::prim_index_tp`, klsupport.h 43-48 -/
structure PrimRec where
  index : List Nat
  range : Nat

/-- the data members of `KL_table` and its base `KLSupport` that change: the records that have
been prepared, the columns `d_KL` and `d_mu`, and the set `d_holes` in increasing order; kl.h 72-78,
klsupport.h 49 -/
structure Table where
  prim : List (List Nat × PrimRec)
  kl : List (List Pol)
  mu : List (List (Nat × Nat))
  holes : List Nat

/-- the constructor of `KL_table`, kl.cpp 91-101 -/
def Table.new (b : Block) : Table :=
  ⟨[], List.replicate b.size [], List.replicate b.size [], List.range b.size⟩

section
variable (nd : Bool) (M : Nat) (b : Block)

/-- the descending loop of `KLSupport::fill_prim_index`, klsupport.cpp 116-137; the value
`dead_end` is `none`, and the slots start off as zero -/
def primLoop (A : List Nat) : Nat → List (Option Nat) → Nat → Res (List (Option Nat) × Nat)
  | 0, idx, count => .ok (idx, count)
  | x+1, idx, count =>
    match (b.goodAscentSet x).filter (fun s => decide (s ∈ A)) with
    | [] => primLoop A x (idx.set x (some count)) (count + 1)
    | s :: _ =>
      if b.status s x = .realNonparity then primLoop A x (idx.set x none) count
      else do
        let sz ← b.uniqueAscent nd s x
        match sz with
        | none => primLoop A x (idx.set x none) count
        | some z =>
          match idx[z]? with
          | none => .undefined
          | some v => primLoop A x (idx.set x v) count

/-- `KLSupport::fill_prim_index`, klsupport.cpp 109-144 -/
def fillPrimIndex (A : List Nat) : Res PrimRec := do
  let r ← primLoop nd b A b.size (List.replicate b.size (some 0)) 0
  .ok ⟨r.1.map (fun slot => match slot with | none => r.2 | some v => r.2 - 1 - v), r.2⟩

/-- `KLSupport::prepare_prim_index`, klsupport.h 97-102 -/
def preparePrimIndex (t : Table) (A : List Nat) : Res Table :=
  match t.prim.lookup A with
  | some _ => .ok t
  | none => do
    let r ← fillPrimIndex nd b A
    .ok { t with prim := (A, r) :: t.prim }

/-- the record for a descent set; use of one that is not prepared fails an assertion, or is
undefined without assertions -/
def record (t : Table) (A : List Nat) : Res PrimRec :=
  match t.prim.lookup A with
  | some r => .ok r
  | none => if nd then .undefined else .assertFail

/-- `KLSupport::prim_index`, klsupport.h 104-108 -/
def primIndex (t : Table) (x : Option Nat) (A : List Nat) : Res Nat := do
  let r ← record nd t A
  match x with
  | none => .ok r.range
  | some x => match r.index[x]? with | some i => .ok i | none => .undefined

/-- `KLSupport::self_index`, klsupport.h 117-118 -/
def selfIndex (t : Table) (y : Nat) : Res Nat := primIndex nd t (some y) (b.descentSet y)

/-- `KLSupport::col_size`, klsupport.h 145-148 -/
def colSize (t : Table) (y : Nat) : Res Nat := do
  let f ← b.lengthFloor y
  match b.primBackUp (b.descentSet y) f with
  | some x => do
    let i ← primIndex nd t (some x) (b.descentSet y)
    .ok (i + 1)
  | none => .ok 0

/-- `KL_table::KL_pol`, kl.cpp 124-132 (and `KL_pol_index`, kl.cpp 135-143) -/
def klPol (t : Table) (x : Option Nat) (y : Nat) : Res Pol :=
  match t.kl[y]? with
  | none => .undefined
  | some col => do
    let inx ← primIndex nd t x (b.descentSet y)
    match col[inx]? with
    | some p => .ok p
    | none => do
      let si ← selfIndex nd b t y
      .ok (if inx = si then [1] else [])

/-- `KL_table::mu`, kl.cpp 150-154 -/
def muVal (t : Table) (x y : Nat) : Res Nat := do
  let p ← klPol nd b t (some x) y
  if p.isEmpty then .ok 0
  else do
    let l ← b.lDiff nd y x
    .ok (if 2 * (p.length - 1) + 1 < l then 0 else p.getD (p.length - 1) 0)

/-- `p.safeAdd(q,d)` as a call that can throw -/
def addTo (p q : Pol) (d : Nat) : Res Pol :=
  let r := safeAdd1 M false p q d
  if r.1 then .throw else .ok r.2

/-- `p.safeAdd(p,1)`, where the argument is the object itself -/
def addSelf (p : Pol) : Res Pol :=
  let r := safeAdd1 M true p p 1
  if r.1 then .throw else .ok r.2

/-- `p.safeAdd(q,d,c)` -/
def addMul (p q : Pol) (d c : Nat) : Res Pol :=
  let r := safeAdd M false p q d c
  if r.1 then .throw else .ok r.2

/-- the `switch` of `recursion_column`, kl.cpp 414-454 -/
def recTerm (t : Table) (s sy x : Nat) : Res Pol :=
  match b.status s x with
  | .imaginaryCompact => do
    let p ← klPol nd b t (some x) sy
    addSelf M p
  | .complexDescent => do
    let p ← klPol nd b t (b.crossImage s x) sy
    let r ← klPol nd b t (some x) sy
    addTo M p r 1
  | .realTypeI => do
    let p ← klPol nd b t (b.inverseCayley s x).1 sy
    let p2 ← klPol nd b t (b.inverseCayley s x).2 sy
    let p ← addTo M p p2 0
    let r ← klPol nd b t (some x) sy
    let p ← addTo M p r 1
    safeSubtract1 nd M false p r 0
  | .realTypeII => do
    let p ← klPol nd b t (b.inverseCayley s x).1 sy
    let r ← klPol nd b t (some x) sy
    let p ← addTo M p r 1
    let c ← klPol nd b t (b.crossImage s x) sy
    safeSubtract1 nd M false p c 0
  | _ => if nd then .ok [] else .assertFail

/-- the assertion on the degree in `recursion_column`, kl.cpp 457-460; evaluated only in a build
with assertions -/
def recAssert (t : Table) (y sy x : Nat) (p : Pol) : Res Unit :=
  if nd ∨ p.isEmpty then .ok ()
  else do
    let l ← b.lDiff nd y x
    if 2 * (p.length - 1) < l then .ok ()
    else do
      let m ← muVal nd b t x sy
      Res.assert (decide (2 * (p.length - 1) = l ∧ p.getD (p.length - 1) 0 = m))

/-- the loop over the extremal elements in `recursion_column`, kl.cpp 408-461 -/
def recLoop (t : Table) (y s sy : Nat) : List Nat → Res (List Pol)
  | [] => .ok []
  | x :: l => do
    let p ← recTerm nd M b t s sy x
    recAssert nd b t y sy x p
    let r ← recLoop t y s sy l
    .ok (p :: r)

/-- the constructor `KLPol(d,c)` of a monomial, polynomials_def.h 62-67 -/
def monoPol (d c : Nat) : Res Pol := do
  Res.assertIn nd (decide (c ≠ 0))
  .ok (List.replicate d 0 ++ [c])

/-- the end of the treatment of one `z` in `mu_correction`, kl.cpp 525-531: advance to the entry
for `z`, and subtract there the monomial -/
def muFinal (z d c : Nat) : List Nat → List Pol → Res (List Pol)
  | x :: xs, p :: ps =>
    if x ≠ z then do
      let r ← muFinal z d c xs ps
      .ok (p :: r)
    else do
      Res.assertIn nd (decide (p.length = d + 1 ∧ p.getD d 0 = c))
      let m ← monoPol nd d c
      let p' ← safeSubtract1 nd M false p m 0
      .ok (p' :: ps)
  | _, _ => .undefined

/-- the treatment of one `z` in `mu_correction`, kl.cpp 505-531 -/
def muInner (t : Table) (A : List Nat) (z d c : Nat) : List Nat → List Pol → Res (List Pol)
  | x :: xs, p :: ps =>
    if b.length x < b.length z then do
      let pol ← klPol nd b t (some x) z
      let p' ← if c = 1 then safeSubtract1 nd M false p pol d else safeSubtract nd M false p pol d c
      let r ← muInner t A z d c xs ps
      .ok (p' :: r)
    else if b.isExtremal z A then muFinal nd M z d c (x :: xs) (p :: ps)
    else .ok (p :: ps)
  | [], [] => if b.isExtremal z A then .undefined else .ok []
  | _, _ => .undefined

/-- `KL_table::mu_correction`, kl.cpp 486-535; the list of pairs is traversed backwards -/
def muCorrection (t : Table) (ext : List Nat) (A : List Nat) (sy s : Nat) :
    List (Nat × Nat) → List Pol → Res (List Pol)
  | [], klv => .ok klv
  | (z, c) :: l, klv => do
    let klv ←
      if isDescent (b.status s z) then
        muInner nd M b t A z ((b.length sy + 1 - b.length z) / 2) c ext klv
      else .ok klv
    muCorrection t ext A sy s l klv

/-- the extremal elements of length less than that of `y`, kl.cpp 399-402 -/
def extremals (y : Nat) : Res (List Nat) := do
  let f ← b.lengthFloor y
  .ok ((List.range f).filter (fun x => b.isExtremal x (b.descentSet y)))

/-- `KL_table::recursion_column`, kl.cpp 387-466 -/
def recursionColumn (t : Table) (y s : Nat) : Res (List Pol) := do
  let osy := if b.status s y = .complexDescent then b.crossImage s y else (b.inverseCayley s y).1
  match osy with
  | none => .undefined
  | some sy => do
    let _ ← colSize nd b t y
    let ext ← extremals b y
    let klv ← recLoop nd M b t y s sy ext
    match t.mu[sy]? with
    | none => .undefined
    | some mcol => muCorrection nd M b t ext (b.descentSet y) sy s mcol.reverse klv

/-- the primitive elements below a limit, in decreasing order: the values that the loops controlled
by `prim_back_up` give to `x` -/
def primsDown (A : List Nat) (limit : Nat) : List Nat :=
  ((List.range limit).filter (fun x => b.isPrimitive x A)).reverse

/-- replace the column of `y` -/
def Table.setCol (t : Table) (y : Nat) (c : List Pol) : Table := { t with kl := t.kl.set y c }

/-- the loop of `complete_primitives`, kl.cpp 561-582.  `pos` counts the slots of the column not
yet written, `klv` are the polynomials not yet read (backwards), `mus` the pairs found. -/
def completeLoop (y : Nat) : List Nat → Table → Nat → List Pol → List (Nat × Nat) →
    Res (Table × Nat × List Pol × List (Nat × Nat))
  | [], t, pos, klv, mus => .ok (t, pos, klv, mus)
  | x :: l, t, pos, klv, mus =>
    match t.kl[y]?, pos with
    | some col, pos+1 =>
      if b.isExtremal x (b.descentSet y) then
        match klv with
        | [] => .undefined
        | p :: klv =>
          completeLoop y l (t.setCol y (col.set pos p)) pos klv
            (if !p.isEmpty ∧ b.length y = b.length x + 2 * (p.length - 1) + 1 then
              (x, p.getD (p.length - 1) 0) :: mus else mus)
      else
        match b.ascentDescent x y with
        | none => .undefined
        | some s => do
          Res.assertIn nd (decide (b.status s x = .imaginaryTypeII))
          let p1 ← klPol nd b t (b.cayley s x).1 y
          let p2 ← klPol nd b t (b.cayley s x).2 y
          let p ← addTo M p1 p2 0
          completeLoop y l (t.setCol y (col.set pos p)) pos klv mus
    | _, _ => .undefined

/-- `KL_table::complete_primitives`, kl.cpp 550-597 -/
def completePrimitives (t : Table) (klv : List Pol) (y : Nat) : Res Table := do
  let h ← colSize nd b t y
  let f ← b.lengthFloor y
  let r ← completeLoop nd M b y (primsDown b (b.descentSet y) f)
    (t.setCol y (List.replicate h [])) h klv.reverse []
  Res.assertIn nd (decide (r.2.1 = 0))
  Res.assertIn nd r.2.2.1.isEmpty
  let ds ← b.downSet y
  let mus := r.2.2.2.merge (ds.map (fun x => (x, 1))) (fun a c => decide (a.1 ≤ c.1))
  .ok { r.1 with mu := r.1.mu.set y mus }

/-- `KL_table::mu_new_formula`, kl.cpp 819-847 -/
def muNewFormula (t : Table) (x y s : Nat) : List (Nat × Nat) → Pol → Res Pol
  | [], pol => .ok pol
  | (z, c) :: l, pol =>
    if b.length z ≤ b.length x then .ok pol
    else if !isDescent (b.status s z) then muNewFormula t x y s l pol
    else do
      let pxz ← klPol nd b t (some x) z
      let d := (b.length y - b.length z + 1) / 2
      let pol ← if c = 1 then addTo M pol pxz d else addMul M pol pxz d c
      muNewFormula t x y s l pol

/-- the lambda `KL_y` of `new_recursion_column`, kl.cpp 652-653 -/
def klY (t : Table) (A : List Nat) (cur : List Pol) (x : Option Nat) : Res Pol := do
  let i ← primIndex nd t x A
  match cur[i]? with | some p => .ok p | none => .undefined

/-- the polynomial computed for `x` in the loop of `new_recursion_column`, kl.cpp 672-776, and
whether the test for a nonzero mu is made on it: `none` if not, otherwise whether it is made after
a test for the zero polynomial -/
def newTerm (t : Table) (y x : Nat) (cur : List Pol) (slot : Pol) (mus : List (Nat × Nat)) :
    Res (Pol × Option Bool) := do
  let A := b.descentSet y
  match b.ascentDescent x y with
  | some s => do
    Res.assertIn nd (decide (b.status s x = .imaginaryTypeII))
    let p1 ← klY nd t A cur (b.cayley s x).1
    let p2 ← klY nd t A cur (b.cayley s x).2
    let p ← addTo M p1 p2 0
    .ok (p, none)
  | none =>
    match b.firstNiceAndReal x y with
    | some s => do
      let p ← muNewFormula nd M b t x y s mus []
      match b.status s x with
      | .complexAscent => do
        let r ← klY nd t A cur (b.crossImage s x)
        let p ← safeSubtract1 nd M false p r 1
        .ok (p, some true)
      | .imaginaryTypeII => do
        let p1 ← klY nd t A cur (b.cayley s x).1
        let p2 ← klY nd t A cur (b.cayley s x).2
        let sum ← addTo M p1 p2 0
        let p ← addTo M p sum 0
        let p ← safeSubtract1 nd M false p sum 1
        let p ← safeDivide nd p 2
        .ok (p, some true)
      | .imaginaryCompact => do
        let p ← safeQuotient nd M p (b.length y - b.length x)
        .ok (p, some true)
      | _ => if nd then .ok (p, some true) else .assertFail
    | none =>
      match b.firstEndgamePair x y with
      | some (s, ot) => do
        let p ← muNewFormula nd M b t x y s mus []
        let r ← klY nd t A cur (b.cayley s x).1
        let p ← addTo M p r 0
        let p ← safeSubtract1 nd M false p r 1
        match ot with
        | none => .ok (p, some false)
        | some t' =>
          match b.crossImage s x with
          | none => .undefined
          | some sx => do
            let r1 ← klY nd t A cur (b.cayley t' sx).1
            let p ← safeSubtract1 nd M false p r1 0
            let r2 ← klY nd t A cur (b.cayley t' sx).2
            let p ← safeSubtract1 nd M false p r2 0
            .ok (p, some false)
      | none => do
        Res.assertIn nd slot.isEmpty
        .ok (slot, none)

/-- the test for a nonzero mu, kl.cpp 719-720 and 774-775; the latter does not test for the zero
polynomial, whose degree is then the largest value of `unsigned int` -/
def newMu (x y : Nat) (p : Pol) : Option Bool → List (Nat × Nat) → List (Nat × Nat)
  | none, mus => mus
  | some true, mus =>
    if !p.isEmpty ∧ b.length y = b.length x + 2 * (p.length - 1) + 1 then
      mus ++ [(x, p.getD (p.length - 1) 0)] else mus
  | some false, mus =>
    if b.length y =
        (b.length x + 2 * (if p.isEmpty then 2^32 - 1 else p.length - 1) + 1) % 2^32 then
      mus ++ [(x, p.getD (p.length - 1) 0)] else mus

/-- the loop of `new_recursion_column`, kl.cpp 669-779 -/
def newLoop (t : Table) (y : Nat) : List Nat → List Pol → Nat → List (Nat × Nat) →
    Res (List Pol × Nat × List (Nat × Nat))
  | [], cur, pos, mus => .ok (cur, pos, mus)
  | x :: l, cur, pos, mus =>
    match pos with
    | 0 => .undefined
    | pos+1 => do
      let slot ← match cur[pos]? with | some p => Res.ok p | none => .undefined
      let r ← newTerm nd M b t y x cur slot mus
      newLoop t y l (cur.set pos r.1) pos (newMu b x y r.1 r.2 mus)

/-- `KL_table::new_recursion_column`, kl.cpp 643-797 -/
def newRecursionColumn (t : Table) (y : Nat) : Res Table := do
  let A := b.descentSet y
  let h ← colSize nd b t y
  let np ← (do let r ← record nd t A; .ok r.range)
  let si ← selfIndex nd b t y
  if np + 1 ≤ si then .undefined
  else do
    let ds ← b.downSet y
    let f ← b.lengthLess (b.length y)
    if np + 1 < h then .undefined
    else do
      let r ← newLoop nd M b t y (primsDown b A f) ((List.replicate (np + 1) []).set si [1]) h
        (ds.map (fun x => (x, 1)))
      Res.assertIn nd (decide (r.2.1 = 0))
      let mus := (r.2.2.drop ds.length).reverse.merge (r.2.2.take ds.length)
        (fun a c => decide (a.1 ≤ c.1))
      .ok { t with kl := t.kl.set y ((t.kl.getD y []) ++ r.1.take h), mu := t.mu.set y mus }

/-- `KL_table::fill_KL_column`, kl.cpp 356-370 -/
def fillColumn (t : Table) (y : Nat) : Res Table := do
  let t ← preparePrimIndex nd b t (b.descentSet y)
  match b.firstDirectRecursion y with
  | some s => do
    let klv ← recursionColumn nd M b t y s
    completePrimitives nd M b t klv y
  | none => newRecursionColumn nd M b t y

/-- the loop of `KL_table::silent_fill`, kl.cpp 858-863; the exception for numeric overflow is
turned into another one -/
def fillLoop : List Nat → Table → Res Table
  | [], t => .ok t
  | y :: l, t => do
    let t ← fillColumn nd M b t y
    fillLoop l { t with holes := t.holes.erase y }

/-- `KL_table::fill`, kl.cpp 194-227, when not verbose -/
def fill (t : Table) (limit : Nat) : Res Table :=
  let limit := if limit = 0 then b.size else limit
  match t.holes.head? with
  | none => .ok t
  | some h => if limit ≤ h then .ok t
    else fillLoop nd M b (t.holes.takeWhile (fun y => decide (y < limit))) t

end

end Verif.KL
