import Verif.Root.Model
/-
Model of the accessors of `RootSystem` (sources/structure/rootdata.h L192-377, rootdata.cpp L352-822) and of some functions using them.

Simplifications, besides those of `Verif.Root.Model`: a loop over a `BitMap` that is modified while it runs is a loop over all positions
that tests each position when it gets there.  The iterator (bitmap.cpp L630-662) reads the map anew at each increment, so it stops at
exactly those positions.
-/
namespace Verif.Root.RS

/-- `numPosRoots` (rootdata.h L205) -/
def numPos (rs : RS) : Nat := rs.roots.length

/-- `numRoots` (rootdata.h L206) -/
def numRoots (rs : RS) : Nat := 2 * rs.numPos

/-- `is_posroot` (rootdata.h L255-256) -/
def isPos (rs : RS) (a : Nat) : Bool := decide (rs.numPos ≤ a)

/-- `is_negroot` (rootdata.h L258-259) -/
def isNeg (rs : RS) (a : Nat) : Bool := decide (a < rs.numPos)

/-- `is_simple_root` (rootdata.h L252-253): the difference is taken modulo 65536 -/
def isSimple (rs : RS) (a : Nat) : Bool := decide (((a : Int) - rs.numPos) % 65536 < rs.rk)

/-- `simpleRootNbr` (rootdata.h L261-262) -/
def simpleNbr (nd : Bool) (rs : RS) (i : Nat) : Res Nat := do
  Res.assertIn nd (decide (i < rs.rk))
  .ok (rs.numPos + i)

/-- `posRootNbr` (rootdata.h L264-265) -/
def posNbr (nd : Bool) (rs : RS) (a : Nat) : Res Nat := do
  Res.assertIn nd (decide (a < rs.numPos))
  .ok (rs.numPos + a)

/-- `negRootNbr` (rootdata.h L267-268), for `a` at most the number of positive roots minus one -/
def negNbr (nd : Bool) (rs : RS) (a : Nat) : Res Nat := do
  Res.assertIn nd (decide (a < rs.numPos))
  .ok (rs.numPos - 1 - a)

/-- `rootMinus` (rootdata.h L279-280), for `a` less than the number of roots -/
def minus (rs : RS) (a : Nat) : Nat := rs.numRoots - 1 - a

/-- `rt_abs` (rootdata.h L282-283) -/
def rtAbs (rs : RS) (a : Nat) : Nat := if rs.isPos a then a - rs.numPos else rs.numPos - 1 - a

/-- `root_expr_coef` (rootdata.h L229-230) -/
def rootCoef (rs : RS) (a i : Nat) : Res Int := do
  let v ← Vec.get (← Vec.get rs.roots (rs.rtAbs a)) i
  .ok (if rs.isNeg a then -v else v)

/-- `coroot_expr_coef` (rootdata.h L231-232) -/
def corootCoef (rs : RS) (a i : Nat) : Res Int := do
  let v ← Vec.get (← Vec.get rs.coroots (rs.rtAbs a)) i
  .ok (if rs.isNeg a then -v else v)

/-- `root_expr` (rootdata.cpp L359-366) -/
def rootExpr (rs : RS) (a : Nat) : Res BV := do
  let e ← Vec.get rs.roots (rs.rtAbs a)
  .ok (if rs.isNeg a then e.map (· * -1) else e)

/-- `coroot_expr` (rootdata.cpp L369-376) -/
def corootExpr (rs : RS) (a : Nat) : Res BV := do
  let e ← Vec.get rs.coroots (rs.rtAbs a)
  .ok (if rs.isNeg a then e.map (· * -1) else e)

/-- the loops of `level` and `colevel` (rootdata.cpp L382-383, L393-395) -/
def sumLoop : BV → Int → Int
  | [], r => r
  | x :: v, r => sumLoop v (r + x)

/-- `level` (rootdata.cpp L378-387) -/
def level (rs : RS) (a : Nat) : Res Int := do
  let r := sumLoop (← Vec.get rs.roots (rs.rtAbs a)) 0
  .ok (if rs.isNeg a then r * -1 else r)

/-- `colevel` (rootdata.cpp L389-399) -/
def colevel (rs : RS) (a : Nat) : Res Int := do
  let r := sumLoop (← Vec.get rs.coroots (rs.rtAbs a)) 0
  .ok (if rs.isNeg a then r * -1 else r)

/-- `simple_root_set` (rootdata.cpp L465-470) -/
def simpleSet (rs : RS) : List Bool := (List.range rs.numRoots).map fun k => decide (rs.numPos ≤ k ∧ k < rs.numPos + rs.rk)

/-- `posroot_set` (rootdata.cpp L489-494) -/
def posSet (rs : RS) : List Bool := (List.range rs.numRoots).map fun k => decide (rs.numPos ≤ k ∧ k < rs.numRoots)

/-- the loop of `simple_root_list` (rootdata.cpp L484-485) -/
def simpleListLoop (nd : Bool) (rs : RS) : List Nat → Res (List Nat)
  | [] => .ok []
  | i :: is => do
    let x ← rs.simpleNbr nd i
    .ok (x :: (← simpleListLoop nd rs is))

/-- `simple_root_list` (rootdata.cpp L481-487) -/
def simpleList (nd : Bool) (rs : RS) : Res (List Nat) := simpleListLoop nd rs (List.range rs.rk)

/-- `BitMap::operator&=` for maps of the same capacity -/
def andBits (a b : List Bool) : List Bool := List.zipWith (· && ·) a b

/-- `BitMap::operator|` for maps of the same capacity -/
def orBits (a b : List Bool) : List Bool := List.zipWith (· || ·) a b

/-- the loop of `fundamental_alcove_walls` (rootdata.cpp L476-477) -/
def wallsLoop (nd : Bool) (rs : RS) : List Nat → List Bool → Res (List Bool)
  | [], b => .ok b
  | i :: is, b => do
    let k ← rs.posNbr nd i
    wallsLoop nd rs is (andBits b (← Vec.get rs.cobots k))

/-- `fundamental_alcove_walls` (rootdata.cpp L472-479) -/
def walls (nd : Bool) (rs : RS) : Res (List Bool) := do
  let low ← wallsLoop nd rs (List.range rs.rk) (rs.posSet.map (!·))
  .ok (orBits low rs.simpleSet)

/-- `simple_root_permutation(i)[r]`, which is `simple_reflected_root(i,r)` (rootdata.h L299-300, L325-326) -/
def simpleReflected (rs : RS) (i r : Nat) : Res Nat := do Vec.get (← Vec.get rs.perms i) r

/-- `descent_set` (rootdata.h L302-306) -/
def descentSet (rs : RS) (a : Nat) : Res (List Bool) := if rs.isPos a then Vec.get rs.desc (rs.rtAbs a) else Vec.get rs.asc (rs.rtAbs a)

/-- `ascent_set` (rootdata.h L307-311) -/
def ascentSet (rs : RS) (a : Nat) : Res (List Bool) := if rs.isPos a then Vec.get rs.asc (rs.rtAbs a) else Vec.get rs.desc (rs.rtAbs a)

/-- `find_descent` (rootdata.h L313-314) -/
def findDescent (rs : RS) (a : Nat) : Res Nat := do .ok (firstBit (← rs.descentSet a))

/-- `is_descent` (rootdata.h L316-317) -/
def isDescent (rs : RS) (i a : Nat) : Res Bool := do .ok (decide ((← rs.simpleReflected i a) < a))

/-- `is_ascent` (rootdata.h L319-320) -/
def isAscent (rs : RS) (i a : Nat) : Res Bool := do .ok (decide (a < (← rs.simpleReflected i a)))

/-- the loops of the two functions `permuted_root`: letters in the order in which they are applied -/
def permuteLoop (rs : RS) : List Nat → Nat → Res Nat
  | [], r => .ok r
  | i :: is, r => do permuteLoop rs is (← rs.simpleReflected i r)

/-- `permuted_root(ww,r)` (rootdata.h L331-336) -/
def permutedLeft (rs : RS) (ww : List Nat) (r : Nat) : Res Nat := permuteLoop rs ww.reverse r

/-- `permuted_root(r,ww)` (rootdata.h L338-343) -/
def permutedRight (rs : RS) (r : Nat) (ww : List Nat) : Res Nat := permuteLoop rs ww r

/-- `reflected_root(alpha,beta)` (rootdata.h L346-350) -/
def reflected (rs : RS) (a b : Nat) : Res Nat := do Vec.get (← Vec.get rs.perms (rs.rtAbs a)) b

/-- `is_orthogonal` (rootdata.h L352-353) -/
def isOrthogonal (rs : RS) (a b : Nat) : Res Bool := do .ok (decide ((← rs.reflected a b) = b))

/-- inner loop of `bracket` (rootdata.cpp L551-552) -/
def bracketInner (row col : BV) (m : List BV) (i : Nat) : List Nat → Int → Res Int
  | [], c => .ok c
  | j :: js, c => do
    let x ← Vec.get row i
    let y ← entry m i j
    let z ← Vec.get col j
    bracketInner row col m i js (c + x * y * z)

/-- outer loop of `bracket` (rootdata.cpp L550-552) -/
def bracketLoop (rk : Nat) (row col : BV) (m : List BV) : List Nat → Int → Res Int
  | [], c => .ok c
  | i :: is, c => do bracketLoop rk row col m is (← bracketInner row col m i (List.range rk) c)

/-- `bracket` (rootdata.cpp L536-555) -/
def bracket (rs : RS) (a b : Nat) : Res Int := do
  if ← rs.isOrthogonal a b then .ok 0 else do
  let row ← Vec.get rs.roots (rs.rtAbs a)
  let col ← Vec.get rs.coroots (rs.rtAbs b)
  let c ← bracketLoop rs.rk row col rs.cmat (List.range rs.rk) 0
  .ok (if rs.isPos a ≠ rs.isPos b then -c else c)

/-- a row of `Cartan_matrix(rb)` (rootdata.cpp L525-526) -/
def cartanRow (rs : RS) (a : Nat) : List Nat → Res BV
  | [] => .ok []
  | b :: bs => do
    let x ← rs.bracket a b
    .ok (x :: (← cartanRow rs a bs))

/-- the loops of `Cartan_matrix(rb)` (rootdata.cpp L524-526) -/
def cartanRows (rs : RS) (rb : List Nat) : List Nat → Res (List BV)
  | [] => .ok []
  | a :: as => do
    let r ← cartanRow rs a rb
    .ok (r :: (← cartanRows rs rb as))

/-- `Cartan_matrix(rb)` (rootdata.cpp L518-529) -/
def subCartan (rs : RS) (rb : List Nat) : Res (List BV) := cartanRows rs rb rb

/-- `isMember` of a `BitMap` (bitmap.h L137-142) -/
def bit (b : List Bool) (i : Nat) : Bool := b[i]?.getD false

/-- `sum_is_root` (rootdata.h L372-373) -/
def sumIsRoot (rs : RS) (a b : Nat) : Res Bool := do .ok (!bit (← Vec.get rs.bots (rs.minus a)) b)

/-- `sum_is_coroot` (rootdata.h L374-375) -/
def sumIsCoroot (rs : RS) (a b : Nat) : Res Bool := do .ok (!bit (← Vec.get rs.cobots (rs.minus a)) b)

/-- the loop of `high_roots` (rootdata.cpp L811-813) -/
def highLoop (rs : RS) : List Nat → List Nat → Res (List Nat)
  | [], h => .ok h
  | a :: as, h => do
    let d ← rs.descentSet a
    highLoop rs as (if d.all (!·) then h ++ [rs.minus a] else h)

/-- `high_roots` (rootdata.cpp L808-816) -/
def highRoots (rs : RS) : Res (List Nat) := highLoop rs (List.range rs.numPos) []

/-! ### extension of maps on simple roots -/

/-- first loop of `extend_to_roots` (rootdata.cpp L564-565) -/
def extSimple (nd : Bool) (rs : RS) (im : List Nat) : List Nat → List Nat → Res (List Nat)
  | [], r => .ok r
  | i :: is, r => do
    let k ← rs.simpleNbr nd i
    extSimple nd rs im is (← Vec.put r k (← Vec.get im i))

/-- second loop of `extend_to_roots` (rootdata.cpp L568-575) -/
def extPos (nd : Bool) (rs : RS) (im : List Nat) : List Nat → List Nat → Res (List Nat)
  | [], r => .ok r
  | a :: as, r => do
    let i := firstBit (← Vec.get rs.desc (a - rs.numPos))
    Res.assertIn nd (decide (i < rs.rk))
    let b ← rs.simpleReflected i a
    Res.assertIn nd (rs.isPos b && decide (b < a))
    let x ← rs.reflected (← Vec.get im i) (← Vec.get r b)
    extPos nd rs im as (← Vec.put r a x)

/-- third loop of `extend_to_roots` (rootdata.cpp L578-579) -/
def extNeg (rs : RS) : List Nat → List Nat → Res (List Nat)
  | [], r => .ok r
  | a :: as, r => do extNeg rs as (← Vec.put r a (rs.minus (← Vec.get r (rs.minus a))))

/-- `extend_to_roots` (rootdata.cpp L557-582) -/
def extend (nd : Bool) (rs : RS) (im : List Nat) : Res (List Nat) := do
  Res.assertIn nd (decide (im.length = rs.rk))
  let r ← extSimple nd rs im (List.range rs.rk) (List.replicate rs.numRoots 0)
  let r ← extPos nd rs im (List.range' (rs.numPos + rs.rk) (rs.numRoots - (rs.numPos + rs.rk))) r
  extNeg rs (List.range rs.numPos) r

/-- the loop of `root_permutation(twist)` (rootdata.cpp L589-590) -/
def twistLoop (nd : Bool) (rs : RS) : List Nat → Res (List Nat)
  | [] => .ok []
  | t :: ts => do
    let x ← rs.simpleNbr nd t
    .ok (x :: (← twistLoop nd rs ts))

/-- `root_permutation(twist)` (rootdata.cpp L584-593) -/
def twistPerm (nd : Bool) (rs : RS) (twist : List Nat) : Res (List Nat) := do
  Res.assertIn nd (decide (twist.length = rs.rk))
  rs.extend nd (← twistLoop nd rs twist)

/-! ### reflections as words -/

/-- the loop of `reflection_word` (rootdata.cpp L607-612), with a bound on the number of passes: final `alpha` and word -/
def wordLoop (rs : RS) : Nat → Nat → List Nat → Res (Nat × List Nat)
  | 0, _, _ => .outOfFuel
  | k + 1, a, w =>
    if rs.rk + rs.numPos ≤ a then do
      let i := firstBit (← Vec.get rs.desc (a - rs.numPos))
      wordLoop rs k (← rs.simpleReflected i a) (w ++ [i])
    else .ok (a, w)

/-- `make_positive` (rootdata.cpp L1465-1469) -/
def makePos (rs : RS) (a : Nat) : Nat := if rs.isNeg a then rs.minus a else a

/-- `reflection_word` (rootdata.cpp L601-618) -/
def reflectionWord (rs : RS) (a : Nat) : Res (List Nat) := do
  let (a, w) ← wordLoop rs (rs.numPos + 1) (rs.makePos a) []
  .ok (w ++ [a - rs.numPos] ++ w.reverse)

/-- the loop of `conjugate_to_simple` (rootdata.cpp L1479-1483), with a bound on the number of passes: word and final `s` -/
def conjLoop (nd : Bool) (rs : RS) : Nat → Nat → List Nat → Res (List Nat × Nat)
  | 0, _, _ => .outOfFuel
  | k + 1, a, w => do
    let s ← rs.findDescent a
    if a ≠ (← rs.simpleNbr nd s) then do conjLoop nd rs k (← rs.simpleReflected s a) (w ++ [s])
    else .ok (w, s)

/-- `conjugate_to_simple` (rootdata.cpp L1473-1486): the word and the index of the simple root -/
def conjugate (nd : Bool) (rs : RS) (a : Nat) : Res (List Nat × Nat) := conjLoop nd rs (rs.numPos + 1) (rs.makePos a) []

/-! ### subsystems -/

/-- inner loop of `simpleBasis` (rootdata.cpp L629-646): new candidates -/
def basisInner (rs : RS) (sub : List Bool) (alpha : Nat) : List Nat → List Bool → Res (List Bool)
  | [], cand => .ok cand
  | beta :: bs, cand =>
    if bit sub beta then
      if alpha = beta then basisInner rs sub alpha bs cand
      else do
        let gamma ← rs.reflected alpha beta
        if gamma < beta then
          if rs.isPos gamma then do basisInner rs sub alpha bs (← Vec.put cand beta false)
          else Vec.put cand alpha false
        else basisInner rs sub alpha bs cand
    else basisInner rs sub alpha bs cand

/-- outer loop of `simpleBasis` (rootdata.cpp L626-649) -/
def basisLoop (rs : RS) (sub : List Bool) : List Nat → List Bool → Res (List Bool)
  | [], cand => .ok cand
  | alpha :: as, cand =>
    if bit cand alpha then do
      let cand ← basisInner rs sub alpha (List.range sub.length) cand
      if bit cand alpha then basisLoop rs sub as cand else .ok cand
    else basisLoop rs sub as cand

/-- `simpleBasis` (rootdata.cpp L621-653) -/
def simpleBasis (rs : RS) (sub : List Bool) : Res (List Nat) := do
  let sub := (List.range sub.length).map fun k => bit sub k && decide (rs.numPos ≤ k)
  let cand ← basisLoop rs sub (List.range sub.length) sub
  .ok (members cand)

/-- inner loop of `pos_simples` (rootdata.cpp L664-675): new set, and whether the loop ran to completion -/
def posInner (nd : Bool) (rs : RS) (alpha : Nat) : List Nat → List Bool → Res (List Bool × Bool)
  | [], s => .ok (s, true)
  | j :: js, s =>
    if bit s j then do
      let beta ← rs.posNbr nd j
      let gamma ← rs.reflected alpha beta
      if gamma < beta then
        if rs.isPos gamma then do posInner nd rs alpha js (← Vec.put s j false)
        else .ok (s, false)
      else posInner nd rs alpha js s
    else posInner nd rs alpha js s

/-- outer loop of `pos_simples` (rootdata.cpp L660-678) -/
def posLoop (nd : Bool) (rs : RS) (n : Nat) : List Nat → List Bool → List Nat → Res (List Nat)
  | [], _, r => .ok r
  | i :: is, s, r =>
    if bit s i then do
      let alpha ← rs.posNbr nd i
      let (s, done) ← posInner nd rs alpha (List.range' (i + 1) (n - (i + 1))) s
      posLoop nd rs n is s (if done then r ++ [alpha] else r)
    else posLoop nd rs n is s r

/-- `pos_simples` (rootdata.cpp L656-682) -/
def posSimples (nd : Bool) (rs : RS) (s : List Bool) : Res (List Nat) := posLoop nd rs s.length (List.range s.length) s []

/-! ### looking up roots -/

/-- `root_any` (rootdata.h L181-185) -/
def rootAny (rs : RS) (a : Nat) : Res BV := do
  if rs.isPos a then Vec.get rs.roots (a - rs.numPos) else do .ok ((← Vec.get rs.roots (rs.numPos - 1 - a)).map (-·))

/-- `coroot_any` (rootdata.h L186-190) -/
def corootAny (rs : RS) (a : Nat) : Res BV := do
  if rs.isPos a then Vec.get rs.coroots (a - rs.numPos) else do .ok ((← Vec.get rs.coroots (rs.numPos - 1 - a)).map (-·))

/-- the search for the first nonzero entry (rootdata.cpp L735-740, L751-756) -/
def firstNonzero : BV → Option Int
  | [] => none
  | x :: v => if x ≠ 0 then some x else firstNonzero v

/-- `lookup_root`, `lookup_coroot` (rootdata.cpp L733-763): the list is that of the roots or that of the coroots -/
def lookupIn (nd : Bool) (rs : RS) (vecs : List BV) (v : BV) : Res Nat :=
  match firstNonzero v with
  | none => .ok rs.numRoots
  | some x =>
    let neg := decide (x < 0)
    let pr := lookupPos (if neg then v.map (-·) else v) vecs 0
    if pr = rs.numPos then .ok rs.numRoots else if neg then rs.posNbr nd pr else rs.negNbr nd pr

/-- sum of two vectors -/
def addV (v w : BV) : BV := List.zipWith (· + ·) v w

/-- `root_add` (rootdata.cpp L765-768) -/
def rootAdd (nd : Bool) (rs : RS) (a b : Nat) : Res Nat := do
  let v ← rs.rootAny a
  let w ← rs.rootAny b
  rs.lookupIn nd rs.roots (addV v w)

/-- `coroot_add` (rootdata.cpp L769-772) -/
def corootAdd (nd : Bool) (rs : RS) (a b : Nat) : Res Nat := do
  let v ← rs.corootAny a
  let w ← rs.corootAny b
  rs.lookupIn nd rs.coroots (addV v w)

/-! ### additive closure -/

/-- first loop of `additive_closure` (rootdata.cpp L690-691) -/
def negClose (rs : RS) : List Nat → List Bool → Res (List Bool)
  | [], s => .ok s
  | g :: gs, s => if bit s g then do negClose rs gs (← bitSet s (rs.minus g)) else negClose rs gs s

/-- inner loop of `additive_closure` (rootdata.cpp L696-706) -/
def sumInner (nd co : Bool) (rs : RS) (i : Nat) : List Nat → List Bool → Res (List Bool)
  | [], s => .ok s
  | j :: js, s =>
    if bit s j then do
      if ← (if co then rs.sumIsCoroot i j else rs.sumIsRoot i j : Res Bool) then do
        let k ← (if co then rs.corootAdd nd i j else rs.rootAdd nd i j : Res Nat)
        sumInner nd co rs i js (← bitSet s k)
      else sumInner nd co rs i js s
    else sumInner nd co rs i js s

/-- the two nested loops of `additive_closure` (rootdata.cpp L695-706) -/
def sumPass (nd co : Bool) (rs : RS) (n : Nat) : List Nat → List Bool → Res (List Bool)
  | [], s => .ok s
  | i :: is, s =>
    if bit s i then do sumPass nd co rs n is (← sumInner nd co rs i (List.range' (i + 1) (n - (i + 1))) s)
    else sumPass nd co rs n is s

/-- the loop of `additive_closure` (rootdata.cpp L694-707), with a bound on the number of passes -/
def sumLoop' (nd co : Bool) (rs : RS) : Nat → Nat → List Bool → Res (List Bool)
  | 0, _, _ => .outOfFuel
  | k + 1, last, s => do
    let s ← sumPass nd co rs s.length (List.range s.length) s
    if last < s.count true then sumLoop' nd co rs k (s.count true) s else .ok s

/-- `additive_closure` (rootdata.cpp L685-709) -/
def additiveClosure (nd co : Bool) (rs : RS) (gens : List Bool) : Res (List Bool) := do
  let s ← negClose rs (List.range gens.length) gens
  sumLoop' nd co rs (s.length + 1) (s.count true) s

/-- the loop of `image` (rootdata.cpp L714-715) -/
def imageLoop (rs : RS) (ww : List Nat) : List Nat → List Bool → Res (List Bool)
  | [], r => .ok r
  | a :: as, r => do imageLoop rs ww as (← bitSet r (← rs.permutedLeft ww a))

/-- `image` (rootdata.cpp L711-717) -/
def image (rs : RS) (ww : List Nat) (s : List Bool) : Res (List Bool) := imageLoop rs ww (members s) (List.replicate s.length false)

/-- what `long_orthogonalize` does with a pair of roots whose sum is a root (rootdata.cpp L788-803) -/
def longStep (nd : Bool) (rs : RS) (i j : Nat) (s : List Bool) : Res (List Bool) := do
  let v ← (if rs.isPos i then do
      Res.assertIn nd (rs.isPos i)
      Vec.get rs.roots (i - rs.numPos)
    else do
      Res.assertIn nd (rs.isNeg i)
      .ok ((← Vec.get rs.roots (rs.numPos - 1 - i)).map (-·)) : Res BV)
  let w ← (if rs.isPos i then do
      Res.assertIn nd (rs.isPos j)
      if j < rs.numPos then .undefined else Vec.get rs.roots (j - rs.numPos)
    else do
      Res.assertIn nd (rs.isNeg j)
      if rs.numPos ≤ j then .undefined else .ok ((← Vec.get rs.roots (rs.numPos - 1 - j)).map (-·)) : Res BV)
  let gamma ← rs.lookupIn nd rs.roots (addV v w)
  Res.assertIn nd (decide (gamma ≠ rs.numRoots))
  let s ← bitSet s gamma
  let s ← bitSet s (← rs.reflected j gamma)
  let s ← Vec.put s i false
  Vec.put s j false

/-- inner loop of `long_orthogonalize` (rootdata.cpp L786-804) -/
def longInner (nd : Bool) (rs : RS) (i : Nat) : List Nat → List Bool → Res (List Bool)
  | [], s => .ok s
  | j :: js, s =>
    if bit s j then do
      if ← rs.sumIsRoot i j then longStep nd rs i j s else longInner nd rs i js s
    else longInner nd rs i js s

/-- outer loop of `long_orthogonalize` (rootdata.cpp L785-804) -/
def longLoop (nd : Bool) (rs : RS) : List Nat → List Bool → Res (List Bool)
  | [], s => .ok s
  | i :: is, s => if bit s i then do longLoop nd rs is (← longInner nd rs i (List.range i) s) else longLoop nd rs is s

/-- `long_orthogonalize` (rootdata.cpp L782-806) -/
def longOrthogonalize (nd : Bool) (rs : RS) (s : List Bool) : Res (List Bool) := longLoop nd rs (List.range s.length) s

/-! ### roots made negative -/

/-- a permutation of the positive roots (rootdata.cpp L1497-1499) -/
def posPermRow (nd : Bool) (rs : RS) (i : Nat) : List Nat → Res (List Nat)
  | [] => .ok []
  | j :: js => do
    let x ← (if j = i then .ok i else do
      let k ← rs.simpleReflected i (← rs.posNbr nd j)
      Res.assertIn nd (rs.isPos k)
      .ok (k - rs.numPos) : Res Nat)
    .ok (x :: (← posPermRow nd rs i js))

/-- the loop making permutations of the positive roots (rootdata.cpp L1494-1500) -/
def posPerms (nd : Bool) (rs : RS) : List Nat → Res (List (List Nat))
  | [] => .ok []
  | i :: is => do
    let p ← posPermRow nd rs i (List.range rs.numPos)
    .ok (p :: (← posPerms nd rs is))

/-- the loop over the word in `pos_to_neg` (rootdata.cpp L1503-1510) -/
def negSetLoop (rs : RS) (pp : List (List Nat)) : List Nat → List Bool → Res (List Bool)
  | [], cur => .ok cur
  | s :: w, cur => do
    let p ← Vec.get pp s
    let tmp ← mapBits p (members cur) (List.replicate rs.numPos false)
    negSetLoop rs pp w (← Vec.put tmp s (!(← Vec.get tmp s)))

/-- `pos_to_neg` (rootdata.cpp L1490-1514) -/
def posToNeg (nd : Bool) (rs : RS) (w : List Nat) : Res (List Bool) := do
  let pp ← posPerms nd rs (List.range rs.rk)
  let cur ← negSetLoop rs pp w (List.replicate rs.numPos false)
  .ok (List.replicate rs.numPos false ++ cur)

end Verif.Root.RS
