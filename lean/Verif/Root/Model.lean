import Verif.Vec
import Verif.Perm.Model
/-
Model of `RootSystem` (sources/structure/rootdata.cpp L108-822, rootdata.h L138-383): construction from a Cartan matrix, and accessors.

Simplifications.
* Vectors, matrices and root numbers have unbounded integers as entries.  In the C++ code coefficients are `signed char` and root numbers
  are `unsigned short`; theorem `C48_fits` shows that the values stored fit these types.
* `std::vector<root_info> ri` is represented by one list for each field of `root_info`.
* `RankFlags` (a `BitSet<32>`) is a list of 32 Booleans; `RootNbrSet` (a `BitMap`) is the list of its bits.  Both classes have models of
  their own (`Verif.BitSet`, `Verif.BitMap`).
* `std::set<Byte_vector,root_compare>` is the sorted list of its elements.
* `invCmat` and `C_denom` (L153-156) are not modelled here.
-/
namespace Verif.Root

/-- `Byte_vector` -/
abbrev BV := List Int

/-- inner loop of `root_compare` (rootdata.cpp L124-126) on the vectors from the last entry to the first -/
def lessLoop : BV → BV → Bool
  | a :: v, b :: w => if a - b ≠ 0 then decide (a - b < 0) else lessLoop v w
  | _, _ => false

/-- `root_compare` (rootdata.cpp L118-129): compare at the last index where the vectors differ -/
def less (v w : BV) : Bool := lessLoop v.reverse w.reverse

/-- `insert` of a `std::set` ordered by `root_compare` (rootdata.cpp L143, L149, L213) -/
def insert (v : BV) : List BV → List BV
  | [] => [v]
  | w :: l => if less v w then v :: w :: l else if less w v then w :: insert v l else w :: l

/-- loop of `Vector::dot` (matrix.cpp) -/
def dotLoop : BV → BV → Int → Int
  | a :: v, b :: w, r => dotLoop v w (r + a * b)
  | _, _, r => r

/-- `Vector::dot` as used in rootdata.cpp L186, L236 -/
def dot (v w : BV) : Int := dotLoop v w 0

/-- `Cmat(i,j)` -/
def entry (m : List BV) (i j : Nat) : Res Int := do Vec.get (← Vec.get m i) j

/-- `Cmat(i,j)=x` -/
def setEntry (m : List BV) (i j : Nat) (x : Int) : Res (List BV) := do
  Vec.put m i (← Vec.put (← Vec.get m i) j x)

/-- `Cmat.column(j)` (rootdata.cpp L168) -/
def column (m : List BV) (j : Nat) : List Nat → Res BV
  | [] => .ok []
  | i :: is => do
    let x ← entry m i j
    .ok (x :: (← column m j is))

/-- the loop slicing `Cmat` into columns (rootdata.cpp L166-169) -/
def columns (m : List BV) (is : List Nat) : List Nat → Res (List BV)
  | [] => .ok []
  | j :: js => do
    let c ← column m j is
    .ok (c :: (← columns m is js))

/-- `RootNbr(~0)` -/
def undef : Nat := 65535

/-- the variables of the generation phase: the fields of `ri` filled there, `link`, `first_l` and `roots_at_level` -/
structure Gen where
  roots : List BV
  desc : List (List Bool)
  asc : List (List Bool)
  link : List (List Nat)
  first : List Nat
  levels : List (List BV)
  deriving Repr, DecidableEq

/-- `link[j][i]=x` (rootdata.cpp L187, L197, L203-204) -/
def setLink (link : List (List Nat)) (j i x : Nat) : Res (List (List Nat)) := do
  Vec.put link j (← Vec.put (← Vec.get link j) i x)

/-- `e_i` (rootdata.cpp L148) -/
def unitVec (rk i : Nat) : BV := (List.replicate rk (0 : Int)).set i 1

/-- the loop inserting the simple roots at level 1 (rootdata.cpp L146-150) -/
def initLoop (rk : Nat) : List Nat → List (List BV) → Res (List (List BV))
  | [], lv => .ok lv
  | i :: is, lv => do
    let s ← Vec.get lv 1
    initLoop rk is (← Vec.put lv 1 (insert (unitVec rk i) s))

/-- the loop looking for `beta` at a lower level (rootdata.cpp L200-206); `k` is the number of passes left; the new links -/
def lookDown (roots : List BV) (beta : BV) (cur i : Nat) : Nat → Nat → List (List Nat) → Res (List (List Nat))
  | 0, _, link => .ok link
  | k + 1, j, link => do
    if (← Vec.get roots j) = beta then do
      let link ← setLink link cur i j
      setLink link j i cur
    else lookDown roots beta cur i k (j + 1) link

/-- body of the loop over simple coroots (rootdata.cpp L186-216) -/
def genStep (nd : Bool) (co : List BV) (l cur : Nat) (alpha : BV) (g : Gen) (i : Nat) : Res Gen := do
  let c := dot alpha (← Vec.get co i)
  if c = 0 then .ok { g with link := ← setLink g.link cur i cur }
  else do
    let beta ← Vec.put alpha i ((← Vec.get alpha i) - c)
    if 0 < c then do
      let desc ← Vec.put g.desc cur (← Vec.put (← Vec.get g.desc cur) i true)
      let link ← (if l = 1 then do
          Res.assertIn nd (decide (i = cur))
          setLink g.link cur i cur
        else if (l : Int) < c then .undefined   -- `l-c` wraps around
        else do
          let a ← Vec.get g.first (l - c.toNat)
          let b ← Vec.get g.first (l - c.toNat + 1)
          lookDown g.roots beta cur i (b - a) a g.link : Res (List (List Nat)))
      Res.assertIn nd (decide ((← Vec.get (← Vec.get link cur) i) ≠ undef))
      .ok { g with desc := desc, link := link }
    else do
      let asc ← Vec.put g.asc cur (← Vec.put (← Vec.get g.asc cur) i true)
      let s ← Vec.get g.levels (l + (-c).toNat)
      let levels ← Vec.put g.levels (l + (-c).toNat) (insert beta s)
      .ok { g with asc := asc, levels := levels }

/-- the loop over simple coroots (rootdata.cpp L185-217) -/
def genInner (nd : Bool) (co : List BV) (l cur : Nat) (alpha : BV) : List Nat → Gen → Res Gen
  | [], g => .ok g
  | i :: is, g => do genInner nd co l cur alpha is (← genStep nd co l cur alpha g i)

/-- the loop over the roots of one level (rootdata.cpp L177-218) -/
def genLevel (nd : Bool) (rk : Nat) (co : List BV) (l : Nat) : List BV → Gen → Res Gen
  | [], g => .ok g
  | alpha :: as, g => do
    let cur := g.roots.length
    Res.assertIn nd (decide (g.link.length = cur))
    let g := { g with
      roots := g.roots ++ [alpha],
      desc := g.desc ++ [List.replicate 32 false],
      asc := g.asc ++ [List.replicate 32 false],
      link := g.link ++ [List.replicate rk undef] }
    genLevel nd rk co l as (← genInner nd co l cur alpha (List.range rk) g)

/-- the loop over levels (rootdata.cpp L174-220), with a bound on the number of passes -/
def genLoop (nd : Bool) (rk : Nat) (co : List BV) : Nat → Nat → Gen → Res Gen
  | 0, _, _ => .outOfFuel
  | k + 1, l, g => do
    let s ← Vec.get g.levels l
    if s = [] then .ok g
    else do
      let g := { g with first := g.first ++ [g.roots.length] }
      let g ← genLevel nd rk co l s g
      genLoop nd rk co k (l + 1) { g with levels := ← Vec.put g.levels l [] }

/-- the construction of the positive roots (rootdata.cpp L142-150, L172-220); `co` is `simple_coroot` -/
def generate (nd : Bool) (rk : Nat) (co : List BV) : Res Gen := do
  let lv ← initLoop rk (List.range rk) (List.replicate (4 * rk) [])
  genLoop nd rk co (4 * rk + 1) 1 ⟨[], [], [], [], [0], lv⟩

/-- `firstBit` of a `RankFlags` -/
def firstBit (f : List Bool) : Nat := f.idxOf true

/-- the loop for the simple coroots (rootdata.cpp L225-226) -/
def coInit (roots : List BV) : List Nat → List BV → Res (List BV)
  | [], co => .ok co
  | i :: is, co => do coInit roots is (← Vec.put co i (← Vec.get roots i))

/-- the loop for the other positive coroots (rootdata.cpp L229-237); `rows` is `simple_root` -/
def coLoop (nd : Bool) (rows : List BV) (desc : List (List Bool)) (link : List (List Nat)) : List Nat → List BV → Res (List BV)
  | [], co => .ok co
  | alpha :: as, co => do
    let i := firstBit (← Vec.get desc alpha)
    let beta ← Vec.get (← Vec.get link alpha) i
    Res.assertIn nd (decide (beta < alpha))
    let cb ← Vec.get co beta
    let co ← Vec.put co alpha cb
    let x ← Vec.get cb i
    let ca ← Vec.put cb i (x - dot cb (← Vec.get rows i))
    coLoop nd rows desc link as (← Vec.put co alpha ca)

/-- the inner loop of `swap_roots_and_coroots` (rootdata.cpp L330-332); the results are `simply_laced` and `Cmat` -/
def transLoop (i : Nat) : List Nat → Bool × List BV → Res (Bool × List BV)
  | [], r => .ok r
  | j :: js, (sl, m) => do
    let x ← entry m i j
    let y ← entry m j i
    if x ≠ y then do
      let m ← setEntry m i j y
      let m ← setEntry m j i x
      transLoop i js (false, m)
    else transLoop i js (sl, m)

/-- the loops of `swap_roots_and_coroots` (rootdata.cpp L329-332) -/
def transRows (rk : Nat) : List Nat → Bool × List BV → Res (Bool × List BV)
  | [], r => .ok r
  | i :: is, r => do transRows rk is (← transLoop i (List.range' (i + 1) (rk - (i + 1))) r)

/-- `swap_roots_and_coroots` (rootdata.cpp L325-337): `Cmat`, roots and coroots -/
def swapRC (rk : Nat) (m roots coroots : List BV) : Res (List BV × List BV × List BV) := do
  let (sl, m) ← transRows rk (List.range rk) (true, m)
  if sl then .ok (m, roots, coroots) else .ok (m, coroots, roots)

/-- `lookup_posroot`, `lookup_poscoroot` (rootdata.cpp L715-731): the list is that of the roots or that of the coroots -/
def lookupPos (v : BV) : List BV → Nat → Nat
  | [], i => i
  | w :: l, i => if w = v then i else lookupPos v l (i + 1)

/-- `insert` of a `BitMap` -/
def bitSet (b : List Bool) (i : Nat) : Res (List Bool) := Vec.put b i true

/-- one of the tests at L274-285 of rootdata.cpp: is the root or coroot `alpha` the bottom of its ladder for the simple root `i`? -/
def isBottom (vecs : List BV) (i alpha : Nat) : Res Bool := do
  let v ← Vec.get vecs alpha
  let x ← Vec.get v i
  let v' ← Vec.put v i (x - 1)
  .ok (decide (x = 0) || decide (lookupPos v' vecs 0 = vecs.length))

/-- body of the loop over positive roots (rootdata.cpp L256-286): the permutation and the two bitmaps -/
def simpleStep (roots coroots : List BV) (link : List (List Nat)) (i : Nat) (r : List Nat × List Bool × List Bool) (alpha : Nat) :
    Res (List Nat × List Bool × List Bool) := do
  let (perm, bots, cobots) := r
  let n := roots.length
  if alpha = i then do
    let perm ← Vec.put perm (n + alpha) (n - 1 - alpha)
    let perm ← Vec.put perm (n - 1 - alpha) (n + alpha)
    let bots ← bitSet bots (n + alpha)
    let bots ← bitSet bots (n - 1 - alpha)
    let cobots ← bitSet cobots (n + alpha)
    let cobots ← bitSet cobots (n - 1 - alpha)
    .ok (perm, bots, cobots)
  else do
    let beta ← Vec.get (← Vec.get link alpha) i
    if n ≤ beta then .assertFail else do   -- `posRootNbr(beta)`
    let perm ← Vec.put perm (n + alpha) (n + beta)
    let perm ← Vec.put perm (n - 1 - alpha) (n - 1 - beta)
    let b ← isBottom roots i alpha
    let bots ← (if b then do bitSet (← bitSet bots (n + alpha)) (n - 1 - beta) else .ok bots : Res (List Bool))
    let b ← isBottom coroots i alpha
    let cobots ← (if b then do bitSet (← bitSet cobots (n + alpha)) (n - 1 - beta) else .ok cobots : Res (List Bool))
    .ok (perm, bots, cobots)

/-- the loop over positive roots (rootdata.cpp L255-286) -/
def simpleInner (roots coroots : List BV) (link : List (List Nat)) (i : Nat) : List Nat → List Nat × List Bool × List Bool →
    Res (List Nat × List Bool × List Bool)
  | [], r => .ok r
  | alpha :: as, r => do simpleInner roots coroots link i as (← simpleStep roots coroots link i r alpha)

/-- the fields `root_perm` of `ri`, `root_ladder_bot` and `coroot_ladder_bot` -/
structure Perms where
  perms : List (List Nat)
  bots : List (List Bool)
  cobots : List (List Bool)
  deriving Repr, DecidableEq

/-- the loop over simple roots (rootdata.cpp L247-287) -/
def simpleLoop (roots coroots : List BV) (link : List (List Nat)) : List Nat → Perms → Res Perms
  | [], p => .ok p
  | i :: is, p => do
    let n := roots.length
    let _ ← Vec.get p.bots (n + i)
    let (perm, bots, cobots) ← simpleInner roots coroots link i (List.range n)
      (List.replicate (2 * n) 0, List.replicate (2 * n) false, List.replicate (2 * n) false)
    simpleLoop roots coroots link is
      ⟨← Vec.put p.perms i perm, ← Vec.put p.bots (n + i) bots, ← Vec.put p.cobots (n + i) cobots⟩

/-- the elements of a `BitMap` in increasing order, as met by its iterator -/
def members (b : List Bool) : List Nat := (List.range b.length).filter fun i => b[i]?.getD false

/-- the loops inserting the images of the elements of a bitmap (rootdata.cpp L310-313, L322-325) -/
def mapBits (perm : List Nat) : List Nat → List Bool → Res (List Bool)
  | [], r => .ok r
  | x :: xs, r => do mapBits perm xs (← bitSet r (← Vec.get perm x))

/-- the loop extending to all positive roots (rootdata.cpp L291-314) -/
def extendLoop (nd : Bool) (rk n : Nat) (desc : List (List Bool)) (link : List (List Nat)) : List Nat → Perms → Res Perms
  | [], p => .ok p
  | alpha :: as, p => do
    let i := firstBit (← Vec.get desc alpha)
    let beta ← Vec.get (← Vec.get link alpha) i
    Res.assertIn nd (decide (i < rk))
    Res.assertIn nd (decide (beta < alpha))
    let pi ← Vec.get p.perms i
    let ap ← Perm.renumber (← Vec.get p.perms beta) none pi
    let ap ← Perm.renumber pi none ap
    let perms ← Vec.put p.perms alpha ap
    let b ← mapBits pi (members (← Vec.get p.bots (n + beta))) (List.replicate (2 * n) false)
    let c ← mapBits pi (members (← Vec.get p.cobots (n + beta))) (List.replicate (2 * n) false)
    extendLoop nd rk n desc link as ⟨perms, ← Vec.put p.bots (n + alpha) b, ← Vec.put p.cobots (n + alpha) c⟩

/-- the loop for the ladder bottoms of negative roots (rootdata.cpp L316-326) -/
def negLoop (n : Nat) : List Nat → Perms → Res Perms
  | [], p => .ok p
  | alpha :: as, p => do
    let pi ← Vec.get p.perms alpha
    let b ← mapBits pi (members (← Vec.get p.bots (n + alpha))) (List.replicate (2 * n) false)
    let c ← mapBits pi (members (← Vec.get p.cobots (n + alpha))) (List.replicate (2 * n) false)
    negLoop n as ⟨p.perms, ← Vec.put p.bots (n - 1 - alpha) b, ← Vec.put p.cobots (n - 1 - alpha) c⟩

/-- a `RootSystem` -/
structure RS where
  rk : Nat
  preferCo : Bool
  cmat : List BV
  roots : List BV
  coroots : List BV
  desc : List (List Bool)
  asc : List (List Bool)
  perms : List (List Nat)
  bots : List (List Bool)
  cobots : List (List Bool)
  deriving Repr, DecidableEq

/-- the permutations and ladder bottoms (rootdata.cpp L244-326) -/
def makePerms (nd : Bool) (rk : Nat) (roots coroots : List BV) (desc : List (List Bool)) (link : List (List Nat)) : Res Perms := do
  let n := roots.length
  let p ← simpleLoop roots coroots link (List.range rk) ⟨List.replicate n [], List.replicate (2 * n) [], List.replicate (2 * n) []⟩
  let p ← extendLoop nd rk n desc link (List.range' rk (n - rk)) p
  negLoop n (List.range n) p

/-- the constructor from a Cartan matrix (rootdata.cpp L131-328); in a build without assertions `posRootNbr` at L271 would not stop -/
def RS.make (nd : Bool) (cartan : List BV) (preferCo : Bool) : Res RS := do
  let rk := cartan.length
  if rk = 0 then .ok ⟨0, preferCo, cartan, [], [], [], [], [], [], []⟩ else do
  let (m, _, _) ← (if preferCo then swapRC rk cartan [] [] else .ok (cartan, [], []) : Res (List BV × List BV × List BV))
  let co ← columns m (List.range rk) (List.range rk)
  let g ← generate nd rk co
  let n := g.roots.length
  let coroots ← coInit g.roots (List.range rk) (List.replicate n [])
  let coroots ← coLoop nd m g.desc g.link (List.range' rk (n - rk)) coroots
  let (m, roots, coroots) ← (if preferCo then swapRC rk m g.roots coroots else .ok (m, g.roots, coroots) : Res (List BV × List BV × List BV))
  let p ← makePerms nd rk roots coroots g.desc g.link
  .ok ⟨rk, preferCo, m, roots, coroots, g.desc, g.asc, p.perms, p.bots, p.cobots⟩

/-- the constructor of the dual system (rootdata.cpp L339-349) -/
def RS.dual (rs : RS) : Res RS := do
  let (m, roots, coroots) ← swapRC rs.rk rs.cmat rs.roots rs.coroots
  .ok { rs with preferCo := !rs.preferCo, cmat := m, roots := roots, coroots := coroots, bots := rs.cobots, cobots := rs.bots }

end Verif.Root
