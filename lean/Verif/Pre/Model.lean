import Verif.BitMap.Model
import Verif.Vec
/-
Model of `preorder::Preorder` (sources/utilities/preorder.h, preorder.cpp).  `nd` tells whether assertions are
disabled.  Elements are of type `unsigned int`; the model uses natural numbers, and the theorems are for fewer
than `2^32` elements.
-/
namespace Verif.Pre
open Verif.BitMap

/-- `Preorder::entry` (preorder.h L47-53) -/
structure Entry where
  out : BitMap
  ref : Nat
  deriving DecidableEq, Repr

/-- data of `Preorder` (preorder.h L54-55) -/
structure Preorder where
  data : List Entry
  ready : Bool
  deriving DecidableEq, Repr

/-- `Preorder(n)` (preorder.cpp L21-26) -/
def make (n : Nat) : Preorder := ⟨(List.range n).map fun i => ⟨BitMap.make n, i⟩, true⟩

/-- the loop of the constructors from a range of lists (preorder.h L67-68) and from a graph
(preorder.cpp L31-35), from entry `i` on -/
def ofListsLoop (nd : Bool) (n : Nat) : Nat → List (List Nat) → Res (List Entry)
  | _, [] => .ok []
  | i, l :: ls => do
    let b ← ofList nd n l
    let r ← ofListsLoop nd n (i + 1) ls
    .ok (⟨b, i⟩ :: r)

/-- the constructors from a range of lists (preorder.h L63-69) and from a graph (preorder.cpp L28-36) -/
def ofLists (nd : Bool) (ls : List (List Nat)) : Res Preorder := do
  .ok ⟨← ofListsLoop nd ls.length 0 ls, false⟩

/-- the loop of `root` (preorder.h L73), and the one of `closure` (preorder.cpp L83-84); with fuel -/
def rootLoop (data : List Entry) : Nat → Nat → Res Nat
  | 0, _ => .outOfFuel
  | f + 1, x => do
    let e ← Vec.get data x
    if e.ref ≠ x then rootLoop data f e.ref else .ok x

/-- `root(x)` (preorder.h L73) -/
def root (data : List Entry) (x : Nat) : Res Nat := rootLoop data (data.length + 1) x

/-- `relates(x,y)` (preorder.h L75-76) -/
def relates (p : Preorder) (x y : Nat) : Res Bool :=
  if x < p.data.length then do
    let r ← root p.data x
    let e ← Vec.get p.data r
    isMember e.out y
  else .ok false

/-- the loop `for (Elt x : data[i].out) result.data[x].out.insert(i)` (preorder.cpp L42-43) -/
def revRow (nd : Bool) (i : Nat) : List Nat → List Entry → Res (List Entry)
  | [], r => .ok r
  | x :: l, r => do
    let e ← Vec.get r x
    let b ← insert nd e.out i
    revRow nd i l (← Vec.put r x { e with out := b })

/-- the loop of `reversed` over `i` (preorder.cpp L41-43), from entry `i` on -/
def revLoop (nd : Bool) : Nat → List Entry → List Entry → Res (List Entry)
  | _, [], r => .ok r
  | i, d :: ds, r => do
    let l ← elements d.out
    revLoop nd (i + 1) ds (← revRow nd i l r)

/-- `reversed()` (preorder.cpp L38-49) -/
def reversed (nd : Bool) (p : Preorder) : Res Preorder := do
  let r ← revLoop nd 0 p.data (make p.data.length).data
  .ok ⟨if p.ready then r.zipWith (fun a d => { a with ref := d.ref }) p.data else r, p.ready⟩

/-- the loop `while (x!=y)` redirecting references to `y` (preorder.cpp L85-88), with fuel -/
def compress (y : Nat) : Nat → Nat → List Entry → Res (List Entry)
  | 0, _, _ => .outOfFuel
  | f + 1, x, data =>
    if x ≠ y then do
      let e ← Vec.get data x
      compress y f e.ref (← Vec.put data x { e with ref := y })
    else .ok data

/-- the part of the loop body after `x` was replaced by its root (preorder.cpp L91-106); the last component
tells whether the loop is left by `break` -/
def visit (nd : Bool) (i x : Nat) (data : List Entry) (ready : Bool) : Res (List Entry × Bool × Bool) :=
  if x = i then .ok (data, ready, false) else do
    let ex ← Vec.get data x
    let ei ← Vec.get data i
    if ← isMember ex.out i then
      let ready := ready && beq ex.out ei.out
      let b ← orAssign nd ex.out ei.out
      let data ← Vec.put data x { ex with out := b }
      let data ← Vec.put data i ⟨BitMap.make 0, x⟩
      .ok (data, ready, true)
    else
      if ← contains nd ei.out ex.out then .ok (data, ready, false)
      else
        let b ← orAssign nd ei.out ex.out
        let data ← Vec.put data i { ei with out := b }
        .ok (data, false, false)

/-- the body of the loop over `x` (preorder.cpp L79-106) -/
def body (nd : Bool) (i x : Nat) (data : List Entry) (ready : Bool) : Res (List Entry × Bool × Bool) := do
  let e ← Vec.get data x
  if e.ref = i then .ok (data, ready, false)
  else
    let y ← rootLoop data (data.length + 1) e.ref
    let data ← compress y (data.length + 2) x data
    let ey ← Vec.get data y
    Res.assertIn nd (ey.out.cap == data.length)
    visit nd i y data ready

/-- the loop over `x` in `d.out` (preorder.cpp L77-107), where `d` is `data[i]`; the iterator reads the bitmap
as it is modified by the loop; with fuel -/
def rowLoop (nd : Bool) (i : Nat) : Nat → Iter → List Entry → Bool → Res (List Entry × Bool)
  | 0, _, _, _ => .outOfFuel
  | f + 1, it, data, ready =>
    if it.addr ≠ it.cap then do
      let (data, ready, brk) ← body nd i it.addr data ready
      if brk then .ok (data, ready)
      else
        let d ← Vec.get data i
        rowLoop nd i f (← next d.out it) data ready
    else .ok (data, ready)

/-- the loop over `i` (preorder.cpp L72-108): the next `m` values from `i` on -/
def pass (nd : Bool) : Nat → Nat → List Entry → Bool → Res (List Entry × Bool)
  | _, 0, data, ready => .ok (data, ready)
  | i, m + 1, data, ready => do
    let d ← Vec.get data i
    let (data, ready) ← (if d.ref ≠ i then .ok (data, ready)
      else rowLoop nd i (data.length + 1) (begin d.out) data ready : Res (List Entry × Bool))
    pass nd (i + 1) m data ready

/-- the `do`-loop of `closure` (preorder.cpp L69-110), with fuel -/
def closureLoop (nd : Bool) : Nat → List Entry → Res (List Entry)
  | 0, _ => .outOfFuel
  | f + 1, data => do
    let (data, ready) ← pass nd 0 data.length data true
    if ready then .ok data else closureLoop nd f data

/-- `closure()` (preorder.cpp L65-112) -/
def closure (nd : Bool) (p : Preorder) : Res Preorder :=
  if p.ready then .ok p
  else do .ok ⟨← closureLoop nd (p.data.length * p.data.length + 1) p.data, true⟩

/-- the loop collecting the elements of a clique (preorder.cpp L124-126) -/
def members (data : List Entry) (x : Nat) : List Nat → Res (List Nat)
  | [] => .ok []
  | y :: l => do
    let r ← root data y
    let t ← members data x l
    .ok (if r = x then y :: t else t)

/-- the loop of `cliques` (preorder.cpp L118-127): the next `m` values from `x` on -/
def cliquesLoop (data : List Entry) : Nat → Nat → Res (List (List Nat))
  | _, 0 => .ok []
  | x, m + 1 => do
    let e ← Vec.get data x
    let c ← (if e.ref = x then isMember e.out x else .ok false : Res Bool)
    let t ← (if c then do
        let l ← elements e.out
        let c ← members data x l
        .ok [c] else .ok [] : Res (List (List Nat)))
    let r ← cliquesLoop data (x + 1) m
    .ok (t ++ r)

/-- `cliques()` (preorder.cpp L114-129) -/
def cliques (nd : Bool) (p : Preorder) : Res (List (List Nat)) := do
  Res.assertIn nd p.ready
  cliquesLoop p.data 0 p.data.length

end Verif.Pre
