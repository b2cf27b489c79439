import Verif.KL.Model

/-!
# Model of `KL_table::swallow`

A table for a larger block takes over the columns that were already computed for a part of that
block.  As in `Verif.KL.Model` the polynomials themselves are stored in place of their indices, so
that the translation of these indices (kl.cpp 965-974) disappears.
-/

namespace Verif.KL

/-- `KL_table::primitives`, kl.cpp 163-172, as the increasing list of members of the bitmap -/
def primitives (b : Block) (y : Nat) : Res (List Nat) := do
  let f ← b.lengthFloor y
  .ok ((primsDown b (b.descentSet y) f).reverse)

section
variable (nd : Bool) (bs bt : Block) (ts t : Table) (embed : List Nat)

/-- the two assertions in the loop, kl.cpp 991-992; they are not evaluated when assertions are not
compiled -/
def swallowChecks (z x i ni : Nat) (desc pc : List Nat) : Res Unit :=
  if nd then .ok () else do
    let j ← primIndex nd ts (some x) (bs.descentSet z)
    Res.assertIn nd (decide (j = i))
    match pc[ni]? with
    | none => .undefined
    | some p => do
      let k ← primIndex nd t (some p) desc
      Res.assertIn nd (decide (k = ni))

/-- the loop over the primitive elements of the subblock, kl.cpp 987-995; `i` is the index of the
first of them, `col` the column that is written -/
def swallowEntries (z : Nat) (desc pc : List Nat) (scol : List Pol) :
    List Nat → Nat → List Pol → Res (List Pol)
  | [], _, col => .ok col
  | x :: xs, i, col =>
    match embed[x]? with
    | none => .undefined
    | some ex => do
      let ni ← primIndex nd t (some ex) desc
      swallowChecks nd bs ts t z x i ni desc pc
      match scol[i]? with
      | none => .undefined
      | some p =>
        if ni < col.length then swallowEntries z desc pc scol xs (i + 1) (col.set ni p)
        else .undefined

/-- the renumbering of the nonzero mu, kl.cpp 997-998 -/
def renumber : List (Nat × Nat) → Res (List (Nat × Nat))
  | [] => .ok []
  | (x, c) :: l =>
    match embed[x]? with
    | none => .undefined
    | some ex => do
      let l' ← renumber l
      .ok ((ex, c) :: l')

/-- the transfer of one column, kl.cpp 978-1001; the column that is written to is resized, which
keeps or cuts off what it contains -/
def swallowColumn (z ez : Nat) : Res Table := do
  let desc := bt.descentSet ez
  let t ← preparePrimIndex nd bt t desc
  let spc ← primitives bs z
  let pc ← primitives bt ez
  match ts.kl[z]?, t.kl[ez]?, ts.mu[z]? with
  | some scol, some col, some smu => do
    Res.assertIn nd (decide (scol.length = spc.length))
    let col ← swallowEntries nd bs ts t embed z desc pc scol spc 0
      (col.take pc.length ++ List.replicate (pc.length - col.length) [])
    let mu ← renumber embed smu
    .ok { t with kl := t.kl.set ez col, mu := t.mu.set ez mu, holes := t.holes.erase ez }
  | _, _, _ => .undefined

end

/-- the loop over the elements of the subblock, kl.cpp 976-977 -/
def swallowLoop (nd : Bool) (bs bt : Block) (ts : Table) (embed : List Nat) :
    List Nat → Table → Res Table
  | [], t => .ok t
  | z :: zs, t =>
    if z ∈ ts.holes then swallowLoop nd bs bt ts embed zs t
    else
      match embed[z]? with
      | none => .undefined
      | some ez =>
        if ez ∈ t.holes then do
          let t ← swallowColumn nd bs bt ts t embed z ez
          swallowLoop nd bs bt ts embed zs t
        else swallowLoop nd bs bt ts embed zs t

/-- `KL_table::swallow`, kl.cpp 962-1003 -/
def swallow (nd : Bool) (bs bt : Block) (ts t : Table) (embed : List Nat) : Res Table :=
  swallowLoop nd bs bt ts embed (List.range bs.size) t

end Verif.KL
