import Verif.Io.Files
/-
Model of the class `progress_info` (io/filekl.w L861-896), which tells how many distinct polynomials there are up to each row.

Simplifications.  Those of Io/Files.lean.  The binary search `upper_bound` is modelled by its result for increasing sequences.
-/
namespace Verif.Io
open Verif

/-- the loop of the constructor (filekl.w L886-889), with the last number recorded; numbers are of 32 bits -/
def progressLoop : Nat → Nat → List Nat → Res (List Nat)
  | 0, _, _ => .ok []
  | k + 1, last, l => do
    let c ← readBytes 4 (l.drop 8)
    let r ← progressLoop k ((last + c) % 2 ^ 32) (l.drop 12)
    return (last + c) % 2 ^ 32 :: r

/-- the constructor (filekl.w L879-891): `first_pol` -/
def openProgress (file : List Nat) : Res (List Nat) :=
  if file.length % 12 ≠ 0 then .throw
  else do
    let r ← progressLoop (file.length / 12) 0 file
    return 0 :: r

/-- `block_size` (filekl.w L869) -/
def progressSize (firstPol : List Nat) : Nat := firstPol.length - 1

/-- `first_new_in_row` (filekl.w L870-872) -/
def firstNew (firstPol : List Nat) (y : Nat) : Res Nat :=
  match firstPol[y]? with
  | none => .undefined
  | some v => .ok v

/-- `first_row_for_pol` (filekl.w L893-896) -/
def firstRow (firstPol : List Nat) (i : Nat) : Nat := (firstPol.drop 1).findIdx fun v => decide (i < v)

end Verif.Io
