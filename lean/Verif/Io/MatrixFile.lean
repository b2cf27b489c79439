import Verif.Io.BlockFile
/-
Model of the files of matrices of Kazhdan-Lusztig polynomials (io/filekl.w L357-424, L437-597) and of `KL_table::prim_map` (gkmod/kl.cpp L229-238).

Simplifications.  Those of Io/BlockFile.lean.  The table is given by its columns `KL_data(y)`, lists of numbers of polynomials.  Streams never fail.  The old format of files, without a magic code, is not modelled.
Binary searches are modelled by their results for increasing sequences.
`nd` tells whether assertions are left out (NDEBUG); `fix` selects a corrected `prim_map`, with one more bit, for `y` itself, as `write_KL_row` expects.
-/
namespace Verif.Io
open Verif KL

/-- `magic_code` (filekl.w L157) -/
def magicCode : Nat := 0x06ABdCF0

/-- `KL_table::prim_map` (kl.cpp L229-238) -/
def primMap (fix : Bool) (col : List Nat) : List Bool := col.map (fun c => decide (c ≠ 0)) ++ if fix then [true] else []

/-- the number with given bits, as `BitMap::range` gives it (bitmap.cpp L336-342) -/
def bitsVal : List Bool → Nat
  | [] => 0
  | b :: l => b.toNat + 2 * bitsVal l

/-- the parts of 32 bits of a bitmap (filekl.w L382-383), `k` of them -/
def chunks : Nat → List Bool → List Nat
  | 0, _ => []
  | k + 1, bits => bitsVal (bits.take 32) :: chunks k (bits.drop 32)

/-- the number of times that the loop over the bitmap in `write_KL_row` (filekl.w L382), up to `n` in steps of 32, is executed -/
def nChunks (n : Nat) : Nat := (n + 31) / 32

/-- `write_KL_row` (filekl.w L365-399) -/
def writeRow (nd fix : Bool) (y : Nat) (col : List Nat) : Res (List Nat) :=
  if !nd && col.length + 1 ≠ (primMap fix col).length then .assertFail
  else .ok (putInt y ++ putInt (primMap fix col).length ++ (chunks (nChunks (primMap fix col).length) (primMap fix col)).flatMap putInt ++ (col.filter fun c => c ≠ 0).flatMap putInt ++ putInt 1)

/-- the loop over rows in `write_matrix_file` (filekl.w L408-417), with the number of the row, the position in the file and `offset`: what is written, and `delta` -/
def writeRows (nd fix : Bool) : List (List Nat) → Nat → Nat → Nat → Res (List Nat × List Nat)
  | [], _, _, _ => .ok ([], [])
  | col :: cols, y, pos, offset => do
    let row ← writeRow nd fix y col
    let r ← writeRows nd fix cols (y + 1) (pos + row.length) (pos + 4)
    return (row ++ r.1, (pos + 4 - offset) / 4 % 2 ^ 32 :: r.2)

/-- `write_matrix_file` (filekl.w L407-424) -/
def writeMatrix (nd fix : Bool) (cols : List (List Nat)) : Res (List Nat) := do
  let r ← writeRows nd fix cols 0 0 0
  return putInt magicCode ++ (r.1 ++ r.2.flatMap putInt).drop 4

/-- the fields of `matrix_info` (filekl.w L437-448) -/
structure MatInfo where
  file : List Nat
  block : BlockInfo
  rowPos : List Nat
  curY : Nat
  strong : List Nat
  entries : Nat

/-- the positions of rows (filekl.w L592-596) -/
def cumulate : Nat → List Nat → List Nat
  | _, [] => []
  | c, d :: l => (c + 4 * d) :: cumulate (c + 4 * d) l

/-- the constructor of `matrix_info` (filekl.w L582-597), for the new format -/
def openMatrix (file : List Nat) (block : BlockInfo) : Res MatInfo := do
  let m ← readBytes 4 file
  if m = magicCode then do
    if file.length < 4 * block.size then .undefined
    else do
      let d ← readMany 4 block.size (file.drop (file.length - 4 * block.size))
      return ⟨file, block, cumulate 0 d, undefBlock, [], 0⟩
  else .undefined

/-- the loop over bits in `set_y` (filekl.w L512-513), for the elements `weak` that remain; at most `k` bits -/
def bitLoop : Nat → Nat → List Nat → Res (List Nat)
  | 0, _, _ => .ok []
  | k + 1, chunk, weak =>
    if chunk = 0 then .ok []
    else if chunk % 2 = 1 then
      match weak with
      | [] => .undefined
      | w :: weak => do
        let r ← bitLoop k (chunk / 2) weak
        return w :: r
    else bitLoop k (chunk / 2) weak.tail

/-- the loop over parts of the bitmap in `set_y` (filekl.w L509-514) -/
def chunkLoop : List Nat → List Nat → Res (List Nat)
  | [], _ => .ok []
  | c :: l, weak => do
    let a ← bitLoop 32 c weak
    let r ← chunkLoop l (weak.drop 32)
    return a ++ r

/-- the first element that has the length of `y` (filekl.w L518-522, L564-568) -/
def lengthFloor (i : BlockInfo) (y : Nat) : Nat := ((i.startLength.take (i.maxLength + 1)).takeWhile fun z => z ≤ y).getLastD 0

/-- the first of the primitive elements that have the length of `y`, or more (filekl.w L523-525) -/
def firstWeak (i : BlockInfo) (weak : List Nat) (y : Nat) : Option Nat := weak.find? fun x => decide (lengthFloor i y ≤ x)

/-- the number of times that the loop over the bitmap in `set_y` (filekl.w L509) is executed -/
def nWords (n : Nat) : Nat := (n + 31) / 32

/-- `matrix_info::set_y` (filekl.w L496-538) -/
def MatInfo.setY (nd : Bool) (m : MatInfo) (y : Nat) : Res MatInfo :=
  if y = m.curY then .ok m
  else do
    let weak ← m.block.prims y
    match m.rowPos[y]? with
    | none => .undefined
    | some p => do
      let n ← readBytes 4 (m.file.drop p)
      let c ← readMany 4 (nWords n) (m.file.drop (p + 4))
      let s ← chunkLoop c weak
      match s.getLast? with
      | none => .undefined
      | some e => do
        if !nd && firstWeak m.block weak y ≠ some e then .throw
        else return { m with curY := y, strong := s.dropLast ++ [y], entries := p + 4 + 4 * nWords n }

/-- `matrix_info::find_pol_nr` (filekl.w L543-556): the number of the polynomial and the new state -/
def MatInfo.find (nd : Bool) (m : MatInfo) (fuel x y : Nat) : Res (Nat × MatInfo) := do
  let m ← m.setY nd y
  let r ← m.block.primitivize fuel x y
  if r ≥ y then return (if r = y then 1 else 0, m)
  else
    match m.strong[m.strong.findIdx fun z => z ≥ r]? with
    | none => return (0, m)
    | some z =>
      if z ≠ r then return (0, m)
      else do
        let v ← readBytes 4 (m.file.drop (m.entries + 4 * m.strong.findIdx fun z => z ≥ r))
        return (v, m)

/-- `matrix_info::prim_nr` (filekl.w L562-577) -/
def MatInfo.primNr (m : MatInfo) (k y : Nat) : Res Nat := do
  let weak ← m.block.prims y
  let limit := weak.findIdx fun x => decide (lengthFloor m.block y ≤ x)
  if k < limit then
    match weak[k]? with
    | none => .undefined
    | some x => return x
  else if k = limit then return y
  else .throw

end Verif.Io
