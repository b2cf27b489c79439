import Verif.Io.Files
import Verif.KL.Model
/-
Model of the files of blocks (io/filekl.w L154-354) and of what programs that read them compute from them (L273-314, L486-491), on the model of blocks of C60.

Simplifications.  Those of Io/Files.lean.  `UndefBlock` is the number `2^32-1` in a file and in the programs that read it.  Lists of primitive elements are computed each time, not once for each descent set.
The binary search `upper_bound` is modelled by its result for increasing sequences.
-/
namespace Verif.Io
open Verif KL

/-- `UndefBlock` (Atlas.h) and `no_good_ascent` (filekl.w L155) -/
def undefBlock : Nat := 2 ^ 32 - 1
def noGoodAscent : Nat := undefBlock - 1

/-- block elements as numbers -/
def encode : Option Nat → Nat
  | none => undefBlock
  | some x => x

/-- the inner loop for lengths (filekl.w L190-191), with the number of elements from `z` on; beyond the block it is undefined -/
def advance (b : Block) (l : Nat) : Nat → Nat → Res Nat
  | 0, _ => .undefined
  | k + 1, z => if b.length z ≤ l then advance b l k (z + 1) else .ok z

/-- the loop for lengths (filekl.w L188-195), from `l` on for `k` values -/
def writeLengths (b : Block) : Nat → Nat → Nat → Res (List Nat)
  | 0, _, z => if z < b.size then .ok [] else .assertFail
  | k + 1, l, z => do
    let z ← advance b l (b.size - z) z
    let r ← writeLengths b k (l + 1) z
    return putInt z ++ r

/-- the descent set as a number (filekl.w L202-205) -/
def descentBits (b : Block) (y : Nat) : Nat := (List.range b.rank).foldl (fun d s => if isDescent (b.status s y) then d ||| 2 ^ s else d) 0

/-- an entry of the table of ascents (filekl.w L216-226) -/
def ascentEntry (b : Block) (x s : Nat) : Nat :=
  if isDescent (b.status s x) || b.status s x = .imaginaryTypeII then noGoodAscent
  else if b.status s x = .realNonparity then undefBlock
  else if b.status s x = .complexAscent then encode (b.crossImage s x)
  else encode (b.cayley s x).1

/-- `write_block_file` (filekl.w L176-229) -/
def writeBlock (b : Block) : Res (List Nat) :=
  if b.size = 0 then .undefined
  else do
    let lengths ← writeLengths b (b.length (b.size - 1) % 256) 0 0
    return putInt b.size ++ [b.rank % 256] ++ [b.length (b.size - 1) % 256] ++ lengths ++ (List.range b.size).flatMap (fun y => putInt (descentBits b y)) ++
      (List.range b.size).flatMap fun x => (List.range b.rank).flatMap fun s => putInt (ascentEntry b x s)

/-- `block_info` (filekl.w L245-266) -/
structure BlockInfo where
  rank : Nat
  size : Nat
  maxLength : Nat
  startLength : List Nat
  descent : List Nat
  ascents : List (List Nat)

/-- reading of the table of ascents (filekl.w L343-350) -/
def readTable (rank : Nat) : Nat → List Nat → Res (List (List Nat))
  | 0, _ => .ok []
  | k + 1, l => do
    let a ← readMany 4 rank l
    let r ← readTable rank k (l.drop (4 * rank))
    return a :: r

/-- the constructor of `block_info` (filekl.w L321-354) -/
def readBlock (file : List Nat) : Res BlockInfo := do
  let size ← readBytes 4 file
  let rank ← readBytes 1 (file.drop 4)
  let maxLength ← readBytes 1 (file.drop 5)
  let starts ← readMany 4 maxLength (file.drop 6)
  let descent ← readMany 4 size (file.drop (6 + 4 * maxLength))
  let ascents ← readTable rank size (file.drop (6 + 4 * maxLength + 4 * size))
  return ⟨rank, size, maxLength, 0 :: starts ++ [size], descent, ascents⟩

/-- `matrix_info::length` (filekl.w L486-491) -/
def BlockInfo.length (i : BlockInfo) (y : Nat) : Nat := (i.startLength.takeWhile fun z => z ≤ y).length - 1

/-- the loop over simple roots in `primitivize` (filekl.w L280-282): the element to which `x` is raised, for the descent set `d` -/
def raise (d : Nat) (ax : List Nat) : Nat → Nat → Option Nat
  | 0, _ => none
  | k + 1, s => if d.testBit s && ax.getD s 0 ≠ noGoodAscent then some (ax.getD s 0) else raise d ax k (s + 1)

/-- `block_info::primitivize` (filekl.w L273-284), for the descent set `d` of `y` -/
def primLoop (i : BlockInfo) (d y : Nat) : Nat → Nat → Res Nat
  | 0, _ => .outOfFuel
  | k + 1, x =>
    if x ≥ y then .ok x
    else
      match i.ascents[x]? with
      | none => .undefined
      | some ax =>
        match raise d ax i.rank 0 with
        | some x' => primLoop i d y k x'
        | none => .ok x

/-- `block_info::primitivize` (filekl.w L273-284) -/
def BlockInfo.primitivize (i : BlockInfo) (fuel x y : Nat) : Res Nat :=
  match i.descent[y]? with
  | none => .undefined
  | some d => primLoop i d y fuel x

/-- `block_info::is_primitive` (filekl.w L289-298) -/
def BlockInfo.isPrimitive (i : BlockInfo) (x d : Nat) : Bool :=
  match i.ascents[x]? with
  | none => false
  | some ax => (raise d ax ax.length 0).isNone

/-- `block_info::prims_for_descents_of` (filekl.w L303-314) -/
def BlockInfo.prims (i : BlockInfo) (y : Nat) : Res (List Nat) :=
  match i.descent[y]? with
  | none => .undefined
  | some d => .ok ((List.range i.size).filter fun x => i.isPrimitive x d)

end Verif.Io
