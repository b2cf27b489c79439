import Verif.Common
/-
Model of the files of polynomials (io/filekl.w L642-855) and of binary input and output (io/basic_io_def.h, io/basic_io.cpp).

Simplifications.  A file is the list of its bytes; a stream that is read is the part of the file that remains after its position.  Reading beyond the end is `undefined`.  A polynomial is the list of its
coefficients from degree 0 to its degree, which is empty for the zero polynomial; that the last one is nonzero is not used.
-/
namespace Verif.Io
open Verif

/-- `write_bytes<n>` (basic_io_def.h L63-73) -/
def writeBytes : Nat → Nat → List Nat
  | 0, _ => []
  | n + 1, v => v % 256 :: writeBytes n (v / 256)

/-- `put_int` (basic_io.cpp L267) -/
def putInt (v : Nat) : List Nat := writeBytes 4 (v % 2 ^ 32)

/-- `read_bytes<n>` (basic_io_def.h L50-60), if the left operand of the addition is evaluated first; it takes `n` bytes from the stream -/
def readBytes : Nat → List Nat → Res Nat
  | 0, _ => .ok 0
  | _ + 1, [] => .undefined
  | n + 1, b :: l => do
    let r ← readBytes n l
    return b + r * 256

/-- the same if the right operand is evaluated first, which the language allows -/
def readBytesRight : Nat → List Nat → Res Nat
  | 0, _ => .ok 0
  | n + 1, l => do
    let r ← readBytesRight n l
    match l[n]? with
    | none => .undefined
    | some b => return b + r * 256

/-- `read_var_bytes` (basic_io.cpp L253-265) -/
def readVar (n : Nat) (l : List Nat) : Res Nat := if 1 ≤ n ∧ n ≤ 8 then readBytes n l else .throw

/-- a value in 5 bytes (filekl.w L674-675, L682) -/
def five (offset : Nat) : List Nat := putInt (offset % 2 ^ 32) ++ [offset / 2 ^ 16 / 2 ^ 16 % 256]

/-- the indices (filekl.w L669-682) -/
def indexLoop : List (List Nat) → Nat → List Nat
  | [], offset => five offset
  | p :: l, offset => five offset ++ indexLoop l (if p ≠ [] then offset + (p.length - 1 + 1) * 4 else offset)

/-- the coefficients (filekl.w L685-691) -/
def coefLoop : List (List Nat) → List Nat
  | [] => []
  | p :: l => p.flatMap putInt ++ coefLoop l

/-- `write_KL_store` (filekl.w L661-692) -/
def writeStore (store : List (List Nat)) : List Nat := putInt store.length ++ indexLoop store 0 ++ coefLoop store

/-- `polynomial_info` (filekl.w L704-724) -/
structure PolInfo where
  file : List Nat
  nPols : Nat
  coefSize : Nat
  nCoef : Nat
  indexBegin : Nat
  coefBegin : Nat

/-- its constructor (filekl.w L730-738) -/
def openInfo (file : List Nat) : Res PolInfo := do
  let n ← readBytes 4 file
  let c ← readBytes 5 (file.drop (4 + 10))
  let x ← readBytes 5 (file.drop (4 + 5 * n))
  if c % 2 ^ 32 = 0 then .undefined
  else return ⟨file, n, c % 2 ^ 32, x / (c % 2 ^ 32), 4, 4 + 5 * n + 5⟩

/-- `polynomial_info::degree` (filekl.w L745-753); numbers are of type `size_t` -/
def PolInfo.degree (f : PolInfo) (i : Nat) : Res Nat :=
  if i < 2 then .ok ((i + (2 ^ 64 - 1)) % 2 ^ 64)
  else do
    let a ← readBytes 5 (f.file.drop (f.indexBegin + 5 * i))
    let b ← readBytes 5 (f.file.drop (f.indexBegin + 5 * i + 5))
    return ((b - a) / f.coefSize + (2 ^ 64 - 1)) % 2 ^ 64

/-- the loop of `coefficients` (filekl.w L767-768) -/
def readMany (size : Nat) : Nat → List Nat → Res (List Nat)
  | 0, _ => .ok []
  | k + 1, l => do
    let v ← readVar size l
    let r ← readMany size k (l.drop size)
    return v :: r

/-- `polynomial_info::coefficients` (filekl.w L758-771) -/
def PolInfo.coefficients (f : PolInfo) (i : Nat) : Res (List Nat) := do
  let a ← readBytes 5 (f.file.drop (f.indexBegin + 5 * i))
  let b ← readBytes 5 (f.file.drop (f.indexBegin + 5 * i + 5))
  readMany f.coefSize ((b - a) / f.coefSize) (f.file.drop (f.coefBegin + a))

/-- `polynomial_info::leading_coeff` (filekl.w L777-783) -/
def PolInfo.leading (f : PolInfo) (i : Nat) : Res Nat :=
  if i < 2 then .ok i
  else do
    let b ← readBytes 5 (f.file.drop (f.indexBegin + 5 * (i + 1)))
    readVar f.coefSize (f.file.drop (f.coefBegin + b - f.coefSize))

/-- the loop in the constructor of `cached_pol_info` (filekl.w L813-823), from index `i` on for `k` polynomials -/
def cacheLoop (f : PolInfo) : Nat → Nat → Res (List Nat)
  | 0, _ => .ok []
  | k + 1, i => do
    let d ← f.degree i
    if d / 32 ≠ 0 then .throw
    else
      let r ← cacheLoop f k (i + 1)
      return d :: r

/-- the constructor of `cached_pol_info` (filekl.w L808-827): the file and the cache -/
def openCached (file : List Nat) : Res (PolInfo × List Nat) := do
  let f ← openInfo file
  let c ← cacheLoop f (f.nPols - 2) 2
  return (f, c)

/-- `cached_pol_info::degree` (filekl.w L833-836) -/
def cachedDegree (cache : List Nat) (i : Nat) : Res Nat :=
  if i < 2 then .ok ((i + (2 ^ 64 - 1)) % 2 ^ 64)
  else
    match cache[i - 2]? with
    | none => .undefined
    | some c => .ok (c % 32)

/-- `cached_pol_info::leading_coeff` (filekl.w L847-855): the result and the new cache -/
def cachedLeading (f : PolInfo) (cache : List Nat) (i : Nat) : Res (Nat × List Nat) :=
  if i < 2 then .ok (i, cache)
  else
    match cache[i - 2]? with
    | none => .undefined
    | some c =>
      if c / 32 ≠ 0 then .ok (c / 32, cache)
      else do
        let lc ← f.leading i
        return (lc, if lc ≤ 255 / 32 then cache.set (i - 2) (c ||| lc * 32) else cache)

end Verif.Io
