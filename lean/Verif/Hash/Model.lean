import Verif.Common
/-
Model of the class template `HashTable<Entry,Number>` (/repo/sources/utilities/hashtable.h,
hashtable_def.h).  `W` is the number of values of type `Number` (`2^32` for `unsigned int`),
`hash x m` models both `x.hashCode(m)` and `hash_code(x,m)`, and `!=` on entries is inequality in
`E`.  `alloc m` says whether a vector of `m` slots can be allocated, and `room` whether the pool
can be extended; failing allocations throw.  The pool is owned by the table here (the program
lets a caller share it).  `d_mod` is not bounded by `2^64`: a table of `2^63` slots cannot be
allocated, so shifting cannot lose the leading bit.
-/
namespace Verif.Hash

/-- data members of `HashTable` (hashtable.h L79-81) -/
structure Table (E : Type) where
  mod : Nat
  slots : List Nat
  pool : List E
  deriving DecidableEq, Repr

section
variable {E : Type} [DecidableEq E] (W : Nat) (hash : E → Nat → Nat)

/-- `HashTable::empty`, which is `~Number(0)` (hashtable_def.h L9) -/
def empty : Nat := W - 1

/-- conversion to type `Number` -/
def num (i : Nat) : Nat := i % W

/-- `max_fill` (hashtable.h L109-110); `fill_fraction` is the `float` 0.8, which is
`13421773/2^24`, and multiplying it by a power of 2 is exact -/
def maxFill (m : Nat) : Nat := 13421773 * m / 16777216

/-- reading `d_hash[h]` -/
def slot (s : List Nat) (h : Nat) : Res Nat :=
  match s[h]? with
  | some v => .ok v
  | none => .undefined

/-- reading `d_pool[i]` -/
def entry (p : List E) (i : Nat) : Res E :=
  match p[i]? with
  | some v => .ok v
  | none => .undefined

/-- `++h==d_mod ? 0 : h` as in `if (++h==d_mod) h=0` -/
def step (m h : Nat) : Nat := if h + 1 = m then 0 else h + 1

/-- the probing loop `while (d_hash[h]!=empty) if (++h==d_mod) h=0;` of `rehash` and `match`
(hashtable_def.h L35-36, L104-105, L152-153), with a bound on the number of passes -/
def freeLoop (s : List Nat) (m : Nat) : Nat → Nat → Res Nat
  | 0, _ => .outOfFuel
  | k + 1, h => do
    if (← slot s h) ≠ empty W then freeLoop s m k (step m h) else pure h

/-- the searching loop of `find` and `match` (hashtable_def.h L60-61, L77-78, L125-126); the result is
the final value of `(i,h)` -/
def findLoop (t : Table E) (x : E) : Nat → Nat → Res (Nat × Nat)
  | 0, _ => .outOfFuel
  | k + 1, h => do
    let i ← slot t.slots h
    if i = empty W then pure (i, h)
    else do
      let e ← entry t.pool i
      if x ≠ e then findLoop t x k (step t.mod h) else pure (i, h)

/-- the loop of `rehash` over the pool (hashtable_def.h L30-39) -/
def rehashLoop (m : Nat) : List E → Nat → List Nat → Res (List Nat)
  | [], _, s => .ok s
  | e :: p, i, s => do
    let h ← freeLoop W s m (m + 1) (hash e m)
    rehashLoop m p (i + 1) (s.set h (num W i))

/-- `rehash` (hashtable_def.h L23-40), for given pool and `d_mod`; the new slots -/
def rehash (alloc : Nat → Bool) (m : Nat) (p : List E) : Res (List Nat) :=
  if alloc m then rehashLoop W hash m p 0 (List.replicate m (empty W)) else .throw

/-- the loop of `reconstruct` (hashtable_def.h L46-47) -/
def growLoop (n : Nat) : Nat → Nat → Res Nat
  | 0, _ => .outOfFuel
  | k + 1, m => if n ≥ maxFill m then growLoop n k (2 * m) else .ok m

/-- the constructor (hashtable_def.h L15-21), which calls `reconstruct` (L43-50) -/
def make (alloc : Nat → Bool) (pool : List E) (n : Nat) : Res (Table E) := do
  let m ← growLoop pool.length (pool.length + 3) (2 ^ n)
  let s ← rehash W hash alloc m pool
  return ⟨m, s, pool⟩

/-- `find` (hashtable_def.h L54-64) -/
def find (t : Table E) (x : E) : Res Nat := do
  let r ← findLoop W t x (t.mod + 1) (hash x t.mod)
  return r.1

/-- `match` (hashtable_def.h L71-115 and L119-163, which differ only in how `x` is stored); the
first component is the table afterwards, also when the call ends by an exception -/
def matchOp (alloc : Nat → Bool) (room : Bool) (t : Table E) (x : E) : Table E × Res Nat :=
  match findLoop W t x (t.mod + 1) (hash x t.mod) with
  | .throw => (t, .throw)
  | .assertFail => (t, .assertFail)
  | .undefined => (t, .undefined)
  | .outOfFuel => (t, .outOfFuel)
  | .ok (i, h) =>
    if i ≠ empty W then (t, .ok i)
    else if num W t.pool.length ≠ t.pool.length then (t, .throw)
    else
      let store (t : Table E) (h : Nat) : Table E × Res Nat :=
        let s := t.slots.set h (num W t.pool.length)
        if room then (⟨t.mod, s, t.pool ++ [x]⟩, slot s h)
        else (⟨t.mod, s, t.pool⟩, .throw)
      if t.pool.length ≥ maxFill t.mod then
        let m := 2 * t.mod
        match rehash W hash alloc m t.pool with
        | .throw => (⟨m, t.slots, t.pool⟩, .throw)
        | .assertFail => (⟨m, t.slots, t.pool⟩, .assertFail)
        | .undefined => (⟨m, t.slots, t.pool⟩, .undefined)
        | .outOfFuel => (⟨m, t.slots, t.pool⟩, .outOfFuel)
        | .ok s =>
          match freeLoop W s m (m + 1) (hash x m) with
          | .ok h => store ⟨m, s, t.pool⟩ h
          | .throw => (⟨m, s, t.pool⟩, .throw)
          | .assertFail => (⟨m, s, t.pool⟩, .assertFail)
          | .undefined => (⟨m, s, t.pool⟩, .undefined)
          | .outOfFuel => (⟨m, s, t.pool⟩, .outOfFuel)
      else store t h

/-- `size` (hashtable.h L104) -/
def size (t : Table E) : Nat := num W t.pool.length

/-- `operator[]` (hashtable.h L102-103) -/
def get (t : Table E) (i : Nat) : Res E := entry t.pool i

end
end Verif.Hash
