import Verif.Hash.Model
import Verif.Vec
/-
Model of the class `Hash_table` (/repo/sources/interpreter/buffer.w), which numbers the identifiers, keywords and file names that occur in a session.  Strings are lists of the codes of
their characters, of which none is 0, so that `strncmp(name_tab[i],str,l)==0 && name_tab[i][l]=='\0'` (L329, L363) is equality; the string pool is left out.  A C++ `unsigned short` has 16 bits.
The loops that look for a string and for an empty slot have the same text as those of the class template `HashTable`, so we share `findLoop` and `freeLoop` of Hash/Model.lean; here the
bound `fuel` on the number of passes is a parameter.
-/
namespace Verif.Lex
open Verif

/-- number of values of `id_type` (L197); `Hash_table::empty` (L251) is `Hash.empty idW` -/
abbrev idW : Nat := 65536

/-- `Hash_table`, the members `mod`, `hash_tab` and `name_tab` (L205-207) -/
abbrev Names := Hash.Table (List Nat)

/-- `max_fill` (L224) -/
def maxFill (m : Nat) : Nat := m * 3 / 4 % idW

/-- `hash` (L298-303) -/
def hashStr (s : List Nat) (m : Nat) : Nat :=
  match s with
  | [] => 0
  | c :: s => s.foldl (fun r c => (c + r * 256) % m) (c % m)

/-- the constructor (L264-268) -/
def initNames (init : Nat) : Names :=
  let m := (if init < 2 then 2 else init) % idW
  ⟨m, List.replicate m (Hash.empty idW), []⟩

/-- `initial_hash_mod` (L221) -/
def initialMod : Nat := 97

/-- `knows` (L326-336) -/
def knows (fuel : Nat) (t : Names) (s : List Nat) : Res Bool := do
  let r ← Hash.findLoop idW t s fuel (hashStr s t.mod)
  return r.1 ≠ Hash.empty idW

/-- the loop that enters the strings in a larger table (L395-401) -/
def extendLoop (fuel m : Nat) : List (List Nat) → Nat → List Nat → Res (List Nat)
  | [], _, tab => .ok tab
  | s :: l, i, tab => do
    let h ← Hash.freeLoop idW tab m fuel (hashStr s m)
    let tab ← Vec.put tab h (i % idW)
    extendLoop fuel m l (i + 1) tab

/-- `do_match` (L360-376, L394-403); the number, and the table afterwards -/
def doMatch (fuel : Nat) (t : Names) (s : List Nat) : Res (Nat × Names) := do
  let r ← Hash.findLoop idW t s fuel (hashStr s t.mod)
  if r.1 ≠ Hash.empty idW then return (r.1, t)
  else if t.pool.length ≥ maxFill t.mod then do
    let m := (2 * t.mod - 1) % idW
    let tab ← extendLoop fuel m t.pool 0 (List.replicate m (Hash.empty idW))
    let h ← Hash.freeLoop idW tab m fuel (hashStr s m)
    let tab ← Vec.put tab h (t.pool.length % idW)
    return (← Vec.get tab h, ⟨m, tab, t.pool ++ [s]⟩)
  else do
    let tab ← Vec.put t.slots r.2 (t.pool.length % idW)
    return (← Vec.get tab r.2, ⟨t.mod, tab, t.pool ++ [s]⟩)

/-- `nr_entries` (L213) -/
def nrEntries (t : Names) : Nat := t.pool.length % idW

/-- `name_of` (L214) -/
def nameOf (t : Names) (n : Nat) : Res (List Nat) := Vec.get t.pool n

/-- successive calls of `match` -/
def matchAll (fuel : Nat) : Names → List (List Nat) → Res (List Nat × Names)
  | t, [] => .ok ([], t)
  | t, s :: l => do
    let (n, t) ← doMatch fuel t s
    let (ns, t) ← matchAll fuel t l
    return (n :: ns, t)

end Verif.Lex
