import Verif.Weyl.Bytes
/-
Model of the construction of transducers (/repo/sources/structure/weyl.cpp, Chapter 1).

`Generator` and `EltPiece` are `unsigned char`; the vectors of structures formed of these are represented by the sequence of
bytes they occupy (see `Verif.Weyl.Bytes`), with a separate size.  Access outside the vectors or arrays is `undefined`.  The
construction is also taken to be `undefined` when the number of states would exceed 255 (state numbers would then be
confused with each other and with `UndefEltPiece`).
-/
namespace Verif.Weyl
open Verif

/-- type letters of simple factors -/
inductive Ty where
  | A | B | C | D | E | F | G
  deriving DecidableEq, Repr

/-- `UndefValue` (weyl.h L40), `UndefEltPiece` and `UndefGenerator` (weyl.cpp L59-60) -/
def undef : Nat := 255

/-- `constants::RANK_MAX` (constants.h L60) -/
def rankMax : Nat := 32

/-- `Coxeter_entry` for `i<=j` (weyl.cpp L195-215) -/
def coxeterLe (ty : Ty) (i j : Nat) : Nat :=
  if ty ≠ .D ∧ ty ≠ .E then
    if j - i = 0 then 1
    else if j - i = 1 then
      if ty = .A ∨ ((ty = .B ∨ ty = .C) ∧ i > 0) ∨ (ty = .F ∧ i ≠ 1) then 3 else if ty = .G then 6 else 4
    else 2
  else if i = 0 then (if j = 2 then 3 else 2)
  else if ty = .E ∧ i = 1 then (if j = 3 then 3 else 2)
  else if j - i = 1 then 3 else 2

/-- `Coxeter_entry` (weyl.cpp L191-216) -/
def coxeter (ty : Ty) (i j : Nat) : Nat := if i > j then coxeterLe ty j i else coxeterLe ty i j

/-- the variables `elt` and `tab` of the construction: the number `n` of states, the bytes of `elt` (an `elem_info`,
weyl.cpp L105-110, has fields `length` and `right`) and those of `tab` (an `entry`, weyl.cpp L296-301, has two arrays of 32
bytes) -/
structure TS where
  n : Nat
  elt : Nat
  tab : Nat
  deriving DecidableEq, Repr

/-- `elt[x].length` -/
def TS.length (st : TS) (x : Nat) : Res Nat := if x < st.n then .ok (getByte st.elt (2 * x)) else .undefined

/-- `tab[x].shift[s]` -/
def TS.shift (st : TS) (x s : Nat) : Res Nat := if x < st.n ∧ s < rankMax then .ok (getByte st.tab (64 * x + s)) else .undefined

/-- `tab[x].out[s]` -/
def TS.out (st : TS) (x s : Nat) : Res Nat := if x < st.n ∧ s < rankMax then .ok (getByte st.tab (64 * x + 32 + s)) else .undefined

/-- `tab[x].shift[s]=v` -/
def TS.putShift (st : TS) (x s v : Nat) : Res TS :=
  if x < st.n ∧ s < rankMax then .ok { st with tab := setByte st.tab (64 * x + s) v } else .undefined

/-- `tab[x].out[s]=v` -/
def TS.putOut (st : TS) (x s v : Nat) : Res TS :=
  if x < st.n ∧ s < rankMax then .ok { st with tab := setByte st.tab (64 * x + 32 + s) v } else .undefined

/-- `elt.emplace_back(l); tab.emplace_back();`, followed by setting the field `right` of the new element (weyl.cpp L305-306,
L330-335) -/
def TS.push (st : TS) (l right : Nat) : TS :=
  ⟨st.n + 1, setByte (setByte st.elt (2 * st.n) l) (2 * st.n + 1) right, fillBytes st.tab (64 * st.n) 64⟩

/-- the first row (weyl.cpp L308-313) -/
def firstRow : List Nat → TS → Res TS
  | [], st => .ok st
  | i :: l, st => do
    let st ← st.putShift 0 i 0
    let st ← st.putOut 0 i i
    firstRow l st

/-- descent to the minimum of the dihedral orbit (weyl.cpp L348-361): try `u` next, then `v`, alternating -/
def descend (st : TS) : Nat → Nat → Nat → Nat → Res Nat
  | 0, _, _, _ => .outOfFuel
  | f + 1, b, u, v => do
    let next ← st.shift b u
    if next < b then descend st f next v u else pure b

/-- upward steps (weyl.cpp L371-386): `d` steps, alternating, starting with `u` -/
def ascend (nd : Bool) (st : TS) : Nat → Nat → Nat → Nat → Res Nat
  | 0, y, _, _ => .ok y
  | d + 1, y, u, v => do
    let z ← st.shift y u
    Res.assertIn nd (decide (z > y ∧ z ≠ undef))
    ascend nd st d z v u

/-- the body of the loop on `t` (weyl.cpp L348-402); `m` is the Coxeter matrix entry -/
def probe (nd : Bool) (m x s xs t : Nat) (st : TS) : Res TS := do
  let b ← descend st (x + 1) x t s
  let d := (← st.length xs) - (← st.length b)
  if d = m then
    let y ← if m % 2 = 0 then ascend nd st (m - 1) b s t else ascend nd st (m - 1) b t s
    let st ← st.putShift xs t y
    st.putShift y t xs
  else if d = m - 1 then
    let u := if m % 2 = 0 then t else s
    if (← st.shift b u) = b then
      let g ← st.out b u
      let st ← st.putShift xs t xs
      st.putOut xs t g
    else pure st
  else do
    Res.assertIn nd (decide (d < m - 1))
    pure st

/-- the loop on `t` (weyl.cpp L343-403) -/
def probes (nd : Bool) (M : Nat → Nat → Nat) (x s xs : Nat) : List Nat → TS → Res TS
  | [], st => .ok st
  | t :: l, st => do
    if t = s then probes nd M x s xs l st
    else probes nd M x s xs l (← probe nd (M s t) x s xs t st)

/-- the body of the loop on `s` (weyl.cpp L326-404) -/
def visit (nd : Bool) (M : Nat → Nat → Nat) (r x s : Nat) (st : TS) : Res TS := do
  if (← st.shift x s) = undef then
    let xs := st.n
    if xs ≥ undef then .undefined
    else
      let st := st.push ((← st.length x) + 1) s
      let st ← st.putShift x s xs
      let st ← st.putShift xs s x
      probes nd M x s xs (List.range (r + 1)) st
  else pure st

/-- the loop on `s` (weyl.cpp L321-404) -/
def visits (nd : Bool) (M : Nat → Nat → Nat) (r x : Nat) : List Nat → TS → Res TS
  | [], st => .ok st
  | s :: l, st => do visits nd M r x l (← visit nd M r x s st)

/-- the loop on `x` (weyl.cpp L320-404) -/
def loop (nd : Bool) (M : Nat → Nat → Nat) (r : Nat) : Nat → Nat → TS → Res TS
  | 0, _, _ => .outOfFuel
  | f + 1, x, st =>
    if x < st.n then do loop nd M r f (x + 1) (← visits nd M r x (List.range (r + 1)) st)
    else .ok st

/-- `Transducer` (weyl.cpp L100-181), without the `offset`: number of states, `limit`, bytes of `elt` and of `table` -/
structure Transducer where
  n : Nat
  limit : Nat
  elt : Nat
  table : Nat
  deriving DecidableEq, Repr

/-- an entry of the final table (weyl.cpp L412-415) -/
def finalEntry (nd : Bool) (r n i shift out : Nat) : Res Nat :=
  if out = undef then do
    Res.assertIn nd (shift ≠ i)
    pure shift
  else do
    Res.assertIn nd (out < r)
    pure ((n + out) % 256)

/-- a row of the final table (weyl.cpp L411-415) -/
def finalRow (nd : Bool) (r i : Nat) (st : TS) : List Nat → Nat → Res Nat
  | [], table => .ok table
  | j :: l, table => do
    let e ← finalEntry nd r st.n i (← st.shift i j) (← st.out i j)
    finalRow nd r i st l (setByte table ((r + 1) * i + j) e)

/-- the final table (weyl.cpp L410-415) -/
def finalTab (nd : Bool) (r : Nat) (st : TS) : List Nat → Nat → Res Nat
  | [], table => .ok table
  | i :: l, table => do finalTab nd r st l (← finalRow nd r i st (List.range (r + 1)) table)

/-- constructor of `Transducer` (weyl.cpp L289-416) for the generator numbered `r` of a component with Coxeter matrix `M` -/
def Transducer.make (nd : Bool) (M : Nat → Nat → Nat) (r : Nat) : Res Transducer := do
  let st ← firstRow (List.range r) (TS.push ⟨0, 0, 0⟩ 0 undef)
  let st ← loop nd M r 256 0 st
  Res.assertIn nd (decide (st.n + r < 255))
  pure ⟨st.n, r + 1, st.elt, ← finalTab nd r st (List.range st.n) 0⟩

end Verif.Weyl
