import Verif.Vec
import Verif.Pre.Model
/-
Model of user-defined ("tabled") types of the interpreter: the table of types, equality of types, textual equality, and the entry of simple and of grouped (possibly recursive) type definitions
(/repo/sources/interpreter/axis-types.w).
Numbers of types are natural numbers (in the program `unsigned short`, so this holds for less than 65536 types); field names are left out.
`nd` tells whether assertions are disabled; `fuel` bounds the depth of recursion where it is not structural.
-/
namespace Verif.Axis
open Verif

/-- `type_expr` (axis-types.w L330-430), with tabled types: a number in the table and a list of type arguments -/
inductive TT where
  | undet
  | prim (n : Nat)
  | var (n : Nat)
  | func (a r : TT)
  | row (c : TT)
  | tuple (l : List TT)
  | union (l : List TT)
  | tabled (nr : Nat) (args : List TT)

/-- `tag` -/
def TT.tag : TT → Nat
  | .undet => 0
  | .prim _ => 1
  | .var _ => 2
  | .func _ _ => 3
  | .row _ => 4
  | .tuple _ => 5
  | .union _ => 6
  | .tabled _ _ => 7

def TT.isTabled : TT → Bool
  | .tabled _ _ => true
  | _ => false

/-- `type_binding` (axis-types.w L1307-1316), without field names; `no_id` is `none` -/
structure Binding where
  name : Option Nat
  arity : Nat
  recursive : Bool
  tp : TT

/-- `type_map` (axis-types.w L1318-1328) -/
abbrev TMap := List Binding

mutual
/-- `simple_subst` (axis-types.w L1221-1255) -/
def simpleSubst (nd : Bool) (assign : List TT) : TT → Res TT
  | .undet => do Res.assertIn nd false; .ok .undet
  | .prim n => .ok (.prim n)
  | .var c => do Res.assertIn nd (decide (c < assign.length)); Vec.get assign c
  | .func a r => do .ok (.func (← simpleSubst nd assign a) (← simpleSubst nd assign r))
  | .row c => do .ok (.row (← simpleSubst nd assign c))
  | .tuple l => do .ok (.tuple (← simpleSubstL nd assign l))
  | .union l => do .ok (.union (← simpleSubstL nd assign l))
  | .tabled nr args => do .ok (.tabled nr (← simpleSubstL nd assign args))
def simpleSubstL (nd : Bool) (assign : List TT) : List TT → Res (List TT)
  | [] => .ok []
  | t :: l => do .ok ((← simpleSubst nd assign t) :: (← simpleSubstL nd assign l))
end

/-- `expanded` (axis-types.w L1434-1445) -/
def expanded (nd : Bool) (m : TMap) : TT → Res TT
  | .tabled nr args => do
    Res.assertIn nd (decide (nr < m.length))
    let b ← Vec.get m nr
    Res.assertIn nd (args.length == b.arity)
    simpleSubst nd args b.tp
  | t => .ok t

/-- the loops over components in `operator==` and `textually_equal_lists` (axis-types.w L1115-1122, L1526-1533) -/
def eqList (self : TT → TT → Res Bool) : List TT → List TT → Res Bool
  | [], [] => .ok true
  | x :: l, y :: l' => do if ← self x y then eqList self l l' else .ok false
  | _, _ => .ok false

/-- the loop over type arguments in `operator==` (axis-types.w L1150-1159) -/
def eqArgs (nd : Bool) (self : TT → TT → Res Bool) : List TT → List TT → Res Bool
  | [], [] => .ok true
  | x :: l, y :: l' => do if ← self x y then eqArgs nd self l l' else .ok false
  | _, _ => do Res.assertIn nd false; .ok true

/-- `operator==` for types of equal tag (axis-types.w L1093-1105, L1144-1161); `self` stands for recursive calls -/
def eqKinds (self : TT → TT → Res Bool) (nd : Bool) (m : TMap) : TT → TT → Res Bool
  | .undet, .undet => .ok true
  | .prim a, .prim b => .ok (a == b)
  | .var a, .var b => .ok (a == b)
  | .func a r, .func a' r' => do if ← self a a' then self r r' else .ok false
  | .row c, .row c' => self c c'
  | .tuple l, .tuple l' => eqList self l l'
  | .union l, .union l' => eqList self l l'
  | .tabled nr args, .tabled nr' args' =>
    if nr ≠ nr' then do
      let b ← Vec.get m nr
      let b' ← Vec.get m nr'
      if b.recursive && b'.recursive then .ok false
      else do self (← expanded nd m (.tabled nr args)) (← expanded nd m (.tabled nr' args'))
    else eqArgs nd self args args'
  | _, _ => .ok false

/-- `operator==` (axis-types.w L1088-1107) -/
def eqT (nd : Bool) (m : TMap) : Nat → TT → TT → Res Bool
  | 0, _, _ => .outOfFuel
  | k + 1, x, y =>
    if x.tag ≠ y.tag then
      if x.isTabled then do eqT nd m k (← expanded nd m x) y
      else if y.isTabled then do eqT nd m k x (← expanded nd m y)
      else .ok false
    else eqKinds (eqT nd m k) nd m x y

/-- `type_name` (axis-types.w L1411-1413) -/
def typeName (m : TMap) : TT → Res (Option Nat)
  | .tabled nr _ => do .ok (← Vec.get m nr).name
  | _ => .undefined

/-- `textually_equal` for types of equal kind (axis-types.w L1506-1523); components of function types are compared by `operator==` -/
def textKinds (self eq : TT → TT → Res Bool) (nd : Bool) (m : TMap) : TT → TT → Res Bool
  | .undet, .undet => do Res.assertIn nd false; .ok true
  | .prim a, .prim b => .ok (a == b)
  | .var a, .var b => .ok (a == b)
  | .func a r, .func a' r' => do if ← eq a a' then eq r r' else .ok false
  | .row c, .row c' => self c c'
  | .tuple l, .tuple l' => eqList self l l'
  | .union l, .union l' => eqList self l l'
  | .tabled nr args, .tabled nr' args' => do
    let n ← typeName m (.tabled nr args)
    let n' ← typeName m (.tabled nr' args')
    if n ≠ n' then .ok false
    else if nr = nr' ∧ n ≠ none then eqList self args args'
    else do self (← expanded nd m (.tabled nr args)) (← expanded nd m (.tabled nr' args'))
  | _, _ => .ok false

/-- `textually_equal` (axis-types.w L1496-1524) -/
def textEq (nd : Bool) (m : TMap) : Nat → TT → TT → Res Bool
  | 0, _, _ => .outOfFuel
  | k + 1, x, y =>
    if x.tag ≠ y.tag then
      if x.isTabled then do
        if (← typeName m x) = none then do textEq nd m k (← expanded nd m x) y else .ok false
      else if y.isTabled then do
        if (← typeName m y) = none then do textEq nd m k x (← expanded nd m y) else .ok false
      else .ok false
    else textKinds (textEq nd m k) (eqT nd m k) nd m x y

/-- the search in `add_simple_typedef` (axis-types.w L1472-1476) -/
def findEntry (nd : Bool) (m : TMap) (fuel : Nat) (id : Nat) (tp : TT) : List Binding → Nat → Res (Option Nat)
  | [], _ => .ok none
  | e :: l, i => do
    if e.name = some id then
      if ← textEq nd m fuel e.tp tp then .ok (some i) else findEntry nd m fuel id tp l (i + 1)
    else findEntry nd m fuel id tp l (i + 1)

/-- `add_simple_typedef` (axis-types.w L1469-1482): the number of the type, and the new table -/
def addSimple (nd : Bool) (fuel : Nat) (m : TMap) (id : Nat) (tp : TT) (arity : Nat) : Res (Nat × TMap) := do
  let tp ← expanded nd m tp
  match ← findEntry nd m fuel id tp m 0 with
  | some i => .ok (i, m)
  | none => .ok (m.length, m ++ [⟨some id, arity, false, tp⟩])

/-- `type_data` (axis-types.w L1673-1686) -/
structure TData where
  tp : TT
  out : List Nat

/-- `tabled_arity` of an entry in the table -/
def arityOf (m : TMap) (nr : Nat) : Nat := (m[nr]?.map Binding.arity).getD 0

/-- `has_descendants` (axis-types.w L1641-1653) -/
def hasDesc (m : TMap) : TT → Bool
  | .row _ => true
  | .func _ _ => true
  | .union _ => true
  | .tuple l => !l.isEmpty
  | .tabled nr _ => decide (nr < m.length) && decide (0 < arityOf m nr)
  | _ => false

mutual
/-- `record`, with the call of `dissect_to` (axis-types.w L1712-1740): the new `type_array` and `out` -/
def record (m : TMap) : TT → List TData → List Nat → List TData × List Nat
  | .row c, arr, out =>
    let r := record m c arr []
    (r.1 ++ [⟨.row c, r.2⟩], out ++ [r.1.length])
  | .func a b, arr, out =>
    let r := record m a arr []
    let r := record m b r.1 r.2
    (r.1 ++ [⟨.func a b, r.2⟩], out ++ [r.1.length])
  | .tuple l, arr, out =>
    if l.isEmpty then (arr, out) else
      let r := recordL m l arr []
      (r.1 ++ [⟨.tuple l, r.2⟩], out ++ [r.1.length])
  | .union l, arr, out =>
    let r := recordL m l arr []
    (r.1 ++ [⟨.union l, r.2⟩], out ++ [r.1.length])
  | .tabled nr args, arr, out =>
    if nr < m.length then
      if 0 < arityOf m nr then
        let r := recordL m args arr []
        (r.1 ++ [⟨.tabled nr args, r.2⟩], out ++ [r.1.length])
      else (arr, out)
    else (arr, out ++ [nr - m.length])
  | _, arr, out => (arr, out)
def recordL (m : TMap) : List TT → List TData → List Nat → List TData × List Nat
  | [], arr, out => (arr, out)
  | t :: l, arr, out =>
    let r := record m t arr out
    recordL m l r.1 r.2
end

/-- the loop that fills `type_array` (axis-types.w L1759-1767) -/
def fillLoop (m : TMap) : Nat → List (Nat × TT) → List TData → Res (List TData)
  | _, [], arr => .ok arr
  | i, d :: defs, arr =>
    if hasDesc m d.2 then
      let r := (record m d.2 arr []).1
      match r.getLast? with
      | none => .undefined
      | some e => do fillLoop m (i + 1) defs (← Vec.put r.dropLast i e)
    else do fillLoop m (i + 1) defs (← Vec.put arr i ⟨d.2, []⟩)

/-- `local_ref` (axis-types.w L569-575) -/
def localRef (nr nArgs : Nat) : TT := .tabled nr ((List.range nArgs).map .var)

/-- `rewrite` (axis-types.w L1796-1816): the type, and the rest of the list; an iterator at the end is dereferenced with undefined behaviour -/
def rewrite (nd : Bool) (m : TMap) (nArgs : Nat) (t : TT) (it : List Nat) : Res (TT × List Nat) :=
  if hasDesc m t then
    match it with
    | [] => .undefined
    | n :: it => .ok (localRef (m.length + n) nArgs, it)
  else
    match t with
    | .tabled nr args =>
      if m.length ≤ nr then
        match it with
        | [] => .undefined
        | n :: it => do
          Res.assertIn nd (m.length + n == nr)
          .ok (localRef (m.length + n) nArgs, it)
      else .ok (.tabled nr args, it)
    | t => .ok (t, it)

def rewriteL (nd : Bool) (m : TMap) (nArgs : Nat) : List TT → List Nat → Res (List TT)
  | [], _ => .ok []
  | t :: l, it => do
    let r ← rewrite nd m nArgs t it
    .ok (r.1 :: (← rewriteL nd m nArgs l r.2))

/-- the type stored for an entry of `type_array` (axis-types.w L1842-1866, L1893-1898); `mNow` is the table so far, `m` the one before the definitions -/
def nodeType (nd : Bool) (m mNow : TMap) (nArgs : Nat) (d : TData) : Res TT :=
  match d.tp with
  | .row c => do .ok (.row (← rewrite nd m nArgs c d.out).1)
  | .func a b => do
    let r ← rewrite nd m nArgs a d.out
    let q ← rewrite nd m nArgs b r.2
    .ok (.func r.1 q.1)
  | .tuple l => do .ok (.tuple (← rewriteL nd m nArgs l d.out))
  | .union l => do .ok (.union (← rewriteL nd m nArgs l d.out))
  | .tabled nr args => do expanded nd mNow (.tabled nr (← rewriteL nd m nArgs args d.out))
  | t => .ok t

/-- the loop that extends the table (axis-types.w L1838-1872); `cl` are the cliques -/
def installLoop (nd : Bool) (m : TMap) (nArgs : Nat) (cl : List (List Nat)) (names : List Nat) : Nat → List TData → TMap → Res TMap
  | _, [], mNow => .ok mNow
  | i, d :: arr, mNow => do
    let tp ← nodeType nd m mNow nArgs d
    installLoop nd m nArgs cl names (i + 1) arr (mNow ++ [⟨names[i]?, nArgs, cl.any fun l => l.contains i, tp⟩])

/-- the inner loop of the search for duplicates (axis-types.w L1914-1923) -/
def dupLoop (nd : Bool) (m : TMap) (fuel : Nat) (cur : Nat) (b : Binding) : List Binding → Nat → Res Nat
  | [], _ => .ok cur
  | o :: l, k => do
    if !o.recursive && o.name = b.name then
      if ← textEq nd m fuel o.tp b.tp then .ok k else dupLoop nd m fuel cur b l (k + 1)
    else dupLoop nd m fuel cur b l (k + 1)

/-- the search for duplicates (axis-types.w L1908-1925): `relocate`, for `n` entries from number `cur` on -/
def relocLoop (nd : Bool) (m : TMap) (fuel : Nat) : Nat → Nat → Res (List Nat)
  | 0, _ => .ok []
  | n + 1, cur => do
    let b ← Vec.get m cur
    let r ← if b.recursive then .ok cur else dupLoop nd m fuel cur b (m.take cur) 0
    .ok (r :: (← relocLoop nd m fuel n (cur + 1)))

/-- the removal of redundant types (axis-types.w L1944-1963): `relocate` and the new entries; `i` is the number of the current entry in `relocate` -/
def removeLoop (old : Nat) : Nat → Nat → List Binding → List Nat → List Binding → Res (List Nat × List Binding)
  | _, _, [], rel, kept => .ok (rel, kept)
  | i, removed, b :: l, rel, kept => do
    let r ← Vec.get rel i
    if r ≠ old + i then do
      let rel ← if old ≤ r then do Vec.put rel i (← Vec.get rel (r - old)) else .ok rel
      removeLoop old (i + 1) (removed + 1) l rel kept
    else do
      let rel ← Vec.put rel i (r - removed)
      removeLoop old (i + 1) removed l rel (kept ++ [b])

mutual
/-- `fix` (axis-types.w L1999-2008) -/
def fix (rel : List Nat) (sz : Nat) : TT → Res TT
  | .tabled nr args =>
    if sz ≤ nr then do .ok (.tabled (← Vec.get rel (nr - sz)) args)
    else do .ok (.tabled nr (← fixL rel sz args))
  | t => .ok t
def fixL (rel : List Nat) (sz : Nat) : List TT → Res (List TT)
  | [] => .ok []
  | t :: l => do .ok ((← fix rel sz t) :: (← fixL rel sz l))
end

/-- the renumbering of an entry (axis-types.w L2021-2033) -/
def fixTop (nd : Bool) (rel : List Nat) (sz : Nat) : TT → Res TT
  | .row c => do .ok (.row (← fix rel sz c))
  | .func a b => do .ok (.func (← fix rel sz a) (← fix rel sz b))
  | .tuple l => do .ok (.tuple (← fixL rel sz l))
  | .union l => do .ok (.union (← fixL rel sz l))
  | .tabled nr args => do Res.assertIn nd false; .ok (.tabled nr args)
  | t => .ok t

def fixAll (nd : Bool) (rel : List Nat) (sz : Nat) : List Binding → Res (List Binding)
  | [] => .ok []
  | b :: l => do
    let tp ← fixTop nd rel sz b.tp
    .ok ({ b with tp := tp } :: (← fixAll nd rel sz l))

/-- `add_typedefs` (axis-types.w L1590-1617): the numbers of the types defined, and the new table.  In the right hand sides, the types being defined are `tabled` with numbers from the length of the table on. -/
def addTypedefs (nd : Bool) (fuel : Nat) (m : TMap) (defs : List (Nat × TT)) (nArgs : Nat) : Res (List Nat × TMap) := do
  let arr ← fillLoop m 0 defs (List.replicate defs.length ⟨.undet, []⟩)
  let graph ← Pre.ofLists nd (arr.map TData.out)
  let cl ← Pre.cliques nd (← Pre.closure nd graph)
  let m' ← installLoop nd m nArgs cl (defs.map Prod.fst) 0 arr m
  let rel ← relocLoop nd m' fuel arr.length m.length
  let r ← removeLoop m.length 0 0 (m'.drop m.length) rel []
  let new ← fixAll nd r.1 m.length r.2
  .ok (r.1.take defs.length, m ++ new)

end Verif.Axis
