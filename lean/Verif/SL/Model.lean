import Verif.Common
/-
Model of the singly linked lists `containers::simple_list` and `containers::sl_list`
(sources/utilities/sl_list.h).  The model is at the level of memory: nodes have addresses, a link field
(`std::unique_ptr`) holds a pointer or null, and it is located in a list object, in a local variable or in a node;
iterators are the addresses of link fields.  Following a null pointer or a pointer to a destroyed node is
`undefined`.

Simplifications: addresses of nodes are natural numbers, and an address is never used again (so that pointers to
destroyed nodes are always detected).  Allocators always compare equal, as `std::allocator` does, and allocation
does not fail.  The contents of a node that are moved from are left as they were.  Contents are compared by
functions without side effects.  Loops that run through nodes have as fuel one more than the number of nodes ever
allocated.
-/
namespace Verif.SL

/-- the link fields outside nodes: those of list objects, and local variables of the functions below -/
inductive Root where
  | obj (l : Nat)
  | loc (i : Nat)
  deriving DecidableEq, Repr

/-- the address of a link field: in a list object or variable, or the field `next` of a node (L80-111) -/
inductive Loc where
  | root (r : Root)
  | next (a : Nat)
  deriving DecidableEq, Repr

/-- the memory: the pointer held by each link field, the contents of the allocated nodes, the next address to
allocate, and the fields `tail` and `node_count` of `sl_list` objects (L1119-1120) -/
structure Mem (T : Type) where
  link : Loc → Option Nat
  cont : Nat → Option T
  fresh : Nat
  tail : Root → Loc
  count : Root → Nat

/-- change a function at one argument -/
def upd {α β : Type} [DecidableEq α] (f : α → β) (a : α) (b : β) : α → β := fun x => if x = a then b else f x

variable {T : Type}

/-- `link.get()` for the link field at an address (`unique_ptr::get`) -/
def get (m : Mem T) : Loc → Res (Option Nat)
  | .root r => .ok (m.link (.root r))
  | .next a => if (m.cont a).isSome then .ok (m.link (.next a)) else .undefined

/-- store a pointer in the link field at an address -/
def set (m : Mem T) (p : Loc) (v : Option Nat) : Res (Mem T) := do
  let _ ← get m p
  .ok { m with link := upd m.link p v }

/-- `*link`: the node that a link field points to -/
def node (m : Mem T) (p : Loc) : Res Nat := do
  match ← get m p with
  | none => .undefined
  | some a => if (m.cont a).isSome then .ok a else .undefined

/-- `p->contents` for a pointer to a node -/
def contents (m : Mem T) (a : Nat) : Res T :=
  match m.cont a with
  | none => .undefined
  | some x => .ok x

/-- `sl_list_const_iterator::operator*` (L149) -/
def item (m : Mem T) (p : Loc) : Res T := do contents m (← node m p)

/-- assignment to `*it` (`sl_list_iterator::operator*`, L178) -/
def setItem (m : Mem T) (p : Loc) (x : T) : Res (Mem T) := do
  let a ← node m p
  .ok { m with cont := upd m.cont a (some x) }

/-- `sl_list_const_iterator::operator++` (L152) -/
def advance (m : Mem T) (p : Loc) : Res Loc := do .ok (.next (← node m p))

/-- `sl_list_const_iterator::at_end` (L160) -/
def atEnd (m : Mem T) (p : Loc) : Res Bool := do .ok (← get m p).isNone

/-- deallocation of a node -/
def free (m : Mem T) (a : Nat) : Res (Mem T) :=
  if (m.cont a).isSome then .ok { m with cont := upd m.cont a none } else .undefined

/-- destruction of the node at `a`: the loop of `~sl_node` (L105-109), then deallocation.  In the loop
`next.reset(next->next.release())` destroys one node, whose `next` field is null. -/
def destroyLoop : Nat → Mem T → Nat → Res (Mem T)
  | 0, _, _ => .outOfFuel
  | k + 1, m, a => do
    match ← get m (.next a) with
    | none => free m a
    | some b => do
      let c ← get m (.next b)
      let m ← set m (.next b) none
      let m ← set m (.next a) c
      let m ← free m b
      destroyLoop k m a

/-- destruction of what a pointer owns -/
def destroy (m : Mem T) : Option Nat → Res (Mem T)
  | none => .ok m
  | some a => destroyLoop (m.fresh + 1) m a

/-- `unique_ptr::reset(v)` for the link field at `p` -/
def reset (m : Mem T) (p : Loc) (v : Option Nat) : Res (Mem T) := do
  let old ← get m p
  let m ← set m p v
  destroy m old

/-- `p.reset(q.release())`, and also the move assignment of `unique_ptr` -/
def moveLink (m : Mem T) (p q : Loc) : Res (Mem T) := do
  let v ← get m q
  let m ← set m q none
  reset m p v

/-- `p.swap(q)` for link fields -/
def swapLink (m : Mem T) (p q : Loc) : Res (Mem T) := do
  let v ← get m p
  let w ← get m q
  let m ← set m p w
  set m q v

/-- `allocate_node` (L293-304, L1126-1137) -/
def alloc (m : Mem T) (x : T) : Mem T × Nat :=
  ({ m with link := upd m.link (.next m.fresh) none, cont := upd m.cont m.fresh (some x), fresh := m.fresh + 1 },
    m.fresh)

/-- `++node_count` and `node_count += d` -/
def addCount (m : Mem T) (r : Root) (d : Nat) : Mem T :=
  { m with count := upd m.count r ((m.count r + d) % 2 ^ 64) }

/-- `--node_count` and `node_count -= d` -/
def subCount (m : Mem T) (r : Root) (d : Nat) : Mem T :=
  { m with count := upd m.count r ((m.count r + (2 ^ 64 - d % 2 ^ 64)) % 2 ^ 64) }

/-- assignment to `node_count` -/
def setCount (m : Mem T) (r : Root) (c : Nat) : Mem T := { m with count := upd m.count r c }

/-- assignment to `tail` -/
def setTail (m : Mem T) (r : Root) (p : Loc) : Mem T := { m with tail := upd m.tail r p }

/-- `sl_list::set_empty` (L1124) -/
def setEmpty (m : Mem T) (r : Root) : Mem T := setCount (setTail m r (.root r)) r 0

/-! ### `simple_list` -/
namespace Simple

/-- `begin` (L544) -/
def begin' (r : Root) : Loc := .root r

/-- `empty` (L584) -/
def empty (m : Mem T) (r : Root) : Bool := (m.link (.root r)).isNone

/-- `singleton` (L585) -/
def singleton (m : Mem T) (r : Root) : Res Bool :=
  if empty m r then .ok false else do .ok (← get m (.next (← node m (.root r)))).isNone

/-- `front` (L556) -/
def front (m : Mem T) (r : Root) : Res T := item m (.root r)

/-- `clear` (L487-490), and the destructor -/
def clear (m : Mem T) (r : Root) : Res (Mem T) := reset m (.root r) none

/-- insertion of one value: `insert(pos,val)` and `emplace` (L619-647); the iterator after the new node is
returned -/
def insert (m : Mem T) (pos : Loc) (x : T) : Res (Mem T × Loc) := do
  let _ ← get m pos
  let (m, a) := alloc m x
  let m ← moveLink m (.next a) pos
  let m ← reset m pos (some a)
  .ok (m, .next a)

/-- `push_front` and `emplace_front` (L559-582) -/
def pushFront (m : Mem T) (r : Root) (x : T) : Res (Mem T) := do
  let (m, _) ← insert m (.root r) x
  .ok m

/-- `pop_front` (L557) -/
def popFront (m : Mem T) (r : Root) : Res (Mem T) := do
  let a ← node m (.root r)
  moveLink m (.root r) (.next a)

/-- the loop of the insertion of several copies (L655-660) -/
def insertNLoop (pos : Loc) (x : T) : Nat → Mem T → Res (Mem T)
  | 0, m => .ok m
  | n + 1, m => do
    let (m, _) ← insert m pos x
    insertNLoop pos x n m

/-- `insert(pos,n,val)` (L649-662) -/
def insertN (m : Mem T) (pos : Loc) (n : Nat) (x : T) : Res (Mem T × Loc) := do
  let _ ← get m pos
  if n = 0 then .ok (m, pos) else do
    let (m, result) ← insert m pos x
    let m ← insertNLoop pos x (n - 1) m
    .ok (m, result)

/-- the loops that add the values of a range at the end, as in the range constructor (L369-370) -/
def appendLoop : List T → Mem T → Loc → Res (Mem T × Loc)
  | [], m, p => .ok (m, p)
  | x :: xs, m, p => do
    let (m, a) := alloc m x
    let m ← reset m p (some a)
    appendLoop xs m (← advance m p)

/-- the range constructor and the constructor from an initializer list (L361-371, L391-398) -/
def ofRange (m : Mem T) (r : Root) (xs : List T) : Res (Mem T) := do
  let m : Mem T := { m with link := upd m.link (.root r) none }
  let (m, _) ← appendLoop xs m (.root r)
  .ok m

/-- the constructor from a number and a value (L385-389) -/
def ofN (m : Mem T) (r : Root) (n : Nat) (x : T) : Res (Mem T) := do
  let m : Mem T := { m with link := upd m.link (.root r) none }
  let (m, _) ← insertN m (.root r) n x
  .ok m

/-- the loop of the copy constructor (L350-355, L1192-1197); `p` runs through the nodes of the other list -/
def copyLoop : Nat → Mem T → Loc → Option Nat → Res (Mem T × Loc)
  | _, m, t, none => .ok (m, t)
  | 0, _, _, some _ => .outOfFuel
  | k + 1, m, t, some b => do
    let x ← contents m b
    let (m, a) := alloc m x
    let m ← reset m t (some a)
    copyLoop k m (.next a) (← get m (.next b))

/-- the copy constructor (L343-356) -/
def copy (m : Mem T) (r x : Root) : Res (Mem T) := do
  let m : Mem T := { m with link := upd m.link (.root r) none }
  let (m, _) ← copyLoop (m.fresh + 1) m (.root r) (m.link (.root x))
  .ok m

/-- the move constructor (L358-359) -/
def moveCtor (m : Mem T) (r x : Root) : Res (Mem T) := do
  let m : Mem T := { m with link := upd m.link (.root r) none }
  moveLink m (.root r) (.root x)

/-- the first loop of copy assignment (L416-417) -/
def assignLoop : Nat → Mem T → Loc → Loc → Res (Mem T × Loc × Loc)
  | 0, _, _, _ => .outOfFuel
  | k + 1, m, p, q => do
    if (← atEnd m p) || (← atEnd m q) then .ok (m, p, q)
    else do
      let m ← setItem m p (← item m q)
      assignLoop k m (← advance m p) (← advance m q)

/-- the second loop of copy assignment (L420-421) -/
def assignMore : Nat → Mem T → Loc → Loc → Res (Mem T)
  | 0, _, _, _ => .outOfFuel
  | k + 1, m, p, q => do
    if ← atEnd m q then .ok m
    else do
      let (m, a) := alloc m (← item m q)
      let m ← reset m p (some a)
      assignMore k m (← advance m p) (← advance m q)

/-- copy assignment (L402-426) -/
def assignCopy (m : Mem T) (r x : Root) : Res (Mem T) :=
  if r = x then .ok m else do
    let (m, p, q) ← assignLoop (m.fresh + 1) m (.root r) (.root x)
    if ← atEnd m p then assignMore (m.fresh + 1) m p q
    else reset m p none

/-- move assignment (L428-454) -/
def assignMove (m : Mem T) (r x : Root) : Res (Mem T) := moveLink m (.root r) (.root x)

/-- `swap` (L456-485) -/
def swap (m : Mem T) (r x : Root) : Res (Mem T) := swapLink m (.root r) (.root x)

/-- the loop `for (; not at_end(p) and n-->0; ++p) *p = x;` of `assign` (L498-499, L1354-1355); the iterator and
the value of `n` before its last decrement (if any) are returned -/
def fillLoop (x : T) : Nat → Mem T → Loc → Nat → Res (Mem T × Loc × Nat)
  | 0, _, _, _ => .outOfFuel
  | k + 1, m, p, n => do
    if ← atEnd m p then .ok (m, p, n)
    else if n = 0 then .ok (m, p, n)
    else do
      let m ← setItem m p x
      fillLoop x k m (← advance m p) (n - 1)

/-- `assign(n,x)` (L493-506) -/
def assignN (m : Mem T) (r : Root) (n : Nat) (x : T) : Res (Mem T) := do
  let (m, p, n) ← fillLoop x (m.fresh + 1) m (.root r) n
  if ← atEnd m p then insertNLoop p x n m
  else reset m p none

/-- the first loop of `assign(first,last)` (L515-516) -/
def overLoop : List T → Mem T → Loc → Res (Mem T × Loc × List T)
  | [], m, p => .ok (m, p, [])
  | x :: xs, m, p => do
    if ← atEnd m p then .ok (m, p, x :: xs)
    else do
      let m ← setItem m p x
      overLoop xs m (← advance m p)

/-- `assign(first,last)` (L508-523) -/
def assignRange (m : Mem T) (r : Root) (xs : List T) : Res (Mem T) := do
  let (m, p, xs) ← overLoop xs m (.root r)
  if ← atEnd m p then do
    let (m, _) ← appendLoop xs m p
    .ok m
  else reset m p none

/-- `erase(pos)` (L720-724) -/
def erase (m : Mem T) (pos : Loc) : Res (Mem T × Loc) := do
  let a ← node m pos
  let m ← moveLink m pos (.next a)
  .ok (m, pos)

/-- `erase(first,last)` (L726-730) -/
def eraseRange (m : Mem T) (first last : Loc) : Res (Mem T × Loc) := do
  let m ← moveLink m first last
  .ok (m, first)

/-- the loop `while (not pos.at_end()) ++pos;` (L755-756) -/
def toEnd : Nat → Mem T → Loc → Res Loc
  | 0, _, _ => .outOfFuel
  | k + 1, m, p => do
    if ← atEnd m p then .ok p else toEnd k m (← advance m p)

/-- `splice(pos,other)` for a whole list (L748-759); the local variable `tail` is `.loc 0` -/
def splice (m : Mem T) (pos : Loc) (other : Root) : Res (Mem T × Loc) := do
  let m ← moveLink m (.root (.loc 0)) pos
  let m ← moveLink m pos (.root other)
  let p ← toEnd (m.fresh + 1) m pos
  let m ← moveLink m p (.root (.loc 0))
  .ok (m, p)

/-- `insert(pos,first,last)` (L664-688); the local variable `insertion` is `.loc 0` -/
def insertRange (m : Mem T) (pos : Loc) (xs : List T) : Res (Mem T × Loc) := do
  if ← atEnd m pos then appendLoop xs m pos
  else do
    let (m, p) ← appendLoop xs m (.root (.loc 0))
    let m ← moveLink m p pos
    let m ← moveLink m pos (.root (.loc 0))
    .ok (m, p)

/-- the loop `while (not at_end(it) and n-->0) ++it;` of `resize` (L589-590, L599-600); the iterator and the value of `n`
before its last decrement (if any) are returned -/
def skipLoop : Nat → Mem T → Loc → Nat → Res (Loc × Nat)
  | 0, _, _, _ => .outOfFuel
  | k + 1, m, p, n => do
    if ← atEnd m p then .ok (p, n)
    else if n = 0 then .ok (p, n)
    else skipLoop k m (← advance m p) (n - 1)

/-- `resize(n,val)` (L596-605), and `resize(n)` (L586-595) with `val` the default value; the temporary list is
`.loc 1` -/
def resize (m : Mem T) (r : Root) (n : Nat) (x : T) : Res (Mem T) := do
  let (p, n) ← skipLoop (m.fresh + 1) m (.root r) n
  if ← atEnd m p then do
    let m ← ofN m (.loc 1) n x
    let (m, _) ← splice m p (.loc 1)
    .ok m
  else reset m p none

/-- `splice(pos,other,begin,end)` (L761-778) -/
def spliceRange (m : Mem T) (pos b e : Loc) : Res (Mem T × Loc) :=
  if b = e then .ok (m, pos)
  else if pos = b then .ok (m, e)
  else do
    let m ← swapLink m pos b
    let m ← swapLink m b e
    .ok (m, e)

/-- `splice(pos,other,node)` (L780-784) -/
def spliceNode (m : Mem T) (pos n : Loc) : Res (Mem T × Loc) := do spliceRange m pos n (← advance m n)

/-- the loop of `reverse()` (L792-798); the local variable `result` is `.loc 0` -/
def reverseLoop (r : Root) : Nat → Mem T → Res (Mem T)
  | 0, _ => .outOfFuel
  | k + 1, m => do
    let a ← node m (.root r)
    let m ← swapLink m (.root (.loc 0)) (.next a)
    let m ← swapLink m (.root (.loc 0)) (.root r)
    let b ← node m (.root r)
    if (← get m (.next b)).isSome then reverseLoop r k m else .ok m

/-- `reverse()` (L786-800) -/
def reverse (m : Mem T) (r : Root) : Res (Mem T) := do
  if empty m r || (← singleton m r) then .ok m
  else do
    let m ← reverseLoop r (m.fresh + 1) m
    let a ← node m (.root r)
    moveLink m (.next a) (.root (.loc 0))

/-- the loop of `reverse(from,to)` (L812-817, L1760-1765); the local variables `remainder` and `p` are `.loc 0`
and `.loc 1` -/
def reverseRangeLoop (to : Loc) : Nat → Mem T → Res (Mem T)
  | 0, _ => .outOfFuel
  | k + 1, m => do
    let a ← node m (.root (.loc 1))
    let m ← swapLink m (.root (.loc 0)) (.next a)
    let m ← swapLink m (.root (.loc 0)) (.root (.loc 1))
    let b ← node m (.root (.loc 1))
    if Loc.next b ≠ to then reverseRangeLoop to k m else .ok m

/-- the part of `reverse(from,to)` after the test for short ranges (L808-821, L1754-1769) -/
def reverseMain (m : Mem T) (fr to : Loc) : Res (Mem T × Loc) := do
  let m ← moveLink m (.root (.loc 0)) to
  let m ← moveLink m (.root (.loc 1)) fr
  let a ← node m (.root (.loc 1))
  let m ← reverseRangeLoop to (m.fresh + 1) m
  let m ← moveLink m to (.root (.loc 0))
  let m ← moveLink m fr (.root (.loc 1))
  .ok (m, .next a)

/-- `reverse(from,to)` (L803-822) -/
def reverseRange (m : Mem T) (fr to : Loc) : Res (Mem T × Loc) := do
  if fr = to then .ok (m, to)
  else if (← advance m fr) = to then .ok (m, to)
  else reverseMain m fr to

/-- the loop of `remove_if` (L839-843) -/
def removeLoop (pred : T → Bool) : Nat → Mem T → Loc → Res (Mem T)
  | 0, _, _ => .outOfFuel
  | k + 1, m, p => do
    if ← atEnd m p then .ok m
    else do
      let a ← node m p
      if pred (← contents m a) then do
        let m ← moveLink m p (.next a)
        removeLoop pred k m p
      else removeLoop pred k m (.next a)

/-- `remove_if` (L835-844) -/
def removeIf (m : Mem T) (r : Root) (pred : T → Bool) : Res (Mem T) :=
  removeLoop pred (m.fresh + 1) m (.root r)

/-- an argument of type `const T&`: a value outside the lists, or the contents of a node -/
inductive Arg (T : Type) where
  | val (x : T)
  | elem (a : Nat)

/-- the value of an argument passed by reference -/
def Arg.read (m : Mem T) : Arg T → Res T
  | .val x => .ok x
  | .elem a => contents m a

/-- the loop of `remove` (L827-831) -/
def removeValLoop [DecidableEq T] (v : Arg T) : Nat → Mem T → Loc → Res (Mem T)
  | 0, _, _ => .outOfFuel
  | k + 1, m, p => do
    if ← atEnd m p then .ok m
    else do
      let a ← node m p
      if (← contents m a) = (← v.read m) then do
        let m ← moveLink m p (.next a)
        removeValLoop v k m p
      else removeValLoop v k m (.next a)

/-- `remove` (L824-832) -/
def remove [DecidableEq T] (m : Mem T) (r : Root) (v : Arg T) : Res (Mem T) :=
  removeValLoop v (m.fresh + 1) m (.root r)

/-- the loop of `unique` (L850-857, L866-873); `a` is the node that `p` points to -/
def uniqueLoop (rel : T → T → Bool) : Nat → Mem T → Nat → Res (Mem T)
  | 0, _, _ => .outOfFuel
  | k + 1, m, a => do
    match ← get m (.next a) with
    | none => .ok m
    | some b => do
      if rel (← contents m a) (← contents m b) then do
        let m ← moveLink m (.next a) (.next b)
        uniqueLoop rel k m a
      else uniqueLoop rel k m b

/-- `unique` with a relation (L861-874), and `unique()` (L846-858) with equality as relation -/
def unique (m : Mem T) (r : Root) (rel : T → T → Bool) : Res (Mem T) :=
  match m.link (.root r) with
  | none => .ok m
  | some a => uniqueLoop rel (m.fresh + 1) m a

/-- the loop `while (not at_end(r) and less(*r,t)) ++r;` (L904-905, L1877-1878) -/
def gatherLoop (less : T → T → Bool) (t : T) : Nat → Mem T → Loc → Res Loc
  | 0, _, _ => .outOfFuel
  | k + 1, m, p => do
    if ← atEnd m p then .ok p
    else if less (← item m p) t then gatherLoop less t k m (← advance m p)
    else .ok p

/-- the loop of `merge` (L895-917, L1870-1890); the local variable `q` is `.loc 0`.  The iterator `p` at the end of
the loop is returned, or nothing if `q` became null -/
def mergeLoop (less : T → T → Bool) : Nat → Mem T → Loc → Res (Mem T × Option Loc)
  | 0, _, _ => .outOfFuel
  | k + 1, m, p => do
    let t ← item m p
    let b ← node m (.root (.loc 0))
    if less (← contents m b) t then do
      let s ← gatherLoop less t (m.fresh + 1) m (.next b)
      let m ← swapLink m (.root (.loc 0)) p
      let m ← swapLink m (.root (.loc 0)) s
      if (m.link (.root (.loc 0))).isNone then .ok (m, none)
      else do
        let p ← advance m s
        if ← atEnd m p then .ok (m, some p) else mergeLoop less k m p
    else do
      let p ← advance m p
      if ← atEnd m p then .ok (m, some p) else mergeLoop less k m p

/-- `merge(other)` (L876-920) -/
def merge (m : Mem T) (r other : Root) (less : T → T → Bool) : Res (Mem T) :=
  if empty m other then .ok m
  else if empty m r then moveLink m (.root r) (.root other)
  else do
    let m ← moveLink m (.root (.loc 0)) (.root other)
    let (m, p) ← mergeLoop less (m.fresh + 1) m (.root r)
    match p with
    | none => .ok m
    | some p => moveLink m p (.root (.loc 0))

/-- the loop `while (r!=e1 and less(*r,t)) ++r;` (L962-963) -/
def gatherTo (less : T → T → Bool) (t : T) (e : Loc) : Nat → Mem T → Loc → Res Loc
  | 0, _, _ => .outOfFuel
  | k + 1, m, p => do
    if p = e then .ok p
    else if less (← item m p) t then gatherTo less t e k m (← advance m p)
    else .ok p

/-- the loop of `merge_aux` (L956-977); the local variable `q` is `.loc 0`.  The iterator `b0` at the end of the
loop is returned, or nothing if the second range was used up -/
def mergeAuxLoop (less : T → T → Bool) (e0 e1 : Loc) : Nat → Mem T → Loc → Res (Mem T × Option Loc)
  | 0, _, _ => .outOfFuel
  | k + 1, m, b0 => do
    if b0 = e0 then .ok (m, some b0)
    else do
      let t ← item m b0
      let b ← node m (.root (.loc 0))
      if less (← contents m b) t then do
        let s ← gatherTo less t e1 (m.fresh + 1) m (.next b)
        let m ← swapLink m (.root (.loc 0)) b0
        let m ← swapLink m (.root (.loc 0)) s
        if s = e1 then .ok (m, none)
        else mergeAuxLoop less e0 e1 k m (← advance m s)
      else mergeAuxLoop less e0 e1 k m (← advance m b0)

/-- `merge_aux` (L949-986) -/
def mergeAux (m : Mem T) (b0 e0 b1 e1 : Loc) (less : T → T → Bool) : Res (Mem T × Loc) := do
  let m ← moveLink m (.root (.loc 0)) b1
  let (m, p) ← mergeAuxLoop less e0 e1 (m.fresh + 1) m b0
  match p with
  | none => do
    let m ← moveLink m b1 (.root (.loc 0))
    .ok (m, e0)
  | some b0 => do
    if e0 ≠ b1 then do
      let m ← moveLink m b1 e1
      let m ← moveLink m e1 b0
      let m ← moveLink m b0 (.root (.loc 0))
      .ok (m, e1)
    else do
      let m ← moveLink m b0 (.root (.loc 0))
      .ok (m, e1)

/-- `sort_next` (L989-997); the fuel bounds the depth of the recursion -/
def sortNext (less : T → T → Bool) : Nat → Mem T → Loc → Nat → Res (Mem T × Loc)
  | 0, _, _, _ => .outOfFuel
  | k + 1, m, it, n =>
    if n = 1 then do .ok (m, ← advance m it)
    else do
      let (m, mid) ← sortNext less k m it (n / 2)
      let (m, final) ← sortNext less k m mid (n - n / 2)
      mergeAux m it mid mid final less

/-- `length` (L113-120, L1047-1054) and `std::distance(wcbegin(),wcend())` -/
def lengthLoop : Nat → Mem T → Option Nat → Res Nat
  | _, _, none => .ok 0
  | 0, _, some _ => .outOfFuel
  | k + 1, m, some a => do .ok (1 + (← lengthLoop k m (← get m (.next a))))

/-- `length(l)` (L1047-1054) -/
def length (m : Mem T) (r : Root) : Res Nat := lengthLoop (m.fresh + 1) m (m.link (.root r))

/-- `sort(less)` (L1001-1007) -/
def sort (m : Mem T) (r : Root) (less : T → T → Bool) : Res (Mem T) := do
  let n ← length m r
  if n > 1 then do
    let (m, _) ← sortNext less (n + 1) m (.root r) n
    .ok m
  else .ok m

/-- the loop of `to_vector` (L1012-1013) -/
def vectorLoop : Nat → Mem T → Option Nat → Res (List T)
  | _, _, none => .ok []
  | 0, _, some _ => .outOfFuel
  | k + 1, m, some a => do
    let x ← contents m a
    .ok (x :: (← vectorLoop k m (← get m (.next a))))

/-- `to_vector` (L1009-1015) -/
def toVector (m : Mem T) (r : Root) : Res (List T) := vectorLoop (m.fresh + 1) m (m.link (.root r))

end Simple

/-! ### `sl_list` -/
namespace Full
open Simple (copyLoop reverseMain sortNext mergeLoop mergeAux Arg)

/-- the default constructor (L1148-1150) -/
def make (m : Mem T) (r : Root) : Mem T :=
  setEmpty { m with link := upd m.link (.root r) none } r

/-- `empty` (L1491) -/
def empty (m : Mem T) (r : Root) : Bool := decide (m.tail r = .root r)

/-- `size` (L1493) -/
def size (m : Mem T) (r : Root) : Nat := m.count r

/-- `clear` (L1341-1345) -/
def clear (m : Mem T) (r : Root) : Res (Mem T) := do
  let m ← reset m (.root r) none
  .ok (setEmpty m r)

/-- `push_front` and `emplace_front` (L1420-1455) -/
def pushFront (m : Mem T) (r : Root) (x : T) : Res (Mem T) := do
  let (m, a) := alloc m x
  let m ← if (m.link (.root r)).isNone then .ok (setTail m r (.next a)) else moveLink m (.next a) (.root r)
  let m ← reset m (.root r) (some a)
  .ok (addCount m r 1)

/-- `pop_front` (L1412-1418) -/
def popFront (m : Mem T) (r : Root) : Res (Mem T) := do
  let a ← node m (.root r)
  let m ← moveLink m (.root r) (.next a)
  let m := subCount m r 1
  .ok (if (m.link (.root r)).isNone then setTail m r (.root r) else m)

/-- `push_back` and `emplace_back` (L1462-1489); the address of the new node is returned -/
def pushBack (m : Mem T) (r : Root) (x : T) : Res (Mem T × Nat) := do
  let last := m.tail r
  let (m, a) := alloc m x
  let m ← reset m last (some a)
  let p ← advance m last
  .ok (addCount (setTail m r p) r 1, a)

/-- the insertion of one value, `insert(pos,val)` and `emplace` (L1512-1550) -/
def insert (m : Mem T) (r : Root) (pos : Loc) (x : T) : Res (Mem T × Loc) := do
  let _ ← get m pos
  let (m, a) := alloc m x
  let m ← if ← atEnd m pos then .ok (setTail m r (.next a)) else moveLink m (.next a) pos
  let m ← reset m pos (some a)
  .ok (addCount m r 1, .next a)

/-- the loop of the insertion of several copies (L1558-1564) -/
def insertNLoop (r : Root) (pos : Loc) (x : T) : Nat → Mem T → Res (Mem T)
  | 0, m => .ok m
  | n + 1, m => do
    let (m, _) ← Simple.insert m pos x
    insertNLoop r pos x n (addCount m r 1)

/-- `insert(pos,n,val)` (L1552-1566) -/
def insertN (m : Mem T) (r : Root) (pos : Loc) (n : Nat) (x : T) : Res (Mem T × Loc) := do
  let _ ← get m pos
  if n = 0 then .ok (m, pos) else do
    let (m, result) ← insert m r pos x
    let m ← insertNLoop r pos x (n - 1) m
    .ok (m, result)

/-- the loop of `append(first,last)` (L1648-1653) -/
def appendLoop' (r : Root) : List T → Mem T → Res (Mem T)
  | [], m => .ok m
  | x :: xs, m => do
    let t := m.tail r
    let (m, a) := alloc m x
    let m ← reset m t (some a)
    let p ← advance m t
    appendLoop' r xs (addCount (setTail m r p) r 1)

/-- `append(first,last)` (L1642-1655) -/
def appendRange (m : Mem T) (r : Root) (xs : List T) : Res (Mem T × Loc) := do
  let m ← appendLoop' r xs m
  .ok (m, m.tail r)

/-- `append(other)` (L1658-1667) -/
def append (m : Mem T) (r other : Root) : Res (Mem T × Loc) := do
  let result := m.tail r
  if empty m other then .ok (m, result)
  else do
    let m ← moveLink m (m.tail r) (.root other)
    let m := setTail m r (m.tail other)
    let m := addCount m r (m.count other)
    .ok (setEmpty m other, result)

/-- the range constructor and the constructor from an initializer list (L1215-1224, L1246-1251) -/
def ofRange (m : Mem T) (r : Root) (xs : List T) : Res (Mem T) := do
  let (m, _) ← appendRange (make m r) r xs
  .ok m

/-- the constructor from a number and a value (L1239-1244); the constructor from a number (L1226-1237) differs from
it in that it adds nodes at the end and sets `node_count` at once -/
def ofN (m : Mem T) (r : Root) (n : Nat) (x : T) : Res (Mem T) := do
  let (m, _) ← insertN (make m r) r (.root r) n x
  .ok m

/-- `insert(pos,first,last)` (L1568-1587); the local variable `aux` is `.loc 0` -/
def insertRange (m : Mem T) (r : Root) (pos : Loc) (xs : List T) : Res (Mem T × Loc) := do
  if ← atEnd m pos then appendRange m r xs
  else do
    let m ← ofRange m (.loc 0) xs
    let m ← moveLink m (m.tail (.loc 0)) pos
    let m ← moveLink m pos (.root (.loc 0))
    .ok (addCount m r (m.count (.loc 0)), m.tail (.loc 0))

/-- the copy constructor (L1184-1198) -/
def copy (m : Mem T) (r x : Root) : Res (Mem T) := do
  let m := setCount (make m r) r (m.count x)
  let (m, t) ← copyLoop (m.fresh + 1) m (.root r) (m.link (.root x))
  .ok (setTail m r t)

/-- the move constructor (L1200-1204) -/
def moveCtor (m : Mem T) (r x : Root) : Res (Mem T) := do
  let m : Mem T := { m with link := upd m.link (.root r) none }
  let m ← moveLink m (.root r) (.root x)
  let m := setTail m r (if empty m x then .root r else m.tail x)
  let m := setCount m r (m.count x)
  .ok (setEmpty m x)

/-- the move constructor with an allocator, for an equal allocator (L1165-1182) -/
def moveCtorAlloc (m : Mem T) (r x : Root) : Res (Mem T) := do
  let m : Mem T := { m with link := upd m.link (.root r) none }
  let m ← moveLink m (.root r) (.root x)
  let m := setTail m r (if empty m x then .root r else m.tail x)
  .ok (setCount m r (m.count x))

/-- the loop of the constructor from a `simple_list` (L1211-1212) -/
def dressLoop : Nat → Mem T → Loc → Nat → Res (Loc × Nat)
  | 0, _, _, _ => .outOfFuel
  | k + 1, m, t, c => do
    match ← get m t with
    | none => .ok (t, c)
    | some a => dressLoop k m (.next a) ((c + 1) % 2 ^ 64)

/-- the constructor from a `simple_list` (L1206-1213) -/
def dress (m : Mem T) (r x : Root) : Res (Mem T) := do
  let m : Mem T := { m with link := upd m.link (.root r) none }
  let m ← moveLink m (.root r) (.root x)
  let (t, c) ← dressLoop (m.fresh + 1) m (.root r) 0
  .ok (setCount (setTail m r t) r c)

/-- `undress` (L1955-1958), constructing the `simple_list` `x` -/
def undress (m : Mem T) (r x : Root) : Res (Mem T) := do
  let m : Mem T := { setEmpty m r with link := upd m.link (.root x) none }
  moveLink m (.root x) (.root r)

/-- the first loop of `assign(first,last)` (L1374-1375) -/
def overLoop (r : Root) : List T → Mem T → Loc → Res (Mem T × Loc × List T)
  | [], m, p => .ok (m, p, [])
  | x :: xs, m, p =>
    if p = m.tail r then .ok (m, p, x :: xs)
    else do
      let m ← setItem m p x
      overLoop r xs m (← advance m p)

/-- the loop of `assign(n,x)` (L1354-1355); the iterator and the value of `n` before its last decrement (if any) are
returned -/
def fillLoop (r : Root) (x : T) : Nat → Mem T → Loc → Nat → Res (Mem T × Loc × Nat)
  | 0, _, _, _ => .outOfFuel
  | k + 1, m, p, n =>
    if p = m.tail r then .ok (m, p, n)
    else if n = 0 then .ok (m, p, n)
    else do
      let m ← setItem m p x
      fillLoop r x k m (← advance m p) (n - 1)

/-- `assign(first,last)` (L1366-1384) for a range that does not belong to the list; `count` is computed by the
first loop -/
def assignRange (m : Mem T) (r : Root) (xs : List T) : Res (Mem T) := do
  let (m, p, rest) ← overLoop r xs m (.root r)
  if p = m.tail r then do
    let (m, _) ← appendRange m r rest
    .ok m
  else do
    let m := setTail m r p
    let m ← reset m p none
    .ok (setCount m r ((xs.length - rest.length) % 2 ^ 64))

/-- `assign(n,x)` (L1348-1364) -/
def assignN (m : Mem T) (r : Root) (n : Nat) (x : T) : Res (Mem T) := do
  let (m, p, k) ← fillLoop r x (m.fresh + 1) m (.root r) n
  if p = m.tail r then do
    let (m, _) ← insertN m r p k x
    .ok m
  else do
    let m := setTail m r p
    let m ← reset m p none
    .ok (setCount m r n)

/-- copy assignment (L1255-1268) -/
def assignCopy (m : Mem T) (r x : Root) : Res (Mem T) :=
  if r = x then .ok m else do assignRange m r (← Simple.toVector m x)

/-- move assignment (L1270-1293) -/
def assignMove (m : Mem T) (r x : Root) : Res (Mem T) := do
  if (m.link (.root x)).isNone then clear m r
  else do
    let m ← moveLink m (.root r) (.root x)
    let m := setTail m r (m.tail x)
    let m := setCount m r (m.count x)
    .ok (setEmpty m x)

/-- `swap` (L1295-1339) -/
def swap (m : Mem T) (r x : Root) : Res (Mem T) := do
  let m ← swapLink m (.root r) (.root x)
  let c := m.count r
  let m := setCount m r (m.count x)
  let m := setCount m x c
  let t := m.tail r
  let m := setTail m r (m.tail x)
  let m := setTail m x t
  let m := if (m.link (.root r)).isNone then setTail m r (.root r) else m
  .ok (if (m.link (.root x)).isNone then setTail m x (.root x) else m)

/-- `erase(pos)` (L1623-1631) -/
def erase (m : Mem T) (r : Root) (pos : Loc) : Res (Mem T × Loc) := do
  let a ← node m pos
  let m ← moveLink m pos (.next a)
  let m ← if ← atEnd m pos then .ok (setTail m r pos) else .ok m
  .ok (subCount m r 1, pos)

/-- `std::distance(first,last)` for iterators, with fuel -/
def distance (last : Loc) : Nat → Mem T → Loc → Res Nat
  | 0, _, _ => .outOfFuel
  | k + 1, m, p => if p = last then .ok 0 else do .ok (1 + (← distance last k m (← advance m p)))

/-- `std::next(it,n)` -/
def nextN (m : Mem T) : Nat → Loc → Res Loc
  | 0, p => .ok p
  | n + 1, p => do nextN m n (← advance m p)

/-- `erase(first,last)` (L1633-1640) -/
def eraseRange (m : Mem T) (r : Root) (first last : Loc) : Res (Mem T × Loc) := do
  let d ← distance last (m.fresh + 1) m first
  let m := subCount m r d
  let m ← moveLink m first last
  let m ← if ← atEnd m first then .ok (setTail m r first) else .ok m
  .ok (m, first)

/-- `resize(n,val)` (L1501-1507), and `resize(n)` (L1494-1500) with the default value (which appends a list of the
default values instead of inserting them) -/
def resize (m : Mem T) (r : Root) (n : Nat) (x : T) : Res (Mem T) := do
  if n > size m r then do
    let (m, _) ← insertN m r (m.tail r) (n - size m r) x
    .ok m
  else if n < size m r then do
    let (m, _) ← eraseRange m r (← nextN m n (.root r)) (m.tail r)
    .ok m
  else .ok m

/-- `splice(pos,other)` for a whole list (L1688-1704) -/
def splice (m : Mem T) (r : Root) (pos : Loc) (other : Root) : Res (Mem T × Loc) := do
  if empty m other then .ok (m, pos)
  else do
    let final := m.tail other
    let m ← if pos = m.tail r then .ok (setTail m r final) else moveLink m final pos
    let m ← moveLink m pos (.root other)
    let m := addCount m r (m.count other)
    .ok (setEmpty m other, final)

/-- `splice(pos,other,begin,end)` (L1706-1738) -/
def spliceRange (m : Mem T) (r : Root) (pos : Loc) (other : Root) (b e : Loc) : Res (Mem T × Loc) :=
  if b = e then .ok (m, pos)
  else if pos = b then .ok (m, e)
  else do
    let d ← if r = other then .ok 0 else distance e (m.fresh + 1) m b
    let m := if e = m.tail other then setTail m other b else m
    let m := if pos = m.tail r then setTail m r e else m
    let m ← swapLink m pos b
    let m ← swapLink m b e
    let m := addCount m r d
    .ok (subCount m other d, e)

/-- `splice(pos,other,node)` (L1740-1744) -/
def spliceNode (m : Mem T) (r : Root) (pos : Loc) (other : Root) (n : Loc) : Res (Mem T × Loc) := do
  spliceRange m r pos other n (← advance m n)

/-- `reverse(from,to)` (L1749-1770) -/
def reverseRange (m : Mem T) (r : Root) (fr to : Loc) : Res (Mem T × Loc) := do
  if fr = to then .ok (m, to)
  else if (← advance m fr) = to then .ok (m, to)
  else do
    let a ← node m fr
    let m := if to = m.tail r then setTail m r (.next a) else m
    reverseMain m fr to

/-- `reverse()` (L1746) -/
def reverse (m : Mem T) (r : Root) : Res (Mem T) := do
  let (m, _) ← reverseRange m r (.root r) (m.tail r)
  .ok m

/-- the loop of `remove_if` (L1791-1798); the final value of `p` is returned -/
def removeLoop (r : Root) (pred : T → Bool) : Nat → Mem T → Loc → Res (Mem T × Loc)
  | 0, _, _ => .outOfFuel
  | k + 1, m, p => do
    if ← atEnd m p then .ok (m, p)
    else do
      let a ← node m p
      if pred (← contents m a) then do
        let m ← moveLink m p (.next a)
        removeLoop r pred k (subCount m r 1) p
      else removeLoop r pred k m (.next a)

/-- `remove_if` (L1787-1800) -/
def removeIf (m : Mem T) (r : Root) (pred : T → Bool) : Res (Mem T) := do
  let (m, p) ← removeLoop r pred (m.fresh + 1) m (.root r)
  .ok (setTail m r p)

/-- the loop of `remove` (L1776-1783) -/
def removeValLoop [DecidableEq T] (r : Root) (v : Arg T) : Nat → Mem T → Loc → Res (Mem T × Loc)
  | 0, _, _ => .outOfFuel
  | k + 1, m, p => do
    if ← atEnd m p then .ok (m, p)
    else do
      let a ← node m p
      if (← contents m a) = (← v.read m) then do
        let m ← moveLink m p (.next a)
        removeValLoop r v k (subCount m r 1) p
      else removeValLoop r v k m (.next a)

/-- `remove` (L1773-1785) -/
def remove [DecidableEq T] (m : Mem T) (r : Root) (v : Arg T) : Res (Mem T) := do
  let (m, p) ← removeValLoop r v (m.fresh + 1) m (.root r)
  .ok (setTail m r p)

/-- the loop of `unique` (L1807-1817, L1829-1839); the final value of `p` is returned -/
def uniqueLoop' (r : Root) (rel : T → T → Bool) : Nat → Mem T → Nat → Res (Mem T × Nat)
  | 0, _, _ => .outOfFuel
  | k + 1, m, a => do
    match ← get m (.next a) with
    | none => .ok (m, a)
    | some b => do
      if rel (← contents m a) (← contents m b) then do
        let m ← moveLink m (.next a) (.next b)
        uniqueLoop' r rel k (subCount m r 1) a
      else uniqueLoop' r rel k m b

/-- `unique` with a relation (L1823-1842), and `unique()` (L1802-1820) with equality as relation -/
def unique (m : Mem T) (r : Root) (rel : T → T → Bool) : Res (Mem T) :=
  match m.link (.root r) with
  | none => .ok m
  | some a => do
    let (m, a) ← uniqueLoop' r rel (m.fresh + 1) m a
    .ok (setTail m r (.next a))

/-- `merge(other)` (L1844-1894) -/
def merge (m : Mem T) (r other : Root) (less : T → T → Bool) : Res (Mem T) := do
  if empty m other then .ok m
  else if empty m r then do
    let m ← moveLink m (.root r) (.root other)
    let m := setTail m r (m.tail other)
    let m := setCount m r (m.count other)
    .ok (setEmpty m other)
  else do
    let m ← moveLink m (.root (.loc 0)) (.root other)
    let m := addCount m r (m.count other)
    let otherTail := m.tail other
    let m := setEmpty m other
    let (m, p) ← mergeLoop less (m.fresh + 1) m (.root r)
    match p with
    | none => .ok m
    | some p => do
      let m ← moveLink m p (.root (.loc 0))
      .ok (setTail m r otherTail)

/-- `merge(b0,e0,b1,e1)` after the two tests for special cases (L1916-1930) -/
def mergeMain (m : Mem T) (r : Root) (b0 e0 b1 e1 : Loc) (less : T → T → Bool) : Res (Mem T × Loc) := do
  let (m, result) ← mergeAux m b0 e0 b1 e1 less
  if m.tail r = e1 then do
    if ← atEnd m b1 then .ok (setTail m r b1, result) else .ok (m, result)
  else if m.tail r = e0 then do
    if ← atEnd m e1 then .ok (setTail m r e1, result) else .ok (m, result)
  else .ok (m, result)

/-- `merge(b0,e0,b1,e1)` for ranges of the list (L1896-1931); the recursive call is for two ranges of which the
first is not empty, so that it does not call itself again -/
def mergeRanges (m : Mem T) (r : Root) (b0 e0 b1 e1 : Loc) (less : T → T → Bool) : Res (Mem T × Loc) :=
  if b1 = e1 then .ok (m, e0)
  else if b0 = e1 then
    if b0 = e0 then .ok (m, e1)
    else if b1 = e0 then .outOfFuel
    else mergeMain m r b1 e1 b0 e0 less
  else mergeMain m r b0 e0 b1 e1 less

/-- `sort(less)` (L1933-1938) -/
def sort (m : Mem T) (r : Root) (less : T → T → Bool) : Res (Mem T) := do
  if size m r > 1 then do
    let n := size m r
    let (m, p) ← sortNext less (n + 1) m (.root r) n
    .ok (setTail m r p)
  else .ok m

/-- `sort(from,to,less)` (L1941-1953); the new value of `to` is returned -/
def sortRange (m : Mem T) (r : Root) (fr to : Loc) (less : T → T → Bool) : Res (Mem T × Loc) := do
  let n ← distance to (m.fresh + 1) m fr
  if n > 1 then do
    let (m, to) ← sortNext less (n + 1) m fr n
    if ← atEnd m to then .ok (setTail m r to, to) else .ok (m, to)
  else .ok (m, to)

end Full
end Verif.SL
