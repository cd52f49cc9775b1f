/-
Pairs and lists: 0.sf:1171-1344 (pairs, list?, length, reverse, reverse!, append, list-copy, list-ref, list-tail,
last-pair) and 0.sf:2043-2066 (memq, assq); merge sort of 7.sf:23-45.

The heap maps pair addresses to car and cdr.  Objects that are neither pairs nor the empty list are `imm`; `ff` is
#f.  `car`/`cdr` of a non-pair is an assertion failure or undefined behaviour in C and gives `none` here.
Loops that may run forever on circular data take fuel; running out of fuel is also `none`.  Garbage
collection during allocation is not modelled here (see Verif.Gc); `int` overflow of list lengths is not modelled.
-/
namespace Verif.Lists

inductive Obj
  | nil
  | ff
  | imm (n : Nat)
  | ptr (p : Nat)
deriving DecidableEq

/-- pairs are at addresses below `next` -/
structure Heap where
  car : Nat → Obj
  cdr : Nat → Obj
  next : Nat

/-- `car`, 0.sf:1175 (with the type assertion of taggedref). -/
def car (h : Heap) : Obj → Option Obj
  | .ptr p => some (h.car p)
  | _ => none
/-- `cdr`, 0.sf:1176. -/
def cdr (h : Heap) : Obj → Option Obj
  | .ptr p => some (h.cdr p)
  | _ => none
/-- `set-cdr!`, 0.sf:1223. -/
def setCdr (h : Heap) (o d : Obj) : Option Heap :=
  match o with
  | .ptr p => some { h with cdr := fun q => if q = p then d else h.cdr q }
  | _ => none
/-- allocation of a pair, 0.sf:1199-1205 -/
def cons (h : Heap) (a d : Obj) : Heap × Obj :=
  ({ car := fun q => if q = h.next then a else h.car q,
     cdr := fun q => if q = h.next then d else h.cdr q,
     next := h.next + 1 }, .ptr h.next)

/-- `ispair`, 0.sf:1174 -/
def isPair : Obj → Bool
  | .ptr _ => true
  | _ => false

/-- `islist`, 0.sf:1184-1196: one iteration of the `for(;;)` per unit of fuel; `l` the hare, `s` the tortoise.
`none`: not finished. -/
def islistLoop (h : Heap) : Nat → Obj → Obj → Option Bool
  | 0, _, _ => none
  | n + 1, l, s =>
    if l = .nil then some true
    else match l with
      | .ptr p =>
        if h.cdr p = s then some false
        else if h.cdr p = .nil then some true
        else match h.cdr p with
          | .ptr q =>
            if h.cdr q = s then some false
            else match s with
              | .ptr r => islistLoop h n (h.cdr q) (h.cdr r)
              | _ => none
          | _ => some false
      | _ => some false

/-- `list?`, 0.sf:1198. -/
def islist (h : Heap) (fuel : Nat) (l : Obj) : Option Bool := islistLoop h fuel l l

/-- `length`, 0.sf:1273-1277. -/
def lengthLoop (h : Heap) : Nat → Obj → Nat → Option Nat
  | 0, _, _ => none
  | f + 1, l, n => if l = .nil then some n else do lengthLoop h f (← cdr h l) (n + 1)
@[inherit_doc lengthLoop] def length (h : Heap) (fuel : Nat) (l : Obj) : Option Nat := lengthLoop h fuel l 0

/-- `reverse`, 0.sf:1288-1295.  Reading `car(l)`, `cdr(l)` after the allocation of the new pair reads old cells. -/
def reverseLoop : Nat → Heap → Obj → Obj → Option (Heap × Obj)
  | 0, _, _, _ => none
  | f + 1, h, l, o =>
    if l = .nil then some (h, o) else do
      let a ← car h l
      let (h', o') := cons h a o
      reverseLoop f h' (← cdr h' l) o'
@[inherit_doc reverseLoop] def reverse (h : Heap) (fuel : Nat) (l : Obj) : Option (Heap × Obj) := do
  let _ ← length h fuel l
  reverseLoop fuel h l .nil

/-- `reverse!`, 0.sf:1297-1301. -/
def reverseBangLoop : Nat → Heap → Obj → Obj → Option (Heap × Obj)
  | 0, _, _, _ => none
  | f + 1, h, l, v =>
    if l = .nil then some (h, v) else do
      let t ← cdr h l
      let h' ← setCdr h l v
      reverseBangLoop f h' t l
@[inherit_doc reverseBangLoop] def reverseBang (h : Heap) (fuel : Nat) (l : Obj) : Option (Heap × Obj) :=
  reverseBangLoop fuel h l .nil

/-- `append/2`, 0.sf:1303-1313.  `p` is the address of the slot to fill next: `none` for the local variable `o`,
`some q` for the cdr field of pair `q`. -/
def appendLoop : Nat → Heap → Obj → Obj → Obj → Option Nat → Option (Heap × Obj)
  | 0, _, _, _, _, _ => none
  | f + 1, h, l, t, o, p =>
    if l = .nil then some (h, o) else do
      let a ← car h l
      let (h1, np) := cons h a t
      match p with
      | none => appendLoop f h1 (← cdr h1 l) t np (some h.next)
      | some q => do
        let h2 ← setCdr h1 (.ptr q) np
        appendLoop f h2 (← cdr h2 l) t o (some h.next)
@[inherit_doc appendLoop] def append2 (h : Heap) (fuel : Nat) (l t : Obj) : Option (Heap × Obj) := do
  let _ ← length h fuel l
  appendLoop fuel h l t t none

/-- `list-copy`, 0.sf:1321-1322. -/
def listCopy (h : Heap) (fuel : Nat) (l : Obj) : Option (Heap × Obj) := append2 h fuel l .nil

/-- `list-tail`, 0.sf:1330-1334; the index is assumed non-negative. -/
def listTail (h : Heap) : Obj → Nat → Option Obj
  | l, 0 => some l
  | l, c + 1 => do listTail h (← cdr h l) c

/-- `list-ref`, 0.sf:1324-1328. -/
def listRef (h : Heap) (l : Obj) (n : Nat) : Option Obj := do car h (← listTail h l n)

/-- `last-pair`, 0.sf:1336-1340. -/
def lastPairLoop (h : Heap) : Nat → Obj → Obj → Option Obj
  | 0, _, _ => none
  | f + 1, l, p => if isPair p then do lastPairLoop h f p (← cdr h p) else some l
@[inherit_doc lastPairLoop] def lastPair (h : Heap) (fuel : Nat) (l : Obj) : Option Obj := do
  lastPairLoop h fuel l (← cdr h l)

/-- `memq`, 0.sf:2043-2047. -/
def memq (h : Heap) (x : Obj) : Nat → Obj → Option Obj
  | 0, _ => none
  | f + 1, l =>
    if l = .nil then some .ff else do
      let a ← car h l
      if a = x then some l else memq h x f (← cdr h l)

/-- `assq`, 0.sf:2055-2060. -/
def assq (h : Heap) (x : Obj) : Nat → Obj → Option Obj
  | 0, _ => none
  | f + 1, l =>
    if l = .nil then some .ff else do
      let p ← car h l
      let a ← car h p
      if a = x then some p else assq h x f (← cdr h l)

/-! ### merge sort, 7.sf:23-41 -/

/-- `merge-by!`, 7.sf:23-27; `less` is the user predicate, assumed total and free of side effects. -/
def mergeBy (less : Obj → Obj → Bool) : Nat → Heap → Obj → Obj → Option (Heap × Obj)
  | 0, _, _, _ => none
  | f + 1, h, l1, l2 =>
    if !isPair l1 then some (h, l2)
    else if !isPair l2 then some (h, l1)
    else do
      let a2 ← car h l2
      let a1 ← car h l1
      if less a2 a1 then do
        let (h', m) ← mergeBy less f h l1 (← cdr h l2)
        some (← setCdr h' l2 m, l2)
      else do
        let (h', m) ← mergeBy less f h (← cdr h l1) l2
        some (← setCdr h' l1 m, l1)

/-- loop of `split-by!`, 7.sf:31-34 -/
def splitLoop : Nat → Heap → Obj → Obj → Option (Heap × Obj)
  | 0, _, _, _ => none
  | f + 1, h, hd, tl =>
    if tl = .nil then do
      let x ← cdr h hd
      some (← setCdr h hd .nil, x)
    else do
      let tl' ← cdr h tl
      if tl' = .nil then do
        let x ← cdr h hd
        some (← setCdr h hd .nil, x)
      else splitLoop f h (← cdr h hd) (← cdr h tl')

/-- `split-by!`, 7.sf:29-34. -/
def splitBy (fuel : Nat) (h : Heap) (l : Obj) : Option (Heap × Obj) :=
  if !isPair l then some (h, l) else do splitLoop fuel h l (← cdr h l)

/-- `sort-by!`, 7.sf:36-39; the two recursive calls are evaluated left to right (any order gives the same result
because they touch different pairs). -/
def sortBy (less : Obj → Obj → Bool) (inner : Nat) : Nat → Heap → Obj → Option (Heap × Obj)
  | 0, _, _ => none
  | f + 1, h, l =>
    if l = .nil then some (h, .nil)
    else do
      let t ← cdr h l
      if t = .nil then some (h, l)
      else do
        let (h1, l2) ← splitBy inner h l
        let (h2, s1) ← sortBy less inner f h1 l
        let (h3, s2) ← sortBy less inner f h2 l2
        mergeBy less inner h3 s1 s2

/-- `sort-by`, 7.sf:41-42. -/
def sortByCopy (less : Obj → Obj → Bool) (fuel : Nat) (h : Heap) (l : Obj) : Option (Heap × Obj) := do
  let (h1, c) ← listCopy h fuel l
  sortBy less fuel fuel h1 c

end Verif.Lists
