/-
List primitives of the large library on the heap: /repo/lib/libl.sf:2033-2060 (pairs), 2094-2195 (make-list … last-pair) and
3593-3625 (memq, assq).

Pairs are cells of the heap; everything else is an atom.  Taking the car or cdr of something that is not a pair
is an access outside of the heap or of another object (`none`; the assertions of `taggedref`, libl.sf:341-346, are
off in a normal build), and so is the allocation of more cells than were reserved with `hreserve`.  C loops and recursions take
a bound on the number of rounds; running out of it is `none` too.  Cells do not move: what a collection at `hreserve` does is C17, and
the code takes its arguments from registers after it.
-/
namespace Verif.ListHeap

/-- Values: the empty list, pairs and everything else. -/
inductive Val where
  | null
  | ptr (a : Nat)
  | atom (n : Nat)
deriving DecidableEq, Repr

/-- The pairs, by address. -/
abbrev Heap := List (Val × Val)

/-- `car`, libl.sf:2007. -/
def car (h : Heap) : Val → Option Val
  | .ptr a => (h[a]?).map Prod.fst
  | _ => none

/-- `cdr`, libl.sf:2008. -/
def cdr (h : Heap) : Val → Option Val
  | .ptr a => (h[a]?).map Prod.snd
  | _ => none

/-- `cdr(l) = v`, libl.sf:2058. -/
def setcdr (h : Heap) (l v : Val) : Option Heap :=
  match l with
  | .ptr a => (h[a]?).map (fun c => h.set a (c.1, v))
  | _ => none

/-- `set-car!`, libl.sf:2052. -/
def setcar (h : Heap) (l v : Val) : Option Heap :=
  match l with
  | .ptr a => (h[a]?).map (fun c => h.set a (v, c.2))
  | _ => none

/-- `ispair`, libl.sf:2006. -/
def ispair (h : Heap) : Val → Bool
  | .ptr a => (h[a]?).isSome
  | _ => false

/-- A new pair in reserved space: `*--hp = d; *--hp = a; *--hp = obj_from_size(PAIR_BTAG); hendblk(3)`, as in
libl.sf:2036-2039; the first argument counts the pairs there is room for. -/
def push (room : Nat) (h : Heap) (a d : Val) : Option (Nat × Heap × Val) :=
  match room with
  | 0 => none
  | room + 1 => some (room, h ++ [(a, d)], .ptr h.length)

/-- `cons`, libl.sf:2033-2039: room for one pair. -/
def cons (h : Heap) (a d : Val) : Option (Heap × Val) := (push 1 h a d).map Prod.snd

/-- `%make-list`, libl.sf:2095-2097, for a count that is not negative (a negative one is like 0). -/
def makeList (h : Heap) (x : Val) : Nat → Val → Option (Heap × Val)
  | 0, l => some (h, l)
  | n + 1, l => (cons h x l).bind (fun p => makeList p.1 x n p.2)

/-- The loop of `cons*`, libl.sf:2117-2119, operands from the last to the first (`%prim*/rev`). -/
def consLoop (room : Nat) (h : Heap) : List Val → Val → Option (Heap × Val)
  | [], p => some (h, p)
  | x :: xs, p => (push room h x p).bind (fun r => consLoop r.1 r.2.1 xs r.2.2)

/-- `cons*`, libl.sf:2111-2121: room for as many pairs as operands. -/
def consStar (h : Heap) (xs : List Val) (j : Val) : Option (Heap × Val) :=
  consLoop (xs.length + 1) h xs.reverse j

/-- `length`, libl.sf:2125-2129. -/
def lengthLoop (h : Heap) : Nat → Val → Nat → Option Nat
  | 0, _, _ => none
  | f + 1, l, n => if l = .null then some n else (cdr h l).bind (fun d => lengthLoop h f d (n + 1))

/-- `length`, libl.sf:2125-2129. -/
def length (f : Nat) (h : Heap) (l : Val) : Option Nat := lengthLoop h f l 0

/-- The loop of `reverse`, libl.sf:2136-2137. -/
def revLoop : Nat → Nat → Heap → Val → Val → Option (Heap × Val)
  | 0, _, _, _, _ => none
  | f + 1, room, h, l, o =>
    if l = .null then some (h, o)
    else (car h l).bind (fun a => (push room h a o).bind (fun r =>
      (cdr r.2.1 l).bind (fun d => revLoop f r.1 r.2.1 d r.2.2)))

/-- `reverse`, libl.sf:2131-2138. -/
def reverse (f : Nat) (h : Heap) (l : Val) : Option (Heap × Val) :=
  (length f h l).bind (fun c => revLoop f c h l .null)

/-- `reverse!`, libl.sf:2140-2144. -/
def revBang : Nat → Heap → Val → Val → Option (Heap × Val)
  | 0, _, _, _ => none
  | f + 1, h, l, v =>
    if l = .null then some (h, v)
    else (cdr h l).bind (fun t => (setcdr h l v).bind (fun h' => revBang f h' t l))

/-- The loop of `%append`, libl.sf:2152-2156.  `p` is the address of the variable `o` (`none`) or of the cdr of a
new pair. -/
def appLoop : Nat → Nat → Heap → Val → Val → Val → Option Nat → Option (Heap × Val)
  | 0, _, _, _, _, _, _ => none
  | f + 1, room, h, l, t, o, p =>
    if l = .null then some (h, o)
    else (car h l).bind (fun a => (push room h a t).bind (fun r =>
      (match p with
        | none => some (r.2.1, r.2.2)
        | some j => (setcdr r.2.1 (.ptr j) r.2.2).map (fun h' => (h', o))).bind (fun s =>
      (cdr s.1 l).bind (fun d => appLoop f r.1 s.1 d t s.2 (some h.length)))))

/-- `%append`, libl.sf:2146-2157. -/
def append2 (f : Nat) (h : Heap) (l t : Val) : Option (Heap × Val) :=
  (length f h l).bind (fun c => appLoop f c h l t t none)

/-- `append`, libl.sf:2159-2163. -/
def append (f : Nat) (h : Heap) : List Val → Option (Heap × Val)
  | [] => some (h, .null)
  | [x] => some (h, x)
  | x :: y :: zs => (append f h (y :: zs)).bind (fun r => append2 f r.1 x r.2)

/-- `list-copy`, libl.sf:2165-2168. -/
def listCopy : Nat → Heap → Val → Option (Heap × Val)
  | 0, _, _ => none
  | f + 1, h, l =>
    if ispair h l then
      (car h l).bind (fun a => (cdr h l).bind (fun d => (listCopy f h d).bind (fun r => cons r.1 a r.2)))
    else some (h, l)

/-- The loop `while (c-- > 0) l = cdr(l)`, libl.sf:2173, 2179. -/
def tailLoop (h : Heap) : Nat → Val → Option Val
  | 0, l => some l
  | c + 1, l => (cdr h l).bind (tailLoop h c)

/-- `list-tail`, libl.sf:2176-2180; for a negative number the loop makes no round. -/
def listTail (h : Heap) (l : Val) (n : Int) : Option Val := tailLoop h n.toNat l

/-- `list-ref`, libl.sf:2170-2174. -/
def listRef (h : Heap) (l : Val) (n : Int) : Option Val := (tailLoop h n.toNat l).bind (car h)

/-- `list-set!`, libl.sf:2182-2183: the body has `list`, the library procedure (`procList`, which is no pair), where the
parameter `l` is meant. -/
def listSet (procList : Nat) (h : Heap) (_l : Val) (n : Int) (x : Val) : Option Heap :=
  (listTail h (.atom procList) n).bind (fun p => setcar h p x)

/-- The loop of `last-pair`, libl.sf:2188. -/
def lastLoop (h : Heap) : Nat → Val → Val → Option Val
  | 0, _, _ => none
  | f + 1, l, p => if ispair h p then (cdr h p).bind (fun d => lastLoop h f p d) else some l

/-- `last-pair`, libl.sf:2185-2189. -/
def lastPair (f : Nat) (h : Heap) (l : Val) : Option Val := (cdr h l).bind (fun p => lastLoop h f l p)

/-- `memq`, libl.sf:3593-3597: the rest of the list from the pair found, `none` inside is `#f`. -/
def memq (h : Heap) (x : Val) : Nat → Val → Option (Option Val)
  | 0, _ => none
  | f + 1, l =>
    if l = .null then some none
    else (car h l).bind (fun a => if a = x then some (some l) else (cdr h l).bind (memq h x f))

/-- `assq`, libl.sf:3616-3620. -/
def assq (h : Heap) (x : Val) : Nat → Val → Option (Option Val)
  | 0, _ => none
  | f + 1, l =>
    if l = .null then some none
    else (car h l).bind (fun p => (car h p).bind (fun a =>
      if a = x then some (some p) else (cdr h l).bind (assq h x f)))

end Verif.ListHeap
