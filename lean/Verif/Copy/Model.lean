/-
Copying between strings, vectors and bytevectors, /repo/lib/libl.sf.

The three kinds of sequences have the same procedures, with `string-ref`/`string-set!`, `vector-ref`/`vector-set!` and
`bytevector-u8-ref`/`bytevector-u8-set!`; the model has one copy of them, for elements of any type.  Every access is checked, as in
`stringref`, `taggedref` and `bytevectorref` without `NDEBUG` (libl.sf:347-352, 1515-1518, 1845-1847); `none`: an assertion fails (with
`NDEBUG`, a read or write outside of the object).  Indices are integers; the lengths of objects are far from the end of the fixnum range.
-/
namespace Verif.Copy
variable {α : Type}

/-- The objects in memory; the address of an object is its position. -/
abbrev Mem (α : Type) := List (List α)

/-- the elements of an object. -/
def seq (m : Mem α) (a : Nat) : List α := m.getD a []

/-- `vector-length`, libl.sf:1790-1791, `string-length`, 1618-1619, `bytevector-length`, 1923-1924. -/
def len (m : Mem α) (a : Nat) : Int := (seq m a).length

/-- `vector-ref`, libl.sf:1793-1794, `string-ref`, 1621-1622, `bytevector-u8-ref`, 1926-1927. -/
def ref (m : Mem α) (a : Nat) (i : Int) : Option α := if 0 ≤ i then (seq m a)[i.toNat]? else none

/-- `vector-set!`, libl.sf:1796-1797, `string-set!`, 1624-1625, `bytevector-u8-set!`, 1929-1930. -/
def set (m : Mem α) (a : Nat) (i : Int) (x : α) : Option (Mem α) :=
  if 0 ≤ i ∧ i < len m a then some (m.set a ((seq m a).set i.toNat x)) else none

/-- the loop for `(fx<=? at start)`, libl.sf:1724-1727, 1805-1808, 1937-1940. -/
def copyUp (m : Mem α) (to frm : Nat) (i j limit : Int) : Option (Mem α) :=
  if limit ≤ j then some m
  else do
    let x ← ref m frm j
    let m' ← set m to i x
    copyUp m' to frm (i + 1) (j + 1) limit
termination_by (limit - j).toNat
decreasing_by omega

/-- the other loop, libl.sf:1728-1730, 1809-1811, 1941-1943. -/
def copyDown (m : Mem α) (to frm : Nat) (i j start : Int) : Option (Mem α) :=
  if j < start then some m
  else do
    let x ← ref m frm j
    let m' ← set m to i x
    copyDown m' to frm (i - 1) (j - 1) start
termination_by (j + 1 - start).toNat
decreasing_by omega

/-- `substring-copy!`, libl.sf:1722-1730, `subvector-copy!`, 1803-1811, `subbytevector-copy!`, 1935-1943. -/
def subCopy (m : Mem α) (to : Nat) (at_ : Int) (frm : Nat) (start stop : Int) : Option (Mem α) :=
  let limit := min stop (start + (len m to - at_))
  if at_ ≤ start then copyUp m to frm at_ start limit
  else copyDown m to frm (at_ + (stop - start - 1)) (limit - 1) start

/-- `substring-fill!`, libl.sf:1732-1733, `subvector-fill!`, 1818-1819. -/
def subFill (m : Mem α) (a : Nat) (x : α) (i stop : Int) : Option (Mem α) :=
  if stop ≤ i then some m
  else do
    let m' ← set m a i x
    subFill m' a x (i + 1) stop
termination_by (stop - i).toNat
decreasing_by omega

/-- `make-vector`, libl.sf:1755-1777, `make-string`, 1601-1605, `make-bytevector`, 1908-1912: the new object comes last.  The elements, which the
one-argument forms leave open, are `x`.  A negative size fails. -/
def make (m : Mem α) (n : Int) (x : α) : Option (Mem α × Nat) :=
  if 0 ≤ n then some (m ++ [List.replicate n.toNat x], m.length) else none

/-- `subvector`, libl.sf:1813-1816. -/
def subvector (d : α) (m : Mem α) (vec : Nat) (start stop : Int) : Option (Mem α × Nat) := do
  let (m, v) ← make m (stop - start) d
  let m ← subCopy m v 0 vec start stop
  some (m, v)

/-- `%vectors-sum-length`, libl.sf:4535-4537, `%bytevectors-sum-length`, 4575-4577. -/
def sumLength (m : Mem α) : List Nat → Int → Int
  | [], l => l
  | v :: vecs, l => sumLength m vecs (l + len m v)

/-- `%vectors-copy-into!`, libl.sf:4539-4546, `%bytevectors-copy-into!`, 4579-4586. -/
def copyInto (to : Nat) : List Nat → Int → Mem α → Option (Mem α)
  | [], _, m => some m
  | v :: vecs, i, m => do
    let n := len m v
    let m' ← subCopy m to i v 0 n
    copyInto to vecs (i + n) m'

/-- `vector-append`, libl.sf:4548-4549, `bytevector-append`, 4588-4589. -/
def append (d : α) (m : Mem α) (vecs : List Nat) : Option (Mem α × Nat) := do
  let (m', to) ← make m (sumLength m vecs 0) d
  let m' ← copyInto to vecs 0 m'
  some (m', to)

/-- the loop of `subvector->list`, libl.sf:2444-2446, `substring->list`, 2466-2468, `subbytevector->list`, 2497-2499. -/
def toListLoop (m : Mem α) (a : Nat) (start i : Int) (l : List α) : Option (List α) :=
  if i < start then some l
  else do
    let x ← ref m a i
    toListLoop m a start (i - 1) (x :: l)
termination_by (i + 1 - start).toNat
decreasing_by omega

@[inherit_doc toListLoop]
def toList (m : Mem α) (a : Nat) (start stop : Int) : Option (List α) := toListLoop m a start (stop - 1) []

/-- the loop of `%subvector-string-copy!`, libl.sf:2470-2474, and `%substring-vector-copy!`, 2479-2483: from memory with one kind of
elements to memory with another. -/
def convLoop {β : Type} (f : α → β) (m : Mem α) (frm : Nat) (m' : Mem β) (to : Nat) (i j limit : Int) : Option (Mem β) :=
  if limit ≤ j then some m'
  else do
    let x ← ref m frm j
    let m'' ← set m' to i (f x)
    convLoop f m frm m'' to (i + 1) (j + 1) limit
termination_by (limit - j).toNat
decreasing_by omega

/-- `subvector->string`, libl.sf:2476-2477, `substring->vector`, 2485-2486. -/
def conv {β : Type} (f : α → β) (d : β) (m : Mem α) (frm : Nat) (start stop : Int) (m' : Mem β) : Option (Mem β × Nat) := do
  let (m', to) ← make m' (stop - start) d
  let m' ← convLoop f m frm m' to 0 start (min stop (start + (len m' to - 0)))
  some (m', to)

/-- the loop of `list->vector`, libl.sf:2448-2455, `list->string`, 2457-2464, `list->bytevector`, 2488-2495: fills the elements of the new object
with index `i`, `i + 1`, … -/
def fillFrom : List α → Nat → List α → List α
  | [], _, v => v
  | x :: l, i, v => fillFrom l (i + 1) (v.set i x)

@[inherit_doc fillFrom]
def fromList (d : α) (m : Mem α) (l : List α) : Mem α × Nat := (m ++ [fillFrom l 0 (List.replicate l.length d)], m.length)

/-- `string-map` and `vector-map` for one sequence, libl.sf:4817-4821, 4824-4828.  The procedure may fail and has a state; it does not
change the sequence. -/
def mapLoop {σ β : Type} (p : α → σ → Option (β × σ)) (m : Mem α) (v : Nat) (n : Int) (m' : Mem β) (res : Nat) (i : Int) (s : σ) : Option (Mem β × σ) :=
  if n ≤ i then some (m', s)
  else do
    let x ← ref m v i
    let (y, s) ← p x s
    let m'' ← set m' res i y
    mapLoop p m v n m'' res (i + 1) s
termination_by (n - i).toNat
decreasing_by omega

@[inherit_doc mapLoop]
def mapSeq {σ β : Type} (d : β) (p : α → σ → Option (β × σ)) (m : Mem α) (v : Nat) (m' : Mem β) (s : σ) : Option (Mem β × Nat × σ) := do
  let (m', res) ← make m' (len m v) d
  let (m', s) ← mapLoop p m v (len m v) m' res 0 s
  some (m', res, s)

end Verif.Copy
