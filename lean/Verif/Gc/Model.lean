/-
Model of the garbage collector of the #F runtime (6.sf:505-587), emitted into
every program.

Memory is word addressed: a cell holds a 64-bit word, given as the natural
number of its bit pattern, and the pointer to the word at address `a` is the
word `8 * a`.  Registers and global variables are cells like any other, outside
the two heap spaces.  A heap block is a header followed by its contents; an
ordinary header is `2 * n + 1` for `n` words of contents (obj_from_size,
6.sf:421), a native block has the (even) address of a `cxtype_t` as header and
one word of contents.  Objects point to the first word of the contents.
-/
namespace Verif.Gc

abbrev Mem := Nat → Nat

/-- The C store `*a = v`. -/
def upd (m : Mem) (a v : Nat) : Mem := fun c => if c = a then v else m c

/-- A heap space: its base word address and its size in words (`cxg_heap` or
`cxg_heap2` with `cxg_hsize`, 6.sf:509-519). -/
structure Space where
  base : Nat
  size : Nat

/-- The word address just after the space. -/
abbrev Space.lim (S : Space) : Nat := S.base + S.size

/-- The test `!(((char*)(o) - (char*)h) & m)` of 6.sf:414-415, 526, 531, 543 for
`m = 1 | ~(s*sizeof(obj)-1)` (6.sf:575); `Verif.Gc.Mask` proves that this is what
the bit-mask expression computes. -/
def inSp (S : Space) (o : Nat) : Bool :=
  decide (8 * S.base ≤ o ∧ o < 8 * S.lim ∧ o % 2 = 0)

/-- `while (fop >= op) *--hp = *--fop;` (6.sf:529): memory, `hp` and `fop` after
the loop.  (`0 < fop` always holds as `op` has a header before it.) -/
def copyLoop (op fop hp : Nat) (m : Mem) : Mem × Nat × Nat :=
  if op ≤ fop ∧ 0 < fop then copyLoop op (fop - 1) (hp - 1) (upd m (hp - 1) (m (fop - 1)))
  else (m, hp, fop)
termination_by fop

/-- `toheap2` (6.sf:523-536): relocate the object in cell `p`.  `S1` stands for
`h1, m1` and `S2` for `h2, m2`.  Failure of `assert(fo)` is `none`. -/
def toheap2 (S1 S2 : Space) (p hp : Nat) (m : Mem) : Option (Mem × Nat) :=
  let o := m p
  if !inSp S1 o then some (m, hp)
  else
    let op := o / 8
    let fo := m (op - 1)
    if fo = 0 then none
    else if fo % 2 = 1 then
      let (m, hp, fop) := copyLoop op (op + fo / 2) hp m
      let m := upd m fop (8 * (hp + 1))
      some (upd m p (8 * (hp + 1)), hp)
    else if !inSp S2 fo then
      let m := upd m (hp - 1) (m op)
      let m := upd m (hp - 2) (m (op - 1))
      let m := upd m (op - 1) (8 * (hp - 2 + 1))
      some (upd m p (8 * (hp - 2 + 1)), hp - 2)
    else some (upd m p fo, hp)

/-- `finalize` (6.sf:538-547): the calls `((cxtype_t*)fo)->free(payload)` made,
in order.  Deallocators are assumed not to touch the heap.  Failed assertions are
`none`. -/
def finalize (S2 : Space) (m : Mem) (hp1 he1 : Nat) : Option (List (Nat × Nat)) :=
  if hp1 < he1 then
    let fo := m hp1
    if fo = 0 then none
    else if fo % 2 = 1 then finalize S2 m (hp1 + 1 + fo / 2) he1
    else if !inSp S2 fo then
      (finalize S2 m (hp1 + 1 + 1) he1).map fun l => (fo, m (hp1 + 1)) :: l
    else
      let fo := m (fo / 8 - 1)
      if fo % 2 = 1 then finalize S2 m (hp1 + 1 + fo / 2) he1
      else finalize S2 m (hp1 + 1 + 1) he1
  else if hp1 = he1 then some [] else none
termination_by he1 - hp1

/-- `for (p = regs; p < regp; ++p) hp = toheap2(p, …);` (6.sf:553). -/
def relocRegs (S1 S2 : Space) (p regp hp : Nat) (m : Mem) : Option (Mem × Nat) :=
  if p < regp then
    match toheap2 S1 S2 p hp m with
    | none => none
    | some (m, hp) => relocRegs S1 S2 (p + 1) regp hp m
  else some (m, hp)
termination_by regp - p

/-- `while (c-- > 0) hp = toheap2(*pp++, …);` (6.sf:556): the cells of one root
table. -/
def relocTable (S1 S2 : Space) : List Nat → Nat → Mem → Option (Mem × Nat)
  | [], hp, m => some (m, hp)
  | p :: ps, hp, m =>
    match toheap2 S1 S2 p hp m with
    | none => none
    | some (m, hp) => relocTable S1 S2 ps hp m

/-- `for (; pr; pr = pr->next) {…}` (6.sf:554-557): the list of root tables. -/
def relocTables (S1 S2 : Space) : List (List Nat) → Nat → Mem → Option (Mem × Nat)
  | [], hp, m => some (m, hp)
  | t :: ts, hp, m =>
    match relocTable S1 S2 t hp m with
    | none => none
    | some (m, hp) => relocTables S1 S2 ts hp m

/-- `for (p = he2; p > hp; --p) hp = toheap2(p-1, …);` (6.sf:558). -/
def scan (S1 S2 : Space) (p hp : Nat) (m : Mem) : Option (Mem × Nat) :=
  if hp < p then
    match toheap2 S1 S2 (p - 1) hp m with
    | none => none
    | some (m, hp) => scan S1 S2 (p - 1) hp m
  else some (m, hp)
termination_by p

/-- The roots: the registers in use (`regs` to `regp`) and the root tables. -/
structure Roots where
  regs : Nat
  regp : Nat
  globs : List (List Nat)

/-- `relocate` (6.sf:549-561).  `fin` says whether `he1` is non-null.  Result:
memory, `hp`, deallocator calls. -/
def relocate (R : Roots) (fin : Bool) (he2 he1 hp : Nat) (S1 S2 : Space) (m : Mem) :
    Option (Mem × Nat × List (Nat × Nat)) := do
  let hp1 := hp
  let (m, hp) ← relocRegs S1 S2 R.regs R.regp he2 m
  let (m, hp) ← relocTables S1 S2 R.globs hp m
  let (m, hp) ← scan S1 S2 he2 hp m
  if fin then do
    let l ← finalize S2 m hp1 he1
    some (m, hp, l)
  else some (m, hp, [])

/-- The collector's variables (6.sf:509-520); the masks are determined by
`hsize` (6.sf:575, 581) and are not kept.  `heap = 0` is the null pointer. -/
structure Vars where
  heap : Nat
  heap2 : Nat
  hsize : Nat

/-- `while (s < needs) s *= 2;` (6.sf:574).  (`size_t` is taken as unbounded.) -/
def findSize (s needs : Nat) : Nat :=
  if s < needs ∧ 0 < s then findSize (s * 2) needs else s
termination_by needs - s

/-- `HEAP_SIZE` (6.sf:506). -/
def heapSize : Nat := 131072

/-- What `realloc` returns for a request of `s` words: a base address and the
words found in the returned and in the released memory. -/
structure Alloc where
  base : Nat
  junk : Mem

/-- `realloc(h, s*sizeof(obj))` (6.sf:576, 580) of the area `old`: the words of
the new area and of the released one become arbitrary.  Exhaustion of memory
(`exit(2)`) is not modelled. -/
def realloc (A : Alloc) (old : Space) (s : Nat) (m : Mem) : Mem := fun c =>
  if (old.base ≤ c ∧ c < old.lim) ∨ (A.base ≤ c ∧ c < A.base + s) then A.junk c else m c

/-- `cxm_hgc` (6.sf:563-587) with the results of its two `realloc` calls as
parameters (they depend on the size
requested).  Result: variables, memory, `hp`, deallocator calls. -/
def hgc (R : Roots) (A1 A2 : Nat → Alloc) (v : Vars) (hp needs : Nat) (m : Mem) :
    Option (Vars × Mem × Nat × List (Nat × Nat)) := do
  let S1 : Space := ⟨v.heap, v.hsize⟩
  let S2 : Space := ⟨v.heap2, v.hsize⟩
  let (m, hp, fr, needs) ←
    (if v.heap ≠ 0 then do
      let (m, hp, fr) ← relocate R true (v.heap2 + v.hsize) (v.heap + v.hsize) hp S1 S2 m
      some (m, hp, fr, needs + (v.heap2 + v.hsize - hp) * 2)
    else some (m, v.heap2 + v.hsize, [], needs) : Option (Mem × Nat × List (Nat × Nat) × Nat))
  if v.hsize < needs then do
    let s := findSize heapSize needs
    let m := realloc (A1 s) S1 s m
    let S3 : Space := ⟨(A1 s).base, s⟩
    let (m, hp) ←
      (if v.heap2 ≠ 0 then do
        let (m, hp, _) ← relocate R false ((A1 s).base + s) 0 hp S2 S3 m
        some (m, hp)
      else some (m, (A1 s).base + s) : Option (Mem × Nat))
    let m := realloc (A2 s) S2 s m
    some (⟨(A1 s).base, (A2 s).base, s⟩, m, hp, fr)
  else some (⟨v.heap2, v.heap, v.hsize⟩, m, hp, fr)

/-- `hreserve(n, l)` (6.sf:443): `hp < cxg_heap + n ? cxm_hgc(…) : hp`. -/
def hreserve (R : Roots) (A1 A2 : Nat → Alloc) (v : Vars) (hp n : Nat) (m : Mem) :
    Option (Vars × Mem × Nat × List (Nat × Nat)) :=
  if hp < v.heap + n then hgc R A1 A2 v hp n m else some (v, m, hp, [])

end Verif.Gc
