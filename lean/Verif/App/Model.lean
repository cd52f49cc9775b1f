import Verif.Lists.Model
/-
Model of `apphost` (lib/libl.sf:2547-2628; the copies in lib/libs.sf and
lib/libm.sf are identical): apply, the dotted lambda adapter, the argument count
dispatcher and the case-lambda dispatcher, and of the `case-lambda` macro
(lib/libl.sf:2666-2693).

The register window is the list of words from `r` to `cxg_rend`, `rc` counts the
registers in use.  In `apphost` the window always starts the register file, so
`rreserve` never shifts it (see Verif.Regs).  `none` is an assertion failure,
an access outside the window or, for loops over possibly circular lists, running
out of fuel.  Closures' fields are passed as parameters.  Garbage collection
during allocation is not modelled here (see Verif.Gc).
-/
namespace Verif.App
open Verif.Lists (Heap Obj)

/-- A C store `r[i] = w`. -/
def store (r : List Obj) (i : Nat) (w : Obj) : Option (List Obj) :=
  if i < r.length then some (r.set i w) else none

/-- `rreserve(m)` when `r` is the start of the register file (6.sf:440, 6.sf:589-600);
`junk` stands for uninitialised words. -/
def reserve (junk : Obj) (r : List Obj) (m : Nat) : List Obj :=
  r ++ List.replicate (m - r.length) junk

/-- `for (i = 3; i < rc; ++i) r[i-1] = r[i];` (libl.sf:2565); `n` iterations left. -/
def shiftArgs : Nat → Nat → List Obj → Option (List Obj)
  | 0, _, r => some r
  | n + 1, i, r => do
    let w ← r[i]?
    let r ← store r (i - 1) w
    shiftArgs n (i + 1) r

/-- `for (--rc; l != mknull(); l = cdr(l)) r[rc++] = car(l);` (libl.sf:2566). -/
def spread (h : Heap) : Nat → Obj → List Obj → Nat → Option (List Obj × Nat)
  | 0, _, _, _ => none
  | fuel + 1, l, r, rc =>
    if l = .nil then some (r, rc) else do
      let a ← Lists.car h l
      let r ← store r rc a
      spread h fuel (← Lists.cdr h l) r (rc + 1)

/-- `APPLY_MAX_REGS` (libl.sf:2548). -/
def applyMaxRegs : Nat := 1024

/-- `case 0: /* apply */` (libl.sf:2557-2570): registers and `rc` at the jump. -/
def apply (h : Heap) (fuel : Nat) (junk : Obj) (r : List Obj) (rc : Nat) :
    Option (List Obj × Nat) :=
  if rc < 4 then none else do
    let r := reserve junk r applyMaxRegs
    let rc := rc - 1
    let l ← r[rc]?
    let f ← r[2]?
    let r ← store r 0 f
    let r ← shiftArgs (rc - 3) 3 r
    let (r, rc) ← spread h fuel l r (rc - 1)
    if rc ≤ applyMaxRegs then some (r, rc) else none

/-- `while (rc > n) { *--hp = l; *--hp = r[--rc]; … l = hendblk(3); }`
(libl.sf:2584-2585); `k = rc - n` iterations left. -/
def collect : Nat → Heap → List Obj → Nat → Obj → Option (Heap × Obj × Nat)
  | 0, h, _, rc, l => some (h, l, rc)
  | k + 1, h, r, rc, l => do
    let a ← r[rc - 1]?
    let (h, l) := Lists.cons h a l
    collect k h r (rc - 1) l

/-- `case 1: /* dotted lambda adapter */` (libl.sf:2572-2589); `req` is the
number of required arguments stored in `p[1]`, `f` is `p[2]`. -/
def dotted (junk : Obj) (req : Nat) (f : Obj) (h : Heap) (r : List Obj) (rc : Nat) :
    Option (Heap × List Obj × Nat) := do
  let n := req + 2
  let r ← store r 0 f
  if rc < n then none else do
    let r := reserve junk r (n + 1)
    if rc = n then do
      let r ← store r rc .nil
      some (h, r, rc + 1)
    else do
      let (h, l, rc) ← collect (rc - n) h r rc .nil
      let r ← store r rc l
      some (h, r, rc + 1)

/-- `case 3: /* argc dispatcher */` (libl.sf:2603-2610); `pv` is the vector. -/
def argcDispatch (pv : List Obj) (r : List Obj) (rc : Nat) : Option (List Obj) :=
  if pv.length = 0 ∨ rc < 2 then none
  else if (rc : Int) - 2 < (pv.length : Int) - 1 then do store r 0 (← pv[rc - 2]?)
  else do store r 0 (← pv[pv.length - 1]?)

/-- Words of a case-lambda block: a fixnum or a procedure. -/
inductive Word
  | fx (n : Int)
  | proc (p : Nat)
  | code
deriving DecidableEq, Inhabited

/-- `FIXNUM_MAX` (lib/libl.sf:456-470: 30-bit fixnums). -/
def fixnumMax : Int := 536870911

/-- `case 4: /* case lambda dispatcher */` (libl.sf:2612-2620): the loop
`for (i = 1; i < bl; i += 3)`; the result is the procedure put in `r[0]`. -/
def caseLoop (b : List Word) (argc : Int) : Nat → Nat → Option Word
  | 0, _ => none
  | fuel + 1, i =>
    if i < b.length then
      match b[i]?, b[i + 1]?, b[i + 2]? with
      | some (.fx mn), some (.fx mx), some w =>
        if mn ≤ argc ∧ argc ≤ mx then some w else caseLoop b argc fuel (i + 3)
      | _, _, _ => none
    else none

@[inherit_doc caseLoop] def caseDispatch (b : List Word) (rc : Nat) : Option Word :=
  caseLoop b ((rc : Int) - 2) (b.length + 1) 1

/-- A formals list as syntax: `()`, `(a . d)` or a symbol. -/
inductive Formals
  | nil
  | cons (a : String) (d : Formals)
  | rest (s : String)

/-- `min-accepted` (libl.sf:2678-2680). -/
def minAccepted : Formals → Int → Int
  | .nil, n => n
  | .cons _ d, n => minAccepted d (1 + n)
  | .rest _, n => n

/-- `max-accepted` (libl.sf:2681-2683). -/
def maxAccepted : Formals → Int → Int
  | .nil, n => n
  | .cons _ d, n => maxAccepted d (1 + n)
  | .rest _, _ => fixnumMax

/-- `unroll-cases` (libl.sf:2684-2690): the arguments given to
`make-case-lambda` for the remaining clauses after `c`.  A clause is its formals
and the procedure its `lambda` evaluates to; `fail` is `%fail-lambda`. -/
def unrollCases (fail : Nat) : List (Formals × Nat) → List Word → List Word
  | [], c => c ++ [.fx 0, .fx fixnumMax, .proc fail]
  | (fs, p) :: more, c =>
    unrollCases fail more (c ++ [.fx (minAccepted fs 0), .fx (maxAccepted fs 0), .proc p])

/-- `make-case-lambda` (libl.sf:2666-2674): the block it allocates. -/
def makeCaseLambda (args : List Word) : List Word := .code :: args

/-- `case-lambda` (libl.sf:2691-2693). -/
def caseLambda (fail : Nat) (clauses : List (Formals × Nat)) : List Word :=
  makeCaseLambda (unrollCases fail clauses [])

end Verif.App
