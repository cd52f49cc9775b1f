/-
The symbol table of 0.sf:1447-1487 (`symt`, `symbolname`, `internsym`).

Simplifications: a C string is a value of an arbitrary type `α` with decidable equality (`strcmp(x,y)==0` is equality);
the hash function is an arbitrary function, so nothing depends on `hashs`.  Slots of `symt.v` hold pointers into
`symt.a`, represented by the index (`symt.v[i] - symt.a`).  `size_t` and `int` are unbounded.  A probe loop that runs
longer than the size of the table is reported as `none` (not terminating).
-/
namespace Verif.Symt

variable {α : Type} [DecidableEq α]

/-- `symt`, 0.sf:1447: `a` holds the `u` names, `v` the hash slots, `sz` their number. -/
structure Table (α : Type) where
  a : List α
  v : Nat → Option Nat
  sz : Nat
  maxu : Nat

/-- initial contents of a static structure: all zero -/
def empty : Table α := { a := [], v := fun _ => none, sz := 0, maxu := 0 }

/-- `(i-1) & (sz-1)` for `i < sz`, `sz` a power of two (see `prev_eq` in Props) -/
def prev (sz i : Nat) : Nat := if i = 0 then sz - 1 else i - 1

inductive Probe | found (j : Nat) | free (i : Nat)

/-- probe loop with name comparison, 0.sf:1470-1471 -/
def probe (a : List α) (v : Nat → Option Nat) (sz : Nat) (name : α) : Nat → Nat → Option Probe
  | 0, _ => none
  | n + 1, i =>
    match v i with
    | none => some (.free i)
    | some j => if a[j]? = some name then some (.found j) else probe a v sz name n (prev sz i)

/-- probe loop without comparison, 0.sf:1478 and 1483 -/
def probeFree (v : Nat → Option Nat) (sz : Nat) : Nat → Nat → Option Nat
  | 0, _ => none
  | n + 1, i => match v i with
    | none => some i
    | some _ => probeFree v sz n (prev sz i)

def set (v : Nat → Option Nat) (i j : Nat) : Nat → Option Nat := fun k => if k = i then some j else v k

/-- the `for (i = 0; i < symt.sz; i++)` loop of the rehash, 0.sf:1476-1480: `is` are the slots still to visit -/
def rehashLoop (hash : α → Nat) (a : List α) (v : Nat → Option Nat) (nsz : Nat) :
    List Nat → (Nat → Option Nat) → Option (Nat → Option Nat)
  | [], nv => some nv
  | i :: is, nv =>
    match v i with
    | none => rehashLoop hash a v nsz is nv
    | some j => do
      let name ← a[j]?
      let k ← probeFree nv nsz nsz (hash name &&& (nsz - 1))
      rehashLoop hash a v nsz is (set nv k j)

/-- the store at the end of `internsym`, 0.sf:1486-1488 -/
def store (t : Table α) (i : Nat) (name : α) : Table α × Nat :=
  ({ t with a := t.a ++ [name], v := set t.v i t.a.length }, t.a.length)

/-- `internsym`, 0.sf:1461-1489. -/
def intern (hash : α → Nat) (t : Table α) (name : α) : Option (Table α × Nat) :=
  if t.sz = 0 then
    let t : Table α := { a := [], v := fun _ => none, sz := 64, maxu := 64 / 2 }
    some (store t (hash name &&& (t.sz - 1)) name)
  else do
    let h := hash name
    match ← probe t.a t.v t.sz name t.sz (h &&& (t.sz - 1)) with
    | .found j => some (t, j)
    | .free i =>
      if t.a.length = t.maxu then do
        let nsz := t.sz * 2
        let nv ← rehashLoop hash t.a t.v nsz (List.range t.sz) (fun _ => none)
        let t : Table α := { a := t.a, v := nv, sz := nsz, maxu := nsz / 2 }
        let i ← probeFree t.v t.sz t.sz (h &&& (t.sz - 1))
        some (store t i name)
      else some (store t i name)

/-- `symbolname`, 0.sf:1455-1458; a failing assertion is `none`. -/
def symbolname (t : Table α) (sym : Nat) : Option α := t.a[sym]?

/-- any sequence of calls of `internsym`, with the symbols returned -/
def internAll (hash : α → Nat) : Table α → List α → Option (Table α × List Nat)
  | t, [] => some (t, [])
  | t, n :: ns => do
    let (t1, s) ← intern hash t n
    let (t2, ss) ← internAll hash t1 ns
    some (t2, s :: ss)

end Verif.Symt
