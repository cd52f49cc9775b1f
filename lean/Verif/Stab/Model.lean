import Verif.Equal.Model
import Verif.Symt.Model
/-
LibL's address hash table and the procedures built on it: circular? and the equal? that copes with circular data
(lib/libl.sf:3315-3449, 3452-3457, 3502-3510).

Words are natural numbers.  A table slot holds 0 (free), 1 (deleted), an object address `o` or `o|1` (marked).  Addresses are even,
so `w & ~1` is `key w` and the mark is `w % 2`.  Table sizes are powers of two, so `h & (sz-1)` is `h % sz` and
`(i-1) & (sz-1)` is `Symt.prev sz i`.  Allocation failure (cxm_cknull) is not modelled.  Every loop carries fuel; `none` is
"still running" or a failed assertion.
-/
namespace Verif.Stab
open Verif.Equal (Obj Heap Node feq seq)
open Verif.Symt (prev)

variable {F : Type} [DecidableEq F]

/-- `w & ~1` -/
def key (w : Nat) : Nat := w - w % 2

/-- stab_t (lib/libl.sf:3318): slots, size, used count, used limit -/
structure Tab where
  /-- p->v -/
  v : Nat → Nat
  /-- p->sz -/
  sz : Nat
  /-- p->u -/
  u : Nat
  /-- p->maxu -/
  maxu : Nat

/-- staballoc (lib/libl.sf:3319-3323) -/
def newTab : Tab := ⟨fun _ => 0, 64, 0, 32⟩

/-- `v[i] = w` -/
def set (v : Nat → Nat) (i w : Nat) : Nat → Nat := fun j => if j = i then w else v j

/-- `for (i = ..; v[i]; i = (i-1) & (sz-1)) if ((v[i] & ~1) == o) ...`: (true, i) at a hit, (false, i) at a free slot -/
def probe (v : Nat → Nat) (sz o : Nat) : Nat → Nat → Option (Bool × Nat)
  | 0, _ => none
  | n + 1, i => if v i = 0 then some (false, i) else if key (v i) = o then some (true, i) else probe v sz o n (prev sz i)

/-- `for (j = ..; nv[j]; j = (j-1) & (nsz-1)) ;` -/
def probeFree (v : Nat → Nat) (sz : Nat) : Nat → Nat → Option Nat
  | 0, _ => none
  | n + 1, i => if v i = 0 then some i else probeFree v sz n (prev sz i)

/-- body of the two reinsertion loops (lib/libl.sf:3336-3339 and 3393-3396) -/
def reinsertStep (sel : Nat → Bool) (v : Nat → Nat) (nsz : Nat) (nv : Nat → Nat) (i : Nat) : Option (Nat → Nat) :=
  if sel (v i) then do
    let j ← probeFree nv nsz nsz (key (v i) % nsz)
    some (set nv j (v i))
  else some nv

/-- `for (i = 0; i < sz; ++i) if (sel(v[i])) { .. nv[j] = v[i]; }` into a fresh zeroed array of size nsz -/
def reinsert (sel : Nat → Bool) (v : Nat → Nat) (sz nsz : Nat) : Option (Nat → Nat) :=
  (List.range sz).foldlM (reinsertStep sel v nsz) (fun _ => 0)

/-- `p->v[i] & ~1` as a condition -/
def liveW (w : Nat) : Bool := key w ≠ 0
/-- `(p->v[i] & ~1) && (p->v[i] & 1)` -/
def markW (w : Nat) : Bool := key w ≠ 0 && w % 2 == 1

/-- is `o` a native object -/
def isNative (H : Heap F) (o : Obj) : Bool :=
  match H o with
  | some (.blk _) => false
  | _ => true

/-- stabnew (lib/libl.sf:3328-3345): true if `o` was added, false if it is not a (suitable) heap object or was there, in which case
it gets marked. -/
def stabnew (H : Heap F) (o : Obj) (t : Tab) (circ : Bool) : Option (Bool × Tab) :=
  if H o = none then some (false, t) else
  if circ && isNative H o then some (false, t) else do
    let (hit, i) ← probe t.v t.sz o t.sz (o % t.sz)
    if hit then some (false, { t with v := set t.v i (key (t.v i) + 1) }) else
      if t.u = t.maxu then do
        let nsz := t.sz * 2
        let nv ← reinsert liveW t.v t.sz nsz
        let i ← probeFree nv nsz nsz (o % nsz)
        some (true, ⟨set nv i o, nsz, t.u + 1, nsz / 2⟩)
      else some (true, { t with v := set t.v i o, u := t.u + 1 })

/-- stabdelifu (lib/libl.sf:3346-3352): delete `o` unless marked -/
def stabdelifu (o : Obj) (t : Tab) : Option Tab := do
  let (hit, i) ← probe t.v t.sz o t.sz (o % t.sz)
  if hit then
    if t.v i % 2 = 1 then some t else some { t with v := set t.v i 1 }
  else some t

/-- state of stabcircular: the table and the stack p->r (top first; the growth of the array is not modelled) -/
structure St where
  /-- the table -/
  t : Tab
  /-- the stack -/
  r : List Obj

/-- stabpopp (lib/libl.sf:3358-3360) -/
def pop (s : St) : Option St :=
  match s.r with
  | [] => none
  | _ :: r => some ⟨s.t, r⟩

/-- the unwinding loop of stabcircular (lib/libl.sf:3369-3375): down to the separator 0 -/
def unwind (t : Tab) : List Obj → Option St
  | [] => some ⟨t, []⟩
  | q :: r => if q = 0 then some ⟨t, q :: r⟩ else do unwind (← stabdelifu q t) r

/-- stabcircular (lib/libl.sf:3361-3376).  The tail jump is a call. -/
def stabcircular (H : Heap F) : Nat → Obj → St → Option St
  | 0, _, _ => none
  | n + 1, o, s => do
    let (isnew, t) ← stabnew H o s.t true
    if isnew then
      match H o with
      | some (.blk ws) => do
        let s1 ← ws.dropLast.foldlM (fun s w => stabcircular H n w s) ⟨t, 0 :: s.r⟩
        let s2 ← pop s1
        match ws.getLast? with
        | some w => stabcircular H n w ⟨s2.t, o :: s2.r⟩
        | none => some s2
      | _ => some ⟨t, s.r⟩
    else unwind t s.r

/-- stabshared (lib/libl.sf:3377-3386) -/
def stabshared (H : Heap F) : Nat → Obj → Tab → Option Tab
  | 0, _, _ => none
  | n + 1, o, t => do
    let (isnew, t) ← stabnew H o t false
    if isnew then
      match H o with
      | some (.blk ws) => ws.foldlM (fun t w => stabshared H n w t) t
      | _ => some t
    else some t

/-- `for (nsz = 8; nsz < nz*2; nsz *= 2) ;` -/
def growTo (lim : Nat) : Nat → Nat → Option Nat
  | 0, _ => none
  | n + 1, nsz => if nsz < lim then growTo lim n (nsz * 2) else some nsz

/-- stabend (lib/libl.sf:3387-3401): keep the marked objects only; the inner `none` is NULL.  `u` is left as it was. -/
def stabend (t : Tab) : Option (Option Tab) :=
  let nz := ((List.range t.sz).filter fun i => markW (t.v i)).length
  if nz ≠ 0 then do
    let nsz ← growTo (nz * 2) (nz + 1) 8
    let nv ← reinsert markW t.v t.sz nsz
    some (some ⟨nv, nsz, t.u, nsz / 2⟩)
  else some none

/-- iscircular (lib/libl.sf:3453-3456) -/
def iscircular (H : Heap F) (n : Nat) (x : Obj) : Option Bool :=
  if H x = none then some false else do
    let s ← stabcircular H n x ⟨newTab, []⟩
    let e ← stabend s.t
    some e.isSome

/-- index of `x` in the table, 0 if absent (lib/libl.sf:3417, 3419) -/
def locate (t : Tab) (x : Obj) : Option Nat := do
  let (hit, i) ← probe t.v t.sz x t.sz (x % t.sz)
  some (if hit then i else 0)

/-- `for (i = ix; r[i] >= 0; ) i = r[i];` -/
def find (r : Nat → Int) : Nat → Nat → Option Nat
  | 0, _ => none
  | n + 1, i => if r i < 0 then some i else find r n (r i).toNat

/-- `r[i] = w` -/
def setr (r : Nat → Int) (i : Nat) (w : Int) : Nat → Int := fun j => if j = i then w else r j

/-- `if (i != ix) ix = r[ix] = i;` -/
def compress (r : Nat → Int) (ix i : Nat) : Nat → Int := if i ≠ ix then setr r ix i else r

/-- stabufind (lib/libl.sf:3415-3423): true if `x` and `y` are in one class, else their classes are joined -/
def stabufind (t : Tab) (r : Nat → Int) (x y : Obj) : Option (Bool × (Nat → Int)) := do
  let ix ← locate t x
  let i ← find r t.sz ix
  let r := compress r ix i
  let iy ← locate t y
  let j ← find r t.sz iy
  let r := compress r iy j
  if i = j then some (true, r) else
  if r i < r j then some (false, setr (setr r i (r i + r j)) j i)
  else some (false, setr (setr r j (r j + r i)) i j)

/-- component loop of stabequal -/
def cmpAllS {S : Type} (f : Obj → Obj → S → Option (Bool × S)) : List Obj → List Obj → S → Option (Bool × S)
  | x :: xs, y :: ys, s =>
    match f x y s with
    | some (true, s) => cmpAllS f xs ys s
    | r => r
  | _, _, s => some (true, s)

/-- stabequal (lib/libl.sf:3424-3435) -/
def stabequal (H : Heap F) (t : Tab) : Nat → Obj → Obj → (Nat → Int) → Option (Bool × (Nat → Int))
  | 0, _, _, _ => none
  | n + 1, x, y, r =>
    if x = y then some (true, r) else
    match H x, H y with
    | some (.flo a), some (.flo b) => some (feq a b, r)
    | some (.str s), some (.str t) => some (seq s t, r)
    | some (.bytes b), some (.bytes c) => some (decide (b = c), r)
    | some (.blk (w :: ws)), some (.blk (u :: us)) =>
      if ws.length = us.length ∧ w = u then do
        let (same, r) ← stabufind t r x y
        if same then some (true, r) else cmpAllS (stabequal H t n) ws us r
      else some (false, r)
    | _, _ => some (false, r)

/-- component loop of boundequal -/
def cmpAllB (f : Obj → Obj → Int → Option Int) : List Obj → List Obj → Int → Option Int
  | x :: xs, y :: ys, fuel => do
    let fuel ← f x y fuel
    if fuel ≤ 0 then some fuel else cmpAllB f xs ys fuel
  | _, _, fuel => some fuel

/-- boundequal (lib/libl.sf:3436-3447); `n` bounds the recursion depth.  `assert(fuel > 0)` is the first test. -/
def boundequal (H : Heap F) : Nat → Obj → Obj → Int → Option Int
  | 0, _, _, _ => none
  | n + 1, x, y, fuel =>
    if fuel ≤ 0 then none else
    if x = y then some (fuel - 1) else
    match H x, H y with
    | some (.flo a), some (.flo b) => some (if feq a b then fuel - 1 else -1)
    | some (.str s), some (.str t) => some (if seq s t then fuel - 1 else -1)
    | some (.bytes b), some (.bytes c) => some (if b = c then fuel - 1 else -1)
    | some (.blk (w :: ws)), some (.blk (u :: us)) =>
      if ws.length = us.length ∧ w = u then
        if fuel - 1 = 0 then some 0 else cmpAllB (boundequal H n) ws us (fuel - 1)
      else some (-1)
    | _, _ => some (-1)

/-- LibL isequal (lib/libl.sf:3503-3510) -/
def isequal (H : Heap F) (n : Nat) (x y : Obj) : Option Bool := do
  let res ← boundequal H 500 x y 500
  if res ≠ 0 then some (decide (res > 0)) else do
    let t ← stabshared H n x newTab
    let t ← stabshared H n y t
    let (b, _) ← stabequal H t n x y fun i => if i < t.sz ∧ key (t.v i) ≠ 0 then -1 else 0
    some b

end Verif.Stab
