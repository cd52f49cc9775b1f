import Verif.StrMem.Model
import Verif.Imm.Model
/-
Bytevectors of LibL as blocks of memory, /repo/lib/libl.sf lines 1816-1949, 2488-2495, 4569-4573, 4761-4765, 4886-4889, in the variant without `NDEBUG`
(every `assert` is tested).

Memory is that of `Verif.StrMem`: a byte is `none` until it is written.  `ub`: a use of memory outside of a block, or of a byte that was never written.
`assert`: an assertion fails.  `memory`: `cxm_cknull` ends the program, because `malloc` cannot give that much; for sizes of 0 and more `malloc` always
succeeds.
-/
namespace Verif.ByteVec
open Verif.Imm Verif.StrMem

inductive Fault where
  | ub
  | assert
  | memory
deriving DecidableEq

/-- an operation on memory that may be undefined. -/
def mem {α : Type} : Option α → Except Fault α
  | some a => .ok a
  | none => .error .ub

/-- `assert(b)`. -/
def ck (b : Bool) : Except Fault Unit := if b then .ok () else .error .assert

/-! ### Bytes -/

/-- `is_byte_obj`, libl.sf:1836: words compared as signed numbers (`obj` is `ptrdiff_t`, /repo/6.sf:407). -/
def isByteObj (o : Obj) : Bool := (mkim0 0).sle o && o.sle (mkim0 255)

/-- `byte_from_fixnum`, libl.sf:1840-1842. -/
def byteFromFixnum (n : Int) : Except Fault Nat := do
  ck (0 ≤ n && n ≤ 255)
  .ok n.toNat

/-- `byte_from_obj`, libl.sf:1837, with `getim0s`, 281-284. -/
def byteFromObj (o : Obj) : Except Fault Nat := do
  ck (isim0 o)
  byteFromFixnum (getim0s o).toInt

/-! ### Functions of the run-time library -/

/-- `d = mallocbvdata(n); *d = n`, libl.sf:1834: blocks of less than four bytes have no room for the length; numbers below -4 become sizes near 2^64. -/
def mallocbvdata (n : Int) : Except Fault Data :=
  if 0 ≤ n then .ok ⟨n.toNat, malloc n.toNat⟩
  else if -4 ≤ n then .error .ub
  else .error .memory

/-- `makebytevector`, libl.sf:1861-1866. -/
def makebytevector (n : Int) (c : Nat) : Except Fault Data := do
  ck (0 ≤ n)
  let d ← mallocbvdata n
  let m ← mem (memset d.mem 0 c d.len)
  .ok { d with mem := m }

/-- `allocbytevector`, libl.sf:1868-1871: no assertion. -/
def allocbytevector (n : Int) : Except Fault Data := mallocbvdata n

/-- `dupbytevector`, libl.sf:1873-1878. -/
def dupbytevector (d0 : Data) : Except Fault Data := do
  let d1 ← mallocbvdata d0.len
  let m ← mem (memcpy d1.mem 0 d0.mem 0 d0.len)
  .ok { d1 with mem := m }

/-- `memcmp(s, t, n) == 0` from byte `i` on. -/
def memcmpEq (s t : Mem) (i : Nat) : Nat → Option Bool
  | 0 => some true
  | n + 1 => do
    let a ← load s i
    let b ← load t i
    if a = b then memcmpEq s t (i + 1) n else some false

/-- `bytevectoreq`, libl.sf:1880-1884. -/
def bytevectoreq (d0 d1 : Data) : Except Fault Bool :=
  if d0.len ≠ d1.len then .ok false else mem (memcmpEq d0.mem d1.mem 0 d0.len)

/-- `subbytevector`, libl.sf:1886-1892. -/
def subbytevector (d0 : Data) (frm to : Int) : Except Fault Data := do
  ck (0 ≤ frm && frm ≤ to && to ≤ d0.len)
  let d1 ← mallocbvdata (to - frm)
  let m ← mem (memcpy d1.mem 0 d0.mem frm.toNat (to - frm).toNat)
  .ok { d1 with mem := m }

/-- `bytevectorref`, libl.sf:1845-1847: the index of the byte. -/
def bytevectorref (d : Data) (i : Int) : Except Fault Nat := do
  ck (0 ≤ i && i < d.len)
  .ok i.toNat

/-! ### Primitives -/

/-- `(make-bytevector k)`, libl.sf:1909. -/
def makeBytevector1 (k : Int) : Except Fault Data := allocbytevector k

/-- `(make-bytevector k c)`, libl.sf:1910. -/
def makeBytevector2 (k c : Int) : Except Fault Data := do
  let b ← byteFromFixnum c
  makebytevector k b

/-- `%residual-make-bytevector`, libl.sf:4886 with 4761-4765. -/
def residualMakeBytevector (k : Int) : List Int → Except Fault Data
  | [] => makeBytevector1 k
  | c :: _ => makeBytevector2 k c

/-- `*s++ = byte_from_fixnum(…)` for all operands, libl.sf:1919. -/
def putBytes (m : Mem) (i : Nat) : List Int → Except Fault Mem
  | [] => .ok m
  | x :: xs => do
    let b ← byteFromFixnum x
    let m' ← mem (store m i b)
    putBytes m' (i + 1) xs

/-- `(bytevector b ...)`, libl.sf:1914-1920. -/
def bytevector (xs : List Int) : Except Fault Data := do
  let d ← allocbytevector xs.length
  let m ← putBytes d.mem 0 xs
  .ok { d with mem := m }

/-- the loop of `list->bytevector`, libl.sf:2494: `car` of the empty list fails its assertion. -/
def listLoop (m : Mem) (i : Nat) : Nat → List Obj → Except Fault Mem
  | 0, _ => .ok m
  | _ + 1, [] => .error .assert
  | n + 1, o :: l => do
    let b ← byteFromObj o
    let m' ← mem (store m i b)
    listLoop m' (i + 1) n l

/-- `list->bytevector`, libl.sf:2488-2495, and `%residual-bytevector`, 4888-4889; the length of the list is C10. -/
def listToBytevector (l : List Obj) : Except Fault Data := do
  let d ← allocbytevector l.length
  let m ← listLoop d.mem 0 l.length l
  .ok { d with mem := m }

/-- `bytevector-u8-ref`, libl.sf:1926-1927. -/
def u8Ref (d : Data) (k : Int) : Except Fault Nat := do
  let i ← bytevectorref d k
  mem (load d.mem i)

/-- `bytevector-u8-set!`, libl.sf:1929-1930. -/
def u8Set (d : Data) (k b : Int) : Except Fault Data := do
  let i ← bytevectorref d k
  let c ← byteFromFixnum b
  let m ← mem (store d.mem i c)
  .ok { d with mem := m }

/-- A run of `bytevector-u8-set!`: no code of its own, a sequence of calls in a program. -/
def u8Sets (d : Data) : List (Int × Int) → Except Fault Data
  | [] => .ok d
  | w :: ws => do
    let d' ← u8Set d w.1 w.2
    u8Sets d' ws

/-- `bytevector-copy` with one, two and three arguments, libl.sf:4569-4573. -/
def bytevectorCopy1 (d : Data) : Except Fault Data := subbytevector d 0 d.len
@[inherit_doc bytevectorCopy1] def bytevectorCopy2 (d : Data) (start : Int) : Except Fault Data := subbytevector d start d.len
@[inherit_doc bytevectorCopy1] def bytevectorCopy3 (d : Data) (start stop : Int) : Except Fault Data := subbytevector d start stop

end Verif.ByteVec
