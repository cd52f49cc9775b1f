import Verif.Imm.Model
/-
Type tests of the large library for all objects, /repo/lib/libl.sf, and the test for heap pointers, /repo/6.sf:414-417.

An object is a word of 64 bits; memory is a function from addresses (of bytes) to words.  Tests read the word before the one an object points to, the
header, and the one it points to.  Not modelled: that reading at an arbitrary address may stop the program (memory is a total function here).
-/
namespace Verif.TypeTests
open Verif.Imm (Obj isaptr objFromSize sizeFromObj)

/-- `cxg_heap`, `cxg_hmask` (6.sf:509-510) and memory. -/
structure Heap where
  base : Obj
  mask : Obj
  mem : Obj → Obj

/-- the mask of a heap of `2 ^ k` bytes, 6.sf:574: `1 | ~(s*sizeof(obj)-1)`. -/
def hmask (k : Nat) : Obj := 1#64 ||| ~~~(BitVec.ofNat 64 (2 ^ k) - 1#64)

/-- `isobjptr`, 6.sf:414-415. -/
def isobjptr (H : Heap) (o : Obj) : Bool := ((o - H.base) &&& H.mask) == 0
/-- the header of a block, `objptr_from_obj(o)[-1]`. -/
def hdr (H : Heap) (o : Obj) : Obj := H.mem (o - 8)
/-- the test of the header of a block that is not native: `notaptr(h) && size_from_obj(h) >= 1`. -/
def sized (h : Obj) : Bool := !isaptr h && decide (1 ≤ (sizeFromObj h).toInt)

/-- `isnative`, libl.sf:299-301. -/
def isnative (H : Heap) (o t : Obj) : Bool := isobjptr H o && hdr H o == t
/-- `istagged`, libl.sf:324-329. -/
def istagged (H : Heap) (o : Obj) (t : BitVec 32) : Bool := isobjptr H o && (sized (hdr H o) && H.mem o == objFromSize t)
/-- `istyped`, libl.sf:363-368. -/
def istyped (H : Heap) (o : Obj) : Bool := isobjptr H o && (sized (hdr H o) && isobjptr H (H.mem o))
/-- the last part of `isprocedure`, libl.sf:2514-2516: the first word is a pointer that is not into the heap. -/
def iscode (H : Heap) (t : Obj) : Bool := isaptr t && (t != 0 && !isobjptr H t)
/-- `isprocedure`, libl.sf:2510-2517. -/
def isprocedure (H : Heap) (o : Obj) : Bool :=
  if o = 0 then false
  else if isaptr o && !isobjptr H o then true
  else if !isobjptr H o then false
  else sized (hdr H o) && iscode H (H.mem o)

/-- Addresses of the type descriptors, libl.sf:899, 1507, 1826, 2838, 2857, 2898, 2926, 2990, 3007, 3069, 3090. -/
structure Tags where
  flonum : Obj
  string : Obj
  bytevector : Obj
  iclosed : Obj
  ifile : Obj
  istring : Obj
  ibytevector : Obj
  oclosed : Obj
  ofile : Obj
  ostring : Obj
  obytevector : Obj

/-- all of them. -/
def Tags.all (T : Tags) : List Obj :=
  [T.flonum, T.string, T.bytevector, T.iclosed, T.ifile, T.istring, T.ibytevector, T.oclosed, T.ofile, T.ostring, T.obytevector]

/-- `flonum?`, libl.sf:903. -/
def isflonum (H : Heap) (T : Tags) (o : Obj) : Bool := isnative H o T.flonum
/-- `string?`, libl.sf:1509. -/
def isstring (H : Heap) (T : Tags) (o : Obj) : Bool := isnative H o T.string
/-- `bytevector?`, libl.sf:1828. -/
def isbytevector (H : Heap) (T : Tags) (o : Obj) : Bool := isnative H o T.bytevector
/-- `input-port?`, libl.sf:2799-2806. -/
def isiport (H : Heap) (T : Tags) (o : Obj) : Bool :=
  isobjptr H o && (hdr H o == T.iclosed || (hdr H o == T.ifile || (hdr H o == T.istring || hdr H o == T.ibytevector)))
/-- `output-port?`, libl.sf:2950-2957. -/
def isoport (H : Heap) (T : Tags) (o : Obj) : Bool :=
  isobjptr H o && (hdr H o == T.oclosed || (hdr H o == T.ofile || (hdr H o == T.ostring || hdr H o == T.obytevector)))
/-- `vector?`, libl.sf:1747-1748. -/
def isvector (H : Heap) (o : Obj) : Bool := istagged H o 1
/-- `box?`, libl.sf:1954-1955, and `promise?`, 2732. -/
def isbox (H : Heap) (o : Obj) : Bool := istagged H o 2
/-- `pair?`, libl.sf:2005-2006. -/
def ispair (H : Heap) (o : Obj) : Bool := istagged H o 3
/-- `record?`, libl.sf:2292. -/
def isrecord (H : Heap) (o : Obj) : Bool := istyped H o

/-! ### Construction of objects -/

/-- change of memory. -/
def upd (m : Obj → Obj) (a v : Obj) : Obj → Obj := fun x => if x = a then v else m x

/-- `*--hp = w` for several words: memory and `hp` afterwards. -/
def pushes (m : Obj → Obj) (hp : Obj) : List Obj → (Obj → Obj) × Obj
  | [] => (m, hp)
  | w :: ws => pushes (upd m (hp - 8) w) (hp - 8) ws

/-- `hendblk(n)`, 6.sf:444, after words were stored; the result is the heap and the object. -/
def mkblock (H : Heap) (hp : Obj) (rest : List Obj) (first : Obj) (n : BitVec 32) : Heap × Obj :=
  let r := pushes H.mem hp (rest ++ [first, objFromSize n])
  ({ H with mem := r.1 }, r.2 + 8)

/-- `cons`, libl.sf:2033-2039. -/
def cons (H : Heap) (hp a d : Obj) : Heap × Obj := mkblock H hp [d, a] (objFromSize 3) 3
/-- `box`, libl.sf:1961-1966. -/
def box (H : Heap) (hp a : Obj) : Heap × Obj := mkblock H hp [a] (objFromSize 2) 2
/-- `vector`, `make-vector`, libl.sf:1755-1786: the last element first. -/
def vector (H : Heap) (hp : Obj) (xs : List Obj) : Heap × Obj := mkblock H hp xs.reverse (objFromSize 1) (BitVec.ofNat 32 (xs.length + 1))
/-- `make-record`, libl.sf:2306-2312: fields are 0. -/
def makeRecord (H : Heap) (hp : Obj) (c : Nat) (rtd : Obj) : Heap × Obj := mkblock H hp (List.replicate c 0) rtd (BitVec.ofNat 32 (c + 1))
/-- a closure made by the generated code (see `Verif.Cgen`): free variables, the last one first, and the entry point. -/
def closure (H : Heap) (hp : Obj) (fvs : List Obj) (code : Obj) : Heap × Obj := mkblock H hp fvs.reverse code (BitVec.ofNat 32 (fvs.length + 1))
/-- `hpushptr`, 6.sf:441: native objects. -/
def pushptr (H : Heap) (hp p t : Obj) : Heap × Obj :=
  let r := pushes H.mem hp [p, t]
  ({ H with mem := r.1 }, r.2 + 8)

/-- Variables at the start of a program, 6.sf:509-510: before the first allocation. -/
def start (m : Obj → Obj) : Heap := ⟨0, 0, m⟩

end Verif.TypeTests
