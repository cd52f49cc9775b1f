/-
Object words: immediates, tags, type tests.

Models the C macros of
  * /repo/0.sf lines 249-272 (isimm, getimmu, getimms, mkimm),
    359-365 (booleans), 383-393 (fixnums), 812-821 (characters), 1150-1157 (null),
    1439-1445 (symbols), 1650-1654 (eof);
    the same text occurs in lib/libxxs.sf, lib/libxs.sf and lib/libs.sf;
  * /repo/lib/libl.sf lines 262-291 (isim0, getim0s, getimmu, mkim0, mkimm), 404-450,
    690-705, 1374-1395, 1982-1990, 2211-2218, 2756-2763;
  * /repo/6.sf lines 405-446 (notaptr, isaptr, obj_from_size, size_from_obj).

Simplifications: LP64 (`int` = 32 bits, `long` = `ptrdiff_t` = 64 bits), two's complement; the
left shift of a 32-bit `int` into the sign bit (formally undefined in C) is taken to wrap, and `>>` of a
negative number is arithmetic, as on every compiler the project supports.
-/
namespace Verif.Imm

/-- `obj`, /repo/6.sf:407 (`ptrdiff_t`). -/
abbrev Obj := BitVec 64

/-! ### 24-bit layout: /repo/0.sf -/

/-- `mkimm(o, t)` at an `int` payload, /repo/0.sf:272:
`(obj)((((o) & 0xffffff) << 8) | ((t) << 1) | 1)`.  The arithmetic is done in `int`, the cast to
`obj` sign-extends. -/
def mkimm (o : BitVec 32) (t : BitVec 32) : Obj :=
  (((o &&& 0xffffff#32) <<< 8) ||| (t <<< 1) ||| 1#32).signExtend 64

/-- `mkimm(o, t)` at a `long` payload (the macro is untyped): this is what
`fxabs` /repo/0.sf:528-529 expands to, because `labs` returns `long`. -/
def mkimmLong (o : BitVec 64) (t : BitVec 64) : Obj :=
  ((o &&& 0xffffff#64) <<< 8) ||| (t <<< 1) ||| 1#64

/-- `isimm(o, t)`, /repo/0.sf:252. -/
def isimm (o : Obj) (t : BitVec 64) : Bool := (o &&& 0xff#64) == ((t <<< 1) ||| 1#64)

/-- `getimmu(o, t)`, /repo/0.sf:254-257 and 265 (without the assertion). -/
def getimmu (o : Obj) : BitVec 32 := ((o.sshiftRight 8) &&& 0xffffff#64).setWidth 32

/-- `getimms(o, t)`, /repo/0.sf:259-262 and 266 (without the assertion). -/
def getimms (o : Obj) : BitVec 32 :=
  ((((o.sshiftRight 8) &&& 0xffffff#64) ^^^ 0x800000#64) - 0x800000#64).setWidth 32

/-- Immediate tags: /repo/0.sf:360, 384, 814 (`CHAR_ITAG 2`), 1155, 1442, 1652 (`EOF_ITAG 127`). -/
def TRUE_ITAG : BitVec 32 := 0
@[inherit_doc TRUE_ITAG] def FIXNUM_ITAG : BitVec 32 := 1
@[inherit_doc TRUE_ITAG] def CHAR_ITAG : BitVec 32 := 2
@[inherit_doc TRUE_ITAG] def NULL_ITAG : BitVec 32 := 3
@[inherit_doc TRUE_ITAG] def SYMBOL_ITAG : BitVec 32 := 4
@[inherit_doc TRUE_ITAG] def EOF_ITAG : BitVec 32 := 127

/-- `obj_from_fixnum(i)`, /repo/0.sf:391, at an `int` argument. -/
def objFromFixnum (i : BitVec 32) : Obj := mkimm i FIXNUM_ITAG
/-- `fixnum_from_obj(o)`, /repo/0.sf:388. -/
def fixnumFromObj (o : Obj) : BitVec 32 := getimms o
/-- `is_fixnum_obj(o)`, /repo/0.sf:386. -/
def isFixnum (o : Obj) : Bool := isimm o 1
/-- `obj_from_char(i)`, `char_from_obj(o)`, `is_char_obj(o)`: /repo/0.sf:816-821. -/
def objFromChar (i : BitVec 32) : Obj := mkimm i CHAR_ITAG
@[inherit_doc objFromChar] def charFromObj (o : Obj) : BitVec 32 := getimms o
@[inherit_doc objFromChar] def isChar (o : Obj) : Bool := isimm o 2
/-- `mksymbol(i)`, `getsymbol(o)`, `issymbol(o)`: /repo/0.sf:1443-1445. -/
def mksymbol (i : BitVec 32) : Obj := mkimm i SYMBOL_ITAG
@[inherit_doc mksymbol] def getsymbol (o : Obj) : BitVec 32 := getimmu o
@[inherit_doc mksymbol] def isSymbol (o : Obj) : Bool := isimm o 4
/-- `mknull()`, `isnull(o)`: /repo/0.sf:1156-1157. -/
def mknull : Obj := mkimm 0 NULL_ITAG
@[inherit_doc mknull] def isNull (o : Obj) : Bool := o == mknull
/-- `mkeof()`, `iseof(o)`: /repo/0.sf:1653-1654. -/
def mkeof : Obj := mkimm (-1) EOF_ITAG
@[inherit_doc mkeof] def isEof (o : Obj) : Bool := o == mkeof
/-- `obj_from_bool(b)`: /repo/0.sf:365. -/
def objFromBool (b : Bool) : Obj := if b then mkimm 0 TRUE_ITAG else 0
/-- `is_bool_obj(o)`: /repo/0.sf:362, `!((o) & ~(obj)1)`. -/
def isBool (o : Obj) : Bool := (o &&& ~~~(1#64)) == 0
/-- `bool_from_obj(o)` used as a C condition: /repo/6.sf:433 (any nonzero word is true). -/
def truthy (o : Obj) : Bool := o != 0
/-- `isaptr(o)`: /repo/6.sf:416-417. -/
def isaptr (o : Obj) : Bool := (o &&& 1) == 0
/-- `fxabs` as a boxed object: /repo/0.sf:528-529 `fixnum(labs(fixnum_from_$arg))`.
`labs` on the sign-extended `long`. -/
def fxabsObj (o : Obj) : Obj :=
  let l : BitVec 64 := (fixnumFromObj o).signExtend 64
  mkimmLong (if l.slt 0 then -l else l) 1

/-- `obj_from_size(n)`, /repo/6.sf:421, at an `int` argument: `((cxoint_t)(n) << 1) | 1`. -/
def objFromSize (n : BitVec 32) : Obj := ((n.signExtend 64) <<< 1) ||| 1#64
/-- `size_from_obj(o)`, /repo/6.sf:426: `((int)((o) >> 1))`. -/
def sizeFromObj (o : Obj) : BitVec 32 := (o.sshiftRight 1).setWidth 32

/-! ### 30-bit layout: /repo/lib/libl.sf -/

/-- `mkim0(o)`, /repo/lib/libl.sf:290, at a `long` payload (`obj_from_fixnum` casts to
`fixnum_t` = `long`, line 705). -/
def mkim0 (o : BitVec 64) : Obj := ((o &&& 0x3fffffff#64) <<< 2) ||| 3#64
/-- `isim0(o)`, /repo/lib/libl.sf:268. -/
def isim0 (o : Obj) : Bool := (o &&& 3#64) == 3#64
/-- `getim0s(o)`, /repo/lib/libl.sf:272 and 280-283. -/
def getim0s (o : Obj) : BitVec 64 :=
  (((o.sshiftRight 2) &&& 0x3fffffff#64) ^^^ 0x20000000#64) - 0x20000000#64
/-- `isimm(o, t)`, /repo/lib/libl.sf:269. -/
def isimmL (o : Obj) (t : BitVec 64) : Bool := (o &&& 0xff#64) == ((t <<< 2) ||| 1#64)
/-- `mkimm(o, t)`, /repo/lib/libl.sf:291, at an `int` payload (characters, symbols, constants). -/
def mkimmL (o : BitVec 32) (t : BitVec 32) : Obj :=
  (((o &&& 0xffffff#32) <<< 8) ||| (t <<< 2) ||| 1#32).signExtend 64
/-- `getimmu(o, t)`, /repo/lib/libl.sf:273 and 284-287 (returns `long`). -/
def getimmuL (o : Obj) : BitVec 64 := (o.sshiftRight 8) &&& 0xffffff#64
/-- Type tests of LibL: /repo/lib/libl.sf:415 (bool), 448 (void), 696 (fixnum), 1381 (char, tag 2),
1988 (null, tag 3), 2216 (symbol, tag 4), 2763 (eof, tag 7). -/
def isFixnumL (o : Obj) : Bool := isim0 o
@[inherit_doc isFixnumL] def isVoidL (o : Obj) : Bool := o == mkimmL 0 1
@[inherit_doc isFixnumL] def isCharL (o : Obj) : Bool := isimmL o 2
@[inherit_doc isFixnumL] def isNullL (o : Obj) : Bool := o == mkimmL 0 3
@[inherit_doc isFixnumL] def isSymbolL (o : Obj) : Bool := isimmL o 4
@[inherit_doc isFixnumL] def isEofL (o : Obj) : Bool := o == mkimmL 0 7

end Verif.Imm
