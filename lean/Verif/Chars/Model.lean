import Verif.Imm.Model
/-
Characters of LibL, /repo/lib/libl.sf lines 1374-1498, and character constants, /repo/1.sf lines 61-80 and 587-602.

`char_t` is C `int`, `fixnum_t` is a 64-bit C `long`; values of both are written as integers.  A primitive takes each argument
either as an object or as an unboxed value (`char_from_$arg` is `char_from_obj` or `char_from_char`, decided by the compiler).
`none` is undefined behaviour of C: a shift that overflows `int`, or a call of a function of `<ctype.h>` with an argument
that is neither EOF (-1) nor an unsigned char (C99 7.4p1).  The locale is "C", the character set is ASCII (the program never calls `setlocale`).
-/
namespace Verif.Chars
open Verif.Imm

/-! ### Representation -/

/-- `obj_from_char(i)`, libl.sf:1396 with `mkimm`, libl.sf:291: `((i & 0xffffff) << 8)` is computed in `int`; it must not overflow. -/
def objFromCharL (i : Int) : Option Obj :=
  if i % 16777216 < 8388608 then some (mkimmL (BitVec.ofInt 32 i) 2) else none

/-- `char_from_obj(o)`, libl.sf:1392, in the variant `NDEBUG` of `getimmu`, libl.sf:273; the other variant (284-287) asserts the tag first, which holds of
every boxed character. -/
def charFromObjL (o : Obj) : Int := (getimmuL o).toNat

/-- `obj_from_fixnum(i)`, libl.sf:705. -/
def objFromFixL (i : Int) : Obj := mkim0 (BitVec.ofInt 64 i)

/-- `fixnum_from_obj(o)`, libl.sf:700. -/
def fixFromObjL (o : Obj) : Int := (getim0s o).toInt

/-- An argument of a primitive as the compiler passes it: an object, a `char_t`, a `fixnum_t`. -/
inductive Arg where
  | obj (o : Obj)
  | char (c : Int)
  | fixnum (n : Int)
deriving DecidableEq

/-- `char_from_$arg`, libl.sf:1392-1393; there is no `char_from_fixnum`. -/
def charFrom : Arg → Option Int
  | .obj o => some (charFromObjL o)
  | .char c => some c
  | .fixnum _ => none

/-- `fixnum_from_$arg`, libl.sf:700-701; there is no `fixnum_from_char`. -/
def fixnumFrom : Arg → Option Int
  | .obj o => some (fixFromObjL o)
  | .fixnum n => some n
  | .char _ => none

/-- An unboxed result turned into an object: `obj_from_char`, `obj_from_fixnum`, libl.sf:1396, 705. -/
def toObj : Arg → Option Obj
  | .obj o => some o
  | .char c => objFromCharL c
  | .fixnum n => some (objFromFixL n)

/-- `is_char_$arg`, libl.sf:1384-1385, 1388. -/
def isCharArg : Arg → Bool
  | .obj o => isCharL o
  | .char _ => true
  | .fixnum _ => false

/-! ### Conversions -/

/-- `char->integer`, libl.sf:1483-1484. -/
def charToInteger (x : Arg) : Option Arg := (charFrom x).map fun c => .fixnum c

/-- `integer->char`, libl.sf:1486-1487: the cast `(char_t)` keeps the lower 32 bits. -/
def integerToChar (x : Arg) : Option Arg := (fixnumFrom x).map fun n => .char (n.bmod 4294967296)

/-! ### Functions of `<ctype.h>` -/

/-- Domain of the functions of `<ctype.h>`. -/
def ctype {α : Type} (f : Int → α) (c : Int) : Option α := if -1 ≤ c ∧ c ≤ 255 then some (f c) else none

/-- `islower`, `isupper`, `isalpha`, `isdigit`, `isspace` in the "C" locale, C99 7.4.1. -/
def islower (c : Int) : Bool := decide (97 ≤ c ∧ c ≤ 122)
@[inherit_doc islower] def isupper (c : Int) : Bool := decide (65 ≤ c ∧ c ≤ 90)
@[inherit_doc islower] def isalpha (c : Int) : Bool := isupper c || islower c
@[inherit_doc islower] def isdigit (c : Int) : Bool := decide (48 ≤ c ∧ c ≤ 57)
@[inherit_doc islower] def isspace (c : Int) : Bool := decide (c = 32 ∨ 9 ≤ c ∧ c ≤ 13)
/-- `toupper`, `tolower` in the "C" locale, C99 7.4.2. -/
def toupper (c : Int) : Int := if islower c then c - 32 else c
@[inherit_doc toupper] def tolower (c : Int) : Int := if isupper c then c + 32 else c

/-! ### Comparisons -/

/-- The primitives of `char=?` and the like with two operands, libl.sf:1410, 1416, 1422, 1428, 1434. -/
def cmpPrim (r : Int → Int → Bool) (x y : Arg) : Option Bool := do
  let a ← charFrom x
  let b ← charFrom y
  some (r a b)

/-- The five C operators, same lines. -/
def opEq (a b : Int) : Bool := decide (a = b)
@[inherit_doc opEq] def opGt (a b : Int) : Bool := decide (a > b)
@[inherit_doc opEq] def opLt (a b : Int) : Bool := decide (a < b)
@[inherit_doc opEq] def opGe (a b : Int) : Bool := decide (a ≥ b)
@[inherit_doc opEq] def opLe (a b : Int) : Bool := decide (a ≤ b)

/-- `char=?` … `char<=?` with two operands, libl.sf:1408-1436. -/
def charEq := cmpPrim opEq
@[inherit_doc charEq] def charGt := cmpPrim opGt
@[inherit_doc charEq] def charLt := cmpPrim opLt
@[inherit_doc charEq] def charGe := cmpPrim opGe
@[inherit_doc charEq] def charLe := cmpPrim opLe

/-- The primitives of `char-ci=?` and the like, libl.sf:1440, 1446, 1452, 1458, 1464. -/
def ciPrim (r : Int → Int → Bool) (x y : Arg) : Option Bool := do
  let a ← charFrom x
  let a' ← ctype tolower a
  let b ← charFrom y
  let b' ← ctype tolower b
  some (r a' b')

/-- `char-ci=?` … `char-ci<=?` with two operands, libl.sf:1438-1466. -/
def charCiEq := ciPrim opEq
@[inherit_doc charCiEq] def charCiGt := ciPrim opGt
@[inherit_doc charCiEq] def charCiLt := ciPrim opLt
@[inherit_doc charCiEq] def charCiGe := ciPrim opGe
@[inherit_doc charCiEq] def charCiLe := ciPrim opLe

/-! ### Classes and case -/

/-- `char-alphabetic?` … `char-lower-case?`, libl.sf:1468-1481. -/
def charAlphabetic (x : Arg) : Option Bool := (charFrom x).bind (ctype isalpha)
@[inherit_doc charAlphabetic] def charNumeric (x : Arg) : Option Bool := (charFrom x).bind (ctype isdigit)
@[inherit_doc charAlphabetic] def charWhitespace (x : Arg) : Option Bool := (charFrom x).bind (ctype isspace)
@[inherit_doc charAlphabetic] def charUpperCase (x : Arg) : Option Bool := (charFrom x).bind (ctype isupper)
@[inherit_doc charAlphabetic] def charLowerCase (x : Arg) : Option Bool := (charFrom x).bind (ctype islower)

/-- `char-upcase`, `char-downcase` (also `char-foldcase`), libl.sf:1489-1495. -/
def charUpcase (x : Arg) : Option Arg := ((charFrom x).bind (ctype toupper)).map .char
@[inherit_doc charUpcase] def charDowncase (x : Arg) : Option Arg := ((charFrom x).bind (ctype tolower)).map .char

/-- `digit-value`, libl.sf:1497-1498: `(char<=? #\0 x #\9)` is `(and (char<=? #\0 x) (char<=? x #\9))`, libl.sf:1435; `fx-` of
numbers this small cannot fail.  The inner `none` is `#f`. -/
def digitValue (x : Arg) : Option (Option Int) := do
  let b ← charLe (.char 48) x
  let b' ← if b then charLe x (.char 57) else some false
  let c ← charFrom x
  some (if b' then some (c - 48) else none)

/-! ### Constants -/

/-- `codepoint-byte-width`, 1.sf:61-66 (for fixnums). -/
def byteWidth (cp : Nat) : Nat :=
  if cp ≤ 255 then 8 else if cp ≤ 65535 then 16 else if cp ≤ 1114111 then 24 else 32

/-- `string-safe-codepoint?`, 1.sf:68-78. -/
def safeCp (cp : Nat) : Bool :=
  cp ≤ 126 && 32 ≤ cp && cp != 92 && cp != 39 && cp != 34 && cp != 36

/-- A datum for a character: `(char "c")` or `(char bits cp)`. -/
inductive CharDatum where
  | text (cp : Nat)
  | code (bits cp : Nat)

/-- `subread-char` for `#\c` and `#\xHH`, 1.sf:591-602. -/
def charDatum (cp : Nat) : CharDatum :=
  if byteWidth cp == 8 && safeCp cp then .text cp else .code (byteWidth cp) cp

/-- What a C compiler makes of the text between the quotes of `'c'`: the byte itself, if it is a printable character other than the
quote, the backslash and the line end; `$` is not in the basic character set, and is replaced in templates (5.sf). -/
def cCharLiteral (b : Nat) : Option Int :=
  if 32 ≤ b ∧ b ≤ 126 ∧ b ≠ 39 ∧ b ≠ 92 ∧ b ≠ 36 then some b else none

/-- `%const` for characters, libl.sf:1398-1402; `none`: no rule of LibL for it. -/
def constChar : CharDatum → Option Arg
  | .code bits cp => if bits = 8 then some (.char cp) else none
  | .text cp => (cCharLiteral cp).map .char

end Verif.Chars
