import Verif.Width.Model
import Verif.Num.Model
/-
From integer literals to the text of C constants: the `%const` templates of /repo/lib/libl.sf:707-743 (the same templates are
/repo/lib/libm.sf:647-683) and of the basic library /repo/0.sf:395-407, and the fixnum case of `decompose-literal`, /repo/2.sf:108-112, 165-170.

The text is what stands between the parentheses of `fixnum(...)`.  `none`: no template, so the literal falls through to the
previous `%const`, which ends in an error of the compiler.
-/
namespace Verif.IntLit
open Verif.Width

/-- The last eight rules of `bin->oct`, libl.sf:720-727. -/
def octDigit (a b c : Char) : Option Char :=
  if a = '0' ∧ b = '0' ∧ c = '0' then some '0'
  else if a = '0' ∧ b = '0' ∧ c = '1' then some '1'
  else if a = '0' ∧ b = '1' ∧ c = '0' then some '2'
  else if a = '0' ∧ b = '1' ∧ c = '1' then some '3'
  else if a = '1' ∧ b = '0' ∧ c = '0' then some '4'
  else if a = '1' ∧ b = '0' ∧ c = '1' then some '5'
  else if a = '1' ∧ b = '1' ∧ c = '0' then some '6'
  else if a = '1' ∧ b = '1' ∧ c = '1' then some '7'
  else none

/-- The rules for two digits, libl.sf:716-719. -/
def octDigit2 (a b : Char) : Option Char :=
  if a = '0' ∧ b = '0' then some '0'
  else if a = '0' ∧ b = '1' then some '1'
  else if a = '1' ∧ b = '0' then some '2'
  else if a = '1' ∧ b = '1' then some '3'
  else none

/-- The rules for one digit, libl.sf:714-715. -/
def octDigit1 (a : Char) : Option Char := if a = '0' then some '0' else if a = '1' then some '1' else none

/-- `bin->oct`, libl.sf:711-727.  The rules take digits from the end: the first argument is the digits in reverse. -/
def binOct : List Char → List Char → Option (List Char)
  | [], l => some l
  | [a], l => do binOct [] ((← octDigit1 a) :: l)
  | [b, a], l => do binOct [] ((← octDigit2 a b) :: l)
  | c :: b :: a :: d, l => do binOct d ((← octDigit a b c) :: l)

/-- `(id->string sign)` -/
def signText : Sign → List Char
  | .plus => ['+']
  | .minus => ['-']

/-- The representation widths that have templates. -/
def small (w : Option Nat) : Bool := w = some 8 ∨ w = some 16 ∨ w = some 24

/-- `%const integer`, libl.sf:728-740. -/
def constText (d : IntDatum) : Option (List Char) :=
  if small d.width then
    if d.radix = 2 then do
      let l ← binOct d.digits.reverse []
      some (signText d.sign ++ '0' :: l)
    else if d.radix = 8 then some (signText d.sign ++ '0' :: d.digits)
    else if d.radix = 10 then some (signText d.sign ++ d.digits)
    else if d.radix = 16 then some (signText d.sign ++ '0' :: 'x' :: d.digits)
    else none
  else none

/-- `%const integer` of the basic library, 0.sf:395-407. -/
def constText0 (d : IntDatum) : Option (List Char) :=
  if small d.width then
    if d.sign = .plus ∧ d.radix = 8 then some ('0' :: d.digits)
    else if d.radix = 10 then some (signText d.sign ++ d.digits)
    else if d.sign = .plus ∧ d.radix = 16 then some ('0' :: 'x' :: d.digits)
    else none
  else none

/-- The loop of `signed-representation-width`, 2.sf:108-112; the fuel is for `rb` from 8 to 24. -/
def signedWidthLoop (x : Int) : Nat → Nat → Int → Int → Option Nat
  | 0, _, _, _ => none
  | f + 1, rb, lo, hi =>
    if lo ≤ x ∧ x ≤ hi then some rb
    else if rb < 24 then signedWidthLoop x f (rb + 8) (lo * 256) (hi * 256 + 255)
    else none

/-- `signed-representation-width`, 2.sf:108-112. -/
def signedWidth (x : Int) : Option Nat := signedWidthLoop x 3 8 (-128) 127

/-- `decompose-literal` of a fixnum, 2.sf:165-170; `number->string` is 0.sf:1514-1525 (C08). -/
def decomposeFixnum (x : Int) : Option IntDatum := do
  let s ← Num.fixnumToString x.natAbs 10
  some ⟨signedWidth x, if x < 0 then .minus else .plus, s, 10⟩

end Verif.IntLit
