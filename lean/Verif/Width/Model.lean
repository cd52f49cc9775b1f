import Verif.Cmp.Model
/-
Reading unsigned digit sequences and classifying them by width: 1.sf:389-435 (integer-representation-table,
integer-representation-width), 1.sf:229-231 (char-digit-value), 1.sf:437-460 (integer-datum,
subread-uinteger).
-/
namespace Verif.Width
open Verif.Cmp

/-- `integer-representation-table`, 1.sf:389-425: radix, then (width, largest magnitude if negative, largest
magnitude if positive). -/
def table : List (Nat × List (Nat × String × String)) :=
 [(16,
   [(8, "80", "7f"),
    (16, "8000", "7fff"),
    (24, "800000", "7fffff"),
    (32, "80000000", "7fffffff"),
    (40, "8000000000", "7fffffffff"),
    (48, "800000000000", "7fffffffffff"),
    (56, "80000000000000", "7fffffffffffff"),
    (64, "8000000000000000", "7fffffffffffffff")]),
  (10,
   [(8, "128", "127"),
    (16, "32768", "32767"),
    (24, "8388608", "8388607"),
    (32, "2147483648", "2147483647"),
    (40, "549755813888", "549755813887"),
    (48, "140737488355328", "140737488355327"),
    (56, "36028797018963968", "36028797018963967"),
    (64, "9223372036854775808", "9223372036854775807")]),
  (8,
   [(8, "200", "177"),
    (16, "100000", "77777"),
    (24, "40000000", "37777777"),
    (32, "20000000000", "17777777777"),
    (40, "10000000000000", "7777777777777"),
    (48, "4000000000000000", "3777777777777777"),
    (56, "2000000000000000000", "1777777777777777777"),
    (64, "1000000000000000000000", "777777777777777777777")]),
  (2,
   [(8, "10000000", "1111111"),
    (16, "1000000000000000", "111111111111111"),
    (24, "100000000000000000000000", "11111111111111111111111"),
    (32, "10000000000000000000000000000000", "1111111111111111111111111111111"),
    (40, "1000000000000000000000000000000000000000", "111111111111111111111111111111111111111"),
    (48, "100000000000000000000000000000000000000000000000", "11111111111111111111111111111111111111111111111"),
    (56, "10000000000000000000000000000000000000000000000000000000", "1111111111111111111111111111111111111111111111111111111"),
    (64, "1000000000000000000000000000000000000000000000000000000000000000", "111111111111111111111111111111111111111111111111111111111111111")])]

/-- The sign symbol: `+` or `-`. -/
inductive Sign | plus | minus
deriving DecidableEq

/-- `s<=?`, 1.sf:428-430. -/
def sLe (s1 s2 : List Char) : Bool :=
  if s1.length < s2.length then true
  else if s1.length > s2.length then false
  else stringLe s1 s2

/-- the loop of `integer-representation-width`, 1.sf:431-435; `none` is the symbol `big`. -/
def widthLoop (sign : Sign) (s : List Char) : List (Nat × String × String) → Option Nat
  | [] => none
  | (w, neg, pos) :: st =>
    if sign = .minus ∧ sLe s neg.toList = true then some w
    else if sign = .plus ∧ sLe s pos.toList = true then some w
    else widthLoop sign s st

/-- `integer-representation-width`, 1.sf:427-435.  A radix outside the table is an error in the code (`cdr` of
#f); the reader only passes 2, 8, 10, 16. -/
def width (sign : Sign) (s : List Char) (radix : Nat) : Option Nat :=
  widthLoop sign s ((table.lookup radix).getD [])

/-- position of a character in a string (1.sf string-position). -/
def position (c : Char) : List Char → Nat → Option Nat
  | [], _ => none
  | d :: t, i => if c = d then some i else position c t (i + 1)

/-- `char-digit-value`, 1.sf:229-231. -/
def charDigitValue (c : Char) (radix : Nat) : Option Nat :=
  match position (tolower c) "0123456789abcdefghijklmnopqrstuvwxyz".toList 0 with
  | some p => if p ≥ radix then none else some p
  | none => none

/-- zero-stripping loop of `integer-datum`, 1.sf:441-443. -/
def stripZeros : List Char → List Char
  | c :: d :: t => if c = '0' then stripZeros (d :: t) else c :: d :: t
  | l => l

/-- the `integer` datum: width, sign, digit string, radix. -/
structure IntDatum where
  width : Option Nat
  sign : Sign
  digits : List Char
  radix : Nat

/-- `integer-datum`, 1.sf:438-446; `none` is the reader error for an empty digit sequence. -/
def integerDatum (sign : Sign) (digits : List Char) (radix : Nat) : Option IntDatum :=
  if digits = [] then none
  else
    some ⟨width sign (stripZeros digits.reverse) radix, sign, stripZeros digits.reverse, radix⟩

/-- `subread-uinteger`, 1.sf:455-460: result and remaining input. -/
def subreadUinteger (sign : Sign) (radix : Nat) : List Char → List Char → Option (IntDatum × List Char)
  | [], digits => (integerDatum sign digits radix).map (·, [])
  | c :: i, digits =>
    match charDigitValue c radix with
    | some _ => subreadUinteger sign radix i (tolower c :: digits)
    | none => (integerDatum sign digits radix).map (·, c :: i)

end Verif.Width
