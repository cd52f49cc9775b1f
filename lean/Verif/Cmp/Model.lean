/-
String comparison: the primitives string=?, string<? … string-ci>=? (0.sf:1006-1034), which call C `strcmp`
and `strcmp_ci` (0.sf:963-970) on the character data of length-counted strings.

A string is a list of characters below 256; the C data is followed by a terminating NUL (0.sf allocstring,
newstring, stringcat), which the model supplies implicitly when the list runs out.
-/
namespace Verif.Cmp

/-- NUL -/
notation "nul" => Char.ofNat 0

/-- first byte of the C string -/
def hd (s : List Char) : Char := s.headD nul

/-- C `strcmp` (C99 7.21.4.2): sign of the difference of the first differing bytes, as unsigned char. -/
def strcmp : List Char → List Char → Ordering
  | [], t => if hd t = nul then .eq else .lt
  | a :: s, t =>
    if a ≠ hd t then compare a.toNat (hd t).toNat
    else if a = nul then .eq
    else strcmp s t.tail

/-- string=? (0.sf:1006) -/
def stringEq (x y : List Char) : Bool := strcmp x y == .eq
/-- string<? (0.sf:1009) -/
def stringLt (x y : List Char) : Bool := strcmp x y == .lt
/-- string>? (0.sf:1012) -/
def stringGt (x y : List Char) : Bool := strcmp x y == .gt
/-- string<=? (0.sf:1015) -/
def stringLe (x y : List Char) : Bool := strcmp x y != .gt
/-- string>=? (0.sf:1018) -/
def stringGe (x y : List Char) : Bool := strcmp x y != .lt

/-- C `tolower` ("C" locale). -/
def tolower (c : Char) : Char := if 'A' ≤ c ∧ c ≤ 'Z' then Char.ofNat (c.toNat + 32) else c

/-- value of a `char` object (signed 8 bits) -/
def schar (c : Char) : Int := if c.toNat < 128 then c.toNat else (c.toNat : Int) - 256

/-- `tolower` applied to a `char`: negative arguments other than EOF are undefined in C99 (7.4); the glibc
and MSVC "C" locale tables return them unchanged, which is what we model. -/
def tolowerC (c : Char) : Int := if 'A' ≤ c ∧ c ≤ 'Z' then schar c + 32 else schar c

/-- `strcmp_ci` (0.sf:963-970), sign of the result.  The unsigned difference converted to int is exact because both
values are within -128..127. -/
def strcmpCi : List Char → List Char → Ordering
  | [], t => if tolowerC nul ≠ tolowerC (hd t) then compare (tolowerC nul) (tolowerC (hd t)) else .eq
  | a :: s, t =>
    if tolowerC a ≠ tolowerC (hd t) then compare (tolowerC a) (tolowerC (hd t))
    else if a ≠ nul ∧ hd t ≠ nul then strcmpCi s t.tail else .eq

end Verif.Cmp
