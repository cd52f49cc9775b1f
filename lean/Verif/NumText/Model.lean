import Verif.Num.Model
/-
Numbers as text in the large library: /repo/lib/libl.sf lines 653-687 (strtofxfl, the text to number part of
`string->number` and of the reader), 2377-2388 (fixnum->string) and 2390-2398 (flonum->string), and the C
library functions strtol (Verif.Num) and strtod they call.

Strings are lists of characters without the terminating NUL.  A double is an element of an abstract type: the
operations of C on it are the fields of `Fl`, and nothing is assumed about them.
-/
namespace Verif.NumText
open Verif.Num (strtol takeSign isspace isDig digitsLoop)

/-- What is used of the C type `double`: the value `strtod` gives to an accepted text (`none` for
`errno = ERANGE`), `(double)l`, `(long)d` (`none` if the result is not in the range of long, which has no
defined behaviour, C99 6.3.1.4), comparison, ±HUGE_VAL and HUGE_VAL - HUGE_VAL. -/
structure Fl (D : Type) where
  val : List Char → Option D
  ofInt : Int → D
  toLong : D → Option Int
  eq : D → D → Bool
  inf : Bool → D
  nan : D

/-- The result of strtofxfl: 0, 'e' with `*pl`, 'i' with `*pd`, or undefined behaviour. -/
inductive Res (D : Type) where
  | no
  | fx (n : Int)
  | fl (d : D)
  | ub

/-- The variable `conv`, libl.sf:655. -/
inductive Conv where
  | none
  | e
  | i
deriving DecidableEq

/-- The loop over prefixes, libl.sf:656-666; `none` is `return 0`. -/
def hashes : List Char → Nat → Conv → Option (List Char × Nat × Conv)
  | '#' :: c :: cs, r, k =>
    if c = 'b' ∨ c = 'B' then hashes cs 2 k
    else if c = 'o' ∨ c = 'O' then hashes cs 8 k
    else if c = 'd' ∨ c = 'D' then hashes cs 10 k
    else if c = 'x' ∨ c = 'X' then hashes cs 16 k
    else if c = 'e' ∨ c = 'E' then hashes cs r .e
    else if c = 'i' ∨ c = 'I' then hashes cs r .i
    else none
  | ['#'], _, _ => none
  | s, r, k => some (s, r, k)

/-- `strchr(".eEiInN", c)`, libl.sf:668. -/
def isMark (c : Char) : Bool := c ∈ ['.', 'e', 'E', 'i', 'I', 'n', 'N']

/-- `strcmp_ci(s, t) == 0`, libl.sf:1582-1587. -/
def eqCi (s t : List Char) : Bool := s.map Char.toLower = t.map Char.toLower

/-- Digits with an optional point, at least one digit: the rest of the text. -/
def mantissa (p : Char → Bool) (s : List Char) : Option (List Char) :=
  match s.dropWhile p with
  | '.' :: s2 => if s.takeWhile p = [] ∧ s2.takeWhile p = [] then none else some (s2.dropWhile p)
  | s1 => if s.takeWhile p = [] then none else some s1

/-- Optional exponent: the rest of the text. -/
def expo (m1 m2 : Char) : List Char → List Char
  | [] => []
  | c :: t =>
    if (c = m1 ∨ c = m2) ∧ (takeSign t).2.takeWhile (isDig 10) ≠ [] then (takeSign t).2.dropWhile (isDig 10)
    else c :: t

/-- The decimal form of strtod. -/
def decimal (s : List Char) : Option (List Char) := (mantissa (isDig 10) s).map (expo 'e' 'E')

/-- A character of the sequence in `nan(…)`. -/
def isNChar (c : Char) : Bool := isDig 36 c || c = '_'

/-- strtod after blanks and sign, C99 7.20.1.3: infinity, inf, nan, nan(…), hexadecimal and decimal forms; the
rest of the text, `none` if no form fits. -/
def strtodBody (s : List Char) : Option (List Char) :=
  if eqCi (s.take 8) ['i','n','f','i','n','i','t','y'] then some (s.drop 8)
  else if eqCi (s.take 3) ['i','n','f'] then some (s.drop 3)
  else if eqCi (s.take 3) ['n','a','n'] then
    match s.drop 3 with
    | '(' :: t =>
      match t.dropWhile isNChar with
      | ')' :: u => some u
      | _ => some (s.drop 3)
    | u => some u
  else match s with
    | '0' :: x :: t =>
      if x = 'x' ∨ x = 'X' then
        match mantissa (isDig 16) t with
        | some u => some (expo 'p' 'P' u)
        | none => some (x :: t)
      else decimal s
    | _ => decimal s

/-- C `strtod`: the rest `e`. -/
def strtod (s : List Char) : List Char :=
  match strtodBody (takeSign (s.dropWhile isspace)).2 with
  | some u => u
  | none => s

/-- FIXNUM_MIN .. FIXNUM_MAX, libl.sf:460-461. -/
def fits (n : Int) : Bool := -536870912 ≤ n ∧ n ≤ 536870911

/-- libl.sf:683-685, with `d` in hand; `fxflo(d)` is `d` as a fixnum, which is `l` once `(double)l == d`. -/
def finish {D : Type} (F : Fl D) (k : Conv) (d : D) : Res D :=
  if k = .e then
    match F.toLong d with
    | none => .ub
    | some l => if !fits l || !F.eq (F.ofInt l) d then .no else .fx l
  else .fl d

/-- `d = strtod(s, &e)` and the test of its outcome, libl.sf:678-682.  The value is only used if the whole text
has been read, so it is only asked for then. -/
def viaStrtod {D : Type} (F : Fl D) (s : List Char) (k : Conv) : Res D :=
  if strtod s ≠ [] ∨ s = [] then .no
  else match F.val s with
    | none => .no
    | some d => finish F k d

/-- The part from label `fl`, libl.sf:677-685. -/
def flPart {D : Type} (F : Fl D) (s : List Char) (r : Nat) (k : Conv) : Res D :=
  if r ≠ 10 then .no
  else match s with
    | c :: t =>
      if c ≠ '+' ∧ c ≠ '-' then viaStrtod F s k
      else if eqCi t ['i','n','f','.','0'] then finish F k (F.inf (c = '-'))
      else if eqCi t ['n','a','n','.','0'] then finish F k F.nan
      else viaStrtod F s k
    | [] => viaStrtod F s k

/-- `isspace(*s)`, libl.sf:667; `isspace('\0')` is false. -/
def startsBlank : List Char → Bool
  | c :: _ => isspace c
  | [] => false

/-- strtofxfl after the prefixes, libl.sf:667-686. -/
def afterPrefix {D : Type} (F : Fl D) (s : List Char) (r : Nat) (k : Conv) : Res D :=
  if startsBlank s then .no
  else if !s.any isMark || r ≠ 10 then
    match strtol s r with
    | (some l, []) =>
      if s = [] then (if k = .i then flPart F s r k else .no)
      else if k = .i then .fl (F.ofInt l)
      else if fits l then .fx l
      else .no
    | _ => if k = .i then flPart F s r k else .no
  else flPart F s r k

/-- strtofxfl, libl.sf:653-687.  errno is restored on every way out except the early `return 0`, where it has
not been touched. -/
def strtofxfl {D : Type} (F : Fl D) (s : List Char) (radix : Nat) : Res D :=
  match hashes s radix .none with
  | none => .no
  | some (s, r, k) => afterPrefix F s r k

/-- `fixnum->string`, libl.sf:2377-2388: `char buf[35]`, terminator in the last byte, so 34 bytes of room
(`none` is a write outside the buffer). -/
def fixnumToString (n : Int) (radix : Nat) : Option (List Char) :=
  match digitsLoop radix 34 n.natAbs [] with
  | none => none
  | some ds =>
    if n < 0 then (if ds.length < 34 then some ('-' :: ds) else none) else some ds

/-- Decimal digits of a natural number below 10³⁴. -/
def decDigits (n : Nat) : List Char := (digitsLoop 10 34 n []).getD []

/-- Remove zeros at the end. -/
def stripZeros (s : List Char) : List Char := (s.reverse.dropWhile (· = '0')).reverse

/-- `n / 10` rounded to the nearest integer, ties to even. -/
def roundTen (n : Nat) : Nat :=
  if n % 10 < 5 ∨ (n % 10 = 5 ∧ n / 10 % 2 = 0) then n / 10 else n / 10 + 1

/-- `sprintf(buf, "%.15g", d)` for a double with an integral value of absolute value below
10¹⁶ (other than the negative zero): below 10¹⁵ the digits, otherwise scientific notation with 15 significant
digits, zeros at the end of the fraction removed (C99 7.19.6.1). -/
def sprintf15g (n : Int) : List Char :=
  let body :=
    if n.natAbs < 1000000000000000 then decDigits n.natAbs
    else
      let q := roundTen n.natAbs
      let (q, ex) := if q = 1000000000000000 then (100000000000000, ['1','6']) else (q, ['1','5'])
      match decDigits q with
      | [] => []
      | c :: cs =>
        c :: ((if stripZeros cs = [] then [] else '.' :: stripZeros cs) ++ 'e' :: '+' :: ex)
  if n < 0 then '-' :: body else body

/-- `flonum->string`, libl.sf:2390-2398, for the same doubles: `.0` is added if there is no point and no
exponent. -/
def flonumToString (n : Int) : List Char :=
  if (sprintf15g n).any (· ∈ ['.', 'e', 'E']) then sprintf15g n else sprintf15g n ++ ['.', '0']

end Verif.NumText
