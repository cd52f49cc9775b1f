/-
Number/string conversions: /repo/0.sf lines 1514-1525 (fixnum->string) and 1540-1552 (string->fixnum),
and the C library function strtol they call.

Strings are lists of characters without the terminating NUL.
-/
namespace Verif.Num

/-- `d < 10 ? d + '0' : d - 10 + 'a'`, /repo/0.sf:1522. -/
def dig (d : Nat) : Char := if d < 10 then Char.ofNat (d + 48) else Char.ofNat (d - 10 + 97)

/-- The `do … while (num /= radix)` loop, /repo/0.sf:1522-1523.  The first argument is the number of free
bytes left below `s` in `buf`; running out of them is a buffer overrun (`none`). -/
def digitsLoop (radix : Nat) : Nat → Nat → List Char → Option (List Char)
  | 0, _, _ => none
  | room+1, num, acc =>
    let acc := dig (num % radix) :: acc
    if num / radix = 0 then some acc else digitsLoop radix room (num / radix) acc

/-- `fixnum->string`, /repo/0.sf:1514-1525: `char buf[35]`, terminator in the last byte, so 34 bytes of
room.  `num = -num` cannot overflow for a fixnum. -/
def fixnumToString (n : Int) (radix : Nat) : Option (List Char) :=
  match digitsLoop radix 34 n.natAbs [] with
  | none => none
  | some ds =>
    if n < 0 then (if ds.length < 34 then some ('-' :: ds) else none) else some ds

/-- value of a digit character as used by C `strtol` ("C" locale). -/
def digVal (c : Char) : Option Nat :=
  if '0' ≤ c ∧ c ≤ '9' then some (c.toNat - 48)
  else if 'a' ≤ c ∧ c ≤ 'z' then some (c.toNat - 97 + 10)
  else if 'A' ≤ c ∧ c ≤ 'Z' then some (c.toNat - 65 + 10)
  else none

/-- C `isspace` in the "C" locale. -/
def isspace (c : Char) : Bool := c = ' ' || (9 ≤ c.toNat && c.toNat ≤ 13)

/-- is `c` a digit in `base`? -/
def isDig (base : Nat) (c : Char) : Bool :=
  match digVal c with
  | some d => d < base
  | none => false

/-- digit-collecting part of `strtol`: value and unconsumed rest. -/
def strtolDigits (base : Nat) : List Char → Nat → Nat × List Char
  | [], acc => (acc, [])
  | c :: cs, acc =>
    match digVal c with
    | some d => if d < base then strtolDigits base cs (acc * base + d) else (acc, c :: cs)
    | none => (acc, c :: cs)

/-- skip the optional `0x` of base 16 (only if a hex digit follows). -/
def skip0x (base : Nat) : List Char → List Char
  | '0' :: x :: c :: cs =>
    if base = 16 ∧ (x = 'x' ∨ x = 'X') ∧ isDig 16 c then c :: cs else '0' :: x :: c :: cs
  | s => s

/-- optional sign. -/
def takeSign : List Char → Bool × List Char
  | '-' :: cs => (true, cs)
  | '+' :: cs => (false, cs)
  | cs => (false, cs)

/-- negate if there was a minus sign. -/
def signed (neg : Bool) (v : Nat) : Int := if neg then -(v : Int) else v

/-- C `strtol(s, &e, base)` for base 2..36 (C99 7.20.1.4): result, rest `e`; `none` for `errno = ERANGE`.
If no conversion is possible the rest is the whole string. -/
def strtol (s : List Char) (base : Nat) : Option Int × List Char :=
  let (neg, s2) := takeSign (s.dropWhile isspace)
  let (v, rest) := strtolDigits base (skip0x base s2) 0
  if rest.length = (skip0x base s2).length then (some 0, s)
  else
    if -9223372036854775808 ≤ signed neg v ∧ signed neg v ≤ 9223372036854775807
    then (some (signed neg v), rest) else (none, rest)

/-- radix prefixes, /repo/0.sf:1545-1548. -/
def hashPrefix (s : List Char) (radix : Nat) : List Char × Nat :=
  match s with
  | '#' :: c :: cs =>
    if c = 'b' ∨ c = 'B' then (cs, 2)
    else if c = 'o' ∨ c = 'O' then (cs, 8)
    else if c = 'd' ∨ c = 'D' then (cs, 10)
    else if c = 'x' ∨ c = 'X' then (cs, 16)
    else (s, radix)
  | _ => (s, radix)

/-- `string->fixnum`, /repo/0.sf:1540-1552: `none` is `#f`.  `e == s` is "nothing consumed". -/
def stringToFixnum (str : List Char) (radix : Nat) : Option Int :=
  let (s, radix) := hashPrefix str radix
  match strtol s radix with
  | (none, _) => none
  | (some l, rest) =>
    if l < -8388608 ∨ l > 8388607 ∨ rest.length = s.length ∨ rest ≠ [] then none else some l

end Verif.Num
