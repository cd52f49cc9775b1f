import Verif.Width.Model
import Verif.Num.Model
/-
The lexical part of the reader: 1.sf:29-66 (representation helpers), 1.sf:183-314 (input abstraction and
utilities), 1.sf:437-624 (numbers, strings, characters) and the non-recursive branches of initial-reader
(1.sf:626-708).

The input is the list of characters still to be read; the code's lazy stream of port characters
(1.sf:183-203) is this list, forced on demand.  Errors (`r-error`) are `none` here: their messages are not
modelled.  A character object is represented by its code point where the code builds strings from numbers,
so that `\x7fffff;`, which is not a Unicode scalar, is represented faithfully.
-/
namespace Verif.Reader
open Verif.Cmp Verif.Num Verif.Width

/-- `cs!"abc"` is the character list `['a', 'b', 'c']`. -/
macro:max "cs!" s:str : term => do
  let cs : Array (Lean.TSyntax `term) := (s.getString.toList.map fun c => ⟨Lean.Syntax.mkCharLit c⟩).toArray
  `([$cs,*])

/-- S-expressions of the reader: datums are lists whose head is the type symbol (1.sf:88-117). -/
inductive SX
  | nil
  | sym (s : List Char)
  | str (s : List Char)
  | num (n : Int)
  | chr (c : Char)
  | cons (a d : SX)
deriving DecidableEq, Repr

/-- `list` -/
def SX.list : List SX → SX
  | [] => .nil
  | a :: l => .cons a (SX.list l)

/-- `(datum 'type e ...)`, 1.sf:119-121 -/
abbrev datum (t : List Char) (es : List SX) : SX := .cons (.sym t) (SX.list es)

/-- `datum-type`, 1.sf:122 -/
def SX.type : SX → SX
  | .cons t _ => t
  | _ => .nil

/-! ## Characters -/

/-- `char-delimiter?`, 1.sf:214-216; `char-whitespace?` is C `isspace`, 0.sf:869. -/
def charDelimiter (c : Char) : Bool :=
  isspace c || cs!"()[]{}\";#".contains c

/-- `char-initial?`, 1.sf:218-220 -/
def charInitial (c : Char) : Bool :=
  cs!"ABCDEFGHIJKLMNOPQRSTUVWXYZabcdefghijklmnopqrstuvwxyz!$%&*/:<=>?^_~".contains c

/-- `char-subsequent?`, 1.sf:222-224 -/
def charSubsequent (c : Char) : Bool :=
  cs!"ABCDEFGHIJKLMNOPQRSTUVWXYZabcdefghijklmnopqrstuvwxyz!$%&*/:<=>?^_~0123456789+-.@".contains c

/-- `char-number-initial?`, 1.sf:226-227 -/
def charNumberInitial (c : Char) : Bool := cs!"0123456789+-.".contains c

/-- `char-exponent-marker?`, 1.sf:233-234 -/
def charExponentMarker (c : Char) : Bool := cs!"esfdl".contains (tolower c)

/-- `char-numeric?`, C `isdigit`, 0.sf:866 -/
def isdigit (c : Char) : Bool := '0' ≤ c ∧ c ≤ '9'

/-- `char-alphabetic?`, C `isalpha` in the "C" locale, 0.sf:863 -/
def isalpha (c : Char) : Bool := ('a' ≤ c ∧ c ≤ 'z') ∨ ('A' ≤ c ∧ c ≤ 'Z')

/-! ## Input prefixes -/

/-- `input-prefix`, 1.sf:236-245 -/
def inputPrefix : List Char → List Char → Option (List Char)
  | i, [] => some i
  | [], _ :: _ => none
  | c :: i, h :: hs => if c = h then inputPrefix i hs else none

/-- `input-prefix-ci`, 1.sf:247-256 -/
def inputPrefixCi : List Char → List Char → Option (List Char)
  | i, [] => some i
  | [], _ :: _ => none
  | c :: i, h :: hs => if tolower c = tolower h then inputPrefixCi i hs else none

/-- `input-delimited?`, 1.sf:270-271 -/
def inputDelimited : List Char → Bool
  | [] => true
  | c :: _ => charDelimiter c

/-- `input-check-delimited`, 1.sf:273-276 -/
def checkDelimited (i : List Char) : Option (List Char) := if inputDelimited i then some i else none

/-- `input-delimited-prefix`, 1.sf:278-288 -/
def inputDelimitedPrefix (i p : List Char) : Option (List Char) := (inputPrefix i p).bind checkDelimited

/-- `input-delimited-prefix-ci`, 1.sf:290-300 -/
def inputDelimitedPrefixCi (i p : List Char) : Option (List Char) := (inputPrefixCi i p).bind checkDelimited

/-! ## Strings and symbols -/

/-- `codepoint-byte-width`, 1.sf:60-65 (code points are always fixnums here) -/
def byteWidth (x : Nat) : Nat :=
  if x ≤ 255 then 8 else if x ≤ 65535 then 16 else if x ≤ 1114111 then 24 else 32

/-- `string-safe-codepoint?`, 1.sf:67-77 -/
def stringSafe (cp : Nat) : Bool :=
  cp ≤ 126 ∧ 32 ≤ cp ∧ cp ≠ 92 ∧ cp ≠ 39 ∧ cp ≠ 34 ∧ cp ≠ 36

/-- `fold-max/big` over the widths, starting with 8, 1.sf:79-85 -/
def maxWidth (cps : List Nat) : Nat := (cps.map byteWidth).foldl max 8

/-- `char-list->string-datum` and `char-list->symbol-datum`, 1.sf:302-314, which differ in the type only. -/
def charsDatum (type : List Char) (cps : List Nat) : SX :=
  if maxWidth cps = 8 ∧ cps.all stringSafe then datum type [.str (cps.map Char.ofNat)]
  else .cons (.sym type) (.cons (.num (maxWidth cps)) (SX.list (cps.map fun (n : Nat) => .num n)))

/-! ## Numbers -/

/-- the sign symbols -/
def signSX : Sign → SX
  | .plus => .sym cs!"+"
  | .minus => .sym cs!"-"

/-- `(datum 'integer width sign digits radix)`, 1.sf:445-446 -/
def intDatum (d : IntDatum) : SX :=
  datum cs!"integer"
    [match d.width with | some w => .num w | none => .sym cs!"big", signSX d.sign, .str d.digits, .num d.radix]

/-- the exact zero used for missing parts: `(datum 'integer 8 '+ "0" 10)` -/
def zeroDatum (s : Sign) : SX := datum cs!"integer" [.num 8, signSX s, .str cs!"0", .num 10]

/-- strips trailing zeros of the (reversed) digits of a fraction but for the last, loop of 1.sf:450-452 -/
def stripRev : List Char → List Char
  | c :: d :: t => if c = '0' then stripRev (d :: t) else c :: d :: t
  | l => l

/-- `fraction-datum`, 1.sf:447-454 -/
def fractionDatum (digits : List Char) : Option SX :=
  if digits = [] then none
  else some (datum cs!"integer" [.sym cs!"?", .sym cs!"?", .str (stripRev digits).reverse, .sym cs!"?"])

/-- `subread-uinteger`, 1.sf:455-460 (see Verif.Width) -/
def readUinteger (i : List Char) (s : Sign) (radix : Nat) : Option (SX × List Char) :=
  (subreadUinteger s radix i []).map fun p => (intDatum p.1, p.2)

/-- `subread-decimal-fraction`, 1.sf:461-466 -/
def readFraction : List Char → List Char → Option (SX × List Char)
  | [], digits => (fractionDatum digits).map (·, [])
  | c :: i, digits =>
    match charDigitValue c 10 with
    | some _ => readFraction i (c :: digits)
    | none => (fractionDatum digits).map (·, c :: i)

/-- `subread-integer`, 1.sf:467-470 -/
def readInteger (i : List Char) (radix : Nat) : Option (SX × List Char) :=
  match inputPrefix i cs!"+" with
  | some i => readUinteger i .plus radix
  | none =>
    match inputPrefix i cs!"-" with
    | some i => readUinteger i .minus radix
    | none => readUinteger i .plus radix

/-- components of a datum -/
def SX.nth : SX → Nat → SX
  | .cons a _, 0 => a
  | .cons _ d, n+1 => d.nth n
  | _, _ => .nil

/-- `decimal-datum`, 1.sf:160-168 -/
def decimalDatum (rept : List Char) (iint ifrac iexp : SX) : SX :=
  datum cs!"decimal" [.sym rept, iint.nth 2, iint.nth 3, ifrac.nth 3, iexp.nth 2, iexp.nth 3]

/-- does the input start with an exponent marker? -/
def atExponent : List Char → Bool
  | [] => false
  | c :: _ => charExponentMarker c

/-- `subread-decimal-suffix`, 1.sf:471-477 -/
def readDecimalSuffix (d1 d2 : SX) (i : List Char) (radix : Nat) : Option (SX × List Char) :=
  match i with
  | c :: i' =>
    if charExponentMarker c then
      (readInteger i' radix).map fun p => (decimalDatum [tolower c] d1 d2 p.1, p.2)
    else some (decimalDatum cs!"e" d1 d2 (zeroDatum .plus), i)
  | [] => some (decimalDatum cs!"e" d1 d2 (zeroDatum .plus), i)

/-- `subread-decimal`, 1.sf:478-486; it is only called at a period or an exponent marker. -/
def readDecimal (d1 : SX) (i : List Char) (radix : Nat) : Option (SX × List Char) :=
  match inputPrefix i cs!"." with
  | some i =>
    if (i.head?.map isdigit).getD false then
      (readFraction i []).bind fun p => readDecimalSuffix d1 p.1 p.2 radix
    else readDecimalSuffix d1 (zeroDatum .plus) i radix
  | none => readDecimalSuffix d1 (zeroDatum .plus) i radix

/-- `subread-real`, 1.sf:487-496 -/
def readReal (i : List Char) (radix : Nat) : Option (SX × List Char) :=
  (readInteger i radix).bind fun p =>
    match inputPrefix p.2 cs!"/" with
    | some i => (readUinteger i .plus radix).map fun q => (datum cs!"ratio" [p.1, q.1], q.2)
    | none =>
      if radix = 10 ∧ atExponent p.2 then readDecimal p.1 p.2 radix
      else if radix = 10 ∧ (inputPrefix p.2 cs!".").isSome then readDecimal p.1 p.2 radix
      else some p

/-- `subread-real-naninf`, 1.sf:497-508 -/
def readRealNaninf (i : List Char) (radix : Nat) : Option (SX × List Char) :=
  match inputDelimitedPrefix i cs!"-nan.0" with
  | some i => some (datum cs!"nan" [.sym cs!"-"], i)
  | none =>
  match inputDelimitedPrefix i cs!"+nan.0" with
  | some i => some (datum cs!"nan" [.sym cs!"+"], i)
  | none =>
  match inputDelimitedPrefix i cs!"-inf.0" with
  | some i => some (datum cs!"inf" [.sym cs!"-"], i)
  | none =>
  match inputDelimitedPrefix i cs!"+inf.0" with
  | some i => some (datum cs!"inf" [.sym cs!"+"], i)
  | none =>
    if radix = 10 ∧ (inputPrefix i cs!".").isSome then readDecimal (zeroDatum .plus) i radix
    else if radix = 10 ∧ (inputPrefix i cs!"+.").isSome then readDecimal (zeroDatum .plus) i.tail radix
    else if radix = 10 ∧ (inputPrefix i cs!"-.").isSome then readDecimal (zeroDatum .minus) i.tail radix
    else readReal i radix

/-- `subread-complex`, 1.sf:509-529 -/
def readComplex (i : List Char) (radix : Nat) : Option (SX × List Char) :=
  match inputDelimitedPrefix i cs!"+i" with
  | some i =>
    some (datum cs!"rectangular"
      [datum cs!"integer" [.num 8, .sym cs!"-", .str cs!"1", .num 10],
       datum cs!"integer" [.num 8, .sym cs!"+", .str cs!"1", .num 10]], i)
  | none =>
  match inputDelimitedPrefix i cs!"-i" with
  | some i =>
    some (datum cs!"rectangular"
      [zeroDatum .plus, datum cs!"integer" [.num 8, .sym cs!"-", .str cs!"1", .num 10]], i)
  | none =>
    (readRealNaninf i radix).bind fun p =>
      match inputPrefix p.2 cs!"@" with
      | some i => (readRealNaninf i radix).map fun q => (datum cs!"polar" [p.1, q.1], q.2)
      | none =>
      match inputPrefix p.2 cs!"i" with
      | some i => some (datum cs!"rectangular" [zeroDatum .plus, p.1], i)
      | none =>
        if (inputPrefix p.2 cs!"+").isSome ∨ (inputPrefix p.2 cs!"-").isSome then
          (readRealNaninf p.2 radix).bind fun q =>
            (inputPrefix q.2 cs!"i").map fun i => (datum cs!"rectangular" [p.1, q.1], i)
        else some p

/-- `subread-number`, 1.sf:437-534; `exactness` is `none` for #f. -/
def readNumber (i : List Char) (exactness : Option (List Char)) (radix : Nat) : Option (SX × List Char) :=
  (readComplex i radix).bind fun p =>
    (checkDelimited p.2).map fun i =>
      (match exactness with | some e => datum e [p.1] | none => p.1, i)

/-! ## Strings and characters -/

/-- the digits of `subread-hex-value`, 1.sf:537-539 -/
def hexDigits : List Char → List Char → List Char × List Char
  | c :: i, digits =>
    match charDigitValue c 16 with
    | some _ => hexDigits i (tolower c :: digits)
    | none => (digits, c :: i)
  | [], digits => (digits, [])

/-- `subread-hex-value` and `subread-hex-scalar-value`, 1.sf:536-554: the code point and the rest.
`string->number` cannot fail for a value of at most 24 bits. -/
def readHexScalar (i : List Char) : Option (Nat × List Char) :=
  let (digits, rest) := hexDigits i []
  if digits = [] then none
  else
    let s := stripZeros digits.reverse
    match width .plus s 16 with
    | some w =>
      if w > 24 then none
      else
        match stringToFixnum s 16 with
        | some n => some (n.toNat, rest)
        | none => none
    | none => none

/-- `subread-string-escape` and `subread-string-hex-escape`, 1.sf:555-576, after the backslash -/
def readEscape : List Char → Option (Nat × List Char)
  | [] => none
  | c :: i =>
    if c = '\\' then some (92, i)
    else if c = '"' then some (34, i)
    else if c = '|' then some (124, i)
    else if c = 'a' then some (7, i)
    else if c = 'b' then some (8, i)
    else if c = 't' then some (9, i)
    else if c = 'n' then some (10, i)
    else if c = 'v' then some (11, i)
    else if c = 'f' then some (12, i)
    else if c = 'r' then some (13, i)
    else if c = 'x' then
      match readHexScalar i with
      | some (cp, ';' :: i) => some (cp, i)
      | _ => none
    else none

/-- the loop of `subread-string`, 1.sf:577-585, after the opening quote; the first argument bounds the
number of characters read (the input length is enough). -/
def readStringLoop : Nat → List Char → List Nat → Option (SX × List Char)
  | 0, _, _ => none
  | _+1, [], _ => none
  | n+1, c :: i, lst =>
    if c = '"' then some (charsDatum cs!"string" lst.reverse, i)
    else if c = '\\' then
      match readEscape i with
      | some (cp, i) => readStringLoop n i (cp :: lst)
      | none => none
    else readStringLoop n i (c.toNat :: lst)

/-- `subread-string`, 1.sf:577-585 -/
def readString (i : List Char) : Option (SX × List Char) :=
  match inputPrefix i cs!"\"" with
  | some i => readStringLoop (i.length + 1) i []
  | none => none

/-- the names of 1.sf:611-623 -/
def charNames : List (List Char × SX) :=
  [(cs!"null", datum cs!"char" [.num 8, .num 0]),
   (cs!"alarm", datum cs!"char" [.num 8, .num 7]),
   (cs!"backspace", datum cs!"char" [.num 8, .num 8]),
   (cs!"tab", datum cs!"char" [.num 8, .num 9]),
   (cs!"newline", datum cs!"char" [.num 8, .num 10]),
   (cs!"linefeed", datum cs!"char" [.num 8, .num 10]),
   (cs!"vtab", datum cs!"char" [.num 8, .num 11]),
   (cs!"page", datum cs!"char" [.num 8, .num 12]),
   (cs!"return", datum cs!"char" [.num 8, .num 13]),
   (cs!"escape", datum cs!"char" [.num 8, .num 27]),
   (cs!"space", datum cs!"char" [.str cs!" "]),
   (cs!"delete", datum cs!"char" [.num 8, .num 127])]

/-- the `char` datum of a code point, 1.sf:591-594 and 1.sf:600-603 -/
def charDatum (cp : Nat) : SX :=
  if byteWidth cp = 8 ∧ stringSafe cp then datum cs!"char" [.str [Char.ofNat cp]]
  else datum cs!"char" [.num (byteWidth cp), .num cp]

/-- `subread-char`, 1.sf:587-624, after `#\` -/
def readChar : List Char → Option (SX × List Char)
  | [] => none
  | c :: i =>
    if inputDelimited i then some (charDatum c.toNat, i)
    else if c = 'x' then
      (readHexScalar i).bind fun p => (checkDelimited p.2).map fun i => (charDatum p.1, i)
    else
      let name := (c :: i).takeWhile isalpha
      let rest := (c :: i).dropWhile isalpha
      (checkDelimited rest).bind fun i => (charNames.lookup name).map (·, i)

/-! ## Here-strings -/

/-- the tag loop, 1.sf:688-694: the reversed tag and the input after the newline -/
def hereTag : List Char → List Char → Option (List Char × List Char)
  | [], _ => none
  | c :: i, lst => if c ≠ '\n' then hereTag i (c :: lst) else if lst = [] then none else some (lst, i)

/-- the line loop, 1.sf:696-708; `lst` is the current line and `res` the result, both reversed -/
def hereLines (rtag : List Char) : List Char → List Char → List Char → Option (SX × List Char)
  | [], lst, res =>
    if lst = rtag then some (charsDatum cs!"string" (res.reverse.map Char.toNat), []) else none
  | c :: i, lst, res =>
    if c = '\n' then
      if lst = rtag then some (charsDatum cs!"string" (res.reverse.map Char.toNat), c :: i)
      else hereLines rtag i [] (if res = [] then lst else lst ++ '\n' :: res)
    else hereLines rtag i (c :: lst) res

/-! ## Comments -/

/-- the comment loop, 1.sf:740-750.  The stack of continuations `(lambda (a i) (loop i return))` is
represented by its height: `depth + 1` comments are open. -/
def blockComment : Nat → List Char → Option (List Char)
  | _, [] => none
  | depth, '|' :: '#' :: i =>
    match depth with
    | 0 => some i
    | d+1 => blockComment d i
  | depth, '#' :: '|' :: i => blockComment (depth + 1) i
  | depth, _ :: i => blockComment depth i

/-- the rest of a line comment, 1.sf:633-637: `none` if the input ends first -/
def lineComment : List Char → Option (List Char)
  | [] => none
  | c :: i => if c = '\n' then some i else lineComment i

/-! ## The non-recursive branches of initial-reader before the first recursive one -/

/-- the radix and exactness prefixes, 1.sf:656-679 -/
def numPrefixes : List (List Char × Option (List Char) × Nat) :=
  [(cs!"#i#b", some cs!"inexact", 2), (cs!"#i#o", some cs!"inexact", 8),
   (cs!"#i#d", some cs!"inexact", 10), (cs!"#i#x", some cs!"inexact", 16),
   (cs!"#e#b", some cs!"exact", 2), (cs!"#e#o", some cs!"exact", 8),
   (cs!"#e#d", some cs!"exact", 10), (cs!"#e#x", some cs!"exact", 16),
   (cs!"#b#i", some cs!"inexact", 2), (cs!"#o#i", some cs!"inexact", 8),
   (cs!"#d#i", some cs!"inexact", 10), (cs!"#x#i", some cs!"inexact", 16),
   (cs!"#b#e", some cs!"exact", 2), (cs!"#o#e", some cs!"exact", 8),
   (cs!"#d#e", some cs!"exact", 10), (cs!"#x#e", some cs!"exact", 16),
   (cs!"#i", some cs!"inexact", 10), (cs!"#e", some cs!"exact", 10),
   (cs!"#b", none, 2), (cs!"#o", none, 8), (cs!"#d", none, 10), (cs!"#x", none, 16)]

/-- first prefix that matches -/
def findPrefix (i : List Char) : Option (List Char × Option (List Char) × Nat) :=
  numPrefixes.findSome? fun p => (inputPrefixCi i p.1).map fun i => (i, p.2)

/-- The branches of `initial-reader` from 1.sf:627 to 1.sf:708, in order.  `none`: no branch applies;
`some none`: error; `some (some (d, i))`: `(return d i)`. -/
def lexical (i : List Char) : Option (Option (SX × List Char)) :=
  match i with
  | [] => some (some (datum cs!"eof" [], []))
  | c :: i' =>
    if isspace c then
      match i'.dropWhile isspace with
      | [] => some (some (datum cs!"eof" [], []))
      | i => some (some (datum cs!"atmosphere" [], i))
    else if c = ';' then
      match lineComment i' with
      | none => some (some (datum cs!"eof" [], []))
      | some i => some (some (datum cs!"atmosphere" [], i))
    else if charInitial c then
      some (some (charsDatum cs!"symbol" ((c :: i'.takeWhile charSubsequent).map Char.toNat),
        i'.dropWhile charSubsequent))
    else
    match inputPrefixCi i cs!"->" with
    | some i =>
      some (some (charsDatum cs!"symbol" (('-' :: '>' :: i.takeWhile charSubsequent).map Char.toNat),
        i.dropWhile charSubsequent))
    | none =>
    match inputDelimitedPrefix i cs!"." with
    | some i => some (some (datum cs!"terminator" [.chr '.'], i))
    | none =>
    match inputDelimitedPrefix i cs!"+" with
    | some i => some (some (datum cs!"symbol" [.str cs!"+"], i))
    | none =>
    match inputDelimitedPrefix i cs!"-" with
    | some i => some (some (datum cs!"symbol" [.str cs!"-"], i))
    | none =>
    match inputDelimitedPrefix i cs!"..." with
    | some i => some (some (datum cs!"symbol" [.str cs!"..."], i))
    | none =>
    match inputDelimitedPrefixCi i cs!"#t" with
    | some i => some (some (datum cs!"boolean" [.num 1], i))
    | none =>
    match inputDelimitedPrefixCi i cs!"#f" with
    | some i => some (some (datum cs!"boolean" [.num 0], i))
    | none =>
    match findPrefix i with
    | some (i, ex, radix) => some (readNumber i ex radix)
    | none =>
    if charNumberInitial c then some (readNumber i none 10)
    else
    match inputPrefix i cs!"#\\" with
    | some i => some (readChar i)
    | none =>
    if c = '"' then some (readString i)
    else
    match inputPrefix i cs!"#<<" with
    | some i => some ((hereTag i []).bind fun p => hereLines p.1 p.2 [] [])
    | none => none

end Verif.Reader
