import Verif.Stab.Model
import Verif.Num.Model
/-
LibL's S-expression writer and reader with datum labels: `write`, `write-shared`, `write-simple` (lib/libl.sf:3402-3414, 3656-3800)
and `read` (lib/libl.sf:3873-4221).

The writer works on the heaps of `Verif.Stab` (words and blocks).  The kind of a word that is not a heap pointer is given by an
encoding `Enc`; pairs, vectors and boxes are blocks whose word 0 is the respective tag.  Flonums, records, procedures, ports, void
and the end-of-file object are not modelled: the writer stops on them (`none`).

The reader makes new objects in a list of cells, whose indices are the addresses.  A port is the list of the characters still to be
read.  `none` is an error signalled by the reader, or that the fuel is used up.
-/
namespace Verif.Labels
open Verif.Equal (Obj Heap Node)
open Verif.Stab (Tab newTab probe stabcircular stabshared stabend)

/-- data that are not heap objects -/
inductive Imm where
  | bool (b : Bool)
  | fix (n : Int)
  | chr (c : Char)
  | sym (s : List Char)
  | null
  deriving DecidableEq

/-! ## the writer -/

/-- how words encode data -/
structure Enc where
  /-- meaning of words that are not heap pointers; `none`: kinds that are not modelled -/
  imm : Obj → Option Imm
  /-- obj_from_size(PAIR_BTAG) (lib/libl.sf:2005) -/
  pairTag : Obj
  /-- obj_from_size(VECTOR_BTAG) (lib/libl.sf:1747) -/
  vecTag : Obj
  /-- obj_from_size(BOX_BTAG) (lib/libl.sf:1954) -/
  boxTag : Obj

/-- an object as the tests of wrdatum see it (lib/libl.sf:3680-3778: is_bool_obj, .., ispair, isstring, isvector, isbytevector,
isbox) -/
inductive View where
  | imm (i : Imm)
  | str (s : List Char)
  | bytes (b : List Nat)
  | pair (a d : Obj)
  | vec (ws : List Obj)
  | box (a : Obj)
  | other

variable {F : Type} [DecidableEq F]

/-- the kind of an object -/
def view (E : Enc) (H : Heap F) (o : Obj) : View :=
  match H o with
  | none => match E.imm o with | some i => .imm i | none => .other
  | some (.str s) => .str s
  | some (.bytes b) => .bytes b
  | some (.blk (t :: ws)) =>
    if t = E.pairTag then match ws with | [a, d] => .pair a d | _ => .other
    else if t = E.vecTag then .vec ws
    else if t = E.boxTag then match ws with | [a] => .box a | _ => .other
    else .other
  | _ => .other

/-- p->r and p->c of the table while writing (lib/libl.sf:3318) -/
structure Nums where
  /-- p->r, by slot: 0 = no number yet, n = number n, -n = number n, already written -/
  r : Nat → Int
  /-- p->c -/
  c : Nat

/-- stabri (lib/libl.sf:3402-3406) -/
def stabri (i : Nat) (s : Nums) (upd : Bool) : Int × Nums :=
  let s := if s.r i = 0 then (⟨Stab.setr s.r i (s.c + 1), s.c + 1⟩ : Nums) else s
  let ri := s.r i
  (ri, if upd && decide (ri > 0) then { s with r := Stab.setr s.r i (-ri) } else s)

/-- stabref (lib/libl.sf:3407-3414) -/
def stabref (H : Heap F) (T : Option Tab) (o : Obj) (upd : Bool) (s : Nums) : Option (Int × Nums) :=
  match T with
  | none => some (0, s)
  | some t =>
    if H o = none then some (0, s) else do
      let (hit, i) ← probe t.v t.sz o t.sz (o % t.sz)
      if hit && t.v i % 2 == 1 then some (stabri i s upd) else some (0, s)

/-- isdigit -/
def isdigit (c : Char) : Bool := decide ('0' ≤ c) && decide (c ≤ '9')
/-- isalpha ("C" locale) -/
def isalpha (c : Char) : Bool := (decide ('a' ≤ c) && decide (c ≤ 'z')) || (decide ('A' ≤ c) && decide (c ≤ 'Z'))

/-- sprintf "%ld" for non-negative numbers -/
def decNat (n : Nat) : List Char := if n < 10 then [Num.dig n] else decNat (n / 10) ++ [Num.dig (n % 10)]
/-- sprintf "%ld" -/
def dec (n : Int) : List Char := if n < 0 then '-' :: decNat n.natAbs else decNat n.natAbs

/-- characters of a C string: up to the first NUL -/
def cstr (s : List Char) : List Char := s.takeWhile (· ≠ '\x00')

/-- `inits` (lib/libl.sf:3664) -/
def inits : List Char := "abcdefghijklmnopqrstuvwxyzABCDEFGHIJKLMNOPQRSTUVWXYZ!$%&*/:<=>?@^_~".toList
/-- `subss` (lib/libl.sf:3665) -/
def subss : List Char := "abcdefghijklmnopqrstuvwxyzABCDEFGHIJKLMNOPQRSTUVWXYZ!$%&*/:<=>?@^_~0123456789.@+-".toList

/-- cleansymname (lib/libl.sf:3663-3670) -/
def cleansymname (s : List Char) : Bool :=
  match s with
  | [] => false
  | c :: r =>
    if !s.all (subss.contains ·) then false
    else if inits.contains c then true
    else if c = '+' ∨ c = '-' then
      match r with
      | [] => true
      | c1 :: r1 => (decide (c1 = '.') && match r1 with | [] => false | c2 :: _ => !isdigit c2) || !isdigit c1
    else decide (c = '.') && match r with | [] => false | c1 :: _ => !isdigit c1

/-- the two loops with `switch(c)` that escape one delimiter and the backslash (lib/libl.sf:3704-3711, 3735-3742) -/
def esc (q : Char) : List Char → List Char
  | [] => []
  | c :: s => if c = q ∨ c = '\\' then '\\' :: c :: esc q s else c :: esc q s

/-- names of characters (lib/libl.sf:3718-3729) -/
def charText (c : Char) : List Char :=
  if c.toNat = 0 then "#\\null".toList
  else if c.toNat = 0x07 then "#\\alarm".toList
  else if c.toNat = 0x08 then "#\\backspace".toList
  else if c.toNat = 0x7f then "#\\delete".toList
  else if c.toNat = 0x1b then "#\\escape".toList
  else if c = '\t' then "#\\tab".toList
  else if c = '\n' then "#\\newline".toList
  else if c = '\r' then "#\\return".toList
  else if c = ' ' then "#\\space".toList
  else ['#', '\\', c]

/-- text of immediate data (lib/libl.sf:3680-3714, 3715-3730) -/
def immText : Imm → List Char
  | .bool b => if b then "#t".toList else "#f".toList
  | .fix n => dec n
  | .chr c => charText c
  | .sym s => if cleansymname s then s else '|' :: esc '|' s ++ ['|']
  | .null => "()".toList

/-- `for (i = 0; i < n; ++i) { if (i) wrc(' ', e); wr..; }` -/
def spaced : List (List Char) → List Char
  | [] => []
  | [x] => x
  | x :: y :: r => x ++ ' ' :: spaced (y :: r)

/-- the loop over the components of a vector (lib/libl.sf:3747-3749) -/
def wrAll (f : Obj → Nums → Option (List Char × Nums)) : List Obj → Nums → Option (List (List Char) × Nums)
  | [], s => some ([], s)
  | o :: os, s => do
    let (x, s) ← f o s
    let (xs, s) ← wrAll f os s
    some (x :: xs, s)

mutual
/-- wrdatum (lib/libl.sf:3675-3779) with e->disp = 0 -/
def wrdatum (E : Enc) (H : Heap F) (T : Option Tab) : Nat → Obj → Nums → Option (List Char × Nums)
  | 0, _, _ => none
  | n + 1, o, s => do
    let (ref, s) ← stabref H T o true s
    if ref < 0 then some ('#' :: dec (-ref - 1) ++ ['#'], s) else do
      let pre := if ref > 0 then '#' :: dec (ref - 1) ++ ['='] else []
      match view E H o with
      | .imm i => some (pre ++ immText i, s)
      | .str x => some (pre ++ '"' :: esc '"' (cstr x) ++ ['"'], s)
      | .bytes b => some (pre ++ "#u8(".toList ++ spaced (b.map fun k : Nat => dec k) ++ [')'], s)
      | .pair a d => do
        let (x, s) ← wrdatum E H T n a s
        let (y, s) ← wrtail E H T n d s
        some (pre ++ '(' :: x ++ y ++ [')'], s)
      | .vec ws => do
        let (xs, s) ← wrAll (wrdatum E H T n) ws s
        some (pre ++ "#(".toList ++ spaced xs ++ [')'], s)
      | .box a => do
        let (x, s) ← wrdatum E H T n a s
        some (pre ++ "#&".toList ++ x, s)
      | .other => none
/-- the loop along the cdrs of a pair (lib/libl.sf:3712-3713); `d` is `cdr(o)` -/
def wrtail (E : Enc) (H : Heap F) (T : Option Tab) : Nat → Obj → Nums → Option (List Char × Nums)
  | 0, _, _ => none
  | n + 1, d, s =>
    match view E H d with
    | .pair a d' => do
      let (ref, s) ← stabref H T d false s
      if ref = 0 then do
        let (x, s) ← wrdatum E H T n a s
        let (y, s) ← wrtail E H T n d' s
        some (' ' :: x ++ y, s)
      else do
        let (x, s) ← wrdatum E H T n d s
        some (" . ".toList ++ x, s)
    | .imm .null => some ([], s)
    | _ => do
      let (x, s) ← wrdatum E H T n d s
      some (" . ".toList ++ x, s)
end

/-- table of numbers before writing -/
def noNums : Nums := ⟨fun _ => 0, 0⟩

/-- oportputsimple (lib/libl.sf:3785-3788) -/
def oportputsimple (E : Enc) (H : Heap F) (n : Nat) (x : Obj) : Option (List Char) :=
  (wrdatum E H none n x noNums).map Prod.fst

/-- oportputcircular (lib/libl.sf:3789-3794), used by `write` -/
def oportputcircular (E : Enc) (H : Heap F) (n : Nat) (x : Obj) : Option (List Char) := do
  let s ← stabcircular H n x ⟨newTab, []⟩
  let T ← stabend s.t
  (wrdatum E H T n x noNums).map Prod.fst

/-- oportputshared (lib/libl.sf:3795-3800), used by `write-shared` -/
def oportputshared (E : Enc) (H : Heap F) (n : Nat) (x : Obj) : Option (List Char) := do
  let t ← stabshared H n x newTab
  let T ← stabend t
  (wrdatum E H T n x noNums).map Prod.fst

/-! ## the reader -/

/-- values of the reader; flonums are given by their text -/
inductive V where
  | imm (i : Imm)
  | flo (s : List Char)
  | ptr (a : Nat)
  /-- the procedure made by make-shared-ref for label `n` (lib/libl.sf:3881) -/
  | proc (n : Int)
  /-- the value of a `cond` without a matching clause -/
  | void
  deriving DecidableEq

/-- objects made by the reader -/
inductive Cell where
  | str (s : List Char)
  | bytes (b : List Nat)
  | pair (a d : V)
  | vec (vs : List V)
  | box (v : V)
  deriving DecidableEq

/-- what sub-read returns: a datum or a reader token (lib/libl.sf:3903-3913) or the end-of-file object -/
inductive Tok where
  | val (v : V)
  | closeParen
  | closeBracket
  | dot
  | eof
  deriving DecidableEq

/-- port, objects made so far, and `shared`: labels with the contents of their boxes (lib/libl.sf:3880) -/
structure St where
  inp : List Char
  heap : List Cell
  shared : List (Int × V)

/-- make an object -/
def St.alloc (s : St) (c : Cell) : V × St := (.ptr s.heap.length, { s with heap := s.heap ++ [c] })

/-- `(cons a .. (cons z d))`, from the right -/
def St.consAll (s : St) : List V → V → V × St
  | [], d => (d, s)
  | a :: as, d => let r := s.consAll as d; r.2.alloc (.pair a r.1)

/-- char-symbolic? (lib/libl.sf:3917-3919); strchr also finds the terminating NUL -/
def symbolic (c : Char) : Bool :=
  ("ABCDEFGHIJKLMNOPQRSTUVWXYZabcdefghijklmnopqrstuvwxyz!$%&*/:<=>?^_~0123456789+-.@".toList).contains c || decide (c = '\x00')

/-- char-hex-digit? (lib/libl.sf:3921-3925) -/
def hexDigit (c : Char) : Bool :=
  (decide (48 ≤ c.toNat) && decide (c.toNat ≤ 57)) || (decide (65 ≤ c.toNat) && decide (c.toNat ≤ 70)) ||
    (decide (97 ≤ c.toNat) && decide (c.toNat ≤ 102))

/-- char-delimiter? (lib/libl.sf:3927-3931) -/
def delim (c : Char) : Bool :=
  Num.isspace c || c = ')' || c = '(' || c = ']' || c = '[' || c = '"' || c = ';'

/-- `(char-ci=? c x)` for a lower-case letter x -/
def ci (c x : Char) : Bool := c.toLower = x

/-- strtod on a whole string: is it accepted, and its exact value if that is a fixnum -/
structure Flo where
  ok : List Char → Bool
  exact : List Char → Option Int

/-- the prefixes of strtofxfl (lib/libl.sf:657-667): rest, radix, conversion -/
def numPrefix : List Char → Nat → Option Char → Option (List Char × Nat × Option Char)
  | '#' :: c :: s, radix, conv =>
    if ci c 'b' then numPrefix s 2 conv
    else if ci c 'o' then numPrefix s 8 conv
    else if ci c 'd' then numPrefix s 10 conv
    else if ci c 'x' then numPrefix s 16 conv
    else if ci c 'e' then numPrefix s radix (some 'e')
    else if ci c 'i' then numPrefix s radix (some 'i')
    else none
  | '#' :: [], _, _ => none
  | s, radix, conv => some (s, radix, conv)

/-- the label `fl:` of strtofxfl (lib/libl.sf:677-686) -/
def strtofl (fl : Flo) (s : List Char) (radix : Nat) (conv : Option Char) : Option V :=
  if radix ≠ 10 then none else
  let special := match s with
    | c :: r => (c = '+' || c = '-') && (r.map Char.toLower = "inf.0".toList || r.map Char.toLower = "nan.0".toList)
    | [] => false
  if !special && !fl.ok s then none else
  if conv = some 'e' then (if special then none else (fl.exact s).map fun n => .imm (.fix n))
  else some (.flo s)

/-- strtofxfl and string->fixnum-or-flonum (lib/libl.sf:653-687, 2427-2436) -/
def stringToNumber (fl : Flo) (s : List Char) : Option V := do
  let (s, radix, conv) ← numPrefix s 10 none
  if (match s with | c :: _ => Num.isspace c | [] => false) then none else
  if !s.any (".eEiInN".toList.contains ·) || radix ≠ 10 then
    match Num.strtol s radix with
    | (some l, []) =>
      if s = [] then (if conv = some 'i' then strtofl fl s radix conv else none)
      else if conv = some 'i' then some (.flo s)
      else if -536870912 ≤ l ∧ l ≤ 536870911 then some (.imm (.fix l)) else none
    | _ => if conv = some 'i' then strtofl fl s radix conv else none
  else strtofl fl s radix conv

/-- suspect-number-or-symbol-peculiar? (lib/libl.sf:4170-4179) -/
def peculiar (hash : Bool) (l : List Char) : Bool :=
  match l with
  | [] => false
  | c :: r =>
    let s := l.map Char.toLower
    if hash || isdigit c then false
    else if s = "+i".toList || s = "-i".toList then false
    else if s = "+nan.0".toList || s = "-nan.0".toList then false
    else if s = "+inf.0".toList || s = "-inf.0".toList then false
    else if c = '+' || c = '-' then
      match r with
      | [] => true
      | c1 :: r1 => if c1 = '.' then (match r1 with | [] => false | c2 :: _ => !isdigit c2) else !isdigit c1
    else decide (c = '.') && match r with | [] => false | c1 :: _ => !isdigit c1

/-- the loop of sub-read-number-or-symbol (lib/libl.sf:4181-4203): the characters read (reversed), whether `#` is among them,
the rest -/
def scan : List Char → List Char → Bool → Option (List Char × Bool × List Char)
  | [], l, hash => some (l, hash, [])
  | c :: r, l, hash =>
    if delim c then some (l, hash, c :: r)
    else if c = '#' then scan r (c :: l) true
    else if symbolic c then scan r (c :: l) hash
    else none

/-- sub-read-number-or-symbol (lib/libl.sf:4181-4203) -/
def numberOrSymbol (fl : Flo) (c : Char) (inp : List Char) : Option (Tok × List Char) := do
  let (l, hash, rest) ← scan inp [c] (c = '#')
  let s := l.reverse
  if hash || isdigit c || c = '+' || c = '-' || c = '.' then
    if s = ['.'] then some (.dot, rest)
    else if peculiar hash s then some (.val (.imm (.sym s)), rest)
    else (stringToNumber fl s).map fun v => (.val v, rest)
  else some (.val (.imm (.sym s)), rest)

/-- rev-digits->char (lib/libl.sf:4141-4144) -/
def digitsChar (l : List Char) : Option Char :=
  if l = [] then none else some (Char.ofNat (Num.strtolDigits 16 l.reverse 0).1)

/-- sub-read-x-char-escape (lib/libl.sf:4140-4168) -/
def xEscape (inString : Bool) : List Char → List Char → Nat → Option (Char × List Char)
  | [], l, _ => if inString then none else (digitsChar l).map fun c => (c, [])
  | c :: r, l, cc =>
    if inString && c = ';' then (digitsChar l).map fun d => (d, r)
    else if !inString && delim c then (digitsChar l).map fun d => (d, c :: r)
    else if !hexDigit c then none
    else if cc > 2 then none
    else xEscape inString r (c :: l) (cc + 1)

/-- the loop for line ends in strings (lib/libl.sf:4133-4137) -/
def lineEnd : List Char → Bool → Option (List Char)
  | [], gotnl => if gotnl then some [] else none
  | nc :: r, gotnl =>
    if !Num.isspace nc then (if gotnl then some (nc :: r) else none)
    else if gotnl && nc = '\n' then some (nc :: r)
    else lineEnd r (gotnl || nc = '\n')

/-- sub-read-strsym-char-escape (lib/libl.sf:4118-4138) -/
def escape (isString : Bool) : List Char → Option (Option Char × List Char)
  | [] => none
  | c :: r =>
    if c = '\\' || c = '"' || c = '|' then some (some c, r)
    else if c = 'a' then some (some '\x07', r)
    else if c = 'b' then some (some '\x08', r)
    else if c = 't' then some (some '\t', r)
    else if c = 'n' then some (some '\n', r)
    else if c = 'v' then some (some '\x0b', r)
    else if c = 'f' then some (some '\x0c', r)
    else if c = 'r' then some (some '\r', r)
    else if c = 'x' then (xEscape true r [] 0).map fun p => (some p.1, p.2)
    else if isString && Num.isspace c then (lineEnd r (c = '\n')).map fun r => (none, r)
    else none

/-- the loops for strings and |symbols| (lib/libl.sf:3968-3987); `q` is the terminator, `l` the characters so far (reversed) -/
def quoted (q : Char) : Nat → List Char → List Char → Option (List Char × List Char)
  | 0, _, _ => none
  | _, [], _ => none
  | n + 1, c :: r, l =>
    if c = '\\' then
      match escape (q = '"') r with
      | some (some e, r) => quoted q n r (e :: l)
      | some (none, r) => quoted q n r l
      | none => none
    else if c = q then some (l.reverse, r)
    else quoted q n r (c :: l)

/-- the loop for block comments (lib/libl.sf:4007-4026) -/
def blockComment : Nat → List Char → Option (List Char)
  | 0, _ => none
  | _, [] => none
  | n + 1, c :: r =>
    if c = '|' then
      match r with
      | [] => none
      | c1 :: r1 => if c1 = '#' then some r1 else blockComment n r
    else if c = '#' then
      match r with
      | [] => none
      | c1 :: r1 => if c1 = '|' then (do let r ← blockComment n r1; blockComment n r) else blockComment n r
    else blockComment n r

/-- names of characters (lib/libl.sf:4048-4061) -/
def charName (s : List Char) : Option Char :=
  if s = "null".toList then some '\x00'
  else if s = "space".toList then some ' '
  else if s = "alarm".toList then some '\x07'
  else if s = "backspace".toList then some '\x08'
  else if s = "delete".toList then some '\x7f'
  else if s = "escape".toList then some '\x1b'
  else if s = "tab".toList then some '\t'
  else if s = "newline".toList ∨ s = "linefeed".toList then some '\n'
  else if s = "vtab".toList then some '\x0b'
  else if s = "page".toList then some '\x0c'
  else if s = "return".toList then some '\r'
  else none

/-- the digits of a label (lib/libl.sf:4065-4069): digits, terminator, rest -/
def labelDigits : List Char → List Char → Option (List Char × Char × List Char)
  | [], _ => none
  | c :: r, l => if isdigit c then labelDigits r (c :: l) else some (l.reverse, c, r)

/-- assq -/
def assq (n : Int) : List (Int × V) → Option V
  | [] => none
  | (m, v) :: l => if m = n then some v else assq n l

/-- `(set-box! loc form)` for the box of label `n` -/
def setLoc (n : Int) (v : V) : List (Int × V) → List (Int × V)
  | [] => []
  | (m, w) :: l => if m = n then (m, v) :: l else (m, w) :: setLoc n v l

/-- sub-read-carefully (lib/libl.sf:3933-3939), given the result of sub-read -/
def careful : Option (Tok × St) → Option (V × St)
  | some (.val v, s) => some (v, s)
  | _ => none

/-- `(list 'name form)` -/
def listName (name : String) (r : Option (V × St)) : Option (Tok × St) :=
  r.map fun p => let q := p.2.consAll [.imm (.sym name.toList), p.1] (.imm .null); (.val q.1, q.2)

/-- list->vector, list->bytevector and `list` build their result at once; the list cells in between are not modelled -/
def bytesOf : List V → Option (List Nat)
  | [] => some []
  | .imm (.fix n) :: vs => if n < 0 ∨ n > 255 then none else (bytesOf vs).map (n.toNat :: ·)
  | _ => none

mutual
/-- sub-read (lib/libl.sf:3941-4091).  `simple` is the mode of read-simple. -/
def subRead (fl : Flo) (simple : Bool) : Nat → St → Option (Tok × St)
  | 0, _ => none
  | n + 1, s =>
    match s.inp with
    | [] => some (.eof, s)
    | c :: r =>
      let s := { s with inp := r }
      if Num.isspace c then subRead fl simple n s
      else if c = '(' then (subReadList fl simple n .closeParen true true s).map fun p =>
        let q := p.2.2.consAll p.1 p.2.1; (.val q.1, q.2)
      else if c = ')' then some (.closeParen, s)
      else if c = '[' then (subReadList fl simple n .closeBracket true true s).map fun p =>
        let q := p.2.2.consAll p.1 p.2.1; (.val q.1, q.2)
      else if c = ']' then some (.closeBracket, s)
      else if c = '\'' then listName "quote" (careful (subRead fl simple n s))
      else if c = '`' then listName "quasiquote" (careful (subRead fl simple n s))
      else if symbolic c then (numberOrSymbol fl c r).map fun p => (p.1, { s with inp := p.2 })
      else if c = ';' then subRead fl simple n { s with inp := (r.dropWhile (· ≠ '\n')).drop 1 }
      else if c = ',' then
        match r with
        | [] => none
        | '@' :: r => listName "unquote-splicing" (careful (subRead fl simple n { s with inp := r }))
        | _ => listName "unquote" (careful (subRead fl simple n s))
      else if c = '"' then (quoted '"' (r.length + 1) r []).map fun p =>
        let q := ({ s with inp := p.2 } : St).alloc (.str p.1); (.val q.1, q.2)
      else if c = '|' then (quoted '|' (r.length + 1) r []).map fun p => (.val (.imm (.sym p.1)), { s with inp := p.2 })
      else if c = '#' then subReadHash fl simple n s
      else none
/-- the characters after `#` (lib/libl.sf:3988-4090) -/
def subReadHash (fl : Flo) (simple : Bool) : Nat → St → Option (Tok × St)
  | 0, _ => none
  | n + 1, s =>
    match s.inp with
    | [] => none
    | c :: r =>
      let s' := { s with inp := r }
      if ci c 't' || ci c 'f' then
        match careful (subRead fl simple n s) with
        | some (.imm (.sym x), s) =>
          if x = "t".toList ∨ x = "true".toList then some (.val (.imm (.bool true)), s)
          else if x = "f".toList ∨ x = "false".toList then some (.val (.imm (.bool false)), s)
          else none
        | _ => none
      else if ci c 'b' || ci c 'o' || ci c 'd' || ci c 'x' || ci c 'i' || ci c 'e' then
        (numberOrSymbol fl '#' s.inp).map fun p => (p.1, { s with inp := p.2 })
      else if c = '&' then
        (careful (subRead fl simple n s')).map fun p => let q := p.2.alloc (.box p.1); (.val q.1, q.2)
      else if c = ';' then do
        let (_, s) ← careful (subRead fl simple n s')
        subRead fl simple n s
      else if c = '|' then do
        let r ← blockComment (r.length + 1) r
        subRead fl simple n { s with inp := r }
      else if c = '(' then
        (subReadList fl simple n .closeParen false true s').map fun p => let q := p.2.2.alloc (.vec p.1); (.val q.1, q.2)
      else if c = 'u' then
        match r with
        | '8' :: '(' :: r => do
          let (vs, _, s) ← subReadList fl simple n .closeParen false false { s with inp := r }
          let b ← bytesOf vs
          let q := s.alloc (.bytes b)
          some (.val q.1, q.2)
        | _ => none
      else if c = '\\' then
        match r with
        | [] => none
        | d :: r1 =>
          if d = 'x' then
            match r1 with
            | [] => none
            | e :: _ =>
              if delim e then some (.val (.imm (.chr d)), { s with inp := r1 })
              else (xEscape false r1 [] 0).map fun p => (.val (.imm (.chr p.1)), { s with inp := p.2 })
          else if isalpha d then
            match careful (subRead fl simple n s') with
            | some (.imm (.sym x), s) =>
              if x.length = 1 then some (.val (.imm (.chr d)), s)
              else (charName x).map fun c => (.val (.imm (.chr c)), s)
            | _ => none
          else some (.val (.imm (.chr d)), { s with inp := r1 })
      else if isdigit c then
        if simple then none else
        match labelDigits s.inp [] with
        | none => none
        | some (ds, t, r) =>
          if t = '#' then
            match stringToNumber fl ds with
            | some (.imm (.fix k)) => (assq k s.shared).map fun _ => (.val (.proc k), { s with inp := r })
            | _ => none
          else if t = '=' then
            match stringToNumber fl ds with
            | some (.imm (.fix k)) =>
              if (assq k s.shared).isSome then none else
              match careful (subRead fl simple n ⟨r, s.heap, (k, .imm (.bool false)) :: s.shared⟩) with
              | some (.proc _, _) => none
              | some (v, s) => some (.val v, { s with shared := setLoc k v s.shared })
              | none => none
            | _ => none
          else none
      else none
/-- sub-read-list (lib/libl.sf:4093-4107) and sub-read-byte-list (4109-4118): the elements and the tail.  `dots` is `dot?`;
`first` says that a dot is an error because nothing has been read yet (for byte lists it always is one). -/
def subReadList (fl : Flo) (simple : Bool) : Nat → Tok → Bool → Bool → St → Option (List V × V × St)
  | 0, _, _, _, _ => none
  | n + 1, close, dots, first, s =>
    match subRead fl simple n s with
    | none => none
    | some (tok, s) =>
      match tok with
      | .eof => none
      | .val v => (subReadList fl simple n close dots false s).map fun p => (v :: p.1, p.2)
      | .dot =>
        if first || !dots then none else
        match careful (subRead fl simple n s) with
        | none => none
        | some (v, s) =>
          match subRead fl simple n s with
          | some (t, s) => if t = close then some ([], v, s) else none
          | none => none
      | t => if t = close then some ([], .imm .null, s) else none
end

/-- patch-ref! (lib/libl.sf:3883) -/
def patchRef (sh : List (Int × V)) : Nat → V → Option V
  | 0, _ => none
  | n + 1, .proc k => match assq k sh with | some v => patchRef sh n v | none => none
  | _ + 1, v => some v

/-- a loop over the components of an object: `get` and `set` access the current contents of the object -/
def patchIx (sh : List (Int × V)) (n : Nat) (patch : V → List Cell → Option (List Cell)) (get : Cell → Option V)
    (set : Cell → V → Cell) (a : Nat) (h : List Cell) : Option (List Cell) :=
  match h[a]? with
  | none => none
  | some c =>
    match get c with
    | none => some h
    | some (.proc k) => (patchRef sh n (.proc k)).map fun v => h.set a (set c v)
    | some v => patch v h

/-- car and cdr of a cell, components of a vector -/
def Cell.car : Cell → Option V | .pair a _ => some a | _ => none
def Cell.cdr : Cell → Option V | .pair _ d => some d | _ => none
def Cell.ref (i : Nat) : Cell → Option V | .vec vs => vs[i]? | _ => none
/-- set-car!, set-cdr!, vector-set! -/
def Cell.setCar : Cell → V → Cell | .pair _ d, v => .pair v d | c, _ => c
def Cell.setCdr : Cell → V → Cell | .pair a _, v => .pair a v | c, _ => c
def Cell.setRef (i : Nat) : Cell → V → Cell | .vec vs, v => .vec (vs.set i v) | c, _ => c

/-- patch-shared! (lib/libl.sf:3884-3906).  In the clause for boxes the reference is replaced by the value of
`(patch-shared! (unbox form))`, which is that of a `cond` without a matching clause. -/
def patchShared (sh : List (Int × V)) : Nat → V → List Cell → Option (List Cell)
  | 0, _, _ => none
  | n + 1, v, h =>
    match v with
    | .ptr a =>
      match h[a]? with
      | some (.pair _ _) => do
        let h ← patchIx sh n (patchShared sh n) Cell.car Cell.setCar a h
        patchIx sh n (patchShared sh n) Cell.cdr Cell.setCdr a h
      | some (.vec vs) => (List.range vs.length).foldlM (fun h i => patchIx sh n (patchShared sh n) (Cell.ref i) (Cell.setRef i) a h) h
      | some (.box (.proc _)) => some (h.set a (.box .void))
      | some (.box w) => patchShared sh n w h
      | some _ => some h
      | none => none
    | _ => some h

/-- the body of %read (lib/libl.sf:4205-4210) -/
def read (fl : Flo) (simple : Bool) (n : Nat) (inp : List Char) : Option (Tok × List Cell × List Char) := do
  let (t, s) ← subRead fl simple n ⟨inp, [], []⟩
  match t with
  | .val v =>
    if s.shared = [] then some (t, s.heap, s.inp)
    else (patchShared s.shared n v s.heap).map fun h => (t, h, s.inp)
  | .eof => some (t, s.heap, s.inp)
  | _ => none

end Verif.Labels
