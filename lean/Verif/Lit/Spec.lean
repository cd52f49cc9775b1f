import Verif.Lit.Model
/-
What emitted text means in C (ISO C99).  Independent of the compiler model.
-/
namespace Verif.Lit.Spec

/-- The third character of a trigraph and its replacement, C99 5.2.1.1. -/
def trigraph : Char → Option Char
  | '=' => some '#' | '(' => some '[' | '/' => some '\\' | ')' => some ']' | '\'' => some '^'
  | '<' => some '{' | '!' => some '|' | '>' => some '}' | '-' => some '~' | _ => none

/-- Translation phase 1: trigraph replacement, left to right. -/
def phase1 : List Char → List Char
  | '?' :: '?' :: c :: r =>
    match trigraph c with
    | some d => d :: phase1 r
    | none => '?' :: phase1 ('?' :: c :: r)
  | c :: r => c :: phase1 r
  | [] => []
termination_by l => l.length

/-- Simple escape sequences, C99 6.4.4.4 (octal, hexadecimal and universal escapes are not needed and
rejected). -/
def escape : Char → Option Nat
  | 'n' => some 10 | 't' => some 9 | 'r' => some 13 | 'a' => some 7 | 'b' => some 8 | 'f' => some 12
  | 'v' => some 11 | '\\' => some 92 | '"' => some 34 | '\'' => some 39 | '?' => some 63 | _ => none

/-- The inside of a character or string literal with closing quote `q`: values and what follows. -/
def lexLit (q : Char) : List Char → Option (List Nat × List Char)
  | [] => none
  | c :: r =>
    if c = q then some ([], r)
    else if c = '\n' then none
    else if c = '\\' then
      match r with
      | [] => none
      | e :: r =>
        match escape e, lexLit q r with
        | some v, some (vs, rest) => some (v :: vs, rest)
        | _, _ => none
    else
      match lexLit q r with
      | some (vs, rest) => some (c.toNat :: vs, rest)
      | none => none

/-- digit value. -/
def digit (c : Char) : Option Nat :=
  if 48 ≤ c.toNat ∧ c.toNat ≤ 57 then some (c.toNat - 48) else none

/-- value of a digit string in a base, `none` if a character is not a digit of the base. -/
def value (base : Nat) : List Char → Nat → Option Nat
  | [], acc => some acc
  | c :: cs, acc =>
    match digit c with
    | some d => if d < base then value base cs (acc * base + d) else none
    | none => none

/-- An unsuffixed C integer constant (C99 6.4.4.1): decimal, or octal if it starts with `0`. -/
def intConst : List Char → Option Nat
  | [] => none
  | '0' :: cs => value 8 cs 0
  | cs => value 10 cs 0

/-- `n, n, … n }`: the elements of an initializer list and what follows the closing brace; each element
is an integer constant surrounded by spaces.  `tok` is the token being read. -/
def initList : List Char → List Char → Option (List Nat × List Char)
  | [], _ => none
  | c :: r, tok =>
    if c = ' ' then
      if tok = [] ∨ r.head? ∈ [some ' ', some ',', some '}'] then initList r tok else none
    else if c = ',' then
      match intConst tok.reverse, initList r [] with
      | some v, some (vs, rest) => some (v :: vs, rest)
      | _, _ => none
    else if c = '}' then
      match intConst tok.reverse with
      | some v => some ([v], r)
      | none => none
    else initList r (c :: tok)

/-- The C string held by a `char` array whose initializers are `vs`: bytes up to the first NUL. -/
def cString (vs : List Nat) : List Nat := (vs.map (· % 256)).takeWhile (· ≠ 0)

/-- remove a prefix. -/
def strip : List Char → List Char → Option (List Char)
  | [], s => some s
  | p :: ps, c :: cs => if p = c then strip ps cs else none
  | _ :: _, [] => none

/-- The C string passed to the function called in `text`, where the text is either
`pre"…"post` — the argument is the literal — or `decl { n, …, n };dest…` — the argument is the array
declared at the start. -/
def argument (pre post decl dest : List Char) (text : List Char) : Option (List Nat) :=
  let t := phase1 text
  match strip (pre ++ ['"']) t with
  | some r =>
    match lexLit '"' r with
    | some (vs, rest) => if rest = post then some (cString (vs ++ [0])) else none
    | none => none
  | none =>
    match strip (decl ++ ['{']) t with
    | some r =>
      match initList r [] with
      | some (vs, rest) => if rest = dest then some (cString vs) else none
      | none => none
    | none => none

/-- The contents of the Scheme string created by a string constant's text: `newstring` copies the C
string it is given (`strlen`, `strcpy`, /repo/0.sf:918-922).  `live` is the live-register text, `ret` the
text of the destination including the cast. -/
def stringDenotes (live ret text : List Char) : Option (List Nat) :=
  argument ("obj(hpushstr(".toList ++ live ++ ", newstring(".toList) ")))".toList
    "{ static char s[] = ".toList
    (";\n    ".toList ++ ret ++ "hpushstr(".toList ++ live ++ ", newstring(s))); }".toList) text

/-- The name of the symbol created by a symbol constant's text: `internsym` takes a C string. -/
def symbolDenotes (ret text : List Char) : Option (List Nat) :=
  argument "obj(mksymbol(internsym(".toList ")))".toList
    "{ static obj o = 0; static char s[] = ".toList
    (";\n    ".toList ++ ret ++ "o ? o : (o = mksymbol(internsym(s)))); }".toList) text

/-- The value of a character constant's text: `char('c')` or `char(n)`. -/
def charDenotes (text : List Char) : Option Nat :=
  match strip "char(".toList (phase1 text) with
  | none => none
  | some ('\'' :: r) =>
    match lexLit '\'' r with
    | some ([v], rest) => if rest = ")".toList then some v else none
    | _ => none
  | some r =>
    match r.reverse with
    | ')' :: t => intConst t.reverse
    | _ => none

/-- The text contains a trigraph. -/
def HasTrigraph (s : List Char) : Prop :=
  ∃ a b c, s = a ++ '?' :: '?' :: c :: b ∧ (trigraph c).isSome

/-- a character that survives in a C source file whatever the encoding: printable ASCII or newline. -/
abbrev PlainC (c : Char) : Prop := c = '\n' ∨ (32 ≤ c.toNat ∧ c.toNat ≤ 126)

end Verif.Lit.Spec
