import Verif.Num.Model
/-
Emission of character, string and symbol constants into C source text.
Modelled: /repo/2.sf:100-105 (unsigned-representation-width), 114-123 (char-safe?, fold-max), 143-166
(decompose-literal for characters, strings and symbols); /repo/0.sf:823-828, 973-981, 1491-1500 (the %const
templates); /repo/3.sf:575-618 (string-forest-length, string-forest->string); /repo/6.sf:153-239 (c-format-prim-text*,
the directives $live, $return and $$).

Program text is a list of characters.
-/
namespace Verif.Lit

/-- `char-safe?`, /repo/2.sf:114-117. -/
def charSafe (c : Char) : Bool :=
  c.toNat ≤ 126 && 32 ≤ c.toNat && c != '\\' && c != '"' && c != '\'' && c != '$'

/-- `unsigned-representation-width`, /repo/2.sf:100-105 (the argument is a character code, never negative;
the loop over 8, 16, 24 is unrolled). -/
def width (n : Nat) : Option Nat :=
  if n ≤ 255 then some 8 else if n ≤ 65535 then some 16 else if n ≤ 16777215 then some 24 else none

/-- `fold-max`, /repo/2.sf:119-123 (`none` is `#f`). -/
def foldMax (base : Option Nat) : List (Option Nat) → Option Nat
  | [] => base
  | next :: rest =>
    foldMax (match base, next with | some b, some n => some (max b n) | _, _ => none) rest

/-- `number->string` in radix 10, /repo/0.sf:1514-1525. -/
def num (n : Nat) : Option (List Char) := Num.fixnumToString n 10

/-- `(map number->string l)`. -/
def numAll : List Nat → Option (List (List Char))
  | [] => some []
  | n :: ns =>
    match num n, numAll ns with
    | some t, some ts => some (t :: ts)
    | _, _ => none

/-- What `decompose-literal` leaves after `%const string` / `%const symbol` / `%const char`:
either the text itself, or a width and the decimal codes. -/
inductive Const where
  | text (s : List Char)
  | codes (w : Option Nat) (ns : List (List Char))
deriving DecidableEq, Repr

/-- `decompose-literal` on a string, /repo/2.sf:150-156, or a symbol (via its name), 157-163. -/
def decompose (x : List Char) : Option Const :=
  let l := x.map Char.toNat
  if x.all charSafe then some (.text x)
  else match numAll l with
    | some ns => some (.codes (foldMax (some 8) (l.map width)) ns)
    | none => none

/-- `decompose-literal` on a character, /repo/2.sf:143-149. -/
def decomposeChar (c : Char) : Option Const :=
  if charSafe c then some (.text [c])
  else match num c.toNat with
    | some n => some (.codes (width c.toNat) [n])
    | none => none

/-- Trees of text, as consumed by `string-forest->string`: strings, (), pairs and vectors. -/
inductive Forest where
  | str (s : List Char)
  | nil
  | pair (a d : Forest)
  | vec (xs : List Forest)

mutual
/-- `string-forest-length`, /repo/3.sf:583-595. -/
def Forest.len : Forest → Nat
  | .str s => s.length
  | .nil => 0
  | .pair a d => a.len + d.len
  | .vec xs => Forest.lenAll xs
/-- its loop over a vector. -/
def Forest.lenAll : List Forest → Nat
  | [] => 0
  | x :: xs => x.len + Forest.lenAll xs
end

/-- `(string-set! str k c)`; writing outside the string is an error. -/
def setAt (buf : List Char) (k : Nat) (c : Char) : Option (List Char) :=
  if k < buf.length then some (buf.set k c) else none

/-- the copying loop for a string, /repo/3.sf:602-607: returns the string being filled and the end
position. -/
def copyStr : List Char → Nat → List Char → Option (List Char × Nat)
  | [], pos, buf => some (buf, pos)
  | c :: cs, pos, buf =>
    match setAt buf pos c with
    | some buf => copyStr cs (pos + 1) buf
    | none => none

mutual
/-- `copy`, /repo/3.sf:600-616. -/
def copy : Forest → Nat → List Char → Option (List Char × Nat)
  | .str s, pos, buf => copyStr s pos buf
  | .nil, pos, buf => some (buf, pos)
  | .pair a d, pos, buf =>
    match copy a pos buf with
    | some (buf, pos) => copy d pos buf
    | none => none
  | .vec xs, pos, buf => copyAll xs pos buf
/-- its loop over a vector, /repo/3.sf:611-616. -/
def copyAll : List Forest → Nat → List Char → Option (List Char × Nat)
  | [], pos, buf => some (buf, pos)
  | x :: xs, pos, buf =>
    match copy x pos buf with
    | some (buf, pos) => copyAll xs pos buf
    | none => none
end

/-- `string-forest->string`, /repo/3.sf:597-618 (`make-string` fills with spaces, 0.sf make-string). -/
def forestToString (x : Forest) : Option (List Char) :=
  match copy x 0 (List.replicate x.len ' ') with
  | some (buf, _) => some buf
  | none => none

/-- a proper list of forests. -/
def Forest.ofList : List Forest → Forest
  | [] => .nil
  | x :: xs => .pair x (Forest.ofList xs)

/-- `(c ", ") ...` in a template. -/
def items (ns : List (List Char)) : List Forest :=
  ns.map fun c => Forest.ofList [.str c, .str [',', ' ']]

/-- The `%const` clauses for strings, /repo/0.sf:976-980; any other shape ends in
"unsupported constant syntax", /repo/3.sf:700-701. -/
def stringForest : Const → Option Forest
  | .text s => some (.ofList [.str "obj(hpushstr($live, newstring(\"".toList, .str s, .str "\")))".toList])
  | .codes (some 8) ns =>
    some (.ofList (.str "{ static char s[] = { ".toList :: items ns ++
      [.str "0 };\n".toList, .str "    $return obj(hpushstr($live, newstring(s))); }".toList]))
  | .codes _ _ => none

/-- The `%const` clauses for symbols, /repo/0.sf:1495-1499 (`#( … )` is a vector). -/
def symbolForest : Const → Option Forest
  | .text s => some (.vec [.str "obj(mksymbol(internsym(\"".toList, .str s, .str "\")))".toList])
  | .codes (some 8) ns =>
    some (.vec (.str "{ static obj o = 0; static char s[] = { ".toList :: items ns ++
      [.str "0 };\n".toList, .str "    $return obj(o ? o : (o = mksymbol(internsym(s)))); }".toList]))
  | .codes _ _ => none

/-- The `%const` clauses for characters, /repo/0.sf:826-827. -/
def charForest : Const → Option Forest
  | .text s => some (.ofList [.str "char('".toList, .str s, .str "')".toList])
  | .codes (some 8) [n] => some (.ofList [.str "char(".toList, .str n, .str ")".toList])
  | .codes _ _ => none

/-- letters and digits (ASCII). -/
def alnum (c : Char) : Bool :=
  (48 ≤ c.toNat && c.toNat ≤ 57) || (65 ≤ c.toNat && c.toNat ≤ 90) || (97 ≤ c.toNat && c.toNat ≤ 122)

/-- `match-name`, /repo/6.sf:156-165 on character lists: the rest after `name`, provided the name does not
go on. -/
def matchName : List Char → List Char → Option (List Char)
  | [], [] => some []
  | c :: cs, [] => if alnum c then none else some (c :: cs)
  | [], _ :: _ => none
  | c :: cs, n :: ns => if c = n then matchName cs ns else none

/-- The text emitted for `$return` when the value that follows begins with `obj(`, /repo/6.sf:204-222: if
the destination ends in `obj_from_` or `void_from_` the cast is simplified away.  Second component: is the
following `obj(` consumed? -/
def returnText (rtext : List Char) : List Char × Bool :=
  match matchName rtext.reverse "obj_from_".toList.reverse with
  | some r => (r.reverse ++ ['('], true)
  | none =>
    match matchName rtext.reverse "void_from_".toList.reverse with
    | some r => (r.reverse ++ "(void)(".toList, true)
    | none => (rtext, false)

/-- `c-format-prim-text*`, /repo/6.sf:153-239, for a text without arguments and the directives `$live`,
`$return` (followed by white space and `obj(`) and `$$`; the other directives are errors here.  The output
is the concatenation of the pieces.  `fuel` bounds the number of steps. -/
def format (ltext rtext : List Char) : Nat → List Char → Option (List Char)
  | 0, _ => none
  | _+1, [] => some []
  | fuel+1, c :: cs =>
    if c ≠ '$' then
      match format ltext rtext fuel cs with
      | some out => some (c :: out)
      | none => none
    else
      match matchName cs "live".toList with
      | some rest =>
        match format ltext rtext fuel rest with
        | some out => some (ltext ++ out)
        | none => none
      | none =>
        match matchName cs "return".toList with
        | some rest =>
          let rest := rest.dropWhile Num.isspace
          if "obj(".toList <+: rest then
            let (t, consumed) := returnText rtext
            match format ltext rtext fuel (if consumed then rest.drop 4 else rest) with
            | some out => some (t ++ out)
            | none => none
          else none
        | none =>
          match cs with
          | '$' :: rest =>
            match format ltext rtext fuel rest with
            | some out => some ('$' :: out)
            | none => none
          | _ => none

/-- The C text for a constant: template, `string-forest->string`, then formatting. -/
def emit (f : Option Forest) (ltext rtext : List Char) : Option (List Char) :=
  match f with
  | none => none
  | some f =>
    match forestToString f with
    | none => none
    | some t => format ltext rtext (t.length + 1) t

/-- C text for a string constant. -/
def emitString (x : List Char) (ltext rtext : List Char) : Option (List Char) :=
  match decompose x with
  | some k => emit (stringForest k) ltext rtext
  | none => none

/-- C text for a symbol constant. -/
def emitSymbol (x : List Char) (ltext rtext : List Char) : Option (List Char) :=
  match decompose x with
  | some k => emit (symbolForest k) ltext rtext
  | none => none

/-- C text for a character constant. -/
def emitChar (x : Char) (ltext rtext : List Char) : Option (List Char) :=
  match decomposeChar x with
  | some k => emit (charForest k) ltext rtext
  | none => none

end Verif.Lit
