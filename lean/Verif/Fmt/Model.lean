import Verif.Str.Model
/-
Templates of C code: the formatter and the C types read off templates (6.sf:117-307).

Strings are lists of characters, with the string functions of `Str` (6.sf:18-108); their outer `none`, an index out of range, never happens
(C43) and is treated like #f.  Formats and arguments are as in the calls in 7.sf: arguments are strings, numbers, symbols or texts made of them.
`char-alphabetic?`, `char-numeric?`, `char-whitespace?` and `char-ci=?` are those of the "C" locale.
-/
namespace Verif.Fmt

/-- char-alphabetic? -/
def alpha (c : Char) : Bool := ('a' ≤ c && c ≤ 'z') || ('A' ≤ c && c ≤ 'Z')
/-- char-numeric? -/
def numeric (c : Char) : Bool := '0' ≤ c && c ≤ '9'
/-- char-whitespace? -/
def white (c : Char) : Bool := c = ' ' || (9 ≤ c.toNat && c.toNat ≤ 13)

/-- the characters of the string "abcdefghijklmnopqrstuvwxyz0123456789_" (6.sf:125, 143, 151, 307), upper case included. -/
def identChar (c : Char) : Bool := alpha c || numeric c || c = '_'

/-- string-span-ci for this set of characters (6.sf:97-102). -/
def spanCi : List Char → Nat
  | [] => 0
  | c :: r => if identChar c then spanCi r + 1 else 0

/-- substring-before (6.sf:50-57) -/
def before (s p : List Char) : Option (List Char) := (Str.substringBefore s p).join
/-- substring-after (6.sf:59-66) -/
def after (s p : List Char) : Option (List Char) := (Str.substringAfter s p).join
/-- substring-before-suffix (6.sf:68-71) -/
def beforeSuffix (s p : List Char) : Option (List Char) := (Str.beforeSuffix s p).join
/-- substring-after-prefix (6.sf:73-76) -/
def afterPrefix (s p : List Char) : Option (List Char) := (Str.afterPrefix s p).join
/-- substring-after-span (6.sf:104-108) -/
def afterSpan (s cs : List Char) : List Char := (Str.afterSpan s cs).getD s
/-- string-starts-with? (6.sf:18-24) -/
def startsWith (s p : List Char) : Bool := (Str.startsWith s p).getD false
/-- string-ends-with? (6.sf:26-32) -/
def endsWith (s p : List Char) : Bool := (Str.endsWith s p).getD false
/-- string-contains? (6.sf:42-48) -/
def contains (s p : List Char) : Bool := (Str.contains s p).getD false

/-- `(and s (= (string-length s) (string-span-ci s …)) s)` -/
def ident (s : List Char) : Option (List Char) := if s.length = spanCi s then some s else none

/-- primexp-ctype (6.sf:121-126) -/
def primexpCtype (prim : List Char) : Option (List Char) := (before prim ['(']).bind ident

/-- prim-ctype (6.sf:128-132) -/
def primCtype (prim : List Char) : Option (List Char) :=
  ((after prim "$return".toList).bind fun s => primexpCtype (afterSpan s [' '])).or (primexpCtype prim)

/-- prim-cexp? (6.sf:134-136) -/
def primCexp (prim : List Char) : Option (List Char) := if contains prim "$return".toList then none else primexpCtype prim

/-- typecheck-prim-ctype (6.sf:138-144) -/
def typecheckCtype (prim : List Char) : Option (List Char) :=
  ((after prim "bool(is_".toList).bind fun s => beforeSuffix s "_$arg)".toList).bind ident

/-- typeassert-prim-ctype (6.sf:146-152) -/
def typeassertCtype (prim : List Char) : Option (List Char) :=
  ((after prim "void(assert(is_".toList).bind fun s => beforeSuffix s "_$arg))".toList).bind ident

/-- texts: what can be an argument or be put in the buffer. -/
inductive Text where
  | ch (c : Char)
  | str (s : List Char)
  | num (n : Int)
  | sym (s : List Char)
  | lst (l : List Text)

/-- `(char? x)`, with the character. -/
def Text.char? : Text → Option Char
  | .ch c => some c
  | _ => none

/-- number->string (C08) -/
def dec (n : Int) : List Char := (toString n).toList

mutual
/-- c-stringify-text (6.sf:250-260) -/
def Text.flat : Text → List Char
  | .ch c => [c]
  | .str s => s
  | .num n => dec n
  | .sym s => s
  | .lst l => flats l
/-- for lists of texts. -/
def flats : List Text → List Char
  | [] => []
  | t :: l => t.flat ++ flats l
end

/-- match-name (6.sf:157-167); `f` gives the character of an element, if it is one. -/
def matchName {α : Type} (f : α → Option Char) : List α → List Char → Option (List α)
  | [], [] => some []
  | a :: l, cs =>
    match f a with
    | none => none
    | some c =>
      match cs with
      | [] => if alpha c || numeric c then none else some (a :: l)
      | d :: ds => if c = d then matchName f l ds else none
  | [], _ :: _ => none

/-- `(substring-after-prefix (substring-after-span s "01234567890") ", ")`, or `s` (6.sf:198-201, 221-223). -/
def dropLevel (s : List Char) : List Char := (afterPrefix (afterSpan s "01234567890".toList) [',', ' ']).getD s

/-- result of the formatting loop: rest of the format, rest of the arguments, text. -/
structure Res where
  rest : List Char
  args : List Text
  text : List Text

/-- what `$arg` puts in the buffer for the argument `a` (6.sf:191-202). -/
def putArg (a : Text) (buf : List Text) : List Text :=
  match a with
  | .str s =>
    match primexpCtype s with
    | some T =>
      let tbuf := matchName Text.char? buf (T ++ "_from_".toList).reverse
      let vbuf := matchName Text.char? buf "void_from_".toList.reverse
      match tbuf.or vbuf, after s (T ++ ['(']) with
      | some sbuf, some sarg => .str (dropLevel sarg) :: (if vbuf.isSome then .str "(void)(".toList else .ch '(') :: sbuf
      | _, _ => a :: buf
    | none => a :: buf
  | _ => a :: buf

/-- what `$return`, followed by `fstr`, puts in the buffer, and where to go on (6.sf:213-225). -/
def putReturn (rtext : Text) (fstr : List Char) (buf : List Text) : List Char × List Text :=
  match rtext with
  | .str r =>
    match primexpCtype fstr with
    | some T =>
      let trtb := matchName some r.reverse (T ++ "_from_".toList).reverse
      let vrtb := matchName some r.reverse "void_from_".toList.reverse
      match trtb.or vrtb, after fstr (T ++ ['(']) with
      | some srtb, some sarg => (dropLevel sarg, (if vrtb.isSome then .str "(void)(".toList else .ch '(') :: .lst (srtb.reverse.map .ch) :: buf)
      | _, _ => (fstr, rtext :: buf)
    | none => (fstr, rtext :: buf)
  | _ => (fstr, rtext :: buf)

/-- the loop of c-format-prim-text* (6.sf:168-241), with a bound on the number of iterations; `none` is an error.  The continuation `k` is
called at the end of the format and at `$}`, with what is returned here. -/
def loop (ltext rtext : Text) (total : Nat) : Nat → List Char → List Text → List Text → Option Res
  | 0, _, _, _ => none
  | _ + 1, [], args, buf => some ⟨[], args, buf.reverse⟩
  | n + 1, c :: r, args, buf =>
    if c ≠ '$' then loop ltext rtext total n r args (.ch c :: buf)
    else
      match r with
      | [] => none
      | d :: r' =>
        match matchName some r ['a', 'r', 'g', 'c'] with
        | some r1 => loop ltext rtext total n r1 args (.num total :: buf)
        | none =>
        match matchName some r ['a', 'r', 'g', '#', '-', '1'] with
        | some r1 => loop ltext rtext total n r1 args (.num ((total : Int) - args.length - 1) :: buf)
        | none =>
        match matchName some r ['a', 'r', 'g', '#', '+', '1'] with
        | some r1 => loop ltext rtext total n r1 args (.num ((total : Int) - args.length + 1) :: buf)
        | none =>
        match matchName some r ['a', 'r', 'g', '#'] with
        | some r1 => loop ltext rtext total n r1 args (.num ((total : Int) - args.length) :: buf)
        | none =>
        match matchName some r ['a', 'r', 'g'] with
        | some r1 =>
          match args with
          | [] => none
          | a :: args => loop ltext rtext total n r1 args (putArg a buf)
        | none =>
        match matchName some r ['a'] with
        | some r1 =>
          match args with
          | [] => none
          | a :: args => loop ltext rtext total n r1 args (a :: buf)
        | none =>
        match matchName some r ['l', 'i', 'v', 'e'] with
        | some r1 => loop ltext rtext total n r1 args (ltext :: buf)
        | none =>
        match matchName some r ['r', 'e', 't', 'u', 'r', 'n'] with
        | some r1 =>
          let p := putReturn rtext (r1.dropWhile white) buf
          loop ltext rtext total n p.1 args p.2
        | none =>
          if d = '$' then loop ltext rtext total n r' args (.str ['$'] :: buf)
          else if d = '}' then some ⟨r', args, buf.reverse⟩
          else if d = '{' then
            match args with
            | [] =>
              match loop ltext rtext total n r' (List.replicate 10 (.sym ['?'])) [] with
              | some res => loop ltext rtext total n res.rest [] buf
              | none => none
            | _ :: _ =>
              match loop ltext rtext total n r' args [] with
              | some res => if res.args.length = args.length then none else loop ltext rtext total n (c :: r) res.args (.lst res.text :: buf)
              | none => none
          else none

/-- c-format-prim* (6.sf:242-245, 262-264) -/
def format (n : Nat) (ltext rtext : Text) (fmt : List Char) (args : List Text) : Option (List Char) :=
  match loop ltext rtext args.length n fmt args [] with
  | some res => if res.args = [] then some (flats res.text) else none
  | none => none

/-- c-argref-ctype (6.sf:294-307); each round is on a shorter string. -/
def argrefCtype (fmt : List Char) (n : Nat) : Option (List Char) :=
  let rec go : Nat → List Char → Nat → Option (List Char)
    | 0, _, _ => none
    | m + 1, s, n =>
      match before s ['$'], after s ['$'] with
      | some bd, some ad =>
        if startsWith ad ['}'] then none
        else if startsWith ad ['{'] then go m ad 0
        else if startsWith ad "argc".toList then go m ad n
        else if startsWith ad "arg#".toList then go m ad n
        else if !startsWith ad "arg".toList then go m ad n
        else if n > 0 then go m ad (n - 1)
        else if !endsWith bd "_from_".toList then none
        else
          let s := (bd.take (bd.length - 6)).reverse
          some (s.take (spanCi s)).reverse
      | _, _ => none
  go (fmt.length + 1) fmt n

end Verif.Fmt
