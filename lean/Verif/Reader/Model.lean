import Verif.Reader.Lex
/-
The recursive part of the reader: 1.sf:125-168 (verbatim datums), 1.sf:318-371 (engine), 1.sf:626-765
(initial-reader), 1.sf:774-841 (reader extensions by `#read … as`), and the conversion of datums to host values,
1.sf:854-925.

The code is in continuation-passing style; `(return d i)` becomes the result `.ok d i`.  A reader `r` is the
list of the extensions put around initial-reader, latest first.  The functions take a bound on the nesting of
calls (`fuel`); running out of it gives `.fuel`, which no theorem accepts as an answer.
-/
namespace Verif.Reader
open Verif.Cmp Verif.Num Verif.Width

/-- Result of a reading procedure. -/
inductive Res
  | ok (d : SX) (i : List Char)
  | err
  | fuel
deriving DecidableEq, Repr

/-- passing a continuation -/
def Res.bind : Res → (SX → List Char → Res) → Res
  | .ok d i, f => f d i
  | .err, _ => .err
  | .fuel, _ => .fuel

/-- results of the non-recursive procedures -/
def Res.ofOption : Option (SX × List Char) → Res
  | some (d, i) => .ok d i
  | none => .err

/-! ## Verbatim datums -/

mutual
/-- `unwrap` of `datum->reader-sexp`, 1.sf:125-147; `none` is the error.  `(string->number s)` is
`string->fixnum` for at most 24 bits. -/
def unwrap : SX → Option SX
  | .cons (.sym t) (.cons (.str s) .nil) =>
    if t = cs!"string" then some (.str s)
    else if t = cs!"symbol" then some (.sym s)
    else if t = cs!"list" then none
    else none
  | .cons (.sym t) (.cons w (.cons sg (.cons (.str ds) (.cons (.num 10) .nil)))) =>
    if t = cs!"integer" then
      if (w = .num 8 ∨ w = .num 16 ∨ w = .num 24) ∧ sg = .sym cs!"+" then
        (stringToFixnum ds 10).map .num
      else none
    else if t = cs!"list" then unwrapAll (.cons w (.cons sg (.cons (.str ds) (.cons (.num 10) .nil))))
    else none
  | .cons (.sym t) .nil => if t = cs!"null" then some .nil else if t = cs!"list" then some .nil else none
  | .cons (.sym t) (.cons a (.cons b .nil)) =>
    if t = cs!"pair" then do return .cons (← unwrap a) (← unwrap b)
    else if t = cs!"list" then do return .cons (← unwrap a) (.cons (← unwrap b) .nil)
    else none
  | .cons (.sym t) l => if t = cs!"list" then unwrapAll l else none
  | _ => none
/-- `(map unwrap l)` for a list -/
def unwrapAll : SX → Option SX
  | .nil => some .nil
  | .cons a l => do return .cons (← unwrap a) (← unwrapAll l)
  | _ => none
end

/-- `make-verbatim-datum`, 1.sf:150-158 -/
def verbatim (d : SX) : Option SX :=
  match unwrap d with
  | some (.cons (.sym t) l) => some (.cons (.sym t) l)
  | _ => none

/-! ## Reader extensions -/

/-- parameter of an extended prefix, 1.sf:783-795 -/
inductive Param | datum | list | string
deriving DecidableEq

/-- A reader extension: prefix, parameter with its name, template.  1.sf:813-841. -/
structure Ext where
  pfx : List Char
  param : Option (Param × List Char)
  templ : SX

/-- the parameter names accepted by param->reader, 1.sf:783-795 -/
def paramOf (s : List Char) : Option Param :=
  if s = cs!"<datum>" then some .datum
  else if s = cs!"<list>" then some .list
  else if s = cs!"<string>" then some .string
  else none

/-- the characters of a list of characters -/
def SX.chars : SX → List Char
  | .cons (.chr c) l => c :: l.chars
  | _ => []

/-- `extend-reader`, 1.sf:813-841: `none` is the error of param->reader. -/
def extend (r : List Ext) (readAs : SX) : Option (List Ext) :=
  let cs := (readAs.nth 1).chars
  let templ := readAs.nth 2
  if '<' ∈ cs then
    let str := cs.dropWhile (· ≠ '<')
    (paramOf str).map fun p => ⟨cs.takeWhile (· ≠ '<'), some (p, str), templ⟩ :: r
  else some (⟨cs, none, templ⟩ :: r)

/-- `reader-template-replace`, 1.sf:774-781 -/
def replace (sym : List Char) (d : SX) : SX → Option SX
  | .cons a b =>
    if SX.cons a b = datum cs!"symbol" [.str sym] then some d
    else do return .cons (← replace sym d a) (← replace sym d b)
  | td =>
    if td = .sym (cs!"parsed-" ++ sym) then some d
    else if td = .sym sym then unwrap d
    else some td

/-- the test on the input, param->prefix-reader, 1.sf:797-811 -/
def Param.pfx (p : Param) (i pfx : List Char) : Option (List Char) :=
  (inputPrefix i pfx).bind fun i1 =>
    match p with
    | .datum => some i1
    | .list => if i1.head? = some '(' then some i1 else none
    | .string => if i1.head? = some '"' then some i1 else none

/-! ## The engine -/

/-- `#read` up to the template, 1.sf:714-733: the prefix characters and the rest -/
def readHead (i : List Char) : Option (List Char × List Char) :=
  let blank := fun c => c = ' ' || c = '\t'
  match i.dropWhile blank with
  | [] => none
  | i =>
    let name := i.takeWhile (fun c => ¬ isspace c)
    match (i.dropWhile (fun c => ¬ isspace c)) with
    | [] => none
    | i =>
      match i.dropWhile blank with
      | [] => none
      | i =>
        match inputPrefix i cs!"as" with
        | some i => if inputDelimited i then some (name, i) else none
        | none => none

/-- `initial-reader`, 1.sf:626-765: first the lexical branches, then the branches from 1.sf:709 on.
`sub` is `subread` and `term` is `subread-to-terminator` (with #f for the limit), both with the current reader. -/
def initialReader (sub : List Char → Res) (term : Char → (dotted rdefs pairs : Bool) → List Char → Res)
    (i : List Char) : Res :=
  match lexical i with
  | some res => .ofOption res
  | none =>
  match inputPrefix i cs!"'" with
  | some i => (sub i).bind fun d i => .ok (datum cs!"list" [datum cs!"symbol" [.str cs!"quote"], d]) i
  | none =>
  match inputDelimitedPrefix i cs!"#fload" with
  | some i => (sub i).bind fun d i => .ok (datum cs!"list" [datum cs!"symbol" [.str cs!"load"], d]) i
  | none =>
  match inputDelimitedPrefix i cs!"#read" with
  | some i =>
    match readHead i with
    | some (name, i) => (sub i).bind fun d i => .ok (datum cs!"read-as" [SX.list (name.map .chr), d]) i
    | none => .err
  | none =>
  match inputPrefix i cs!"#;" with
  | some i => (sub i).bind fun _ i => .ok (datum cs!"atmosphere" []) i
  | none =>
  match inputPrefix i cs!"#|" with
  | some i =>
    match blockComment 0 i with
    | some i => .ok (datum cs!"atmosphere" []) i
    | none => .err
  | none =>
  match inputPrefix i cs!")" with
  | some i => .ok (datum cs!"terminator" [.chr ')']) i
  | none =>
  match inputPrefix i cs!"]" with
  | some i => .ok (datum cs!"terminator" [.chr ']']) i
  | none =>
  match inputPrefix i cs!"}" with
  | some i => .ok (datum cs!"terminator" [.chr '}']) i
  | none =>
  match inputPrefix i cs!"(" with
  | some i => term ')' true true true i
  | none =>
  match inputPrefix i cs!"[" with
  | some i => term ']' true true true i
  | none =>
  match inputPrefix i cs!"#(" with
  | some i => (term ')' false true false i).bind fun l i => .ok (.cons (.sym cs!"vector") l) i
  | none =>
  match inputPrefix i cs!"#&" with
  | some i => (sub i).bind fun d i => .ok (datum cs!"box" [d]) i
  | none =>
  match inputPrefix i cs!"#.(" with
  | some i =>
    (term ')' true false true i).bind fun l i =>
      match verbatim l with
      | some d => .ok d i
      | none => .err
  | none => .err

/-- The reader made by `extend-reader`, 1.sf:813-841, around the reader `next`. -/
def extReader (e : Ext) (next sub : List Char → Res)
    (term : Char → (dotted rdefs pairs : Bool) → List Char → Res) (i : List Char) : Res :=
  match e.param with
  | none =>
    match inputDelimitedPrefix i e.pfx with
    | some i => .ok e.templ i
    | none => next i
  | some (p, str) =>
    match p.pfx i e.pfx with
    | some i =>
      (match p with
       | .datum => sub i
       | .list => term ')' true true true i.tail
       | .string => .ofOption (readString i)).bind fun d i =>
        match replace str d e.templ with
        | some d => .ok d i
        | none => .err
    | none => next i

mutual
/-- A call `(r i r return)` of the reader with the extensions `es` (of the whole reader `r`). -/
def reader : Nat → List Ext → List Ext → List Char → Res
  | 0, _, _, _ => .fuel
  | n+1, e :: es, r, i =>
    extReader e (reader n es r) (subread n r) (fun tc dotted rdefs pairs => toTerm n r tc dotted rdefs pairs none) i
  | n+1, [], r, i =>
    initialReader (subread n r) (fun tc dotted rdefs pairs => toTerm n r tc dotted rdefs pairs none) i
/-- `subread`, 1.sf:320-333 -/
def subread : Nat → List Ext → List Char → Res
  | 0, _, _ => .fuel
  | n+1, r, i =>
    (reader n r r i).bind fun d i =>
      if d.type = .sym cs!"eof" then .err
      else if d.type = .sym cs!"atmosphere" then subread n r i
      else if d.type = .sym cs!"read-as" then .err
      else if d.type = .sym cs!"terminator" then .err
      else .ok d i
/-- `subread-to-terminator`, 1.sf:335-357.  `pairs` chooses between the constructors `(datum 'pair d1 d2)`,
`(datum 'null)` and `cons`, `'()`; `limit` is `none` for #f. -/
def toTerm : Nat → List Ext → Char → (dotted rdefs pairs : Bool) → Option Int → List Char → Res
  | 0, _, _, _, _, _, _, _ => .fuel
  | n+1, r, tc, dotted, rdefs, pairs, limit, i =>
    (reader n r r i).bind fun d i =>
      if d.type = .sym cs!"eof" then .err
      else if d.type = .sym cs!"atmosphere" then toTerm n r tc dotted rdefs pairs limit i
      else if d.type = .sym cs!"read-as" then
        if rdefs then
          match extend r d with
          | some r => toTerm n r tc dotted rdefs pairs limit i
          | none => .err
        else .err
      else if d.type = .sym cs!"terminator" ∧ dotted ∧ d.nth 1 = .chr '.' then
        toTerm n r tc dotted rdefs pairs (some 1) i
      else if d.type = .sym cs!"terminator" ∧ d.nth 1 = .chr tc then
        if limit = none ∨ limit = some 0 then
          .ok (if pairs then datum cs!"null" [] else .nil) i
        else .err
      else if d.type = .sym cs!"terminator" then .err
      else
        (toTerm n r tc dotted rdefs pairs (limit.map (· - 1)) i).bind fun d1 i1 =>
          .ok (if limit = some 1 then d else if pairs then datum cs!"pair" [d, d1] else .cons d d1) i1
end

/-- Result of reading at top level: the datum, the rest of the input and the reader to use next. -/
inductive Top
  | ok (d : SX) (i : List Char) (r : List Ext)
  | err
  | fuel

/-- `subread-top`, 1.sf:363-371 -/
def readTop : Nat → List Ext → List Char → Top
  | 0, _, _ => .fuel
  | n+1, r, i =>
    match reader n r r i with
    | .err => .err
    | .fuel => .fuel
    | .ok d i =>
      if d.type = .sym cs!"atmosphere" then readTop n r i
      else if d.type = .sym cs!"read-as" then
        match extend r d with
        | some r => readTop n r i
        | none => .err
      else if d.type = .sym cs!"terminator" then .err
      else .ok d i r

/-! ## Host values -/

/-- Values of the host: what `read` returns and `write` takes.  Strings and symbols are character lists;
`other` is the procedure `(lambda () d)` standing for a datum that cannot be converted. -/
inductive Val
  | eof
  | nil
  | bool (b : Bool)
  | char (c : Char)
  | str (s : List Char)
  | fix (n : Int)
  | sym (s : List Char)
  | pair (a d : Val)
  | vec (l : List Val)
  | box (v : Val)
  | other (d : SX)

/-- elements of a list datum -/
def SX.elems : SX → List SX
  | .cons a l => a :: l.elems
  | _ => []

/-- `list?` -/
def SX.isList : SX → Bool
  | .nil => true
  | .cons _ d => d.isList
  | _ => false

theorem SX.sizeOf_elems : ∀ (d x : SX), x ∈ d.elems → sizeOf x < sizeOf d
  | .cons a l, x, h => by
    simp only [SX.elems, List.mem_cons] at h
    rcases h with rfl | h
    · simp; omega
    · have := SX.sizeOf_elems l x h; simp; omega
  | .nil, _, h => by simp [SX.elems] at h
  | .sym _, _, h => by simp [SX.elems] at h
  | .str _, _, h => by simp [SX.elems] at h
  | .num _, _, h => by simp [SX.elems] at h
  | .chr _, _, h => by simp [SX.elems] at h

/-- a proper list of values -/
def Val.list : List Val → Val
  | [] => .nil
  | a :: l => .pair a (Val.list l)

/-- `sexp-integer`, 1.sf:888-896: `(* n -1)` wraps around like every fixnum operation, but the product is only
formed for numbers `string->number` accepts. -/
def sexpInteger (d : SX) : Val :=
  match d.elems with
  | [_, repw, sign, .str digs, .num radix] =>
    if repw = .num 8 ∨ repw = .num 16 ∨ repw = .num 24 then
      match stringToFixnum digs radix.toNat with
      | some n => .fix (n * (if sign = .sym cs!"-" then -1 else 1))
      | none => .other d
    else .other d
  | _ => .other d

/-- the code points of `(string 8 cp ...)` if all are 8 bit -/
def bytes : List SX → Option (List Char)
  | [] => some []
  | .num n :: l => if 0 ≤ n ∧ n ≤ 255 then (bytes l).map (Char.ofNat n.toNat :: ·) else none
  | _ :: _ => none

/-- `sexp-string` and `sexp-symbol`, 1.sf:897-904 and 913-920 -/
def sexpChars (mk : List Char → Val) (d : SX) : Val :=
  match d.elems with
  | [_, .str s] => mk s
  | _ :: .num 8 :: l =>
    match bytes l with
    | some s => mk s
    | none => .other d
  | _ => .other d

/-- `sexp-char`, 1.sf:905-912 -/
def sexpChar (d : SX) : Val :=
  match d.elems with
  | [_, .str [c]] => .char c
  | [_, .num 8, .num n] => if 0 ≤ n ∧ n ≤ 255 then .char (Char.ofNat n.toNat) else .other d
  | _ => .other d

/-- `datum->rhe-sexp`, 1.sf:865-925 -/
def sexp (d : SX) : Val :=
  match h : d with
  | .cons s rest =>
    if rest.isList then
      let l := rest.elems.length
      if s = .sym cs!"eof" ∧ l = 0 then .eof
      else if s = .sym cs!"null" ∧ l = 0 then .nil
      else if s = .sym cs!"pair" ∧ l = 2 then
        match rest with
        | .cons a (.cons b .nil) => .pair (sexp a) (sexp b)
        | _ => .other d
      else if s = .sym cs!"list" then Val.list (rest.elems.attach.map fun ⟨x, _⟩ => sexp x)
      else if s = .sym cs!"boolean" ∧ l = 1 then
        if rest = SX.list [.num 0] then .bool false
        else if rest = SX.list [.num 1] then .bool true
        else .other d
      else if s = .sym cs!"integer" ∧ l = 4 then sexpInteger d
      else if s = .sym cs!"string" ∧ l ≥ 1 then sexpChars .str d
      else if s = .sym cs!"char" ∧ (l = 1 ∨ l = 2) then sexpChar d
      else if s = .sym cs!"symbol" ∧ l ≥ 1 then sexpChars .sym d
      else if s = .sym cs!"vector" then .vec (rest.elems.attach.map fun ⟨x, _⟩ => sexp x)
      else if s = .sym cs!"box" ∧ l = 1 then
        match rest with
        | .cons a .nil => .box (sexp a)
        | _ => .other d
      else .other d
    else .other d
  | _ => .other d
termination_by sizeOf d
decreasing_by
  all_goals subst h
  all_goals first
    | (simp; omega)
    | (rename_i hx; have := SX.sizeOf_elems _ _ hx; simp; omega)

/-! ## The writer -/

/-- `display-fixnum`, 0.sf:1767-1770: `fprintf("%d")` prints the decimal numeral, like fixnum->string
(see Verif.Num). -/
def wrFix (n : Int) : List Char := (fixnumToString n 10).getD []

/-- `wrchar`, 0.sf:1805-1809 -/
def wrChar (c : Char) : List Char :=
  if c = '\n' then cs!"#\\newline" else if c = ' ' then cs!"#\\space" else ['#', '\\', c]

/-- `wrstring`, 0.sf:1811-1819 -/
def wrString (s : List Char) : List Char :=
  '"' :: (s.flatMap fun c => if c = '"' ∨ c = '\\' then ['\\', c] else [c]) ++ ['"']

mutual
/-- `initial-writer` with `d?` = #f, 0.sf:1793-1851, for the values of this file; procedures, ports and flonums
are not modelled. -/
def write : Val → List Char
  | .eof => cs!"#<eof>"
  | .sym s => s
  | .pair a d => '(' :: write a ++ wrTail d
  | .fix n => wrFix n
  | .nil => cs!"()"
  | .bool b => if b then cs!"#t" else cs!"#f"
  | .char c => wrChar c
  | .str s => wrString s
  | .vec l => '#' :: '(' :: wrElems l
  | .box v => '#' :: '&' :: write v
  | .other _ => cs!"#<procedure>"
/-- the rest of the loop of `wrpair`, 0.sf:1797-1803, and the closing parenthesis -/
def wrTail : Val → List Char
  | .pair a d => ' ' :: write a ++ wrTail d
  | .nil => [')']
  | .eof => cs!" . #<eof>)"
  | .sym s => cs!" . " ++ s ++ [')']
  | .fix n => cs!" . " ++ wrFix n ++ [')']
  | .bool b => cs!" . " ++ (if b then cs!"#t" else cs!"#f") ++ [')']
  | .char c => cs!" . " ++ wrChar c ++ [')']
  | .str s => cs!" . " ++ wrString s ++ [')']
  | .vec l => cs!" . " ++ ('#' :: '(' :: wrElems l) ++ [')']
  | .box v => cs!" . " ++ ('#' :: '&' :: write v) ++ [')']
  | .other _ => cs!" . " ++ cs!"#<procedure>" ++ [')']
/-- the loop of `wrvector`, 0.sf:1821-1830, and the closing parenthesis -/
def wrElems : List Val → List Char
  | [] => [')']
  | [v] => write v ++ [')']
  | v :: w :: l => write v ++ ' ' :: wrElems (w :: l)
end

end Verif.Reader
