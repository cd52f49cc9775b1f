import Verif.Num.Model
/-
Names: C identifiers, labels, renamed variables.

* `c-mangle` /repo/6.sf:281-292, `c-undecorate-alvar` /repo/6.sf:309-314
* `assign-labels!` /repo/7.sf:522-535 (and the same code in /repo/6.sf:671-680)
* `cvar-id->c-name`, `gvar-id->c-name` /repo/6.sf:643-656, /repo/7.sf:207-212
* `symloc->var`, `intloc->var` /repo/2.sf:278-296

A Scheme string is a sequence of bytes; here a list of `Char` (properties that need it assume codes < 256).
-/
namespace Verif.Names
open Verif.Num

/-- C `isalpha` in the "C" locale (`char-alphabetic?`, /repo/0.sf). -/
def charAlphabetic (c : Char) : Bool := ('a' ≤ c ∧ c ≤ 'z') ∨ ('A' ≤ c ∧ c ≤ 'Z')
/-- C `isdigit` (`char-numeric?`). -/
def charNumeric (c : Char) : Bool := '0' ≤ c ∧ c ≤ '9'
/-- C `toupper` (`char-upcase`). -/
def charUpcase (c : Char) : Char := if 'a' ≤ c ∧ c ≤ 'z' then Char.ofNat (c.toNat - 32) else c

/-- `(number->string n r)` for a natural number: /repo/0.sf:1514 (see `Verif.Num.fixnumToString`).  The
conversion never fails in the range used here; `[]` stands for the impossible buffer overrun. -/
def numberToString (n : Nat) (r : Nat) : List Char := (fixnumToString n r).getD []

/-- one character of `c-mangle`'s loop, /repo/6.sf:287-292. -/
def mangleChar (c : Char) : List Char :=
  if charAlphabetic c || charNumeric c then [c]
  else
    let s := numberToString c.toNat 16
    let s := if s.length < 2 then '0' :: s else s
    '_' :: s.map charUpcase

/-- `(c-mangle str pfx)`, /repo/6.sf:281-292 (`validate` prepends the prefix). -/
def cMangle (str pfx : List Char) : List Char := pfx ++ str.flatMap mangleChar

/-- `(substring-before s "_")` for a one-character pattern, /repo/6.sf:49-56: `none` is `#f`. -/
def beforeUnderscore (s : List Char) : Option (List Char) :=
  if '_' ∈ s then some (s.takeWhile (· ≠ '_')) else none

/-- `(c-undecorate-alvar sym)`, /repo/6.sf:309-314; `(substring-after str "_")` of a string that starts with
`_` is its tail. -/
def cUndecorate (str : List Char) : List Char :=
  match str with
  | '_' :: sstr => (beforeUnderscore sstr).getD sstr
  | _ => str

/-- An identifier as the code generator sees it: its symbol's name and its unique time stamp
(`id->symbol`, `id->ts`). -/
structure Id where
  name : List Char
  ts : Nat
deriving DecidableEq

/-- global variables: `gvar-id->c-name` /repo/7.sf:211-212 (prefix `cx_`), `make-gclabel` 559-560 (`gs_`),
`gvar-id->c-name` /repo/6.sf:643-644 (`cxs_`). -/
def gvarCName (id : Id) : List Char := cMangle id.name "cx_".toList
@[inherit_doc gvarCName] def gclabelCName (id : Id) : List Char := cMangle id.name "gs_".toList
@[inherit_doc gvarCName] def gsvarCName (id : Id) : List Char := cMangle id.name "cxs_".toList

/-- local C variables: `cvar-id->c-name`, /repo/6.sf:649-651, /repo/7.sf:207-209. -/
def cvarCName (id : Id) : List Char :=
  cMangle (cUndecorate id.name) ('v' :: numberToString id.ts 10 ++ ['_'])

/-- `id->l`, /repo/7.sf:523-527. -/
def idToLabel (al : List (Id × List Char)) (id : Id) : List Char :=
  let l := cMangle (cUndecorate id.name) "s_".toList
  if al.any (fun p => l == p.2) then l ++ ("_v".toList ++ numberToString id.ts 10) else l

/-- the loop of `assign-labels!`, /repo/7.sf:528-534. -/
def assignLoop : List Id → List (Id × List Char) → List (Id × List Char)
  | [], al => al
  | id :: ids, al => assignLoop ids ((id, idToLabel al id) :: al)
/-- `assign-labels!`, /repo/7.sf:522-535, started with the empty `label-alist` (line 520). -/
def assignLabels (ids : List Id) : List (Id × List Char) := (assignLoop ids []).reverse

/-- Names `symloc->var` must not emit unchanged, /repo/2.sf:281-284. -/
def reserved : List (List Char) :=
  ["begin", "define", "if", "lambda", "letrec", "quote", "set!", "letcc", "withcc",
   "%prim", "%prim?", "%prim!", "%prim?!", "%prim*", "%prim*!", "%prim*?", "%prim*?!",
   "%quote", "%const", "%definition", "%localdef"].map String.toList

/-- `symloc->var`, /repo/2.sf:278-288. -/
def symlocToVar (sym : List Char) : List Char :=
  if sym ∈ reserved then '_' :: sym ++ ['_']
  else if sym.head? = some '_' then '_' :: sym ++ ['_']
  else sym

/-- `intloc->var`, /repo/2.sf:290-293: location number and the source name of the identifier. -/
def intlocToVar (loc : Nat) (name : List Char) : List Char :=
  '_' :: name ++ ('_' :: numberToString loc 10)

/-- A location: a symbol (global/built-in) or an integer (binding), with the identifier's source name;
`loc->var` /repo/2.sf:295-296. -/
inductive Loc
  | sym (s : List Char)
  | int (n : Nat)
deriving DecidableEq
@[inherit_doc Loc] def locToVar (loc : Loc) (name : List Char) : List Char :=
  match loc with
  | .sym s => symlocToVar s
  | .int n => intlocToVar n name

end Verif.Names
