import Verif.Expand.Model
import Verif.Names.Model
import Verif.Lit.Model
import Verif.Letrec.Model
/-
The parser for macroexpanded programs: /repo/3.sf:571-763 (`keywords`, `sexp-match?`, `parse-program`).

Simplifications.  Ids are time stamps and marks, as in Verif/Core/Ast.lean; an id with its symbol is a pair.  A private constant is
a marked global id (its name, 3.sf:734-737, only shows up in comments).  `map` and the operands of constructors are evaluated from left to
right, which only influences the numbers.  Primitives are named by a function `pn` of their text.  `psexp` takes the depth of the recursion
as an extra argument, `parseProgram` calls it with the size of the program.  Errors are `none`.
-/
namespace Verif.Parse
open Verif.Core
open Verif.Fold (beginExp)

/-- symbols. -/
abbrev Sym := List Char

/-- S-expressions as the parser gets them.  Numbers, characters and booleans are atoms. -/
inductive S where
  | nil
  | sym (s : Sym)
  | str (s : List Char)
  | atom (n : Nat)
  /-- a vector with the elements of a list -/
  | vec (items : S)
  | pair (a d : S)
deriving DecidableEq, Repr

/-- `list?`. -/
def isList : S → Bool
  | .nil => true
  | .pair _ d => isList d
  | _ => false

/-- the elements of a list. -/
def items : S → List S
  | .pair a d => a :: items d
  | _ => []

/-- a list of elements followed by a tail. -/
def list : List S → S → S
  | [], t => t
  | x :: xs, t => .pair x (list xs t)

/-- size, for the depth of the recursion. -/
def S.size : S → Nat
  | .pair a d => a.size + d.size + 1
  | .vec x => x.size + 1
  | _ => 1

/-! ### patterns -/

/-- `keywords`, 3.sf:571-574. -/
def keywords : List Sym :=
  ["begin", "define", "if", "lambda", "letrec", "letcc", "withcc", "%include", "%%", "load", "%quote", "%const", "%prim",
   "%prim?!", "%prim*", "%prim*?!", "%definition", "%localdef"].map String.toList

/-- `<id>?`, 3.sf:576. -/
def isId : S → Bool
  | .sym s => decide (s ∉ keywords)
  | _ => false

/-- `string-forest?`, 3.sf:578-580.  The contents of a vector are a list. -/
def isForest : S → Bool
  | .str _ => true
  | .nil => true
  | .pair a d => isForest a && isList d && isForest d
  | .vec x => isForest x
  | _ => false

/-- a list of one element. -/
def isList1 : S → Bool
  | .pair _ .nil => true
  | _ => false

/-- `sexp-match?`, 3.sf:622-649.  The loop 3.sf:641-645 is a test of all elements of a list.  A pair in a pattern is never `eq?` to
a part of the program. -/
def sexpMatch : S → S → Bool
  | .sym s, x =>
    decide (s = "*".toList) ||
    (decide (s = "<id>".toList) && isId x) ||
    (decide (s = "<symbol>".toList) && (match x with | .sym _ => true | _ => false)) ||
    (decide (s = "<string>".toList) && (match x with | .str _ => true | _ => false)) ||
    (decide (s = "<literal>".toList) && (match x with | .atom _ => true | _ => false)) ||
    (decide (s = "<string-forest>".toList) && isForest x) ||
    decide (x = .sym s)
  | .pair p ps, x =>
    if p = .sym "...".toList ∧ isList1 ps = true then
      match ps with
      | .pair q _ => decide (x = q)
      | _ => false
    else if ps = .pair (.sym "...".toList) .nil then
      if p = .sym "*".toList then isList x else isList x && (items x).all (sexpMatch p)
    else
      match x with
      | .pair a d => sexpMatch p a && sexpMatch ps d
      | _ => false
  | p, x => decide (x = p)

/-- a symbol in a pattern. -/
def y (s : String) : S := .sym s.toList
/-- a list in a pattern. -/
def lst (xs : List S) : S := list xs .nil

/-! ### state -/

/-- what the parser assigns to: the next time stamp (3.sf:189-196), `global-e` (3.sf:753-754), `lifted-const-alist` (3.sf:732-733). -/
structure St where
  next : Nat
  globals : List (Sym × Id)
  consts : List (S × Exp × Id)

/-- `lookupicate`, 3.sf:184-187. -/
def lookup (s : Sym) : List (Sym × Id) → Option Id
  | [] => none
  | (s', x) :: e => if s' = s then some x else lookup s e

/-- `make-id`, 3.sf:755-760, with `global-id`, 3.sf:198-199. -/
def makeId (s : Sym) (e : List (Sym × Id)) (st : St) : Id × St :=
  match lookup s e with
  | some x => (x, st)
  | none =>
    match lookup s st.globals with
    | some x => (x, st)
    | none => let x : Id := ⟨-(st.next : Int), false⟩; (x, { st with next := st.next + 1, globals := (s, x) :: st.globals })

/-- `(map lexical-id syms)`. -/
def newIds (k : Nat) : List Sym → List (Sym × Id)
  | [] => []
  | s :: ss => (s, lexId k) :: newIds (k + 1) ss

/-- the symbols in a list. -/
def syms : List S → List Sym
  | .sym s :: xs => s :: syms xs
  | _ :: xs => syms xs
  | [] => []

/-- `(map f xs)` for a function that changes the state. -/
def mapP (f : S → St → Option (Exp × St)) : List S → St → Option (List Exp × St)
  | [], st => some ([], st)
  | x :: xs, st =>
    match f x st with
    | none => none
    | some (e, st) =>
      match mapP f xs st with
      | none => none
      | some (es, st) => some (e :: es, st)

/-- `(reduce-right/singular-identity begin-exp (void-exp) es)`, 3.sf:85-91, with new ids from `k` on. -/
def beginAll : Nat → List Exp → Exp × Nat
  | k, [] => (voidExp, k)
  | k, [e] => (e, k)
  | k, e :: es => let r := beginAll k es; (beginExp r.2 e r.1, r.2 + 1)

/-- `(reduce-right begin-exp (void-exp) es)`, 3.sf:75-78. -/
def seqAll : Nat → List Exp → Exp × Nat
  | k, [] => (voidExp, k)
  | k, e :: es => let r := seqAll k es; (beginExp r.2 e r.1, r.2 + 1)

/-- `letrec-exp`, 4.sf:64-66. -/
def letrecExp (k : Nat) (ids : List Id) (rands : List Exp) (body : Exp) : Exp × Nat :=
  let r := Letrec.assignsExp k ids rands
  (letExp ids (rands.map fun _ => voidExp) (beginExp r.2 r.1 body), r.2 + 1)

/-- effects named by the kinds of primitive applications, 3.sf:702-717. -/
def prims : List (String × Effect) :=
  [("%prim", ⟨false, false, false⟩), ("%prim*", ⟨true, false, false⟩), ("%prim?", ⟨false, true, false⟩), ("%prim!", ⟨false, false, true⟩),
   ("%prim?!", ⟨false, true, true⟩), ("%prim*?", ⟨true, true, false⟩), ("%prim*!", ⟨true, false, true⟩), ("%prim*?!", ⟨true, true, true⟩)]

mutual
/-- a string forest as the type of Verif/Lit/Model.lean. -/
def toForest : S → Lit.Forest
  | .str s => .str s
  | .pair a d => .pair (toForest a) (toForest d)
  | .vec x => .vec (toForests x)
  | _ => .nil
/-- the elements of a vector. -/
def toForests : S → List Lit.Forest
  | .pair a d => toForest a :: toForests d
  | _ => []
end

/-! ### expressions -/

/-- the second elements of bindings, `(map cadr bs)`. -/
def cadrs (bs : List S) : List S := bs.map fun b => (items b)[1]?.getD .nil
/-- the first elements, `(map car bs)`. -/
def cars (bs : List S) : List S := bs.map fun b => (items b)[0]?.getD .nil

/-- `(%prim <string-forest>)` without the "expensive" hint, 3.sf:695-696. -/
def cheap (c : S) : Bool :=
  sexpMatch (lst [y "%prim", y "<string-forest>"]) c &&
    (match items c with | [_, .vec _] => false | _ => true)

/-- `psexp`, 3.sf:667-720, with `liftc`, 3.sf:738-745. -/
def psexp (pn : List Char → PrimName) : Nat → List (Sym × Id) → S → St → Option (Exp × St)
  | 0, _, _, _ => none
  | n + 1, e, x, st =>
    if sexpMatch (lst [y "if", y "*", y "*", y "*"]) x then
      match mapP (psexp pn n e) ((items x).drop 1) st with
      | some ([a, b, c], st) => some (.ite a b c, st)
      | _ => none
    else if sexpMatch (lst [y "if", y "*", y "*"]) x then
      match mapP (psexp pn n e) ((items x).drop 1) st with
      | some ([a, b], st) => some (.ite a b voidExp, st)
      | _ => none
    else if sexpMatch (lst [y "set!", y "<id>", y "*"]) x then
      match items x with
      | [_, .sym s, a] =>
        let r := makeId s e st
        match psexp pn n e a r.2 with
        | some (a, st) => some (.set r.1 a, st)
        | none => none
      | _ => none
    else if sexpMatch (lst [y "begin", y "*", y "..."]) x then
      match mapP (psexp pn n e) ((items x).drop 1) st with
      | some (es, st) => let r := beginAll st.next es; some (r.1, { st with next := r.2 })
      | none => none
    else if sexpMatch (lst [y "lambda", lst [y "<id>", y "..."], y "*"]) x then
      match items x with
      | [_, fs, b] =>
        let ids := newIds st.next (syms (items fs))
        match psexp pn n (ids ++ e) b { st with next := st.next + ids.length } with
        | some (b, st) => some (.lam (ids.map (·.2)) b, st)
        | none => none
      | _ => none
    else if sexpMatch (lst [y "letrec", lst [lst [y "<id>", y "*"], y "..."], y "*"]) x then
      match items x with
      | [_, bs, b] =>
        let ids := newIds st.next (syms (cars (items bs)))
        match mapP (psexp pn n (ids ++ e)) (cadrs (items bs)) { st with next := st.next + ids.length } with
        | some (es, st) =>
          match psexp pn n (ids ++ e) b st with
          | some (b, st) => let r := letrecExp st.next (ids.map (·.2)) es b; some (r.1, { st with next := r.2 })
          | none => none
        | none => none
      | _ => none
    else if sexpMatch (lst [y "letcc", y "<id>", y "*"]) x then
      match items x with
      | [_, .sym s, b] =>
        match psexp pn n ((s, lexId st.next) :: e) b { st with next := st.next + 1 } with
        | some (b, st') => some (.letcc (lexId st.next) b, st')
        | none => none
      | _ => none
    else if sexpMatch (lst [y "withcc", y "*", y "*"]) x then
      match mapP (psexp pn n e) ((items x).drop 1) st with
      | some ([a, b], st) => some (.withcc a b, st)
      | _ => none
    else if sexpMatch (lst [y "%quote", y "*"]) x then
      match items x with
      | [_, c] =>
        if cheap c then psexp pn n e c st
        else match st.consts.find? (fun p => decide (p.1 = c)) with
          | some p => some (.var p.2.2, st)
          | none =>
            match psexp pn n [] c st with
            | some (a, st) =>
              let x : Id := ⟨-(st.next : Int), true⟩
              some (.var x, { st with next := st.next + 1, consts := (c, a, x) :: st.consts })
            | none => none
      | _ => none
    else if sexpMatch (lst [y "%const", y "*", y "..."]) x then none
    else match prims.find? (fun p => sexpMatch (lst [y p.1, y "<string-forest>", y "*", y "..."]) x) with
      | some p =>
        match Lit.forestToString (toForest ((items x)[1]?.getD .nil)), mapP (psexp pn n e) ((items x).drop 2) st with
        | some t, some (es, st) => some (.prim p.2 (pn t) es, st)
        | _, _ => none
      | none =>
        if sexpMatch (lst [y "*", y "*", y "..."]) x then
          match mapP (psexp pn n e) (items x) st with
          | some (f :: es, st) => some (.app f es, st)
          | _ => none
        else if isId x then
          match x with
          | .sym s => let r := makeId s e st; some (.var r.1, r.2)
          | _ => none
        else none

/-! ### programs -/

/-- `ptop`, 3.sf:722-726. -/
def ptop (pn : List Char → PrimName) (n : Nat) (x : S) (st : St) : Option (Exp × St) :=
  if sexpMatch (lst [y "define", y "*", y "*"]) x then
    match items x with
    | [_, .sym s, a] =>
      let r := makeId s [] st
      match psexp pn n [] a r.2 with
      | some (a, st) => some (.set r.1 a, st)
      | none => none
    | _ => none
  else psexp pn n [] x st

/-- `add-lifted-consts`, 3.sf:746-752. -/
def addConsts (k : Nat) : List (S × Exp × Id) → Exp → Exp × Nat
  | [], e => (e, k)
  | c :: cs, e => addConsts (k + 1) cs (beginExp k (.set c.2.2 c.2.1) e)

/-- `parse-program`, 3.sf:666-762: the expression, the references to globals, and the next time stamp. -/
def parseProgram (pn : List Char → PrimName) (prog : List S) : Option (Exp × List Sym × Nat) :=
  match mapP (ptop pn ((prog.map S.size).sum + 1)) prog ⟨1, [], []⟩ with
  | some (es, st) =>
    let r := seqAll st.next es
    let e := addConsts r.2 st.consts r.1
    some (e.1, st.globals.map (·.1), e.2)
  | none => none

/-! ### the output of the expander as data -/

/-- the symbol of a variable, 2.sf:278-296. -/
def name : Expand.Var → Sym
  | .glob s => Names.symlocToVar s.toList
  | .loc n s => Names.intlocToVar n s.toList

/-- data in the output; `h` says what the atoms are. -/
def conv (h : Nat → S) : Macros.Sx → S
  | .nil => .nil
  | .atom n => h n
  | .sid s _ _ => .sym s.toList
  | .vec x => .vec (conv h x)
  | .pair a d => .pair (conv h a) (conv h d)

mutual
/-- the output of the expander, as built in 2.sf:298-479, 580-600, 626. -/
def render (h : Nat → S) : Expand.Out → S
  | .var v => .sym (name v)
  | .lam fs r b =>
    lst [y "lambda", list (fs.map fun v => .sym (name v)) (match r with | none => .nil | some v => .sym (name v)), render h b]
  | .letcc v b => lst [y "letcc", .sym (name v), render h b]
  | .set v e => lst [y "set!", .sym (name v), render h e]
  | .form kw es => .pair (y kw) (lst (renderAll h es))
  | .raw kw xs => .pair (y kw) (lst (xs.map (conv h)))
  | .prim kw sf es => .pair (y kw) (.pair (conv h sf) (lst (renderAll h es)))
  | .letrec vs es b => lst [y "letrec", lst (List.zipWith (fun v e => lst [.sym (name v), e]) vs (renderAll h es)), render h b]
  | .app f es => .pair (render h f) (lst (renderAll h es))
  | .define v e => lst [y "define", .sym (name v), render h e]
/-- for lists. -/
def renderAll (h : Nat → S) : List Expand.Out → List S
  | [] => []
  | o :: os => render h o :: renderAll h os
end

end Verif.Parse
