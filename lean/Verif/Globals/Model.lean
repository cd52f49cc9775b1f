import Verif.Core.Free
/-
Analysis of globals: /repo/4.sf:416-649.

Simplifications.  `priv` tells which ids are private constants (`global-id-private-constant?`, 3.sf:210-215).  A global variable that
turns out to be a constant gets a new id with the same symbol; both ids stand for the same C variable (6.sf:654-657), so here it keeps its
id (`cid` is `id`).  Stack functions are not made: `ag-stack-function?` (4.sf:477-539) is `#f` (see C57 for stack functions).
-/
namespace Verif.Globals
open Verif.Core Verif.Sets

mutual
/-- `ag-simple?`, 4.sf:421-432.  A degenerate `let` is an application of a simple procedure to simple operands as well. -/
def simple : Exp → Bool
  | .var _ => true
  | .prim _ _ es => simples es
  | .app f es => simple f && simples es
  | .lam _ b => simple b
  | _ => false
/-- `(andmap ag-simple? exps)`. -/
def simples : List Exp → Bool
  | [] => true
  | e :: es => simple e && simples es
end

mutual
/-- `ag-constant?`, 4.sf:434-439. -/
def constant : Exp → Bool
  | .prim eff _ es => eff.refTransparent && constants es
  | _ => true
/-- `(andmap ag-constant? exps)`. -/
def constants : List Exp → Bool
  | [] => true
  | e :: es => constant e && constants es
end

/-- `ag-lookup`, 4.sf:441-446. -/
def lookup : Exp → List (Id × Exp) → Exp
  | .var x, (y, e) :: s => if x = y then lookup e s else lookup (.var x) s
  | e, _ => e

/-- `ag-inlineable-app-rands?`, 4.sf:448-458.  Variables are constants for `ag-constant?`, so the list `nc-rands` only has applications of
primitives, whose `var-exp->id` is a symbol and not an id of the lambda expression: the list has to be empty. -/
def randsOk (rands : List Exp) (s : List (Id × Exp)) : Bool := rands.all (fun e => constant (lookup e s))

/-- the loop in `ag-inlineable?`, 4.sf:465-475. -/
def bodyOk : Exp → List (Id × Exp) → Bool
  | .app (.lam ids b) es, s =>
    if isNullLet (.app (.lam ids b) es) then bodyOk b s
    else if isIdLet (.app (.lam ids b) es) then
      match es with
      | [e] => bodyOk e s
      | _ => false
    else if ids.length = es.length then bodyOk b (ids.zip es)
    else false
  | .prim _ _ es, s => randsOk es s
  | _, _ => false

/-- `ag-inlineable?`, 4.sf:460-475. -/
def inlineable : Exp → Bool
  | .app (.lam ids b) es =>
    if isNullLet (.app (.lam ids b) es) then inlineable b
    else if isIdLet (.app (.lam ids b) es) then
      match es with
      | [e] => inlineable e
      | _ => false
    else false
  | .prim eff _ es => eff.refTransparent && es.isEmpty
  | .lam _ b => bodyOk b []
  | _ => false

/-- an entry `(id cid exp [aexp])` of the list of substitutions, 4.sf:541-551. -/
structure Entry where
  id : Id
  exp : Exp
  aexp : Option Exp

/-- `(assq id substs)`. -/
def assq (x : Id) : List Entry → Option Entry
  | [] => none
  | n :: l => if n.id = x then some n else assq x l

mutual
/-- `ag-subst`, 4.sf:541-571. -/
def gsub (l : List Entry) : Exp → Exp
  | .var x =>
    match assq x l with
    | some n => n.exp
    | none => .var x
  | .set x e =>
    match assq x l with
    | some n =>
      match n.aexp with
      | some a => a
      | none => .set x (gsub l e)
    | none => .set x (gsub l e)
  | .ite a b c => .ite (gsub l a) (gsub l b) (gsub l c)
  | .prim eff p es => .prim eff p (gsubs l es)
  | .app (.lam ids b) es =>
    if isNullLet (.app (.lam ids b) es) then gsub l b
    else if isIdLet (.app (.lam ids b) es) then (gsubs l es).headD voidExp
    else .app (.lam ids (gsub l b)) (gsubs l es)
  | .app f es => .app (gsub l f) (gsubs l es)
  | .lam ids b => .lam ids (gsub l b)
  | .fix ids lams b => .fix ids (gsubs l lams) (gsub l b)
  | .letcc x b => .letcc x (gsub l b)
  | .withcc k e => .withcc (gsub l k) (gsub l e)
/-- `(map gsub exps)`. -/
def gsubs (l : List Entry) : List Exp → List Exp
  | [] => []
  | e :: es => gsub l e :: gsubs l es
end

/-- `var-assignment-count`, 3.sf:827-829. -/
def assignCount (x : Id) (e : Exp) : Nat :=
  reduceLeft (fun (u : Use) n => if u.assign then n + 1 else n) 0 (varUses x e)

mutual
/-- `global-substs`, 4.sf:573-600, for the program `top`. -/
def gls (priv : Id → Bool) (top : Exp) : Exp → List (Id × Exp) → List (Id × Exp)
  | .var _, s => s
  | .set x e, s =>
    if x.isGlobal then
      if priv x then (x, e) :: gls priv top e s
      else if assignCount x top = 1 then (x, e) :: gls priv top e s
      else gls priv top e s
    else gls priv top e s
  | .ite a _ _, s => gls priv top a s
  | .prim _ _ es, s => glss priv top es s
  | .app (.lam ids b) es, s =>
    if ids.length = es.length then glss priv top es (gls priv top b s) else glss priv top es s
  | .app f es, s => glss priv top es (gls priv top f s)
  | .lam _ _, s => s
  | .fix _ _ b, s => gls priv top b s
  | .letcc _ b, s => gls priv top b s
  | .withcc k e, s => gls priv top e (gls priv top k s)
/-- `(reduce-left gls substs exps)`. -/
def glss (priv : Id → Bool) (top : Exp) : List Exp → List (Id × Exp) → List (Id × Exp)
  | [], s => s
  | e :: es, s => glss priv top es (gls priv top e s)
end

/-- the definitions of constants, in the order of the program. -/
def defs (priv : Id → Bool) (top : Exp) : List (Id × Exp) := gls priv top top []

/-- `finalize`, 4.sf:605-642, for an expression that is not a `rec-exp` (the lambda expression in one is not). -/
def finish (priv : Id → Bool) (x : Id) (e : Exp) (l : List Entry) : Entry :=
  if simple e && inlineable (gsub l e) then ⟨x, gsub l e, if priv x then some voidExp else none⟩
  else ⟨x, .var x, none⟩

/-- `finalize`, 4.sf:605-642. -/
def finalize (priv : Id → Bool) (d : Id × Exp) (l : List Entry) : Entry :=
  match d.2 with
  | .fix [g] [lam] (.var h) =>
    if g = h then
      let n := finish priv d.1 (gsub [⟨g, .var d.1, none⟩] lam) l
      if n.aexp.isNone then ⟨d.1, .var d.1, none⟩ else n
    else finish priv d.1 d.2 l
  | e => finish priv d.1 e l

/-- `finalize-substs`, 4.sf:604-646. -/
def finals (priv : Id → Bool) (ds : List (Id × Exp)) : List Entry := reduceLeft (fun d l => finalize priv d l :: l) [] ds

/-- `analyze-globals`, 4.sf:418-649. -/
def analyze (priv : Id → Bool) (e : Exp) : Exp := gsub (finals priv (defs priv e)) e

end Verif.Globals
