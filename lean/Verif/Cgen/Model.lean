import Verif.Core.Machine
import Verif.Core.Sys
/-
The code generator, /repo/7.sf:129-518 (code for expressions) and 7.sf:520-702 (labels, closures, procedure
entries), and a machine for the generated C code.

Simplifications.  The generated C text is a syntax tree.  Local C variables of unboxed types (`cvar`, made by
`unbox-values`) are not modelled.  Compiler errors are the expression and the statement `bad`, which cannot be
executed.  Operands of closures (the variables a procedure captures) that are not plain C expressions are not
modelled (`lambda-lift` only produces variables).  In the C code, registers are an unbounded array; the room for them is
made by `rreserve` (property C20).  Closures are immutable blocks; garbage collection is not modelled, except that it only preserves the
registers counted as live, so an allocation makes the contents of the others unknown, and it must not happen
when there are temporaries of the C compiler.  Parameters named by `begin-id-symbol` (7.sf:659-661) are not
modelled.
-/
namespace Verif.Cgen
open Verif.Core

/-- C expressions.  `prim gc live p args`: text of the primitive `p`; `gc` if it may allocate, `live` is what is
substituted for `$live`.  `both` and `either` are `bool(bool_from_a && bool_from_b)` and the same with `||`. -/
inductive CExp where
  | reg (i : Nat)
  | glob (x : Id)
  | ite (a b c : CExp)
  | both (a b : CExp)
  | either (a b : CExp)
  | prim (gc : Bool) (live : Nat) (p : PrimName) (args : List CExp)
  | bad

/-- Targets, 7.sf:144-183: none, a register, a global variable. -/
inductive Tgt where
  | void
  | reg (i : Nat)
  | glob (x : Id)
deriving DecidableEq

/-- Where a call goes: to a label, or to the code of the closure in the first argument register. -/
inductive Dest where
  | label (l : Id)
  | jump

/-- Statements.  `close t live n args` is the closure allocation of 7.sf:341-351; `static x n` is
`{ static obj c[] = { obj_from_case(n) }; x = (obj)c; }`; `call d none args` is the fast sequence of moves, into `r[k]`,
`call d (some live) args` the slow one, into `r[live+k]`, followed by `r += live`, 7.sf:352-413. -/
inductive Stmt where
  | set (t : Tgt) (e : CExp)
  | prim (t : Tgt) (gc : Bool) (live : Nat) (p : PrimName) (args : List CExp)
  | close (t : Tgt) (live : Nat) (case : Nat) (args : List CExp)
  | static (x : Id) (case : Nat)
  | ite (e : CExp) (a b : List Stmt)
  | call (d : Dest) (shift : Option Nat) (args : List CExp)
  | bad

/-- What the code generator reads off the text of a primitive: is it a C expression (`prim-cexp?`, 6.sf:134), has
it the C type `bool` (`primexp-ctype`), is it the text `bool(0)`. -/
structure Texts where
  cexp : PrimName → Bool
  isBool : PrimName → Bool
  isFalse : PrimName → Bool

/-- register environments; `none` is a temporary (a number in the code), the last allocated register is first. -/
abbrev Renv := List (Option Id)

/-- `posq`. -/
def pos (s : Option Id) : Renv → Option Nat
  | [] => none
  | x :: xs => if x = s then some 0 else (pos s xs).map (· + 1)

/-- `(curry-exp? exp)` and its parts: label, parameters, captured operands; 3.sf:475-499. -/
def takesIds : List Id → List Exp → Bool
  | [], _ => true
  | x :: xs, .var y :: es => x = y && takesIds xs es
  | _ :: _, _ => false

@[inherit_doc takesIds]
def curryOf : Exp → Option (Id × List Id × List Exp)
  | .lam ids (.app (.var l) es) => if l.isLabel && takesIds ids es then some (l, ids, es.drop ids.length) else none
  | _ => none

/-- the assignment in a `bgc-exp`: global variable and label; 7.sf:56-72. -/
def bgcOf : Exp → Option (Id × Id)
  | .set x e =>
    match x.isGlobal, curryOf e with
    | true, some (l, _, []) => some (x, l)
    | _, _ => none
  | _ => none

mutual
/-- `cg-cexp?`, 7.sf:446-459. -/
def isCexp (T : Texts) : Exp → Bool
  | .var _ => true
  | .ite a b c => isCexp T a && isCexp T b && isCexp T c
  | .prim _ p es => T.cexp p && areCexp T es
  | _ => false
/-- `(andmap cg-cexp? rands)`. -/
def areCexp (T : Texts) : List Exp → Bool
  | [] => true
  | e :: es => isCexp T e && areCexp T es
end

mutual
/-- `cg-gcsafe-cexp?`, 7.sf:430-444. -/
def isSafe (T : Texts) : Exp → Bool
  | .var _ => true
  | .ite a b c => isSafe T a && isSafe T b && isSafe T c
  | .prim eff p es => T.cexp p && !eff.alloc && areSafe T es
  | _ => false
/-- `(andmap cg-gcsafe-cexp? rands)`. -/
def areSafe (T : Texts) : List Exp → Bool
  | [] => true
  | e :: es => isSafe T e && areSafe T es
end

/-- `(string=? (primexp-ctype code) "bool")`, for generated expressions. -/
def CExp.isBool (T : Texts) : CExp → Bool
  | .prim _ _ p _ => T.isBool p
  | .ite _ b c => b.isBool T && c.isBool T
  | .both _ _ => true
  | .either _ _ => true
  | _ => false

/-- the text `bool(0)`. -/
def CExp.isFalse (T : Texts) : CExp → Bool
  | .prim _ _ p [] => T.isFalse p
  | _ => false

mutual
/-- `string=?` on generated expressions; `gc` is not part of the text. -/
def CExp.same : CExp → CExp → Bool
  | .reg i, .reg j => i = j
  | .glob x, .glob y => x = y
  | .ite a b c, .ite a' b' c' => a.same a' && b.same b' && c.same c'
  | .both a b, .both a' b' => a.same a' && b.same b'
  | .either a b, .either a' b' => a.same a' && b.same b'
  | .prim _ l p as, .prim _ l' p' as' => l = l' && p = p' && CExp.sames as as'
  | _, _ => false
@[inherit_doc CExp.same]
def CExp.sames : List CExp → List CExp → Bool
  | [], [] => true
  | a :: as, b :: bs => a.same b && CExp.sames as bs
  | _, _ => false
end

/-- the `if-exp` clause of `cg-cexp`, 7.sf:467-493. -/
def mkIte (T : Texts) (a b c : CExp) : CExp :=
  if b.isBool T && c.isBool T && c.isFalse T then .both a b
  else if b.isBool T && c.isBool T && a.same b then .either a c
  else .ite a b c

/-- `(cg-tgt-rval (var-tgt id renv))`, 7.sf:148-163, with the check of 7.sf:464. -/
def cgVar (renv : Renv) (x : Id) : CExp :=
  if x.isLabel then .bad
  else if x.isGlobal then .glob x
  else
    match pos (some x) renv with
    | some p => .reg (renv.length - p - 1)
    | none => .bad

mutual
/-- `cg-cexp`, 7.sf:461-502. -/
def cgCexp (T : Texts) (renv : Renv) : Exp → CExp
  | .var x => cgVar renv x
  | .ite a b c => mkIte T (cgCexp T renv a) (cgCexp T renv b) (cgCexp T renv c)
  | .prim eff p es => .prim eff.alloc renv.length p (cgCexps T renv es)
  | _ => .bad
/-- `(map (lambda (rand) (cg-cexp rand renv)) rands)`. -/
def cgCexps (T : Texts) (renv : Renv) : List Exp → List CExp
  | [] => []
  | e :: es => cgCexp T renv e :: cgCexps T renv es
end

/-- `cg-cexp-to`, 7.sf:504-511; `void(0)` without a target is left out. -/
def cexpTo (T : Texts) (renv : Renv) (t : Tgt) (e : Exp) : List Stmt :=
  match t, e with
  | .void, .prim _ .void [] => []
  | t, e => [.set t (cgCexp T renv e)]

mutual
/-- `dep?`, 7.sf:242-258. -/
def dep (sp : List (Option Id)) : Exp → Bool
  | .var x => sp.contains (some x)
  | .set _ e => dep sp e
  | .ite a b c => dep sp a || dep sp b || dep sp c
  | .prim _ _ es => depFrom sp 0 es
  | .app (.lam ids b) es => if ids.length = es.length then depFrom sp 0 es || dep sp b else dep sp (.lam ids b) || depFrom sp 0 es
  | .app (.var x) es => if x.isLabel then depFrom sp 0 es else sp.contains (some x) || depFrom sp 0 es
  | .app f es => dep sp f || depFrom sp 0 es
  | .lam ids (.app (.var l) es) => if l.isLabel && takesIds ids es then depFrom sp ids.length es else false
  | _ => false
/-- `(ormap dep? (list-tail rands k))`. -/
def depFrom (sp : List (Option Id)) : Nat → List Exp → Bool
  | _, [] => false
  | 0, e :: es => dep sp e || depFrom sp 0 es
  | k + 1, _ :: es => depFrom sp k es
end

/-- the loop of `cg-fast-goto?`, 7.sf:263-269. -/
def fastLoop : List Exp → Renv → List (Option Id) → Bool
  | [], _, _ => true
  | _ :: _, [], _ => false
  | _ :: _, none :: _, _ => false
  | e :: es, some x :: regs, sp =>
    if sp.isEmpty || !dep sp e then fastLoop es regs (some x :: sp) else false

/-- `cg-fast-goto?`, 7.sf:261-269. -/
def fastGoto (renv : Renv) (rands : List Exp) : Bool := fastLoop rands renv.reverse []

/-- One procedure that is made into a closure: its label, the number of its parameters, the number of captured values;
`curry-alist`, 7.sf:562. -/
structure Curry where
  label : Id
  params : Nat
  captured : Nat
deriving DecidableEq

/-- What the code generator knows: texts of primitives, `curry-alist` in the order of the labels, and
`global-constant-labels`. -/
structure Ctx where
  texts : Texts
  cases : List Curry
  constLab : Id → Option Id

/-- `lookup-curry-case-no`, 7.sf:622-626; case 0 is the entry of the module; `0` also stands for the compiler error. -/
def caseNo (cs : List Curry) (l : Id) : Nat :=
  match cs.findIdx? (fun c => c.label = l) with
  | some i => i + 1
  | none => 0

/-- One step of `cg-prim-args`, 7.sf:185-205: code to run before, the operand, the register environment afterwards; `code` is
the code that computes the operand into the next register. -/
def cgArg (T : Texts) (renv : Renv) (e : Exp) (code : List Stmt) : List Stmt × CExp × Renv :=
  if isSafe T e then ([], cgCexp T renv e, renv) else (code, .reg renv.length, none :: renv)

/-- the body of an `identity-lambda`, 3.sf:327-333. -/
def isVar (x : Id) : Exp → Bool
  | .var y => x = y
  | _ => false

mutual
/-- `cg-to`, 7.sf:513-516, with `cg-complex-to` and `cg-application-to`, 7.sf:271-413. -/
def cgTo (C : Ctx) : Exp → Renv → Tgt → List Stmt
  | .var x, renv, t => cexpTo C.texts renv t (.var x)
  | .set x e, renv, t =>
    if x.isGlobal then cgTo C e renv (.glob x) ++ cexpTo C.texts renv t voidExp else [.bad]
  | .ite a b c, renv, t =>
    if isCexp C.texts (.ite a b c) then cexpTo C.texts renv t (.ite a b c)
    else if isCexp C.texts a then [.ite (cgCexp C.texts renv a) (cgTo C b renv t) (cgTo C c renv t)]
    else cgTo C a renv (.reg renv.length) ++ [.ite (.reg renv.length) (cgTo C b renv t) (cgTo C c renv t)]
  | .prim eff p es, renv, t =>
    if isCexp C.texts (.prim eff p es) then cexpTo C.texts renv t (.prim eff p es)
    else
      match cgArgs C es renv with
      | (code, args, renv') =>
        code ++ [if C.texts.cexp p then .set t (.prim eff.alloc renv'.length p args) else .prim t eff.alloc renv'.length p args]
  | .lam ids b, renv, t =>
    match curryOf (.lam ids b) with
    | some (l, _, rands) =>
      if areSafe C.texts rands then [.close t renv.length (caseNo C.cases l) (cgCexps C.texts renv rands.reverse)]
      else [.bad]
    | none => [.bad]
  | .app (.lam ids b) es, renv, t =>
    if ids.length = es.length then
      match ids, es with
      | [], [] => cgTo C b renv t
      | [x], [e] =>
        if isVar x b then cgTo C e renv t
        else if referenced x b then
          cgTo C e renv (.reg renv.length) ++ cgTo C b (some x :: renv) t
        else
          match bgcOf e with
          | some (g, l) => .static g (caseNo C.cases l) :: cgTo C b renv t
          | none => cgTo C e renv .void ++ cgTo C b renv t
      | ids, es =>
        match cgLets C es ids renv with
        | (code, renv') => code ++ cgTo C b renv' t
    else
      match cgArg C.texts renv (.lam ids b) (cgTo C (.lam ids b) renv (.reg renv.length)) with
      | (c0, a0, renv0) =>
        match cgArgs C es renv0 with
        | (code, args, renv') =>
          c0 ++ code ++ [.call .jump (if fastGoto renv (.lam ids b :: es) then none else some renv'.length) (a0 :: args)]
  | .app f es, renv, _ =>
    match (match f with | .var x => if x.isLabel then some x else C.constLab x | _ => none) with
    | some l =>
      match cgArgs C es renv with
      | (code, args, renv') => code ++ [.call (.label l) (if fastGoto renv es then none else some renv'.length) args]
    | none =>
      match cgArg C.texts renv f (cgTo C f renv (.reg renv.length)) with
      | (c0, a0, renv0) =>
        match cgArgs C es renv0 with
        | (code, args, renv') =>
          c0 ++ code ++ [.call .jump (if fastGoto renv (f :: es) then none else some renv'.length) (a0 :: args)]
  | _, _, _ => [.bad]
/-- `cg-prim-args`, 7.sf:185-205. -/
def cgArgs (C : Ctx) : List Exp → Renv → List Stmt × List CExp × Renv
  | [], renv => ([], [], renv)
  | e :: es, renv =>
    match cgArg C.texts renv e (cgTo C e renv (.reg renv.length)) with
    | (c0, a0, renv0) =>
      match cgArgs C es renv0 with
      | (code, args, renv') => (c0 ++ code, a0 :: args, renv')
/-- `cg-let-list`, 7.sf:214-240. -/
def cgLets (C : Ctx) : List Exp → List Id → Renv → List Stmt × Renv
  | e :: es, x :: xs, renv =>
    match cgLets C es xs (some x :: renv) with
    | (code, renv') => (cgTo C e renv (.reg renv.length) ++ code, renv')
  | _, _, renv => ([], renv)
end

mutual
/-- `add-curry!` over an expression, `collect-curries!`, 7.sf:564-571, 583-612. -/
def curries : Exp → List Curry
  | .set _ e => curries e
  | .ite a b c => curries a ++ curries b ++ curries c
  | .prim _ _ es => curriesAll es
  | .app f es =>
    (match f with
     | .lam ids b => if ids.length = es.length then curries b else
        (match curryOf (.lam ids b) with | some (l, ps, xs) => [⟨l, ps.length, xs.length⟩] | none => [])
     | f => curries f) ++ curriesAll es
  | .lam ids b => match curryOf (.lam ids b) with | some (l, ps, xs) => [⟨l, ps.length, xs.length⟩] | none => []
  | _ => []
/-- the same for lists. -/
def curriesAll : List Exp → List Curry
  | [] => []
  | e :: es => curries e ++ curriesAll es
end

mutual
/-- `add-static-global-label!` over an expression, `collect-curries!`, 7.sf:548-552, 583-612: global variable and label of
each `bgc-exp`. -/
def bgcs : Exp → List (Id × Id)
  | .set _ e => bgcs e
  | .ite a b c => bgcs a ++ bgcs b ++ bgcs c
  | .prim _ _ es => bgcsAll es
  | .app f es =>
    (match f with
     | .lam ids b =>
       if ids.length = es.length then
         (match ids, es with
          | [x], [e] => if referenced x b then [] else (bgcOf e).toList
          | _, _ => []) ++ bgcs b
       else []
     | f => bgcs f) ++ bgcsAll es
  | _ => []
/-- the same for lists. -/
def bgcsAll : List Exp → List (Id × Id)
  | [] => []
  | e :: es => bgcs e ++ bgcsAll es
end

/-- the body of a procedure. -/
def bodyOf : Exp → Exp
  | .lam _ b => b
  | e => e

/-- the curries of the program, in the order of the search. -/
def allCurries (lams : List Exp) (body : Exp) : List Curry := curriesAll (lams.map bodyOf) ++ curries body

/-- `curry-alist` after `sort-curries-by-fix-order!`, 7.sf:614-618. -/
def curryAlist (ids : List Id) (lams : List Exp) (body : Exp) : List Curry :=
  ids.filterMap (fun l => (allCurries lams body).find? (fun c => c.label = l))

/-- `global-constant-labels`, searched by `rassq`, 7.sf:129-132, 546-552. -/
def constLabel (lams : List Exp) (body : Exp) (x : Id) : Option Id :=
  if x.isGlobalConst then ((bgcsAll (lams.map bodyOf) ++ bgcs body).reverse.find? (fun p => p.1 = x)).map Prod.snd else none

/-- the context for a program. -/
def ctxOf (T : Texts) (ids : List Id) (lams : List Exp) (body : Exp) : Ctx :=
  ⟨T, curryAlist ids lams body, constLabel lams body⟩

/-- Generated code: the entry of the module, the code at the labels, and the closure entries. -/
structure Prog where
  entry : List Stmt
  code : Id → Option (List Stmt)
  cases : List Curry

/-- `compile-lam`, 7.sf:670-672. -/
def compileLam (C : Ctx) : Exp → Option (List Stmt)
  | .lam ps b => some (cgTo C b (ps.reverse.map some) (.reg ps.length))
  | _ => none

/-- `code-generate`: `compile-labels` for a program `fix ids lams body`, 7.sf:628-632, 670-702; `none` if `add-curry!`
reports an error, or a label of a closure is missing. -/
def compile (T : Texts) (ids : List Id) (lams : List Exp) (body : Exp) : Option Prog :=
  let C := ctxOf T ids lams body
  if (allCurries lams body).all (fun c => C.cases.contains c) then
    some {
      entry := cgTo C body [] (.reg 0)
      code := fun l => (idxOf l ids).bind (fun i => lams[i]?.bind (compileLam C))
      cases := C.cases }
  else none

/-! ### the machine for generated code -/

/-- Values in generated code.  `blk n fields` is a closure: the case number and the captured values. -/
inductive CVal where
  | atom (n : Nat)
  | pair (a d : CVal)
  | box (a : Nat)
  | trap
  | blk (case : Nat) (fields : List CVal)

/-- the outside of a value. -/
def CVal.view : CVal → View
  | .atom n => .atom n
  | .pair a d => .pair a.view d.view
  | .box _ => .box
  | .trap => .proc
  | .blk _ _ => .proc

/-- `#f`. -/
def CVal.isFalse : CVal → Bool
  | .atom n => n == 0
  | _ => false

/-- Global variables, boxes, world. -/
structure CStore (W : Type) where
  glob : Id → Option CVal
  heap : List CVal
  world : W

/-- Registers; `none` is an unknown content. -/
abbrev Regs := Nat → Option CVal

/-- result of a primitive. -/
inductive CRes (W : Type) where
  | ok (v : CVal) (σ : CStore W)
  | stop (v : CVal)

/-- Primitives; the same as `Core.doPrim`. -/
def doPrim {W : Type} (M : Sem W) : PrimName → List CVal → CStore W → Option (CRes W)
  | .void, [], σ => some (.ok (.atom 1) σ)
  | .halt, [v], _ => some (.stop v)
  | .ktrap, [], σ => some (.ok .trap σ)
  | .box, [v], σ => some (.ok (.box σ.heap.length) { σ with heap := σ.heap ++ [v] })
  | .boxref, [.box a], σ => σ.heap[a]?.map (fun v => .ok v σ)
  | .boxset, [.box a, v], σ =>
    if a < σ.heap.length then some (.ok v { σ with heap := σ.heap.set a v }) else none
  | .cons, [a, d], σ => some (.ok (.pair a d) σ)
  | .car, [.pair a _], σ => some (.ok a σ)
  | .cdr, [.pair _ d], σ => some (.ok d σ)
  | .op n, vs, σ => (M.op n (vs.map CVal.view) σ.world).map (fun r => .ok (.atom r.1) { σ with world := r.2 })
  | _, _, _ => none

/-- What waits for the value of a C expression inside the same C expression.  `bool` converts a truth value to
`#f` or `#t` (`atom 2`). -/
inductive Frame where
  | ite (b c : CExp)
  | both (b : CExp)
  | either (c : CExp)
  | bool
  | args (gc : Bool) (live : Nat) (p : PrimName) (es : List CExp) (done : Nat → CVal) (i : Nat) (todo : List Nat)

/-- no operand of an unfinished C expression is held by the C compiler. -/
def Frame.clean : Frame → Bool
  | .args _ _ _ _ _ _ _ => false
  | _ => true

/-- What a statement does with the value of its expression. -/
inductive Leaf where
  | set (t : Tgt) (rest : List Stmt)
  | branch (a b rest : List Stmt)
  | push (t : Tgt) (case : Nat) (todo : List CExp) (acc : List CVal) (rest : List Stmt)
  | move (d : Dest) (shift : Option Nat) (k : Nat) (todo : List CExp)

/-- States of the machine. -/
inductive CState (W : Type) where
  | run (code : List Stmt) (r : Regs) (σ : CStore W)
  | ev (e : CExp) (fs : List Frame) (l : Leaf) (r : Regs) (σ : CStore W)
  | args (gc : Bool) (live : Nat) (p : PrimName) (es : List CExp) (done : Nat → CVal) (todo : List Nat) (fs : List Frame) (l : Leaf)
      (r : Regs) (σ : CStore W)
  | ret (v : CVal) (fs : List Frame) (l : Leaf) (r : Regs) (σ : CStore W)
  | push (t : Tgt) (case : Nat) (todo : List CExp) (acc : List CVal) (rest : List Stmt) (r : Regs) (σ : CStore W)
  | move (d : Dest) (shift : Option Nat) (k : Nat) (todo : List CExp) (r : Regs) (σ : CStore W)
  | done (v : CVal) (w : W)

/-- assignment to a register. -/
def Regs.set (r : Regs) (i : Nat) (v : CVal) : Regs := fun j => if j = i then some v else r j
/-- an allocation with `live` live registers. -/
def Regs.gc (r : Regs) (live : Nat) : Regs := fun j => if j < live then r j else none
/-- `r += n`. -/
def Regs.shift (r : Regs) (n : Nat) : Regs := fun j => r (j + n)
/-- `r[n + k] = p[k + 1]` for the captured values, 7.sf:635-647. -/
def Regs.load (r : Regs) (n : Nat) (fields : List CVal) : Regs := fun j => if j < n then r j else match fields[j - n]? with | some v => some v | none => r j

/-- store a value in a target. -/
def Tgt.regs (t : Tgt) (v : CVal) (r : Regs) : Regs :=
  match t with
  | .reg i => r.set i v
  | _ => r
@[inherit_doc Tgt.regs]
def Tgt.store {W : Type} (t : Tgt) (v : CVal) (σ : CStore W) : CStore W :=
  match t with
  | .glob x => { σ with glob := fun y => if y = x then some v else σ.glob y }
  | _ => σ

/-- the boxed truth value. -/
def CVal.toBool (v : CVal) : CVal := if v.isFalse then .atom 0 else .atom 2

/-- record the value of an operand. -/
def upd (d : Nat → CVal) (i : Nat) (v : CVal) : Nat → CVal := fun j => if j = i then v else d j
/-- the values of `n` operands. -/
def vals (d : Nat → CVal) (n : Nat) : List CVal := (List.range n).map d

/-- Entering a procedure after the moves, with `k` values in the registers: `goto label`, or `goto jump` and the closure
entry, `compile-curry-case`, 7.sf:634-668. -/
def enter {W : Type} (P : Prog) (d : Dest) (k : Nat) (r : Regs) (σ : CStore W) : Option (CState W) :=
  match d with
  | .label l => (P.code l).map (fun c => .run c r σ)
  | .jump =>
    match r 0 with
    | some (.blk (n + 1) fields) =>
      match P.cases[n]? with
      | some c =>
        if k = c.params + 1 ∧ c.captured = fields.length then
          (P.code c.label).map (fun code => .run code ((r.load (c.params + 1) fields).shift 1) σ)
        else none
      | none => none
    | _ => none

/-- One step.  `Q p n` is the order in which the C compiler evaluates the `n` operands of the primitive `p`. -/
def cstep {W : Type} (M : Sem W) (Q : PrimName → Nat → List Nat) (P : Prog) : CState W → Option (CState W)
  | .run (.set t e :: rest) r σ => some (.ev e [] (.set t rest) r σ)
  | .run (.prim t gc live p es :: rest) r σ =>
    some (.args false live p es (fun _ => .trap) (Q p es.length) [] (.set t rest) (if gc then r.gc live else r) σ)
  | .run (.close t live n es :: rest) r σ => some (.push t n es [] rest (r.gc live) σ)
  | .run (.static x n :: rest) r σ => some (.run rest r { σ with glob := fun y => if y = x then some (.blk n []) else σ.glob y })
  | .run (.ite e a b :: rest) r σ => some (.ev e [] (.branch a b rest) r σ)
  | .run (.call d sh es :: _) r σ => some (.move d sh 0 es r σ)
  | .run _ _ _ => none
  | .ev (.reg i) fs l r σ =>
    match r i with
    | some v => some (.ret v fs l r σ)
    | none => none
  | .ev (.glob x) fs l r σ =>
    match σ.glob x with
    | some v => some (.ret v fs l r σ)
    | none => none
  | .ev (.ite a b c) fs l r σ => some (.ev a (.ite b c :: fs) l r σ)
  | .ev (.both a b) fs l r σ => some (.ev a (.both b :: fs) l r σ)
  | .ev (.either a b) fs l r σ => some (.ev a (.either b :: fs) l r σ)
  | .ev (.prim gc live p es) fs l r σ => some (.args gc live p es (fun _ => .trap) (Q p es.length) fs l r σ)
  | .ev .bad _ _ _ _ => none
  | .args gc live p es d (i :: todo) fs l r σ =>
    match es[i]? with
    | some e => some (.ev e (.args gc live p es d i todo :: fs) l r σ)
    | none => none
  | .args gc live p es d [] fs l r σ =>
    if gc && !fs.all Frame.clean then none
    else
      match doPrim M p (vals d es.length) σ with
      | some (.ok v σ') => some (.ret v fs l (if gc then r.gc live else r) σ')
      | some (.stop v) => some (.done v σ.world)
      | none => none
  | .ret v (.ite b c :: fs) l r σ => some (.ev (if v.isFalse then c else b) fs l r σ)
  | .ret v (.both b :: fs) l r σ => if v.isFalse then some (.ret (.atom 0) fs l r σ) else some (.ev b (.bool :: fs) l r σ)
  | .ret v (.either c :: fs) l r σ => if v.isFalse then some (.ev c (.bool :: fs) l r σ) else some (.ret (.atom 2) fs l r σ)
  | .ret v (.bool :: fs) l r σ => some (.ret v.toBool fs l r σ)
  | .ret v (.args gc live p es d i todo :: fs) l r σ => some (.args gc live p es (upd d i v) todo fs l r σ)
  | .ret v [] (.set t rest) r σ => some (.run rest (t.regs v r) (t.store v σ))
  | .ret v [] (.branch a b rest) r σ => some (.run ((if v.isFalse then b else a) ++ rest) r σ)
  | .ret v [] (.push t n es acc rest) r σ => some (.push t n es (v :: acc) rest r σ)
  | .ret v [] (.move d sh k es) r σ => some (.move d sh (k + 1) es (r.set (sh.getD 0 + k) v) σ)
  | .push t n (e :: es) acc rest r σ => some (.ev e [] (.push t n es acc rest) r σ)
  | .push t n [] acc rest r σ => some (.run rest (t.regs (.blk n acc) r) (t.store (.blk n acc) σ))
  | .move d sh k (e :: es) r σ => some (.ev e [] (.move d sh k es) r σ)
  | .move d sh k [] r σ => enter P d k (r.shift (sh.getD 0)) σ
  | .done _ _ => none

/-- the world of a state. -/
def CState.world {W : Type} : CState W → W
  | .run _ _ σ => σ.world
  | .ev _ _ _ _ σ => σ.world
  | .args _ _ _ _ _ _ _ _ _ σ => σ.world
  | .ret _ _ _ _ σ => σ.world
  | .push _ _ _ _ _ _ σ => σ.world
  | .move _ _ _ _ _ σ => σ.world
  | .done _ w => w

/-- the result of a finished program. -/
def CState.out {W : Type} : CState W → Option View
  | .done v _ => some v.view
  | _ => none

/-- The machine for the generated code `P`. -/
def cSys {W : Type} (M : Sem W) (Q : PrimName → Nat → List Nat) (P : Prog) : Sys W where
  S := CState W
  step := cstep M Q P
  world := CState.world
  out := CState.out
  final := by intro s u h; cases s <;> first | rfl | (simp [CState.out] at h)

end Verif.Cgen
