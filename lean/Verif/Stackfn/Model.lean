import Verif.Core.Machine
/-
Code generation for stack functions, /repo/6.sf:637-868: procedures without allocation become C functions, their loops become labels and
`goto`.  The check that a procedure can be compiled like this is `ag-stack-function?`, /repo/4.sf:479-540.

Simplifications.  The generated C text is a syntax tree; C variables and labels are named by ids (their names contain time stamps, 6.sf:650-676). Conversions
between C types (`obj_from_…`) are left out: values have one type.  `label-alist` (6.sf:661-680) only grows in the code; the model passes down the
entries in scope, which are the same for ids bound once.  Calls of `cg-body` on expressions made up by `cg-let` and by the `if-exp` clause
are unfolded.  Compiler errors are the statement `bad`.
-/
namespace Verif.Stackfn
open Verif.Core

/-- C expressions.  `call` is a recursive call of the function; `gc` tells if a primitive can allocate. -/
inductive CExp where
  | var (x : Id)
  | cond (a b c : CExp)
  | call (args : List CExp)
  | prim (gc : Bool) (p : PrimName) (args : List CExp)

/-- Targets, the texts `return`, `x =` and `(void)`. -/
inductive Tgt where
  | ret
  | var (x : Id)
  | void
deriving DecidableEq

/-- Labels: of procedures, and for the ends of loops (`gen-label-c-name`, 6.sf:661-662). -/
inductive Lab where
  | id (x : Id)
  | done (n : Nat)
deriving DecidableEq

/-- C statements.  `block` is `{ … }`; `decl x e` declares a variable. -/
inductive Stmt where
  | put (t : Tgt) (e : CExp)
  | decl (x : Id) (e : Option CExp)
  | ite (e : CExp) (a b : List Stmt)
  | block (ss : List Stmt)
  | label (l : Lab)
  | goto (l : Lab)
  | bad

/-- `(prim-cexp? prim)`, 6.sf:134-136. -/
abbrev Texts := PrimName → Bool

mutual
/-- `cg-cexp?`, 6.sf:682-697. -/
def isCexp (T : Texts) (f : Id) : Exp → Bool
  | .var _ => true
  | .ite a b c => isCexp T f a && isCexp T f b && isCexp T f c
  | .prim _ p es => T p && areCexp T f es
  | .app (.var g) es => g = f && areCexp T f es
  | .app (.lam [] b) [] => isCexp T f b
  | .app (.lam [x] (.var y)) [e] => x = y && isCexp T f e
  | _ => false
/-- `(andmap cg-cexp? rands)`. -/
def areCexp (T : Texts) (f : Id) : List Exp → Bool
  | [] => true
  | e :: es => isCexp T f e && areCexp T f es
end

mutual
/-- `cg-contains-tail-call?`, 6.sf:699-716.  There is no clause for `loop-exp`: the application of a `fix` counts as an application. -/
def tc (g : Id) : Exp → Bool
  | .ite _ b c => tc g b || tc g c
  | .app (.lam [] b) [] => tc g b
  | .app (.lam [x] (.var y)) [e] => x = y && tc g e
  | .app (.lam ids b) es => decide (ids.length = es.length) && tc g b
  | .app (.var h) _ => h = g
  | .fix _ lams b => tc g b || tcLams g lams
  | _ => false
/-- `(ormap tc? (map lambda-exp->body lams))`. -/
def tcLams (g : Id) : List Exp → Bool
  | [] => false
  | .lam _ b :: es => tc g b || tcLams g es
  | _ :: es => tcLams g es
end

mutual
/-- `cg-cexp`, 6.sf:718-735. -/
def cgCexp : Exp → CExp
  | .var x => .var x
  | .ite a b c => .cond (cgCexp a) (cgCexp b) (cgCexp c)
  | .app (.lam [] b) [] => cgCexp b
  | .app (.lam [_] (.var _)) [e] => cgCexp e
  | .app _ es => .call (cgCexps es)
  | .prim eff p es => .prim eff.alloc p (cgCexps es)
  | _ => .call []
/-- `(map cg-cexp rands)`. -/
def cgCexps : List Exp → List CExp
  | [] => []
  | e :: es => cgCexp e :: cgCexps es
end

/-- `label-alist`: labels and their parameters, 6.sf:664-680. -/
abbrev Labels := List (Id × List Id)

/-- `id->rand-ids`, 6.sf:670-672. -/
def params (g : Id) : Labels → Option (List Id)
  | [] => none
  | (h, ps) :: Γ => if h = g then some ps else params g Γ

/-- the parameters of a lambda expression. -/
def lamIds : Exp → List Id
  | .lam ps _ => ps
  | _ => []

/-- the labels of a group, registered one after the other, 6.sf:790-793. -/
def register (ids : List Id) (lams : List Exp) (Γ : Labels) : Labels := (ids.zip (lams.map lamIds)).reverse ++ Γ

/-- `(andmap var-exp? rands)`, and the variables. -/
def varIds : List Exp → Option (List Id)
  | [] => some []
  | .var x :: es => (varIds es).map (x :: ·)
  | _ :: _ => none

/-- assignments of arguments to parameters, 6.sf:833-836. -/
def assigns : List Id → List CExp → List Stmt
  | p :: ps, e :: es => .put (.var p) e :: assigns ps es
  | _, _ => []

/-- the end of the `app-exp` clause, 6.sf:831-840: the operands are variables and no parameters.  If this is no tail call, `g` is called as
a C function; there is only one for `f`. -/
def jumpTo (f g : Id) (ps : List Id) (args : List CExp) : Tgt → List Stmt
  | .ret => assigns ps args ++ [.goto (.id g)]
  | t => if g = f then [.put t (.call args)] else [.bad]

/-- names of temporaries: `(lexical-id 'tmp)`. -/
def temps (n : Nat) : Nat → List Id
  | 0 => []
  | k + 1 => lexId n :: temps (n + 1) k

/-- declarations of a `let`, 6.sf:764-770. -/
def decls (T : Texts) (f : Id) : List Id → List Exp → List Stmt
  | x :: xs, e :: es => .decl x (if isCexp T f e then some (cgCexp e) else none) :: decls T f xs es
  | _, _ => []

/-- the operands of a primitive when some are kept in temporaries, starting with `lexId k`: `out-rands` in `cg-let`, 6.sf:740-750. -/
def hoisted (T : Texts) (f : Id) : List Exp → Nat → List CExp
  | [], _ => []
  | e :: es, k => if isCexp T f e then cgCexp e :: hoisted T f es k else .var (lexId k) :: hoisted T f es (k + 1)

/-- how many operands are no C expressions. -/
def complex (T : Texts) (f : Id) : List Exp → Nat
  | [] => 0
  | e :: es => if isCexp T f e then complex T f es else complex T f es + 1

/-- a `goto` and a label for the end of a loop, 6.sf:800, 812. -/
def gotoDone : Option Nat → List Stmt
  | some n => [.goto (.done n)]
  | none => []
@[inherit_doc gotoDone]
def labelDone : Option Nat → List Stmt
  | some n => [.label (.done n)]
  | none => []

/-- the `app-exp` clause, 6.sf:826-843, with `cg-let` for all operands; `r` is the code for the operands that are no C expressions. -/
def appCode (T : Texts) (f g : Id) (es : List Exp) (t : Tgt) (Γ : Labels) (n : Nat) (r : List Stmt × Nat) : List Stmt × Nat :=
  match params g Γ with
  | none => ([.bad], n)
  | some ps =>
    if (varIds es).any (fun xs => xs.all (fun x => !ps.contains x)) then (jumpTo f g ps (cgCexps es) t, n)
    else
      let ts := temps n es.length
      ([.block (decls T f ts.reverse es.reverse ++ (r.1 ++ jumpTo f g ps (ts.map .var) t))], r.2)

mutual
/-- `cg-body`, 6.sf:752-843, with the counter for time stamps. -/
def cgBody (T : Texts) (f : Id) : Exp → Tgt → Labels → Nat → List Stmt × Nat
  | .var x, t, _, n => ([.put t (.var x)], n)
  | .ite a b c, t, Γ, n =>
    if isCexp T f (.ite a b c) && !tc f (.ite a b c) then ([.put t (cgCexp (.ite a b c))], n)
    else if isCexp T f a then
      let cb := cgBody T f b t Γ n
      let cc := cgBody T f c t Γ cb.2
      ([.ite (cgCexp a) cb.1 cc.1], cc.2)
    else
      let ca := cgBody T f a (.var (lexId n)) Γ (n + 1)
      if isCexp T f b && isCexp T f c && !(tc f b || tc f c) then
        ([.block (.decl (lexId n) none :: (ca.1 ++ [.put t (.cond (.var (lexId n)) (cgCexp b) (cgCexp c))]))], ca.2)
      else
        let cb := cgBody T f b t Γ ca.2
        let cc := cgBody T f c t Γ cb.2
        ([.block (.decl (lexId n) none :: (ca.1 ++ [.ite (.var (lexId n)) cb.1 cc.1]))], cc.2)
  | .prim eff p es, t, Γ, n =>
    if areCexp T f es then ([.put t (.prim eff.alloc p (cgCexps es))], n)
    else
      let m := n + complex T f es
      let r := cgRev T f es n Γ m
      ([.block (((temps n (complex T f es)).reverse.map (Stmt.decl · none)) ++ (r.1 ++ [.put t (.prim eff.alloc p (hoisted T f es n))]))], r.2)
  | .app (.var g) es, t, Γ, n => appCode T f g es t Γ n (cgRevApp T f es n Γ (n + es.length))
  | .app (.lam [] b) [], t, Γ, n => cgBody T f b t Γ n
  | .app (.lam ids b) es, t, Γ, n =>
    if isIdLet (.app (.lam ids b) es) then cgOne T f es t Γ n
    else if isBegin (.app (.lam ids b) es) then
      let r := cgOne T f es .void Γ n
      let cb := cgBody T f b t Γ r.2
      (r.1 ++ cb.1, cb.2)
    else if ids.length = es.length then
      let r := cgInits T f ids es Γ n
      let cb := cgBody T f b t Γ r.2
      ([.block (decls T f ids es ++ (r.1 ++ cb.1))], cb.2)
    else ([.bad], n)
  | .app (.fix [x] [.lam ps b] (.var y)) es, t, Γ, n =>
    if x = y then
      let d := if t = .ret then none else some n
      let Γ' := register [x] [.lam ps b] Γ
      let cb := appCode T f x es t Γ' (n + 1) (cgRevApp T f es (n + 1) Γ' (n + 1 + es.length))
      -- the label is always called, from the body of the loop made up
      let cl := cgBody T f b t Γ' cb.2
      ([.block (ps.map (Stmt.decl · none) ++ (cb.1 ++ gotoDone d ++ (.label (.id x) :: (cl.1 ++ gotoDone d)) ++ labelDone d))], cl.2)
    else ([.bad], n)
  | .fix ids lams b, t, Γ, n =>
    let d := if t = .ret then none else some n
    let Γ' := register ids lams Γ
    let cb := cgBody T f b t Γ' (n + 1)
    let cl := cgLams T f (fun g => tc g b || tcLams g lams) d ids lams t Γ' cb.2
    ([.block ((lams.map lamIds).flatten.map (Stmt.decl · none) ++ (cb.1 ++ gotoDone d ++ cl.1 ++ labelDone d))], cl.2)
  | _, _, _, n => ([.bad], n)
/-- the operand of a `let` with one variable. -/
def cgOne (T : Texts) (f : Id) : List Exp → Tgt → Labels → Nat → List Stmt × Nat
  | [e], t, Γ, n => cgBody T f e t Γ n
  | _, _, _, n => ([.bad], n)
/-- the code for operands of a `let` that are no C expressions, 6.sf:771-776. -/
def cgInits (T : Texts) (f : Id) : List Id → List Exp → Labels → Nat → List Stmt × Nat
  | x :: xs, e :: es, Γ, n =>
    if isCexp T f e then cgInits T f xs es Γ n
    else
      let c := cgBody T f e (.var x) Γ n
      let r := cgInits T f xs es Γ c.2
      (c.1 ++ r.1, r.2)
  | _, _, _, n => ([], n)
/-- the same for the `let` made up for a primitive: only these operands have temporaries, `lexId k`, …, and the last one comes first. -/
def cgRev (T : Texts) (f : Id) : List Exp → Nat → Labels → Nat → List Stmt × Nat
  | [], _, _, n => ([], n)
  | e :: es, k, Γ, n =>
    if isCexp T f e then cgRev T f es k Γ n
    else
      let r := cgRev T f es (k + 1) Γ n
      let c := cgBody T f e (.var (lexId k)) Γ r.2
      (r.1 ++ c.1, c.2)
/-- the same for the `let` made up for a call: all operands have temporaries. -/
def cgRevApp (T : Texts) (f : Id) : List Exp → Nat → Labels → Nat → List Stmt × Nat
  | [], _, _, n => ([], n)
  | e :: es, k, Γ, n =>
    let r := cgRevApp T f es (k + 1) Γ n
    if isCexp T f e then r
    else
      let c := cgBody T f e (.var (lexId k)) Γ r.2
      (r.1 ++ c.1, c.2)
/-- the code for the procedures of a `fix`, 6.sf:801-811; `used` tells if there is a tail call. -/
def cgLams (T : Texts) (f : Id) (used : Id → Bool) (d : Option Nat) : List Id → List Exp → Tgt → Labels → Nat → List Stmt × Nat
  | x :: xs, .lam _ b :: lams, t, Γ, n =>
    if used x then
      let c := cgBody T f b t Γ n
      let r := cgLams T f used d xs lams t Γ c.2
      (.label (.id x) :: (c.1 ++ gotoDone d) ++ r.1, r.2)
    else cgLams T f used d xs lams t Γ n
  | _, _, _, _, n => ([], n)
end

/-- A C function. -/
structure Fn where
  params : List Id
  code : List Stmt

/-- `stack-function-code-generate`, 6.sf:850-868, for `(lambda ids body)`. -/
def cgFn (T : Texts) (f : Id) (ids : List Id) (body : Exp) (n : Nat) : Fn :=
  ⟨ids, (if tc f body then [.label (.id f)] else []) ++ (cgBody T f body .ret [(f, ids)] n).1⟩

mutual
/-- `ag-stack-function?`, 4.sf:487-537, for a procedure in which globals have been replaced (`ag-subst`): `known` are the globals that stay
variables.  `xs` are the local variables, `ls` the labels in scope. -/
def agStack (f : Id) (known : Id → Bool) : Exp → List Id → List Id → Bool → Bool
  | .var x, xs, _, _ => xs.contains x || known x
  | .ite a b c, xs, ls, tail => agStack f known a xs ls false && agStack f known b xs ls tail && agStack f known c xs ls tail
  | .prim eff _ es, xs, ls, _ => !eff.alloc && agStacks f known es xs ls
  | .app (.lam ids b) es, xs, ls, tail => decide (ids.length = es.length) && agStacks f known es xs ls && agStack f known b (ids ++ xs) ls tail
  | .app (.fix [x] [.lam ps b] (.var y)) es, xs, ls, tail =>
    x = y && tail && agStacks f known es xs (x :: ls) && agStack f known b (ps ++ xs) (x :: ls) true
  | .app (.var g) es, xs, ls, tail => (decide (g = f) || (tail && ls.contains g)) && agStacks f known es xs ls
  | .fix ids lams b, xs, ls, tail => agStack f known b xs (ids ++ ls) tail && agLams f known lams xs (ids ++ ls)
  | _, _, _, _ => false
/-- `(andmap sfn/nt? rands)`. -/
def agStacks (f : Id) (known : Id → Bool) : List Exp → List Id → List Id → Bool
  | [], _, _ => true
  | e :: es, xs, ls => agStack f known e xs ls false && agStacks f known es xs ls
/-- the procedures of a group, 4.sf:518-523. -/
def agLams (f : Id) (known : Id → Bool) : List Exp → List Id → List Id → Bool
  | [], _, _ => true
  | .lam ps b :: es, xs, ls => agStack f known b (ps ++ xs) ls true && agLams f known es xs ls
  | _ :: _, _, _ => false
end

/-! ### a machine for the C functions -/

/-- Results: a value, a failed check, the end of the program (`exit`), not yet known, code that a C compiler rejects or whose meaning is undefined. -/
inductive Res (W α : Type) where
  | ok (a : α)
  | fail
  | stop (v : Val) (w : W)
  | more
  | bad

variable {W : Type}

/-- one computation after the other. -/
def Res.bind {α β : Type} (r : Res W α) (k : α → Res W β) : Res W β :=
  match r with
  | .ok a => k a
  | .fail => .fail
  | .stop v w => .stop v w
  | .more => .more
  | .bad => .bad

/-- C variables; `none` is an undefined value. -/
abbrev Frame := Id → Option Val

/-- assignment. -/
def Frame.set (fr : Frame) (x : Id) (v : Option Val) : Frame := fun y => if y = x then v else fr y

/-- the meaning of a call, for arguments and store. -/
abbrev Callee (W : Type) := List Val → Store W → Res W (Val × Store W)

mutual
/-- C expressions; operands are evaluated from left to right (C leaves the order open).  Allocation can move objects, and C variables are
not updated. -/
def evalC (M : Sem W) (F : Callee W) (fr : Frame) : CExp → Store W → Res W (Val × Store W)
  | .var x, σ =>
    match (if x.isGlobal then σ.glob x else fr x) with
    | some v => .ok (v, σ)
    | none => .fail
  | .cond a b c, σ => (evalC M F fr a σ).bind fun r => if r.1.isFalse then evalC M F fr c r.2 else evalC M F fr b r.2
  | .call es, σ => (evalCs M F fr es σ).bind fun r => F r.1 r.2
  | .prim gc p es, σ => (evalCs M F fr es σ).bind fun r =>
    if gc then .bad
    else match doPrim M p r.1 r.2 with
    | some (.ok v σ') => .ok (v, σ')
    | some (.stop v) => .stop v r.2.world
    | none => .fail
@[inherit_doc evalC]
def evalCs (M : Sem W) (F : Callee W) (fr : Frame) : List CExp → Store W → Res W (List Val × Store W)
  | [], σ => .ok ([], σ)
  | e :: es, σ => (evalC M F fr e σ).bind fun r => (evalCs M F fr es r.2).bind fun r' => .ok (r.1 :: r'.1, r'.2)
end

/-- What a statement does: go on, return, jump. -/
inductive Flow (W : Type) where
  | next (fr : Frame) (σ : Store W)
  | ret (v : Val) (σ : Store W)
  | jump (l : Lab) (fr : Frame) (σ : Store W)

/-- `return e;`, `x = e;`, `(void) e;` -/
def put (t : Tgt) (fr : Frame) (r : Val × Store W) : Flow W :=
  match t with
  | .ret => .ret r.1 r.2
  | .var x => .next (fr.set x (some r.1)) r.2
  | .void => .next fr r.2

mutual
/-- one statement. -/
def exec (M : Sem W) (F : Callee W) : Stmt → Frame → Store W → Res W (Flow W)
  | .put t e, fr, σ => (evalC M F fr e σ).bind fun r => .ok (put t fr r)
  | .decl x none, fr, σ => .ok (.next (fr.set x none) σ)
  | .decl x (some e), fr, σ => (evalC M F fr e σ).bind fun r => .ok (.next (fr.set x (some r.1)) r.2)
  | .ite e a b, fr, σ => (evalC M F fr e σ).bind fun r => if r.1.isFalse then execs M F b fr r.2 else execs M F a fr r.2
  | .block ss, fr, σ => execs M F ss fr σ
  | .label _, fr, σ => .ok (.next fr σ)
  | .goto l, fr, σ => .ok (.jump l fr σ)
  | .bad, _, _ => .bad
/-- a sequence of statements. -/
def execs (M : Sem W) (F : Callee W) : List Stmt → Frame → Store W → Res W (Flow W)
  | [], fr, σ => .ok (.next fr σ)
  | s :: ss, fr, σ => (exec M F s fr σ).bind fun fl =>
    match fl with
    | .next fr' σ' => execs M F ss fr' σ'
    | fl => .ok fl
end

mutual
/-- the code from a label to the end of the function, if the label is in this statement. -/
def findStmt (l : Lab) : Stmt → Option (List Stmt)
  | .ite _ a b =>
    match findLabel l a with
    | some c => some c
    | none => findLabel l b
  | .block ss => findLabel l ss
  | .label l' => if l' = l then some [] else none
  | _ => none
@[inherit_doc findStmt]
def findLabel (l : Lab) : List Stmt → Option (List Stmt)
  | [] => none
  | s :: ss =>
    match findStmt l s with
    | some c => some (c ++ ss)
    | none => findLabel l ss
end

/-- variables at the start of a call. -/
def initFrame : List Id → List Val → Frame
  | x :: xs, v :: vs => (initFrame xs vs).set x (some v)
  | _, _ => fun _ => none

/-- Runs code of the function `P`, with at most `n` jumps and nested calls. -/
def run (M : Sem W) (P : Fn) : Nat → List Stmt → Frame → Store W → Res W (Val × Store W)
  | 0, _, _, _ => .more
  | n + 1, code, fr, σ =>
    (execs M (fun vs σ => if P.params.length = vs.length then run M P n P.code (initFrame P.params vs) σ else .bad) code fr σ).bind fun fl =>
      match fl with
      | .ret v σ' => .ok (v, σ')
      | .next _ _ => .fail
      | .jump l fr' σ' =>
        match findLabel l P.code with
        | some k => run M P n k fr' σ'
        | none => .bad

/-- A call of the C function. -/
def callFn (M : Sem W) (P : Fn) (n : Nat) (vs : List Val) (σ : Store W) : Res W (Val × Store W) := run M P n P.code (initFrame P.params vs) σ

end Verif.Stackfn
