import Verif.Sets.Model
/-
Core expressions of the compiler: /repo/3.sf:146-402 (ids, abstract syntax, virtual variants) and 3.sf:768-863
(information on variable use).

Simplifications.  An id is its time stamp and its mark (`ctype` equal to `#t`); symbols only serve for names in
the output.  `eq?` of ids is equality (time stamps are never reused).  Ids with a C type (`cvar-id`, made by the
last pass only) and private constants are not modelled.  Primitives, which are C text in /repo, are named by
`PrimName`; the compiler recognises the same few of them by their text.  The C type component of `var-use` is
dropped.  Memoization (3.sf:525-570) returns the memoized value and is transparent.
-/
namespace Verif.Core
open Verif.Sets

/-- Ids, 3.sf:170-240. -/
structure Id where
  ts : Int
  mark : Bool
deriving DecidableEq

/-- `global-id?`, 3.sf:201-202. -/
def Id.isGlobal (x : Id) : Bool := x.ts < 0
/-- `global-id-constant?`, 3.sf:207-208. -/
def Id.isGlobalConst (x : Id) : Bool := x.isGlobal && x.mark
/-- `label-id?`, 3.sf:232-233. -/
def Id.isLabel (x : Id) : Bool := !x.isGlobal && x.mark
/-- `lexical-id` with time stamp `n`, 3.sf:217-218. -/
def lexId (n : Nat) : Id := ⟨n, false⟩
/-- `label-id` with time stamp `n`, 3.sf:229-230. -/
def labelId (n : Nat) : Id := ⟨n, true⟩

/-- effects, 3.sf:149-156; `alloc`, `obs`, `prod` are `*`, `?`, `!`. -/
structure Effect where
  alloc : Bool
  obs : Bool
  prod : Bool
deriving DecidableEq

/-- `no-effect`. -/
def noEffect : Effect := ⟨false, false, false⟩
/-- `ref-transparent-effect?`, 3.sf:158-159. -/
def Effect.refTransparent (e : Effect) : Bool := e = noEffect
/-- `removable-if-dead-effect?`, 3.sf:161-162. -/
def Effect.removable (e : Effect) : Bool := !e.prod

/-- Primitives.  `void` is 3.sf:272-273, `halt` 3.sf:504-514, `ktrap` 5.sf:158-159, the box operations
4.sf:293-344; `cons`, `car`, `cdr` stand for the operations on immutable structures and `op` for all others. -/
inductive PrimName where
  | void | halt | ktrap | box | boxref | boxset | cons | car | cdr
  | op (n : Nat)
deriving DecidableEq

/-- core expressions, 3.sf:255-264. -/
inductive Exp where
  | var (x : Id)
  | set (x : Id) (e : Exp)
  | ite (a b c : Exp)
  | prim (eff : Effect) (p : PrimName) (rands : List Exp)
  | app (f : Exp) (rands : List Exp)
  | lam (ids : List Id) (body : Exp)
  | fix (ids : List Id) (lams : List Exp) (body : Exp)
  | letcc (x : Id) (body : Exp)
  | withcc (k e : Exp)

/-- `void-exp`, 3.sf:272-273. -/
def voidExp : Exp := .prim noEffect .void []
/-- `let-exp`, 3.sf:298-299. -/
def letExp (ids : List Id) (rands : List Exp) (body : Exp) : Exp := .app (.lam ids body) rands

/-! ### information on variable use -/

/-- `var-use`, 3.sf:770. -/
structure Use where
  assign : Bool
  applied : Bool
deriving DecidableEq

mutual
/-- `exp-vinfo`, 3.sf:772-807. -/
def vinfo : Exp → List (Id × Use)
  | .var x => [(x, ⟨false, false⟩)]
  | .set x e => (x, ⟨true, false⟩) :: vinfo e
  | .ite a b c => vinfo a ++ (vinfo b ++ vinfo c)
  | .prim _ _ rands => vinfoPrim rands []
  | .app f rands =>
    vinfoAll rands (match f with | .var x => [(x, ⟨false, true⟩)] | f => vinfo f)
  | .lam ids body => keep (fun u => !memq u.1 ids) (vinfo body)
  | .fix ids lams body => keep (fun u => !memq u.1 ids) (vinfoAll lams (vinfo body))
  | .letcc x body => keep (fun u => !decide (u.1 = x)) (vinfo body)
  | .withcc k e => vinfo k ++ vinfo e
/-- the loop over the operands of a primitive, 3.sf:782-789; a variable operand adds its use, like
`exp-vinfo` does. -/
def vinfoPrim : List Exp → List (Id × Use) → List (Id × Use)
  | [], vi => vi
  | e :: es, vi => vinfoPrim es (vinfo e ++ vi)
/-- `(reduce-right (lambda (exp vi) (append (exp-vinfo exp) vi)) base exps)`. -/
def vinfoAll : List Exp → List (Id × Use) → List (Id × Use)
  | [], base => base
  | e :: es, base => vinfo e ++ vinfoAll es base
end

/-- `var-uses-in-exp`, 3.sf:809-816. -/
def varUses (x : Id) (e : Exp) : List Use :=
  let rec loop : List (Id × Use) → List Use → List Use
    | [], uses => uses
    | u :: vi, uses => if x = u.1 then loop vi (u.2 :: uses) else loop vi uses
  loop (vinfo e) []

/-- `var-referenced-in-exp?`, 3.sf:818-819. -/
def referenced (x : Id) (e : Exp) : Bool := !(varUses x e).isEmpty
/-- `var-assigned-in-exp?`, 3.sf:821-822. -/
def assigned (x : Id) (e : Exp) : Bool := (varUses x e).any (·.assign)
/-- `var-reference-count`, 3.sf:824-825. -/
def refCount (x : Id) (e : Exp) : Nat := (varUses x e).length
/-- `var-only-applied-in-exp?`, 3.sf:831-832. -/
def onlyApplied (x : Id) (e : Exp) : Bool := (varUses x e).all (·.applied)

/-- `exp->free-vars`, 3.sf:849-855. -/
def freeVars (e : Exp) : List Id := reduceLeft (fun (u : Id × Use) res => adjoinq u.1 res) [] (vinfo e)
/-- `exp->free-lexvars`, 3.sf:857-863. -/
def freeLexvars (e : Exp) : List Id :=
  reduceLeft (fun (u : Id × Use) res => if u.1.isGlobal then res else adjoinq u.1 res) [] (vinfo e)

/-! ### virtual variants -/

/-- `let-exp?`, 3.sf:301-306. -/
def isLet : Exp → Bool
  | .app (.lam ids _) rands => ids.length = rands.length
  | _ => false
/-- `identity-let-exp?`, 3.sf:326-347. -/
def isIdLet : Exp → Bool
  | .app (.lam [x] (.var y)) [_] => x = y
  | _ => false
/-- `null-let-exp?`, 3.sf:361-366. -/
def isNullLet : Exp → Bool
  | .app (.lam [] _) [] => true
  | _ => false
/-- `degenerate-let-exp?`, 3.sf:377-378. -/
def isDegLet (e : Exp) : Bool := isNullLet e || isIdLet e
/-- `begin-exp?`, 3.sf:395-400. -/
def isBegin : Exp → Bool
  | .app (.lam [x] b) [_] => !referenced x b
  | _ => false
/-- `void-exp?`, 3.sf:274-275. -/
def isVoid : Exp → Bool
  | .prim _ .void _ => true
  | _ => false

end Verif.Core
