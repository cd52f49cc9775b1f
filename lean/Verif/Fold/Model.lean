import Verif.Core.Machine
/-
Constant folding, /repo/4.sf:652-731.

Simplifications.  The C types of primitives, which /repo finds in their C text (6.sf:121-152), are given by tables; the
types `obj` and `void`, which carry no information, are left out of them (where /repo compares types, it treats these
like a missing type; `exp-ctype` may give `obj` for a conditional with two branches of this type, which is then ignored).
Time stamps of new ids are passed along explicitly.  A new redex is processed again, so the recursion is not structural;
the model stops at a given depth and leaves the expression as it is there.
-/
namespace Verif.Fold
open Verif.Core

/-- C types found in the text of a primitive: `prim-ctype` (6.sf:128-132), `typecheck-prim-ctype` (6.sf:138-144),
`typeassert-prim-ctype` (6.sf:146-152). -/
structure Types (τ : Type) where
  ret : PrimName → Option τ
  check : PrimName → Option τ
  assert : PrimName → Option τ

/-- types of variables. -/
abbrev TEnv (τ : Type) := List (Id × Option τ)

variable {τ : Type} [DecidableEq τ]

/-- `(cond [(assq id env) => cdr] [else #f])`, 3.sf:868. -/
def tlook (x : Id) : TEnv τ → Option τ
  | [] => none
  | (y, t) :: Γ => if x = y then t else tlook x Γ

/-- `(append (map (lambda (id rand) (cons id …)) ids rands) env)`, 4.sf:662-663. -/
def exts : List Id → List (Option τ) → TEnv τ → TEnv τ
  | x :: xs, t :: ts, Γ => (x, t) :: exts xs ts Γ
  | _, _, Γ => Γ

mutual
/-- `exp-ctype`, 3.sf:865-880. -/
def ctype (t : Types τ) : TEnv τ → Exp → Option τ
  | Γ, .var x => tlook x Γ
  | Γ, .ite _ b c =>
    match ctype t Γ b, ctype t Γ c with
    | some x, some y => if x = y then some x else none
    | _, _ => none
  | Γ, .app (.lam ids b) es => if ids.length = es.length then ctype t (exts ids (ctypes t Γ es) Γ) b else none
  | _, .prim _ p _ => t.ret p
  | _, _ => none
/-- for lists. -/
def ctypes (t : Types τ) : TEnv τ → List Exp → List (Option τ)
  | _, [] => []
  | Γ, e :: es => ctype t Γ e :: ctypes t Γ es
end

/-- `fold-typecheck-ctype`, 4.sf:658-673: whether the result of the test is known. -/
def foldTest (t : Types τ) : TEnv τ → Exp → Option Bool
  | Γ, .app (.lam ids b) es => if ids.length = es.length then foldTest t (exts ids (ctypes t Γ es) Γ) b else none
  | Γ, .prim _ p [r] =>
    match t.check p, ctype t Γ r with
    | some c, some c' => some (decide (c = c'))
    | _, _ => none
  | _, _ => none

/-- `fold-typeassert-ctype`, 4.sf:675-684: the variable whose type is asserted, and the type. -/
def foldAssert (t : Types τ) (Γ : TEnv τ) : Exp → Option (Id × τ)
  | .prim _ p [.var x] =>
    match t.assert p, tlook x Γ with
    | some T, none => some (x, T)
    | _, _ => none
  | _ => none

/-- `begin-exp`, 3.sf:391-393, with a new id with time stamp `k`. -/
def beginExp (k : Nat) (e1 e2 : Exp) : Exp := .app (.lam [lexId k] e2) [e1]

/-- a pass over a list, from left to right. -/
def mapK (f : Nat → Exp → Exp × Nat) : Nat → List Exp → List Exp × Nat
  | k, [] => ([], k)
  | k, e :: es => let r := f k e; let rs := mapK f r.2 es; (r.1 :: rs.1, rs.2)

/-- `const-fold`, 4.sf:687-729, with recursion depth at most `n`; returns the next unused time stamp, too. -/
def cf (t : Types τ) : Nat → TEnv τ → Nat → Exp → Exp × Nat
  | 0, _, k, e => (e, k)
  | n + 1, Γ, k, e =>
    match e with
    | .var x => (.var x, k)
    | .set x e => let r := cf t n Γ k e; (.set x r.1, r.2)
    | .ite a b c =>
      let ra := cf t n Γ k a; let rb := cf t n Γ ra.2 b; let rc := cf t n Γ rb.2 c
      match foldTest t Γ ra.1 with
      | some true => (beginExp rc.2 ra.1 rb.1, rc.2 + 1)
      | some false => (beginExp rc.2 ra.1 rc.1, rc.2 + 1)
      | none => (.ite ra.1 rb.1 rc.1, rc.2)
    | .prim eff p es => let rs := mapK (cf t n Γ) k es; (.prim eff p rs.1, rs.2)
    | .lam ids b => let r := cf t n Γ k b; (.lam ids r.1, r.2)
    | .fix ids lams b => let rs := mapK (cf t n Γ) k lams; let r := cf t n Γ rs.2 b; (.fix ids rs.1 r.1, r.2)
    | .letcc x b => let r := cf t n Γ k b; (.letcc x r.1, r.2)
    | .withcc c e => let rc := cf t n Γ k c; let r := cf t n Γ rc.2 e; (.withcc rc.1 r.1, r.2)
    | .app f es =>
      if isDegLet (.app f es) then
        match es with
        | [] => (match f with | .lam _ b => cf t n Γ k b | f => (.app f [], k))
        | e :: _ => cf t n Γ k e
      else if isBegin (.app f es) then
        match f, es with
        | .lam _ e2, e1 :: _ =>
          let r1 := cf t n Γ k e1
          let r2 := cf t n (match foldAssert t Γ r1.1 with | some (x, T) => (x, some T) :: Γ | none => Γ) r1.2 e2
          (beginExp r2.2 r1.1 r2.1, r2.2 + 1)
        | f, es => (.app f es, k)
      else if isLet (.app f es) then
        match f with
        | .lam ids b =>
          let rs := mapK (cf t n Γ) k es
          let r := cf t n (exts ids (ctypes t Γ rs.1) Γ) rs.2 b
          (.app (.lam ids r.1) rs.1, r.2)
        | f => (.app f es, k)
      else
        let rf := cf t n Γ k f
        let rs := mapK (cf t n Γ) rf.2 es
        if isLet (.app rf.1 rs.1) then cf t n Γ rs.2 (.app rf.1 rs.1) else (.app rf.1 rs.1, rs.2)

/-- `constant-fold`, 4.sf:656-731; ids with time stamps from `k` on are unused. -/
def constantFold (t : Types τ) (n k : Nat) (e : Exp) : Exp := (cf t n [] k e).1

end Verif.Fold
