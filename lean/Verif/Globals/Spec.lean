import Verif.Globals.Model
import Verif.Globals.Rel
import Verif.Core.Uniq
/-
Specification for C65: assignments of a program, and the programs the theorem is about.
-/
namespace Verif.Globals
open Verif.Core

mutual
/-- all assignments in an expression, with the assigned expressions. -/
def assigns : Exp → List (Id × Exp)
  | .var _ => []
  | .set x e => (x, e) :: assigns e
  | .ite a b c => assigns c ++ (assigns b ++ assigns a)
  | .prim _ _ es => assignsAll es
  | .app f es => assignsAll es ++ assigns f
  | .lam _ b => assigns b
  | .fix _ lams b => assignsAll lams ++ assigns b
  | .letcc _ b => assigns b
  | .withcc k e => assigns e ++ assigns k
/-- for lists of expressions. -/
def assignsAll : List Exp → List (Id × Exp)
  | [] => []
  | e :: es => assignsAll es ++ assigns e
end

mutual
/-- the assignments evaluated whenever the expression is: those outside of procedures and of the branches of `if`.  The body of a
`let` counts and comes after the operands. -/
def topDefs : Exp → List (Id × Exp)
  | .var _ => []
  | .set x e => (x, e) :: topDefs e
  | .ite a _ _ => topDefs a
  | .prim _ _ es => topDefsAll es
  | .app (.lam ids b) es => topDefsAll es ++ (if ids.length = es.length then topDefs b else [])
  | .app f es => topDefsAll es ++ topDefs f
  | .lam _ _ => []
  | .fix _ _ b => topDefs b
  | .letcc _ b => topDefs b
  | .withcc k e => topDefs e ++ topDefs k
/-- for lists of expressions. -/
def topDefsAll : List Exp → List (Id × Exp)
  | [] => []
  | e :: es => topDefsAll es ++ topDefs e
end

/-- how many times `x` is assigned in the text of the program. -/
def timesAssigned (x : Id) (e : Exp) : Nat := (assigns e).countP (fun d => d.1 = x)

mutual
/-- There is no degenerate `let` in the expression. -/
def tidy : Exp → Bool
  | .var _ => true
  | .set _ e => tidy e
  | .ite a b c => tidy a && tidy b && tidy c
  | .prim _ _ es => tidys es
  | .app f es => !isDegLet (.app f es) && tidy f && tidys es
  | .lam _ b => tidy b
  | .fix _ lams b => tidys lams && tidy b
  | .letcc _ b => tidy b
  | .withcc k e => tidy k && tidy e
/-- for lists of expressions. -/
def tidys : List Exp → Bool
  | [] => true
  | e :: es => tidy e && tidys es
end

mutual
/-- The variable `x` does not occur in the expression. -/
def without (x : Id) : Exp → Bool
  | .var y => y ≠ x
  | .set y e => y ≠ x && without x e
  | .ite a b c => without x a && without x b && without x c
  | .prim _ _ es => withouts x es
  | .app f es => without x f && withouts x es
  | .lam _ b => without x b
  | .fix _ lams b => withouts x lams && without x b
  | .letcc _ b => without x b
  | .withcc k e => without x k && without x e
/-- for lists of expressions. -/
def withouts (x : Id) : List Exp → Bool
  | [] => true
  | e :: es => without x e && withouts x es
end

/-- no local variables are free. -/
def Closed (e : Exp) : Prop := ∀ y, Free y e → y.isGlobal = true

/-- The programs for which the analysis of globals is proved right. -/
structure Proper {W : Type} (M : Sem W) (priv : Id → Bool) (e : Exp) : Prop where
  /-- private constants are global variables. -/
  global : ∀ x, priv x = true → x.isGlobal = true
  /-- bound variables are local. -/
  binders : ∀ x ∈ binders e, x.isGlobal = false
  /-- private constants are assigned once. -/
  once : ∀ x, priv x = true → timesAssigned x e ≤ 1
  /-- private constants are used by definitions after their own only. -/
  order : ∀ l₁ x d l₂, topDefs e = l₁ ++ (x, d) :: l₂ → ∀ y, priv y = true → Free y d → y ∈ l₁.map Prod.fst
  /-- definitions have no degenerate `let`s. -/
  tidy : ∀ x d, (x, d) ∈ topDefs e → tidy d = true
  /-- no definition is a call without operands. -/
  call : ∀ x f, (x, .app f []) ∉ topDefs e
  /-- defined procedures have no free local variables. -/
  closed : ∀ x ids b, (x, .lam ids b) ∈ topDefs e → Closed (.lam ids b)
  /-- what looks like a recursive procedure is a procedure; if it is private it is not recursive and has no free local variables. -/
  recs : ∀ x g l, (x, .fix [g] [l] (.var g)) ∈ topDefs e → priv x = true → without g l = true ∧ ∃ ids b, l = .lam ids b ∧ Closed (.lam ids b)
  /-- constants are constant. -/
  const : ∀ x p, (x, .prim noEffect p []) ∈ topDefs e → Const M p

end Verif.Globals
