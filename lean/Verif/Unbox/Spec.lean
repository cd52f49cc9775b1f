import Verif.Unbox.Model
import Verif.Core.Trace
import Verif.Core.Uniq
/-
Meaning of programs with variables of C types: such a variable can only hold values of its type.
-/
namespace Verif.Unbox
open Verif.Core
open Verif.Fold (TEnv tlook exts ctype ctypes)
variable {W τ : Type} [DecidableEq τ]

/-- The variables that get values when `f` is called with the values `vs`. -/
def binds : Val → List Val → List (Id × Val)
  | .clos ids _ _, vs => ids.zip vs
  | .rclos _ lams i _, vs =>
    match lams[i]? with
    | some (.lam ps _) => ps.zip vs
    | _ => []
  | _, _ => []

/-- All variables with a type get values of this type. -/
def fits (has : τ → View → Bool) (ct : Id → Option τ) (f : Val) (vs : List Val) : Bool :=
  (binds f vs).all (fun b => match ct b.1 with | some T => has T b.2.view | none => true)

/-- The machine of `Core.Machine`, where some variables have types: to bind such a variable to a value of
another type is an error (the C code reads a machine number from an object that does not hold one). -/
def ustep (M : Sem W) (ord : Op → List Exp → List Nat) (has : τ → View → Bool) (ct : Id → Option τ) : State W → Option (State W)
  | .ap f vs κ σ => if fits has ct f vs then step M ord (.ap f vs κ σ) else none
  | s => step M ord s

/-- types of ids in a list. -/
def typeIn (x : Id) : List (Id × τ) → Option τ
  | [] => none
  | (y, T) :: l => if x = y then some T else typeIn x l

/-- The tables of C types are right: results of primitives have the stated types, and type checks check the type. -/
structure Honest (M : Sem W) (t : CTypes τ) (has : τ → View → Bool) : Prop where
  ret : ∀ p T vs σ v σ', t.ret p = some T → doPrim M p vs σ = some (.ok v σ') → has T v.view = true
  check : ∀ p T u σ v σ', t.check p = some T → doPrim M p [u] σ = some (.ok v σ') → v.isFalse = false → has T u.view = true
  /-- the text `is_T_$arg` of a type check does not convert the operand. -/
  text : ∀ p T, t.check p = some T → t.arg p 0 = none

/-- a `let`, as a list of operator and operands. -/
def isLetL : List Exp → Bool
  | .lam ids _ :: es => decide (ids.length = es.length)
  | _ => false

/-- the positions of operator and `n` operands, when the operands are written in reverse. -/
def flip (n j : Nat) : Nat := if j = 0 then 0 else n + 1 - j

/-- The pass reverses the operands of `let`.  If the operands of the new program are evaluated in the order `Q`, those of the
given program are evaluated in this order. -/
def srcOrder (Q : Op → List Exp → List Nat) : Op → List Exp → List Nat
  | .call, es => if isLetL es then (Q .call es).map (flip (es.length - 1)) else Q .call es
  | .prim eff p, es => Q (.prim eff p) es

mutual
/-- Expressions after `lambda-lift`: no `letcc`, no `withcc`; the operator of an application is not a `let` with nothing to do.
Also, no global variable is unboxed after a test (see `c63_global_counterexample`). -/
def Plain (t : CTypes τ) : Exp → Prop
  | .var _ => True
  | .set _ e => Plain t e
  | .ite a b c => (∀ x T, testOf t a b = some (x, T) → x.isGlobal = false) ∧ Plain t a ∧ Plain t b ∧ Plain t c
  | .prim _ _ es => Plains t es
  | .app f es => isDegLet f = false ∧ Plain t f ∧ Plains t es
  | .lam _ b => Plain t b
  | .fix _ lams b => Plains t lams ∧ Plain t b
  | .letcc _ _ => False
  | .withcc _ _ => False
/-- for lists. -/
def Plains (t : CTypes τ) : List Exp → Prop
  | [] => True
  | e :: es => Plain t e ∧ Plains t es
end

/-- Programs as they are given to the pass: every local variable is bound once, time stamps of ids are below `k`. -/
structure Input (t : CTypes τ) (k : Nat) (e : Exp) : Prop where
  plain : Plain t e
  uniq : Uniq e
  loc : ∀ x ∈ binders e, x.isGlobal = false
  old : ∀ x, x ∈ binders e ∨ Free x e → x.ts < k

/-- the formals with a type, of a procedure with body `b`. -/
def typedOf (t : CTypes τ) (b : Exp) (ids : List Id) : List (Id × τ) := ids.filterMap (fun x => (formalType t x b).map (x, ·))

mutual
/-- The parameters of procedures (not the variables of `let`) that are used more than once, always with the same C type. -/
def typedFormals (t : CTypes τ) : Exp → List (Id × τ)
  | .var _ => []
  | .set _ e => typedFormals t e
  | .ite a b c => typedFormals t a ++ (typedFormals t b ++ typedFormals t c)
  | .prim _ _ es => typedFormalsAll t es
  | .app (.lam ids b) es =>
    ((if ids.length = es.length then [] else typedOf t b ids) ++ typedFormals t b) ++ typedFormalsAll t es
  | .app f es => typedFormals t f ++ typedFormalsAll t es
  | .lam ids b => typedOf t b ids ++ typedFormals t b
  | .fix _ lams b => typedFormalsAll t lams ++ typedFormals t b
  | .letcc _ b => typedFormals t b
  | .withcc k e => typedFormals t k ++ typedFormals t e
/-- for lists. -/
def typedFormalsAll (t : CTypes τ) : List Exp → List (Id × τ)
  | [] => []
  | e :: es => typedFormals t e ++ typedFormalsAll t es
end

mutual
/-- Variables with a C type are used only as operands of primitives that convert the operand to this type. -/
inductive Direct (t : CTypes τ) (ct : Id → Option τ) : Exp → Prop
  | var {x : Id} : ct x = none → Direct t ct (.var x)
  | set {x : Id} {e : Exp} : ct x = none → Direct t ct e → Direct t ct (.set x e)
  | ite {a b c : Exp} : Direct t ct a → Direct t ct b → Direct t ct c → Direct t ct (.ite a b c)
  | prim {eff : Effect} {p : PrimName} {es : List Exp} : Directs t ct p 0 es → Direct t ct (.prim eff p es)
  | app {f : Exp} {es : List Exp} : Direct t ct f → (∀ e ∈ es, Direct t ct e) → Direct t ct (.app f es)
  | lam {ids : List Id} {b : Exp} : Direct t ct b → Direct t ct (.lam ids b)
  | fix {ids : List Id} {lams : List Exp} {b : Exp} : (∀ e ∈ lams, Direct t ct e) → Direct t ct b → Direct t ct (.fix ids lams b)
/-- operands of the primitive `p`, from operand `n` on. -/
inductive Directs (t : CTypes τ) (ct : Id → Option τ) : PrimName → Nat → List Exp → Prop
  | nil (p : PrimName) (n : Nat) : Directs t ct p n []
  | typed {p : PrimName} {n : Nat} {x : Id} {T : τ} {es : List Exp} : ct x = some T → t.arg p n = some T → Directs t ct p (n + 1) es → Directs t ct p n (.var x :: es)
  | cons {p : PrimName} {n : Nat} {e : Exp} {es : List Exp} : Direct t ct e → Directs t ct p (n + 1) es → Directs t ct p n (e :: es)
end

end Verif.Unbox
