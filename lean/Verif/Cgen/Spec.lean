import Verif.Cgen.Model
import Verif.Core.Free
/-
The programs that reach the code generator, and the evaluation order of the generated code.
-/
namespace Verif.Cgen
open Verif.Core

/-- variables that are neither global nor labels. -/
def plain (x : Id) : Prop := x.isGlobal = false ∧ x.isLabel = false

/-- operators that neither see nor change the world. -/
def PureOp {W : Type} (M : Sem W) (n : Nat) : Prop := ∃ f : List View → Option Nat, ∀ vs w, M.op n vs w = (f vs).map (fun a => (a, w))

/-- Expressions without effects. -/
inductive NoEff {W : Type} (M : Sem W) : Exp → Prop
  | var (x : Id) : NoEff M (.var x)
  | ite {a b c : Exp} : NoEff M a → NoEff M b → NoEff M c → NoEff M (.ite a b c)
  | prim {eff : Effect} {p : PrimName} {es : List Exp} : eff.alloc = false → (p = .void ∨ p = .car ∨ p = .cdr ∨ ∃ n, p = .op n ∧ PureOp M n) →
      (∀ e ∈ es, NoEff M e) → NoEff M (.prim eff p es)

/-- C type `bool`. -/
def boolE (T : Texts) : Exp → Bool
  | .prim _ p _ => T.isBool p
  | .ite _ b c => boolE T b && boolE T c
  | _ => false

/-- the procedure of a closure: pass on the arguments and the captured variables to a label. -/
def curryBody (l : Id) (ps xs : List Id) : Exp := .app (.var l) (ps.map .var ++ xs.map .var)

/-- Expressions whose code returns a value: no calls.  `labs` are the labels, `cl` the procedures known for constant global
variables. -/
inductive Value {W : Type} (M : Sem W) (T : Texts) (cl : Id → Option Id) (labs : List Id) : Exp → Prop
  | var {x : Id} : x.isLabel = false → Value M T cl labs (.var x)
  | set {x : Id} {e : Exp} : x.isGlobal = true → Value M T cl labs e →
      (∀ l, cl x = some l → ∃ ps, e = .lam ps (curryBody l ps [])) → Value M T cl labs (.set x e)
  | ite {a b c : Exp} : Value M T cl labs a → Value M T cl labs b → Value M T cl labs c →
      -- no two copies of an effect that would become one in `a || c`
      (boolE T b = true → boolE T c = true → ∀ renv, (cgCexp T renv a).same (cgCexp T renv b) = true → NoEff M a ∧ NoEff M b) →
      Value M T cl labs (.ite a b c)
  | prim {eff : Effect} {p : PrimName} {es : List Exp} : p ≠ .halt → (∀ e ∈ es, Value M T cl labs e) →
      -- no allocation inside a larger C expression
      (T.cexp p = true → areCexp T es = true → areSafe T es = true) → Value M T cl labs (.prim eff p es)
  | curry {l : Id} {ps xs : List Id} : l ∈ labs → ps.Nodup → (∀ x ∈ ps, plain x) → (∀ x ∈ xs, plain x) → (∀ x ∈ xs, x ∉ ps) →
      Value M T cl labs (.lam ps (curryBody l ps xs))
  | letE {ids : List Id} {es : List Exp} {b : Exp} : ids.length = es.length → ids.Nodup → (∀ x ∈ ids, plain x) →
      (∀ e ∈ es, Value M T cl labs e) → (∀ x ∈ ids, ∀ e ∈ es, ¬ Free x e) → Value M T cl labs b → Value M T cl labs (letExp ids es b)

/-- Expressions whose code does not return: calls and the end of the program. -/
inductive Tail {W : Type} (M : Sem W) (T : Texts) (cl : Id → Option Id) (labs : List Id) : Exp → Prop
  | goto {l : Id} {es : List Exp} : l ∈ labs → (∀ e ∈ es, Value M T cl labs e) → Tail M T cl labs (.app (.var l) es)
  | call {f : Exp} {es : List Exp} : Value M T cl labs f → (∀ e ∈ es, Value M T cl labs e) →
      (∀ ids b, f = .lam ids b → ids.length ≠ es.length) → Tail M T cl labs (.app f es)
  | halt {eff : Effect} {e : Exp} : Value M T cl labs e → Tail M T cl labs (.prim eff .halt [e])
  | ite {a b c : Exp} : Value M T cl labs a → Tail M T cl labs b → Tail M T cl labs c → Tail M T cl labs (.ite a b c)
  | letE {ids : List Id} {es : List Exp} {b : Exp} : ids.length = es.length → ids.Nodup → (∀ x ∈ ids, plain x) →
      (∀ e ∈ es, Value M T cl labs e) → (∀ x ∈ ids, ∀ e ∈ es, ¬ Free x e) → Tail M T cl labs b → Tail M T cl labs (letExp ids es b)

/-- A program as left by `lambda-lift`: procedures without free variables other than global variables and labels, bodies that do not
return. -/
structure Lifted {W : Type} (M : Sem W) (T : Texts) (labs : List Id) (lams : List Exp) (body : Exp) : Prop where
  nodup : labs.Nodup
  labels : ∀ l ∈ labs, l.isLabel = true
  len : labs.length = lams.length
  lam : ∀ e ∈ lams, ∃ ps b, e = .lam ps b ∧ ps.Nodup ∧ (∀ x ∈ ps, plain x) ∧ Tail M T (constLabel lams body) labs b ∧
    (∀ y, Free y b → y.isGlobal = true ∨ y ∈ ps ∨ y ∈ labs)
  main : Tail M T (constLabel lams body) labs body
  closed : ∀ y, Free y body → y.isGlobal = true ∨ y ∈ labs

/-- The C types recorded in the texts are right: primitives of type `bool` return `#f` or `#t`, and `bool(0)` is `#f`. -/
structure TypesOk {W : Type} (M : Sem W) (T : Texts) : Prop where
  bool : ∀ p, T.isBool p = true → ∃ n, p = .op n ∧ ∀ vs w r, M.op n vs w = some r → r.1 = 0 ∨ r.1 = 2
  zero : ∀ p, T.isFalse p = true → ∃ n, p = .op n ∧ ∀ w, M.op n [] w = some (0, w)
  halt : T.cexp .halt = false

/-- is the operand at a position a gc-safe C expression. -/
def safeAt (T : Texts) (es : List Exp) (i : Nat) : Bool :=
  match es[i]? with
  | some e => isSafe T e
  | none => true

/-- a `let`. -/
def isLet : List Exp → Bool
  | .lam ids _ :: es => ids.length = es.length
  | _ => false

/-- The order of evaluation in the generated code: operands of `let` from left to right; for calls and primitives, first the operands that are not
gc-safe C expressions, from left to right, then the others, from left to right for calls, in the order of the C compiler for
primitives. -/
def cgOrder (T : Texts) (Q : PrimName → Nat → List Nat) : Op → List Exp → List Nat
  | .prim _ p, es => (List.range es.length).filter (fun i => !safeAt T es i) ++ (Q p es.length).filter (safeAt T es)
  | .call, es =>
    if isLet es then List.range es.length
    else (List.range es.length).filter (fun i => !safeAt T es i) ++ (List.range es.length).filter (safeAt T es)

end Verif.Cgen
