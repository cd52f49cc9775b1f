import Verif.Parse.Model
import Verif.Lit.Props
import Mathlib.Data.List.Forall2
/-
What it means that a tree is the meaning of the output of the expander (specification for C61).
-/
namespace Verif.Parse
open Verif.Core
open Verif.Expand (Var Out)

/-- the variables the parser can read: numbers of locations can be printed (C30), and the symbol is not one of `keywords`. -/
def OkVar (v : Var) : Prop := (∀ n s, v = .loc n s → n < 10 ^ 33) ∧ name v ∉ keywords

/-- The marks after `%prim` name the effects of the primitive: `*` for allocation, `?` for observing and `!` for changing a state. -/
def IsPrim (kw : String) (eff : Effect) : Prop :=
  kw = "%prim" ++ (if eff.alloc then "*" else "") ++ (if eff.obs then "?" else "") ++ (if eff.prod then "!" else "")

/-- The text of a primitive: strings, in lists and vectors of any depth.  (The contents of a vector are given as a list.) -/
inductive IsText : S → Prop where
  | str {s} : IsText (.str s)
  | list {xs} : (∀ x ∈ xs, IsText x) → IsText (lst xs)
  | vec {x} : IsText x → IsText (.vec x)

/-- Expressions of the core language: `if` with two or three parts, and so on.  There are no formals with a rest argument, no
literals other than `%quote` and no definitions. -/
inductive Shape (h : Nat → S) : Out → Prop where
  | var {v} : OkVar v → Shape h (.var v)
  | lam {vs b} : (∀ v ∈ vs, OkVar v) → Shape h b → Shape h (.lam vs none b)
  | letcc {v b} : OkVar v → Shape h b → Shape h (.letcc v b)
  | set {v a} : OkVar v → Shape h a → Shape h (.set v a)
  | if3 {a b c} : Shape h a → Shape h b → Shape h c → Shape h (.form "if" [a, b, c])
  | if2 {a b} : Shape h a → Shape h b → Shape h (.form "if" [a, b])
  | withcc {a b} : Shape h a → Shape h b → Shape h (.form "withcc" [a, b])
  | begin {os} : (∀ o ∈ os, Shape h o) → Shape h (.form "begin" os)
  | quote {c} : Shape h c → Shape h (.form "%quote" [c])
  | prim {kw eff sf os} : IsPrim kw eff → IsText (conv h sf) → (∀ o ∈ os, Shape h o) → Shape h (.prim kw sf os)
  | letrec {vs os b} : (∀ v ∈ vs, OkVar v) → vs.length = os.length → (∀ o ∈ os, Shape h o) → Shape h b → Shape h (.letrec vs os b)
  | app {f os} : Shape h f → (∀ o ∈ os, Shape h o) → Shape h (.app f os)

/-- Programs: definitions and expressions. -/
inductive TopShape (h : Nat → S) : Out → Prop where
  | define {v a} : OkVar v → Shape h a → TopShape h (.define v a)
  | expr {o} : Shape h o → TopShape h o

/-- the id of a variable: that of the innermost binding. -/
def find (v : Var) : List (Var × Id) → Option Id
  | [] => none
  | (w, x) :: Γ => if w = v then some x else find v Γ

/-- `(begin a₁ … b)`: `b` after the others, each with a variable of its own. -/
inductive Seq : List Exp → Exp → Exp → Prop where
  | nil {b} : Seq [] b b
  | cons {a as b e x} : Seq as b e → Seq (a :: as) b (letExp [x] [a] e)

/-- Literals that are written out where they stand: primitives without operands whose text is not marked as expensive by a vector. -/
def Cheap : Out → Bool
  | .prim kw sf [] => decide (kw = "%prim") && (match sf with | .vec _ => false | _ => true)
  | _ => false

mutual
/-- **The tree of an expression.**  `Reads h pn g q Γ o e`: the tree `e` says the same as the expression `o`, if `Γ` gives the ids of the
local variables in scope, `g` those of the global variables (by their symbols), and `q` those of the literals. -/
inductive Reads (h : Nat → S) (pn : List Char → PrimName) (g : List (Sym × Id)) (q : List (S × Id)) :
    List (Var × Id) → Out → Exp → Prop where
  | local {Γ v x} : find v Γ = some x → Reads h pn g q Γ (.var v) (.var x)
  | global {Γ v x} : find v Γ = none → (name v, x) ∈ g → Reads h pn g q Γ (.var v) (.var x)
  | lam {Γ vs b e} {xs : List Id} : xs.length = vs.length → Reads h pn g q (vs.zip xs ++ Γ) b e → Reads h pn g q Γ (.lam vs none b) (.lam xs e)
  | letcc {Γ v b x e} : Reads h pn g q ((v, x) :: Γ) b e → Reads h pn g q Γ (.letcc v b) (.letcc x e)
  | set {Γ v a x e} : Reads h pn g q Γ (.var v) (.var x) → Reads h pn g q Γ a e → Reads h pn g q Γ (.set v a) (.set x e)
  | if3 {Γ a b c a' b' c'} : Reads h pn g q Γ a a' → Reads h pn g q Γ b b' → Reads h pn g q Γ c c' →
      Reads h pn g q Γ (.form "if" [a, b, c]) (.ite a' b' c')
  | if2 {Γ a b a' b'} : Reads h pn g q Γ a a' → Reads h pn g q Γ b b' → Reads h pn g q Γ (.form "if" [a, b]) (.ite a' b' voidExp)
  | withcc {Γ a b a' b'} : Reads h pn g q Γ a a' → Reads h pn g q Γ b b' → Reads h pn g q Γ (.form "withcc" [a, b]) (.withcc a' b')
  | begin0 {Γ} : Reads h pn g q Γ (.form "begin" []) voidExp
  | begin {Γ os o es a e} : ReadsAll h pn g q Γ os es → Reads h pn g q Γ o a → Seq es a e →
      Reads h pn g q Γ (.form "begin" (os ++ [o])) e
  /-- a literal without a variable -/
  | cheap {Γ c e} : Cheap c = true → Reads h pn g q Γ c e → Reads h pn g q Γ (.form "%quote" [c]) e
  /-- a literal kept in a global variable -/
  | quote {Γ c x} : Cheap c = false → (render h c, x) ∈ q → Reads h pn g q Γ (.form "%quote" [c]) (.var x)
  | prim {Γ kw eff sf os es} : IsPrim kw eff → ReadsAll h pn g q Γ os es →
      Reads h pn g q Γ (.prim kw sf os) (.prim eff (pn (toForest (conv h sf)).leaves.flatten) es)
  /-- `(letrec ([v o] …) b)` is `(let ([v void] …) (let ([t o] …) (set! v t) …) b)` -/
  | letrec {Γ vs os b es a e inits} {xs ts : List Id} : xs.length = vs.length → ts.length = vs.length →
      ReadsAll h pn g q (vs.zip xs ++ Γ) os es → Reads h pn g q (vs.zip xs ++ Γ) b a →
      Seq (List.zipWith (fun x t => .set x (.var t)) xs ts) voidExp inits →
      Seq [letExp ts es inits] a e →
      Reads h pn g q Γ (.letrec vs os b) (letExp xs (os.map fun _ => voidExp) e)
  | app {Γ f os f' es} : Reads h pn g q Γ f f' → ReadsAll h pn g q Γ os es → Reads h pn g q Γ (.app f os) (.app f' es)
/-- the trees of expressions. -/
inductive ReadsAll (h : Nat → S) (pn : List Char → PrimName) (g : List (Sym × Id)) (q : List (S × Id)) :
    List (Var × Id) → List Out → List Exp → Prop where
  | nil {Γ} : ReadsAll h pn g q Γ [] []
  | cons {Γ o os e es} : Reads h pn g q Γ o e → ReadsAll h pn g q Γ os es → ReadsAll h pn g q Γ (o :: os) (e :: es)
end

/-- the tree of a definition or expression of a program. -/
inductive TopReads (h : Nat → S) (pn : List Char → PrimName) (g : List (Sym × Id)) (q : List (S × Id)) : Out → Exp → Prop where
  | define {v a x e} : (name v, x) ∈ g → Reads h pn g q [] a e → TopReads h pn g q (.define v a) (.set x e)
  | expr {o e} : Reads h pn g q [] o e → TopReads h pn g q o e

/-- The literals of a program, with their trees and ids, in the order in which they are computed: the literals inside a literal come before
it, no local variables are visible, and equal literals occur once. -/
inductive Literals (h : Nat → S) (pn : List Char → PrimName) (g : List (Sym × Id)) : List (S × Exp × Id) → Prop where
  | nil : Literals h pn g []
  | snoc {cs o e x} : Literals h pn g cs → Shape h o → Reads h pn g (cs.map fun c => (c.1, c.2.2)) [] o e → (∀ c ∈ cs, c.1 ≠ render h o) →
      Literals h pn g (cs ++ [(render h o, e, x)])

/-- A symbol stands for a global variable somewhere in an expression; `vs` are the local variables in scope. -/
inductive Refers : List Var → Out → Sym → Prop where
  | var {vs v} : v ∉ vs → Refers vs (.var v) (name v)
  | lam {vs ws r b s} : Refers (ws ++ vs) b s → Refers vs (.lam ws r b) s
  | letcc {vs v b s} : Refers (v :: vs) b s → Refers vs (.letcc v b) s
  | setv {vs v a s} : Refers vs (.var v) s → Refers vs (.set v a) s
  | seta {vs v a s} : Refers vs a s → Refers vs (.set v a) s
  | form {vs kw os o s} : kw ≠ "%quote" → o ∈ os → Refers vs o s → Refers vs (.form kw os) s
  | quote {vs c s} : Refers [] c s → Refers vs (.form "%quote" [c]) s
  | prim {vs kw sf os o s} : o ∈ os → Refers vs o s → Refers vs (.prim kw sf os) s
  | letrec {vs ws os b o s} : o ∈ os → Refers (ws ++ vs) o s → Refers vs (.letrec ws os b) s
  | letrecb {vs ws os b s} : Refers (ws ++ vs) b s → Refers vs (.letrec ws os b) s
  | appf {vs f os s} : Refers vs f s → Refers vs (.app f os) s
  | appa {vs f os o s} : o ∈ os → Refers vs o s → Refers vs (.app f os) s
  | define {v a s} : Refers [] a s → Refers [] (.define v a) s
  | defv {v a} : Refers [] (.define v a) (name v)

/-- **The tree of a program**: the literals are computed, one after the other, and then the definitions and expressions. -/
structure Program (h : Nat → S) (pn : List Char → PrimName) (prog : List Out) (e : Exp) (g : List (Sym × Id)) (cs : List (S × Exp × Id)) : Prop where
  literals : Literals h pn g cs
  tree : ∃ es, List.Forall₂ (TopReads h pn g (cs.map fun c => (c.1, c.2.2))) prog es ∧
    Seq (cs.map (fun c => .set c.2.2 c.2.1) ++ es) voidExp e
  /-- one id for each global variable -/
  symbols : (g.map (·.1)).Nodup
  /-- and all ids are different: they are negative, those of literals are marked -/
  ids : (g.map (·.2) ++ cs.map (·.2.2)).Nodup
  globals : ∀ p ∈ g, p.2.isGlobal = true ∧ p.2.isGlobalConst = false
  consts : ∀ c ∈ cs, c.2.2.isGlobalConst = true

end Verif.Parse
