import Verif.Expand.Model
import Mathlib.Data.List.Forall2
import Mathlib.Data.Option.Basic
/-
C58: what the statements about the expander speak of.
-/
namespace Verif.Expand
open Verif.Macros

/-- an identifier: name, id, location. -/
abbrev Ident := String × Key × Key
/-- a correspondence of identifiers. -/
abbrev IdRel := Ident → Ident → Prop

/-- forms as the reader makes them: identifiers are symbols, a vector is represented by a list (2.sf:215); the symbols
satisfy `P`. -/
def Plain (P : String → Prop) : Sx → Prop
  | .sid a b c => b = .sym a ∧ c = .sym a ∧ P a
  | .vec x => isList x = true ∧ Plain P x
  | .pair a d => Plain P a ∧ Plain P d
  | _ => True

/-- the symbol occurs in the form. -/
def Occurs (x : String) : Sx → Prop
  | .sid a _ _ => a = x
  | .vec y => Occurs x y
  | .pair a d => Occurs x a ∨ Occurs x d
  | _ => False

/-- the form with another symbol instead of `x`. -/
def ren (x y : String) : Sx → Sx
  | .sid a b c => if a = x then .sym y else .sid a b c
  | .vec z => .vec (ren x y z)
  | .pair a d => .pair (ren x y a) (ren x y d)
  | z => z

/-- what a program without `syntax-lambda` does not mention: `syntax-lambda`, and the names the expander itself inserts for
constants. -/
def Tame (a : String) : Prop := a ≠ "syntax-lambda" ∧ a ≠ "%quote" ∧ a ≠ "%const"

/-- `expand-top-level-forms` with the numbers of the inserted identifiers starting at `i` (2.sf:609-637; the code has
`i = 0`). -/
def expandFrom (h : Host) (g : Bool) (n : Nat) (forms : List Sx) (st : Store) (ln i : Nat) : Option Ans :=
  topN h g n forms i [] st ln [] fun st ln acc => some (.prog acc.reverse st ln)

/-- identifiers that differ at most in their ids. -/
def sameBut : IdRel := fun s s' => s.1 = s'.1 ∧ s.2.2 = s'.2.2

/-- identifiers that are the same, or named `x` and `y`. -/
def renamed (x y : String) : IdRel := fun s s' => s = s' ∨ (s.1 = x ∧ s'.1 = y)

/-- corresponding names. -/
def nameR (N : IdRel) (a b : String) : Prop := ∃ k l k' l', N (a, k, l) (b, k', l')

/-- corresponding variables: the same global variable, or the same local variable under corresponding names. -/
inductive VarRel (N : IdRel) : Var → Var → Prop where
  | glob (s) : VarRel N (.glob s) (.glob s)
  | loc (n) {a b} : nameR N a b → VarRel N (.loc n a) (.loc n b)

/-- corresponding data: identifiers, and the constants made of symbols, may have other names. -/
inductive CRel (h : Host) (N : IdRel) : Sx → Sx → Prop where
  | refl (x) : CRel h N x x
  | sid {a b c a' b' c'} : N (a, b, c) (a', b', c') → CRel h N (.sid a b c) (.sid a' b' c')
  | vec {x x'} : CRel h N x x' → CRel h N (.vec x) (.vec x')
  | pair {a a' d d'} : CRel h N a a' → CRel h N d d' → CRel h N (.pair a d) (.pair a' d')
  | text {a b} : nameR N a b →
    CRel h N (listOf (.sym "%const" :: .sym "symbol" :: h.text a)) (listOf (.sym "%const" :: .sym "symbol" :: h.text b))

mutual
/-- outputs that differ in names only. -/
inductive OutRel (h : Host) (N : IdRel) : Out → Out → Prop where
  | var {v v'} : VarRel N v v' → OutRel h N (.var v) (.var v')
  | lam {vs vs' r r' b b'} : List.Forall₂ (VarRel N) vs vs' → Option.Rel (VarRel N) r r' → OutRel h N b b' →
    OutRel h N (.lam vs r b) (.lam vs' r' b')
  | letcc {v v' b b'} : VarRel N v v' → OutRel h N b b' → OutRel h N (.letcc v b) (.letcc v' b')
  | set {v v' b b'} : VarRel N v v' → OutRel h N b b' → OutRel h N (.set v b) (.set v' b')
  | form (kw) {es es'} : OutsRel h N es es' → OutRel h N (.form kw es) (.form kw es')
  | raw (kw) {t t'} : CRel h N (listOf (.sym kw :: t)) (listOf (.sym kw :: t')) → OutRel h N (.raw kw t) (.raw kw t')
  | prim (kw sf) {es es'} : OutsRel h N es es' → OutRel h N (.prim kw sf es) (.prim kw sf es')
  | letrec {vs vs' es es' b b'} : List.Forall₂ (VarRel N) vs vs' → OutsRel h N es es' → OutRel h N b b' →
    OutRel h N (.letrec vs es b) (.letrec vs' es' b')
  | app {f f' es es'} : OutRel h N f f' → OutsRel h N es es' → OutRel h N (.app f es) (.app f' es')
  | define {v v' b b'} : VarRel N v v' → OutRel h N b b' → OutRel h N (.define v b) (.define v' b')
/-- lists of such outputs. -/
inductive OutsRel (h : Host) (N : IdRel) : List Out → List Out → Prop where
  | nil : OutsRel h N [] []
  | cons {o o' os os'} : OutRel h N o o' → OutsRel h N os os' → OutsRel h N (o :: os) (o' :: os')
end

end Verif.Expand
