import Verif.Globals.Model
import Verif.Core.PrimRel
/-
Related values, continuations and states of a program and the program with inlined global constants (C65).
-/
namespace Verif.Globals
open Verif.Core
variable {W : Type}

/-- A primitive without operands always gives the same value. -/
def Const (M : Sem W) (p : PrimName) : Prop := (∀ σ, doPrim M p [] σ = none) ∨ ∃ v, ∀ σ, doPrim M p [] σ = some (.ok v σ)

/-- the parameters of the relation: what global constants are replaced by, and which assignments are removed. -/
structure Ctx (W : Type) where
  M : Sem W
  Q : Op → List Exp → List Nat
  S : Id → Option Exp
  rm : Id → Bool

/-- procedures and constants. -/
def Vish (M : Sem W) (X : Exp) : Prop := (∃ ids b, X = .lam ids b) ∨ ∃ p, X = .prim noEffect p [] ∧ Const M p

/-- What global constants are replaced by: closed procedures and constants. -/
structure Ctx.Good (C : Ctx W) : Prop where
  form : ∀ x X, C.S x = some X → Vish C.M X
  closed : ∀ x X y, C.S x = some X → Free y X → y.isGlobal = true
  glob : ∀ x X, C.S x = some X → x.isGlobal = true
  rm : ∀ x, C.rm x = true → ∃ X, C.S x = some X

mutual
/-- the second expression results from the first by inlining. -/
inductive G (C : Ctx W) : Exp → Exp → Prop
  | var {x : Id} : C.rm x = false → G C (.var x) (.var x)
  | inl {x : Id} {X : Exp} : C.S x = some X → G C (.var x) X
  | set {x : Id} {e e' : Exp} : C.S x = none → G C e e' → G C (.set x e) (.set x e')
  | setD {x : Id} {e e' X : Exp} : C.S x = some X → C.rm x = false → simple e = true → G C e X → G C e e' → G C (.set x e) (.set x e')
  | setV {x : Id} {e X : Exp} : C.S x = some X → simple e = true → G C e X → C.rm x = true → G C (.set x e) voidExp
  | setR {x g : Id} {ids : List Id} {b b' : Exp} : C.S x = some (.lam ids b') → g.isGlobal = false → G C b b' → C.rm x = true →
      G C (.set x (.fix [g] [.lam ids b] (.var g))) voidExp
  | ite {a b c a' b' c' : Exp} : G C a a' → G C b b' → G C c c' → G C (.ite a b c) (.ite a' b' c')
  | prim {eff : Effect} {p : PrimName} {es es' : List Exp} : Gs C es es' → G C (.prim eff p es) (.prim eff p es')
  | app {f f' : Exp} {es es' : List Exp} : isDegLet (.app f es) = false → G C f f' → Gs C es es' → G C (.app f es) (.app f' es')
  | lam {ids : List Id} {b b' : Exp} : G C b b' → G C (.lam ids b) (.lam ids b')
  | fix {ids : List Id} {lams lams' : List Exp} {b b' : Exp} : Gs C lams lams' → G C b b' → G C (.fix ids lams b) (.fix ids lams' b')
  | letcc {x : Id} {b b' : Exp} : G C b b' → G C (.letcc x b) (.letcc x b')
  | withcc {k e k' e' : Exp} : G C k k' → G C e e' → G C (.withcc k e) (.withcc k' e')
  | null {b b' : Exp} : G C b b' → G C (.app (.lam [] b) []) b'
  | idl {x : Id} {e e' : Exp} : x.isGlobal = false → G C e e' → G C (.app (.lam [x] (.var x)) [e]) e'
/-- for lists. -/
inductive Gs (C : Ctx W) : List Exp → List Exp → Prop
  | nil : Gs C [] []
  | cons {e e' : Exp} {es es' : List Exp} : G C e e' → Gs C es es' → Gs C (e :: es) (e' :: es')
end

theorem Gs.length {C : Ctx W} : {es es' : List Exp} → Gs C es es' → es.length = es'.length
  | _, _, .nil => rfl
  | _, _, .cons _ h => by simp [Gs.length h]

theorem Gs.get {C : Ctx W} : {es es' : List Exp} → Gs C es es' → ∀ {i : Nat} {e : Exp}, es[i]? = some e → ∃ e', es'[i]? = some e' ∧ G C e e'
  | _, _, .nil, i, e, h => by simp at h
  | _, _, .cons (e' := e') h1 h2, i, e, h => by
    cases i with
    | zero => simp only [List.getElem?_cons_zero, Option.some.injEq] at h; subst h; exact ⟨e', rfl, h1⟩
    | succ i => simpa using Gs.get h2 (by simpa using h)

/-- A `let` with one variable waits for its operand. -/
def Wait (x : Id) (b : Exp) (ρ : Env) (d : Nat → Val) (todo : List Nat) : Prop := todo = [0] ∨ (todo = [] ∧ d 0 = .clos [x] b ρ)

mutual
/-- related values. -/
inductive VR (C : Ctx W) : Val → Val → Prop
  | atom (n : Nat) : VR C (.atom n) (.atom n)
  | pair {a d a' d' : Val} : VR C a a' → VR C d d' → VR C (.pair a d) (.pair a' d')
  | box (a : Nat) : VR C (.box a) (.box a)
  | trap : VR C .trap .trap
  | clos {ids : List Id} {b b' : Exp} {ρ ρt : Env} : G C b b' →
      (∀ y v, y.isGlobal = false → Free y (.lam ids b') → ρ.lookup y = some v → ∃ w, ρt.lookup y = some w) →
      (∀ y v w, y.isGlobal = false → Free y (.lam ids b') → ρ.lookup y = some v → ρt.lookup y = some w → VR C v w) → VR C (.clos ids b ρ) (.clos ids b' ρt)
  | rc {g : Id} {ids : List Id} {b b' : Exp} {ρ ρt : Env} : G C b b' → (∀ y, Free y (.lam ids b') → y.isGlobal = true) →
      VR C (.rclos [g] [.lam ids b] 0 ρ) (.clos ids b' ρt)
  | rclos {ids : List Id} {lams lams' : List Exp} {i : Nat} {ρ ρt : Env} : Gs C lams lams' →
      (∀ y v, y.isGlobal = false → (∃ l ∈ lams', Free y l) → y ∉ ids → ρ.lookup y = some v → ∃ w, ρt.lookup y = some w) →
      (∀ y v w, y.isGlobal = false → (∃ l ∈ lams', Free y l) → y ∉ ids → ρ.lookup y = some v → ρt.lookup y = some w → VR C v w) → VR C (.rclos ids lams i ρ) (.rclos ids lams' i ρt)
  | cont {κ κ' : Kont} : KR C κ κ' → VR C (.cont κ) (.cont κ')
/-- related continuations. -/
inductive KR (C : Ctx W) : Kont → Kont → Prop
  | halt : KR C .halt .halt
  | trap : KR C .trap .trap
  | throw {v w : Val} : VR C v w → KR C (.throw v) (.throw w)
  | set {x : Id} {κ κ' : Kont} : C.S x = none → KR C κ κ' → KR C (.set x κ) (.set x κ')
  | ite {b c b' c' : Exp} {ρ ρt : Env} {κ κ' : Kont} : G C b b' → G C c c' →
      (∀ y v, y.isGlobal = false → Free y b' ∨ Free y c' → ρ.lookup y = some v → ∃ w, ρt.lookup y = some w) →
      (∀ y v w, y.isGlobal = false → Free y b' ∨ Free y c' → ρ.lookup y = some v → ρt.lookup y = some w → VR C v w) → KR C κ κ' →
      KR C (.ite b c ρ κ) (.ite b' c' ρt κ')
  | args {op : Op} {es es' : List Exp} {d d' : Nat → Val} {i : Nat} {todo : List Nat} {ρ ρt : Env} {κ κ' : Kont} : Gs C es es' →
      (∀ y v, y.isGlobal = false → (∃ e ∈ es', Free y e) → ρ.lookup y = some v → ∃ w, ρt.lookup y = some w) →
      (∀ y v w, y.isGlobal = false → (∃ e ∈ es', Free y e) → ρ.lookup y = some v → ρt.lookup y = some w → VR C v w) →
      (∀ j, VR C (d j) (d' j)) → KR C κ κ' → KR C (.args op es d i todo ρ κ) (.args op es' d' i todo ρt κ')
  | withcc {e e' : Exp} {ρ ρt : Env} : G C e e' →
      (∀ y v, y.isGlobal = false → Free y e' → ρ.lookup y = some v → ∃ w, ρt.lookup y = some w) →
      (∀ y v w, y.isGlobal = false → Free y e' → ρ.lookup y = some v → ρt.lookup y = some w → VR C v w) → KR C (.withcc e ρ) (.withcc e' ρt)
  | idl {x : Id} {e : Exp} {d : Nat → Val} {todo : List Nat} {ρ : Env} {κ κ' : Kont} : x.isGlobal = false → Wait x (.var x) ρ d todo → KR C κ κ' →
      KR C (.args .call [.lam [x] (.var x), e] d 1 todo ρ κ) κ'
end

variable {C : Ctx W}

/-- related environments, on the local variables in `S`. -/
structure ER (C : Ctx W) (S : Id → Prop) (ρ ρt : Env) : Prop where
  ex : ∀ y v, y.isGlobal = false → S y → ρ.lookup y = some v → ∃ w, ρt.lookup y = some w
  all : ∀ y v w, y.isGlobal = false → S y → ρ.lookup y = some v → ρt.lookup y = some w → VR C v w

/-- `v` is what the evaluation of `X` gives. -/
def IsX (C : Ctx W) (v : Val) : Exp → Prop
  | .lam ids b => ∀ ρt, VR C v (.clos ids b ρt)
  | .prim _ p [] => ∃ w, VR C v w ∧ ∀ σ, doPrim C.M p [] σ = some (.ok w σ)
  | _ => False

/-- related stores. -/
structure SR (C : Ctx W) (σ σt : Store W) : Prop where
  glob : ∀ x, C.rm x = false → (σ.glob x = none ∧ σt.glob x = none) ∨ ∃ v w, σ.glob x = some v ∧ σt.glob x = some w ∧ VR C v w
  inl : ∀ x X v, C.S x = some X → σ.glob x = some v → IsX C v X
  heap : List.Forall₂ (VR C) σ.heap σt.heap
  world : σ.world = σt.world

/-- related states. -/
inductive Sync (C : Ctx W) : State W → State W → Prop
  | ev {e e' : Exp} {ρ ρt : Env} {κ κ' : Kont} {σ σt : Store W} : G C e e' → ER C (Free · e') ρ ρt → KR C κ κ' → SR C σ σt →
      Sync C (.ev e ρ κ σ) (.ev e' ρt κ' σt)
  | args {op : Op} {es es' : List Exp} {d d' : Nat → Val} {todo : List Nat} {ρ ρt : Env} {κ κ' : Kont} {σ σt : Store W} :
      Gs C es es' → ER C (fun y => ∃ e ∈ es', Free y e) ρ ρt → (∀ j, VR C (d j) (d' j)) → KR C κ κ' → SR C σ σt →
      Sync C (.args op es d todo ρ κ σ) (.args op es' d' todo ρt κ' σt)
  | ap {f g : Val} {vs ws : List Val} {κ κ' : Kont} {σ σt : Store W} : VR C f g → List.Forall₂ (VR C) vs ws → KR C κ κ' → SR C σ σt →
      Sync C (.ap f vs κ σ) (.ap g ws κ' σt)
  | ret {v w : Val} {κ κ' : Kont} {σ σt : Store W} : VR C v w → KR C κ κ' → SR C σ σt → Sync C (.ret v κ σ) (.ret w κ' σt)

/-- related values look the same. -/
theorem VR.view : {v w : Val} → VR C v w → v.view = w.view
  | _, _, .atom _ => rfl
  | _, _, .pair h1 h2 => by simp only [Val.view, VR.view h1, VR.view h2]
  | _, _, .box _ => rfl
  | _, _, .trap => rfl
  | _, _, .clos .. => rfl
  | _, _, .rc .. => rfl
  | _, _, .rclos .. => rfl
  | _, _, .cont _ => rfl

theorem primRel : PrimRel (VR C) where
  atom := .atom
  trap := .trap
  box := .box
  pair := .pair
  view := VR.view
  ofPair := by intro a d w h; cases h with | pair h1 h2 => exact ⟨_, _, rfl, h1, h2⟩
  ofBox := by intro a w h; cases h; rfl

end Verif.Globals
