import Verif.Fold.Model
import Verif.Beta.Redex
import Verif.Beta.Envs
/-
Single folding steps, and related values, continuations and states of a program and the folded program (C36).
-/
namespace Verif.Fold
open Verif.Core
open Verif.Beta (gstep)
variable {W τ : Type} [DecidableEq τ]

mutual
/-- The second expression results from the first by folding, at any number of places; `Γ` holds the types of variables. -/
inductive FR (t : Types τ) : TEnv τ → Exp → Exp → Prop
  | var (Γ : TEnv τ) (x : Id) : FR t Γ (.var x) (.var x)
  | set {Γ : TEnv τ} {x : Id} {e e' : Exp} : FR t Γ e e' → FR t Γ (.set x e) (.set x e')
  | ite {Γ : TEnv τ} {a b c a' b' c' : Exp} : FR t Γ a a' → FR t Γ b b' → FR t Γ c c' → FR t Γ (.ite a b c) (.ite a' b' c')
  | fold {Γ : TEnv τ} {a b c x a' x' : Exp} {β : Bool} {d : Id} : foldTest t Γ a = some β → x = (if β then b else c) → ¬ Free d x →
      FR t Γ a a' → FR t Γ x x' → FR t Γ (.ite a b c) (.app (.lam [d] x') [a'])
  | prim {Γ : TEnv τ} {eff : Effect} {p : PrimName} {es es' : List Exp} : FRs t Γ es es' → FR t Γ (.prim eff p es) (.prim eff p es')
  | app {Γ : TEnv τ} {f f' : Exp} {es es' : List Exp} : isLet (.app f es) = false → FR t Γ f f' → FRs t Γ es es' → FR t Γ (.app f es) (.app f' es')
  | letE {Γ : TEnv τ} {ids : List Id} {b b' : Exp} {es es' : List Exp} : ids.length = es.length → (∀ y ∈ ids, y.isGlobal = false) → FRs t Γ es es' →
      FR t (exts ids (ctypes t Γ es) Γ) b b' → FR t Γ (.app (.lam ids b) es) (.app (.lam ids b') es')
  | beg {Γ : TEnv τ} {d d' : Id} {b b' e e' : Exp} : tlook d Γ = none → ¬ Free d b → ¬ Free d' b → FR t Γ e e' → FR t Γ b b' →
      FR t Γ (.app (.lam [d] b) [e]) (.app (.lam [d'] b') [e'])
  | asrt {Γ : TEnv τ} {d d' x : Id} {b b' : Exp} {eff : Effect} {p : PrimName} {T : τ} : tlook d Γ = none → d ≠ x → ¬ Free d b → ¬ Free d' b → t.assert p = some T →
      x.isGlobal = false → FR t ((x, some T) :: Γ) b b' →
      FR t Γ (.app (.lam [d] b) [.prim eff p [.var x]]) (.app (.lam [d'] b') [.prim eff p [.var x]])
  | null {Γ : TEnv τ} {b b' : Exp} : FR t Γ b b' → FR t Γ (.app (.lam [] b) []) b'
  | idl {Γ : TEnv τ} {x : Id} {e e' : Exp} : x.isGlobal = false → FR t Γ e e' → FR t Γ (.app (.lam [x] (.var x)) [e]) e'
  | lam {Γ : TEnv τ} {ids : List Id} {b b' : Exp} : (∀ y ∈ ids, tlook y Γ = none) → FR t Γ b b' → FR t Γ (.lam ids b) (.lam ids b')
  | fix {Γ : TEnv τ} {ids : List Id} {lams lams' : List Exp} {b b' : Exp} : (∀ y ∈ ids, tlook y Γ = none) → FRs t Γ lams lams' → FR t Γ b b' →
      FR t Γ (.fix ids lams b) (.fix ids lams' b')
  | letcc {Γ : TEnv τ} {x : Id} {b b' : Exp} : tlook x Γ = none → FR t Γ b b' → FR t Γ (.letcc x b) (.letcc x b')
  | withcc {Γ : TEnv τ} {c c' e e' : Exp} : FR t Γ c c' → FR t Γ e e' → FR t Γ (.withcc c e) (.withcc c' e')
/-- for lists. -/
inductive FRs (t : Types τ) : TEnv τ → List Exp → List Exp → Prop
  | nil (Γ : TEnv τ) : FRs t Γ [] []
  | cons {Γ : TEnv τ} {e e' : Exp} {es es' : List Exp} : FR t Γ e e' → FRs t Γ es es' → FRs t Γ (e :: es) (e' :: es')
end

theorem FRs.length {t : Types τ} {Γ : TEnv τ} : {es es' : List Exp} → FRs t Γ es es' → es.length = es'.length
  | _, _, .nil _ => rfl
  | _, _, .cons _ h => by simp [FRs.length h]

theorem FRs.get {t : Types τ} {Γ : TEnv τ} : {es es' : List Exp} → FRs t Γ es es' → ∀ {i : Nat} {e : Exp}, es[i]? = some e → ∃ e', es'[i]? = some e' ∧ FR t Γ e e'
  | _, _, .nil _, i, e, h => by simp at h
  | _, _, .cons (e' := e') h1 h2, i, e, h => by
    cases i with
    | zero => simp only [List.getElem?_cons_zero, Option.some.injEq] at h; subst h; exact ⟨e', rfl, h1⟩
    | succ i => simpa using FRs.get h2 (by simpa using h)

/-! ### what is expected of a value -/

/-- What is known of the value of an expression: nothing, its type, or its truth value. -/
inductive Dem (τ : Type) where
  | any
  | ty (T : τ)
  | truth (β : Bool)

/-- a type, if known. -/
def dem : Option τ → Dem τ
  | some T => .ty T
  | none => .any

/-- the types promise it. -/
def Can (t : Types τ) (Γ : TEnv τ) (e : Exp) : Dem τ → Prop
  | .any => True
  | .ty T => ctype t Γ e = some T
  | .truth β => foldTest t Γ e = some β

/-- the value fulfils it. -/
def Sat (has : τ → View → Prop) (v : Val) : Dem τ → Prop
  | .any => True
  | .ty T => has T v.view
  | .truth β => v.isFalse = !β

/-- for operands. -/
def OpOk (t : Types τ) (Γ : TEnv τ) (D : Dem τ) (es : List Exp) : Op → Prop
  | .prim eff p => Can t Γ (.prim eff p es) D
  | .call => D = .any

/-- values of variables have their types. -/
def Good (has : τ → View → Prop) (Γ : TEnv τ) (ρ : Env) : Prop :=
  ∀ x T, tlook x Γ = some T → x.isGlobal = false ∧ ∀ v, ρ.lookup x = some v → has T v.view

/-- The values found so far have their types. -/
def Typed (t : Types τ) (has : τ → View → Prop) (Γ : TEnv τ) (es : List Exp) (d : Nat → Val) (open' : Nat → Prop) : Prop :=
  ∀ (j : Nat) (e : Exp) (T : τ), es[j]? = some e → ¬ open' j → ctype t Γ e = some T → has T (d j).view

/-- A `let` with one variable waits for its operand. -/
def Wait (x : Id) (b : Exp) (ρ : Env) (d : Nat → Val) (todo : List Nat) : Prop :=
  todo = [0] ∨ (todo = [] ∧ d 0 = .clos [x] b ρ)

/-- The tables of types are right: `has T u` holds for the values of type `T`. -/
structure Honest (M : Sem W) (t : Types τ) (has : τ → View → Prop) : Prop where
  ret : ∀ p T vs σ v σ', t.ret p = some T → doPrim M p vs σ = some (.ok v σ') → has T v.view
  check : ∀ p T u σ v σ', t.check p = some T → doPrim M p [u] σ = some (.ok v σ') → (v.isFalse = false ↔ has T u.view)
  assert : ∀ p T u σ v σ', t.assert p = some T → doPrim M p [u] σ = some (.ok v σ') → has T u.view
  one : ∀ T T' u, has T u → has T' u → T = T'

/-- the parameters of the relation. -/
structure Ctx (W τ : Type) where
  M : Sem W
  t : Types τ
  has : τ → View → Prop
  Q : Op → List Exp → List Nat

mutual
/-- related values. -/
inductive VR (C : Ctx W τ) : Val → Val → Prop
  | atom (n : Nat) : VR C (.atom n) (.atom n)
  | pair {a d a' d' : Val} : VR C a a' → VR C d d' → VR C (.pair a d) (.pair a' d')
  | box (a : Nat) : VR C (.box a) (.box a)
  | trap : VR C .trap .trap
  | clos {Γ : TEnv τ} {ids : List Id} {b b' : Exp} {ρ ρt : Env} : (∀ y ∈ ids, tlook y Γ = none) → FR C.t Γ b b' → Good C.has Γ ρ →
      (∀ y v, Free y (.lam ids b) → ρ.lookup y = some v → ∃ w, ρt.lookup y = some w) →
      (∀ y v w, Free y (.lam ids b) → ρ.lookup y = some v → ρt.lookup y = some w → VR C v w) → VR C (.clos ids b ρ) (.clos ids b' ρt)
  | rclos {Γ : TEnv τ} {ids : List Id} {lams lams' : List Exp} {i : Nat} {ρ ρt : Env} : (∀ y ∈ ids, tlook y Γ = none) → FRs C.t Γ lams lams' → Good C.has Γ ρ →
      (∀ y v, (∃ l ∈ lams, Free y l) ∧ y ∉ ids → ρ.lookup y = some v → ∃ w, ρt.lookup y = some w) →
      (∀ y v w, (∃ l ∈ lams, Free y l) ∧ y ∉ ids → ρ.lookup y = some v → ρt.lookup y = some w → VR C v w) → VR C (.rclos ids lams i ρ) (.rclos ids lams' i ρt)
  | cont {κ κ' : Kont} : KR C .any κ κ' → VR C (.cont κ) (.cont κ')
/-- related continuations, for values that fulfil a demand. -/
inductive KR (C : Ctx W τ) : Dem τ → Kont → Kont → Prop
  | halt (D : Dem τ) : KR C D .halt .halt
  | trap (D : Dem τ) : KR C D .trap .trap
  | throw {D : Dem τ} {v w : Val} : VR C v w → KR C D (.throw v) (.throw w)
  | set {D : Dem τ} {x : Id} {κ κ' : Kont} : KR C .any κ κ' → KR C D (.set x κ) (.set x κ')
  | ite {D D' : Dem τ} {Γ : TEnv τ} {b c b' c' : Exp} {ρ ρt : Env} {κ κ' : Kont} : FR C.t Γ b b' → FR C.t Γ c c' → Can C.t Γ b D' → Can C.t Γ c D' → Good C.has Γ ρ →
      (∀ y v, Free y b ∨ Free y c → ρ.lookup y = some v → ∃ w, ρt.lookup y = some w) →
      (∀ y v w, Free y b ∨ Free y c → ρ.lookup y = some v → ρt.lookup y = some w → VR C v w) → KR C D' κ κ' → KR C D (.ite b c ρ κ) (.ite b' c' ρt κ')
  | fold {D' : Dem τ} {β : Bool} {Γ : TEnv τ} {b c x x' a' : Exp} {d : Id} {d' : Nat → Val} {todo : List Nat} {ρ ρt : Env} {κ κ' : Kont} : x = (if β then b else c) → ¬ Free d x →
      FR C.t Γ x x' → Can C.t Γ x D' → Good C.has Γ ρ → Wait d x' ρt d' todo →
      (∀ y v, Free y x → ρ.lookup y = some v → ∃ w, ρt.lookup y = some w) →
      (∀ y v w, Free y x → ρ.lookup y = some v → ρt.lookup y = some w → VR C v w) → KR C D' κ κ' →
      KR C (.truth β) (.ite b c ρ κ) (.args .call [.lam [d] x', a'] d' 1 todo ρt κ')
  | args {D : Dem τ} {Γ : TEnv τ} {op : Op} {es es' : List Exp} {e : Exp} {d d' : Nat → Val} {i : Nat} {todo : List Nat} {ρ ρt : Env} {κ κ' : Kont} :
      FRs C.t Γ es es' → OpOk C.t Γ D es op → Good C.has Γ ρ →
      (∀ y v, (∃ e ∈ es, Free y e) → ρ.lookup y = some v → ∃ w, ρt.lookup y = some w) →
      (∀ y v w, (∃ e ∈ es, Free y e) → ρ.lookup y = some v → ρt.lookup y = some w → VR C v w) →
      (∀ j, VR C (d j) (d' j)) → Typed C.t C.has Γ es d (· ∈ i :: todo) → es[i]? = some e → KR C D κ κ' →
      KR C (dem (ctype C.t Γ e)) (.args op es d i todo ρ κ) (.args op es' d' i todo ρt κ')
  | letf {D : Dem τ} {Γ : TEnv τ} {ids : List Id} {b b' : Exp} {es es' : List Exp} {e : Exp} {d d' : Nat → Val} {i : Nat} {todo : List Nat} {ρ ρt : Env} {κ κ' : Kont} :
      ids.length = es.length → (∀ y ∈ ids, y.isGlobal = false) → FRs C.t Γ es es' → FR C.t (exts ids (ctypes C.t Γ es) Γ) b b' →
      Can C.t (exts ids (ctypes C.t Γ es) Γ) b D → Good C.has Γ ρ →
      (∀ y v, Free y (.app (.lam ids b) es) → ρ.lookup y = some v → ∃ w, ρt.lookup y = some w) →
      (∀ y v w, Free y (.app (.lam ids b) es) → ρ.lookup y = some v → ρt.lookup y = some w → VR C v w) →
      (∀ j, VR C (d (j + 1)) (d' (j + 1))) → Typed C.t C.has Γ es (fun j => d (j + 1)) (fun j => j + 1 ∈ (i + 1) :: todo) →
      (0 ∈ todo ∨ (d 0 = .clos ids b ρ ∧ d' 0 = .clos ids b' ρt)) → es[i]? = some e → KR C D κ κ' →
      KR C (dem (ctype C.t Γ e)) (.args .call (.lam ids b :: es) d (i + 1) todo ρ κ) (.args .call (.lam ids b' :: es') d' (i + 1) todo ρt κ')
  | begf {D D' : Dem τ} {Γ : TEnv τ} {x x' : Id} {b b' e e' : Exp} {d d' : Nat → Val} {todo todo' : List Nat} {ρ ρt : Env} {κ κ' : Kont} : tlook x Γ = none → ¬ Free x b → ¬ Free x' b →
      FR C.t Γ b b' → Can C.t Γ b D' → Good C.has Γ ρ → Wait x b ρ d todo → Wait x' b' ρt d' todo' →
      (∀ y v, Free y b → ρ.lookup y = some v → ∃ w, ρt.lookup y = some w) →
      (∀ y v w, Free y b → ρ.lookup y = some v → ρt.lookup y = some w → VR C v w) → KR C D' κ κ' →
      KR C D (.args .call [.lam [x] b, e] d 1 todo ρ κ) (.args .call [.lam [x'] b', e'] d' 1 todo' ρt κ')
  | idl {D : Dem τ} {x : Id} {e : Exp} {d : Nat → Val} {todo : List Nat} {ρ : Env} {κ κ' : Kont} : x.isGlobal = false → Wait x (.var x) ρ d todo → KR C D κ κ' →
      KR C D (.args .call [.lam [x] (.var x), e] d 1 todo ρ κ) κ'
  | withcc {D : Dem τ} {Γ : TEnv τ} {e e' : Exp} {ρ ρt : Env} : FR C.t Γ e e' → Good C.has Γ ρ →
      (∀ y v, Free y e → ρ.lookup y = some v → ∃ w, ρt.lookup y = some w) →
      (∀ y v w, Free y e → ρ.lookup y = some v → ρt.lookup y = some w → VR C v w) → KR C D (.withcc e ρ) (.withcc e' ρt)
end

variable {C : Ctx W τ}

/-- related values look the same. -/
theorem VR.view : {v w : Val} → VR C v w → v.view = w.view
  | _, _, .atom _ => rfl
  | _, _, .pair h1 h2 => by simp only [Val.view, VR.view h1, VR.view h2]
  | _, _, .box _ => rfl
  | _, _, .trap => rfl
  | _, _, .clos .. => rfl
  | _, _, .rclos .. => rfl
  | _, _, .cont _ => rfl

theorem VR.false {v w : Val} (h : VR C v w) : v.isFalse = w.isFalse := by
  cases h <;> rfl

/-- related environments, on the variables `S`. -/
structure ER (C : Ctx W τ) (S : Id → Prop) (ρ ρt : Env) : Prop where
  ex : ∀ y v, S y → ρ.lookup y = some v → ∃ w, ρt.lookup y = some w
  all : ∀ y v w, S y → ρ.lookup y = some v → ρt.lookup y = some w → VR C v w

/-- related stores. -/
structure SR (C : Ctx W τ) (σ σt : Store W) : Prop where
  glob : ∀ x, (σ.glob x = none ∧ σt.glob x = none) ∨ ∃ v w, σ.glob x = some v ∧ σt.glob x = some w ∧ VR C v w
  heap : List.Forall₂ (VR C) σ.heap σt.heap
  world : σ.world = σt.world

/-- related states. -/
inductive Sync (C : Ctx W τ) : State W → State W → Prop
  | ev {Γ : TEnv τ} {D : Dem τ} {e e' : Exp} {ρ ρt : Env} {κ κ' : Kont} {σ σt : Store W} : FR C.t Γ e e' → Can C.t Γ e D → Good C.has Γ ρ →
      ER C (Free · e) ρ ρt → KR C D κ κ' → SR C σ σt → Sync C (.ev e ρ κ σ) (.ev e' ρt κ' σt)
  | args {D : Dem τ} {Γ : TEnv τ} {op : Op} {es es' : List Exp} {d d' : Nat → Val} {todo : List Nat} {ρ ρt : Env} {κ κ' : Kont} {σ σt : Store W} :
      FRs C.t Γ es es' → OpOk C.t Γ D es op → Good C.has Γ ρ → ER C (fun y => ∃ e ∈ es, Free y e) ρ ρt →
      (∀ j, VR C (d j) (d' j)) → Typed C.t C.has Γ es d (· ∈ todo) → KR C D κ κ' → SR C σ σt →
      Sync C (.args op es d todo ρ κ σ) (.args op es' d' todo ρt κ' σt)
  | letf {D : Dem τ} {Γ : TEnv τ} {ids : List Id} {b b' : Exp} {es es' : List Exp} {d d' : Nat → Val} {todo : List Nat} {ρ ρt : Env} {κ κ' : Kont} {σ σt : Store W} :
      ids.length = es.length → (∀ y ∈ ids, y.isGlobal = false) → FRs C.t Γ es es' → FR C.t (exts ids (ctypes C.t Γ es) Γ) b b' →
      Can C.t (exts ids (ctypes C.t Γ es) Γ) b D → Good C.has Γ ρ → ER C (Free · (.app (.lam ids b) es)) ρ ρt →
      (∀ j, VR C (d (j + 1)) (d' (j + 1))) → Typed C.t C.has Γ es (fun j => d (j + 1)) (fun j => j + 1 ∈ todo) →
      (0 ∈ todo ∨ (d 0 = .clos ids b ρ ∧ d' 0 = .clos ids b' ρt)) → KR C D κ κ' → SR C σ σt →
      Sync C (.args .call (.lam ids b :: es) d todo ρ κ σ) (.args .call (.lam ids b' :: es') d' todo ρt κ' σt)
  | ap {f g : Val} {vs ws : List Val} {κ κ' : Kont} {σ σt : Store W} : VR C f g →
      List.Forall₂ (VR C) vs ws → KR C .any κ κ' → SR C σ σt → Sync C (.ap f vs κ σ) (.ap g ws κ' σt)
  | ret {D : Dem τ} {v w : Val} {κ κ' : Kont} {σ σt : Store W} : VR C v w → Sat C.has v D → KR C D κ κ' → SR C σ σt →
      Sync C (.ret v κ σ) (.ret w κ' σt)

end Verif.Fold
