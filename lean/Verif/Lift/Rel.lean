import Verif.Core.PrimRel
import Verif.Core.Free
import Verif.Lift.Model
/-
A program and its lambda-lifted form: relations between expressions, values, continuations and states (C52).
-/
namespace Verif.Lift
open Verif.Core
open Verif.Beta (lookup_skip lookup_rel idxOf_none lt_of_get)
variable {W : Type} {T : List (Id × Exp)}

/-- the labels of the lifted procedures. -/
def labs (T : List (Id × Exp)) : List Id := T.map Prod.fst

/-- a closure over the lifted procedure `t` with the extra variables `xs`. -/
abbrev curryBody (t : Id) (args xs : List Id) : Exp := .app (.var t) (args.map .var ++ xs.map .var)

/-- the parameters `args` of a closure over a procedure with `n` parameters. -/
structure CurryOk (T : List (Id × Exp)) (n : Nat) (args xs : List Id) : Prop where
  len : args.length = n
  nodup : args.Nodup
  loc : ∀ y ∈ args, y.isGlobal = false
  apart : ∀ y ∈ args, y ∉ xs
  lab : ∀ y ∈ args, y ∉ labs T

/-- the closures over the members of a group. -/
def CurryAll (T : List (Id × Exp)) (g : Group) (cs : List Exp) : Prop :=
  cs.length = g.ids.length ∧ ∀ (j : Nat) (c : Exp), cs[j]? = some c → ∃ t ps xs args, g.tids[j]? = some t ∧ g.pss[j]? = some ps ∧ g.xss[j]? = some xs ∧
    c = .lam args (curryBody t args xs) ∧ CurryOk T ps.length args xs

/-- the extra variables of a group suffice. -/
structure GC (T : List (Id × Exp)) (g : Group) (lams : List Exp) : Prop where
  len : g.ids.length = lams.length
  lent : g.tids.length = lams.length
  lenx : g.xss.length = lams.length
  pss : g.pss = lams.map params
  lab : ∀ y ∈ g.ids, y ∉ labs T
  own : ∀ (i : Nat) (l : Exp) (xs : List Id), lams[i]? = some l → g.xss[i]? = some xs → ∀ y, y.isGlobal = false → Free y l → y ∉ g.ids → y ∈ xs
  call : ∀ (i j : Nat) (l : Exp) (xs xs' : List Id) (y : Id), lams[i]? = some l → g.xss[i]? = some xs → g.ids[j]? = some y → g.xss[j]? = some xs' →
    Free y l → ∀ z ∈ xs', z ∈ xs
  xs : ∀ xs ∈ g.xss, ∀ x ∈ xs, x.isGlobal = false ∧ x ∉ g.ids ∧ x ∉ labs T ∧ ∃ l ∈ lams, Free x l
  ps : ∀ ps b, Exp.lam ps b ∈ lams → ∀ y ∈ ps, y ∉ g.ids ∧ y ∉ labs T ∧ ∀ xs ∈ g.xss, y ∉ xs

mutual
/-- the second expression is the first with its procedures lifted; the lifted procedures are in `T`. -/
inductive LR (T : List (Id × Exp)) : Exp → Exp → Prop
  | var (x : Id) : LR T (.var x) (.var x)
  | set {x : Id} {e e' : Exp} : LR T e e' → LR T (.set x e) (.set x e')
  | ite {a b c a' b' c' : Exp} : LR T a a' → LR T b b' → LR T c c' → LR T (.ite a b c) (.ite a' b' c')
  | prim {eff : Effect} {p : PrimName} {es es' : List Exp} : LRs T es es' → LR T (.prim eff p es) (.prim eff p es')
  | app {f f' : Exp} {es es' : List Exp} : LR T f f' → LRs T es es' → LR T (.app f es) (.app f' es')
  | keep {ids : List Id} {b b' : Exp} : (∀ y ∈ ids, y ∉ labs T) → LR T b b' → LR T (.lam ids b) (.lam ids b')
  | lam {g : Group} {l : Id} {ps : List Id} {b : Exp} {cs : List Exp} : g.ids = [l] → l.isGlobal = false → ¬ Free l b → GC T g [.lam ps b] →
      LG T g [.lam ps b] g.xss g.tids → CurryAll T g cs → LR T (.lam ps b) (letExp [l] cs (.var l))
  | fix {g : Group} {lams : List Exp} {b b' : Exp} {cs : List Exp} : GC T g lams → LG T g lams g.xss g.tids →
      CurryAll T g cs → LR T b b' → LR T (.fix g.ids lams b) (letExp g.ids cs b')
/-- lists of expressions. -/
inductive LRs (T : List (Id × Exp)) : List Exp → List Exp → Prop
  | nil : LRs T [] []
  | cons {e e' : Exp} {es es' : List Exp} : LR T e e' → LRs T es es' → LRs T (e :: es) (e' :: es')
/-- the procedures of a group, with their extra variables and labels. -/
inductive LG (T : List (Id × Exp)) : Group → List Exp → List (List Id) → List Id → Prop
  | nil (g : Group) : LG T g [] [] []
  | cons {g : Group} {ps xs : List Id} {b b' : Exp} {cs ls : List Exp} {xss : List (List Id)} {t : Id} {ts : List Id} :
      (t, .lam (ps ++ xs) (letExp g.ids cs b')) ∈ T → CurryAll T g cs → LR T b b' → LG T g ls xss ts →
      LG T g (.lam ps b :: ls) (xs :: xss) (t :: ts)
end

theorem LRs.length : {es es' : List Exp} → LRs T es es' → es.length = es'.length
  | _, _, .nil => rfl
  | _, _, .cons _ h => by simp [h.length]

theorem LRs.get : {es es' : List Exp} → LRs T es es' → ∀ {i : Nat} {e : Exp}, es[i]? = some e → ∃ e', es'[i]? = some e' ∧ LR T e e'
  | _, _, .nil, i, e, h => by simp at h
  | _, _, .cons h1 h2, i, e, h => by
    cases i with
    | zero => simp only [List.getElem?_cons_zero, Option.some.injEq] at h; subst h; exact ⟨_, rfl, h1⟩
    | succ i => simpa using h2.get (by simpa using h)

theorem LG.get {g : Group} : {ls : List Exp} → {xss : List (List Id)} → {ts : List Id} → LG T g ls xss ts →
    ∀ {i : Nat} {l : Exp} {xs : List Id} {t : Id}, ls[i]? = some l → xss[i]? = some xs → ts[i]? = some t →
    ∃ ps b cs b', l = .lam ps b ∧ (t, .lam (ps ++ xs) (letExp g.ids cs b')) ∈ T ∧ CurryAll T g cs ∧ LR T b b'
  | _, _, _, .nil _, i, l, _, _, h, _, _ => by simp at h
  | _, _, _, .cons h1 h2 h3 h4, i, l, xs, t, ha, hb, hc => by
    cases i with
    | zero =>
      simp only [List.getElem?_cons_zero, Option.some.injEq] at ha hb hc
      subst ha; subst hb; subst hc
      exact ⟨_, _, _, _, rfl, h1, h2, h3⟩
    | succ i => exact h4.get (by simpa using ha) (by simpa using hb) (by simpa using hc)

/-- every label is bound to its procedure. -/
def HasTop (T : List (Id × Exp)) (ρ : Env) : Prop :=
  ∀ t ∈ labs T, t.isGlobal = false ∧ ∃ (i : Nat) (l : Exp), T[i]? = some (t, l) ∧ ρ.lookup t = some (.rclos (labs T) (T.map Prod.snd) i .nil)

mutual
/-- related values. -/
inductive VR (T : List (Id × Exp)) : Val → Val → Prop
  | atom (n : Nat) : VR T (.atom n) (.atom n)
  | pair {a d a' d' : Val} : VR T a a' → VR T d d' → VR T (.pair a d) (.pair a' d')
  | box (a : Nat) : VR T (.box a) (.box a)
  | trap : VR T .trap .trap
  | keep {ids : List Id} {b b' : Exp} {ρ ρt : Env} : (∀ y ∈ ids, y ∉ labs T) → LR T b b' → HasTop T ρt →
      (∀ y, y.isGlobal = false → Free y (.lam ids b) → (ρ.lookup y).isSome ∧ (ρt.lookup y).isSome) →
      (∀ y v w, y.isGlobal = false → Free y (.lam ids b) → ρ.lookup y = some v → ρt.lookup y = some w → VR T v w) →
      VR T (.clos ids b ρ) (.clos ids b' ρt)
  | clos {g : Group} {l : Id} {ps xs args : List Id} {b : Exp} {t : Id} {ρ ρt : Env} : g.ids = [l] → ¬ Free l b → GC T g [.lam ps b] →
      LG T g [.lam ps b] g.xss g.tids → g.tids[0]? = some t → g.xss[0]? = some xs → CurryOk T ps.length args xs → HasTop T ρt →
      (∀ y, y ∈ xs → (ρ.lookup y).isSome ∧ (ρt.lookup y).isSome) →
      (∀ y v w, y ∈ xs → ρ.lookup y = some v → ρt.lookup y = some w → VR T v w) →
      VR T (.clos ps b ρ) (.clos args (curryBody t args xs) ρt)
  | rclos {g : Group} {lams : List Exp} {i : Nat} {ps xs args : List Id} {b : Exp} {t : Id} {ρ ρt : Env} : GC T g lams →
      LG T g lams g.xss g.tids → lams[i]? = some (.lam ps b) → g.tids[i]? = some t → g.xss[i]? = some xs → CurryOk T ps.length args xs → HasTop T ρt →
      (∀ y, y ∈ xs → (ρ.lookup y).isSome ∧ (ρt.lookup y).isSome) →
      (∀ y v w, y ∈ xs → ρ.lookup y = some v → ρt.lookup y = some w → VR T v w) →
      VR T (.rclos g.ids lams i ρ) (.clos args (curryBody t args xs) ρt)
end

theorem VR.prim : PrimRel (VR T) := by
  refine ⟨.atom, .trap, .box, .pair, ?_, ?_, ?_⟩
  · intro v w h
    induction h with
    | pair _ _ h1 h2 => simp [Val.view, h1, h2]
    | _ => rfl
  · intro a d w h; cases h with | pair h1 h2 => exact ⟨_, _, rfl, h1, h2⟩
  · intro a w h; cases h; rfl

/-- related environments on the local variables in `S`. -/
structure ER (T : List (Id × Exp)) (S : Id → Prop) (ρ ρt : Env) : Prop where
  top : HasTop T ρt
  ex : ∀ y, y.isGlobal = false → S y → (ρ.lookup y).isSome ∧ (ρt.lookup y).isSome
  all : ∀ y v w, y.isGlobal = false → S y → ρ.lookup y = some v → ρt.lookup y = some w → VR T v w

/-- related continuations. -/
inductive KR (T : List (Id × Exp)) : Kont → Kont → Prop
  | halt : KR T .halt .halt
  | set {x : Id} {κ κ' : Kont} : KR T κ κ' → KR T (.set x κ) (.set x κ')
  | ite {b c b' c' : Exp} {ρ ρt : Env} {κ κ' : Kont} : LR T b b' → LR T c c' → ER T (fun y => Free y b ∨ Free y c) ρ ρt → KR T κ κ' →
      KR T (.ite b c ρ κ) (.ite b' c' ρt κ')
  | args {op : Op} {es es' : List Exp} {d d' : Nat → Val} {i : Nat} {todo : List Nat} {ρ ρt : Env} {κ κ' : Kont} : LRs T es es' →
      ER T (fun y => ∃ e ∈ es, Free y e) ρ ρt → (∀ j, VR T (d j) (d' j)) → KR T κ κ' →
      KR T (.args op es d i todo ρ κ) (.args op es' d' i todo ρt κ')

/-- related states. -/
inductive Sync (T : List (Id × Exp)) : State W → State W → Prop
  | ev {e e' : Exp} {ρ ρt : Env} {κ κ' : Kont} {σ σt : Store W} : LR T e e' → ER T (Free · e) ρ ρt → KR T κ κ' → StoreRel (VR T) σ σt →
      Sync T (.ev e ρ κ σ) (.ev e' ρt κ' σt)
  | args {op : Op} {es es' : List Exp} {d d' : Nat → Val} {todo : List Nat} {ρ ρt : Env} {κ κ' : Kont} {σ σt : Store W} : LRs T es es' →
      ER T (fun y => ∃ e ∈ es, Free y e) ρ ρt → (∀ j, VR T (d j) (d' j)) → KR T κ κ' → StoreRel (VR T) σ σt →
      Sync T (.args op es d todo ρ κ σ) (.args op es' d' todo ρt κ' σt)
  | ap {f g : Val} {vs ws : List Val} {κ κ' : Kont} {σ σt : Store W} : VR T f g → List.Forall₂ (VR T) vs ws → KR T κ κ' → StoreRel (VR T) σ σt →
      Sync T (.ap f vs κ σ) (.ap g ws κ' σt)
  | ret {v w : Val} {κ κ' : Kont} {σ σt : Store W} : VR T v w → KR T κ κ' → StoreRel (VR T) σ σt → Sync T (.ret v κ σ) (.ret w κ' σt)

theorem Sync.world {s t : State W} (h : Sync T s t) : s.world = t.world := by
  cases h <;> (rename_i hs; exact hs.world)

end Verif.Lift
