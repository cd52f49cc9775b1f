import Verif.Cps.Model
import Verif.Core.Free
import Verif.Core.Steps
/-
The relations behind the proof of C34: CPS code of an expression, values, continuations.
-/
namespace Verif.Cps
open Verif.Core

/-- expressions that `cps-simple` turns into a variable. -/
def varLike : Exp → Bool
  | .var _ => true
  | .app (.lam [] b) [] => varLike b
  | .app (.lam [x] b) [e] => isVarOf x b && varLike e
  | _ => false

/-- positions, counted from `k`, of the elements with property `p`. -/
def posFrom (p : Exp → Bool) : Nat → List Exp → List Nat
  | _, [] => []
  | k, e :: es => if p e then k :: posFrom p (k + 1) es else posFrom p (k + 1) es

/-- The order of evaluation that CPS conversion chooses: operands with calls first, then the simple ones, each
group from left to right; if all operands of a primitive are simple, those that are not variables are evaluated
first, from right to left. -/
def cpsOrder : Op → List Exp → List Nat
  | .call, es => posFrom (fun e => !simple e) 0 es ++ posFrom simple 0 es
  | .prim _ _, es =>
    if simpleAll es then (posFrom (fun e => !varLike e) 0 es).reverse ++ posFrom varLike 0 es
    else posFrom (fun e => !simple e) 0 es ++ posFrom simple 0 es

/-- `x` receives the value of the `j`-th operand, which is not simple. -/
def Cx (es args : List Exp) (j : Nat) (x : Id) : Prop :=
  ∃ e, es[j]? = some e ∧ simple e = false ∧ args[j]? = some (.var x)

/-- variables that must not be rebound while the operands are evaluated. -/
def VL (V : Id → Prop) (es args : List Exp) (x : Id) : Prop :=
  V x ∨ (∃ e ∈ es, Free x e) ∨ ∃ j, Cx es args j x

/-- the arguments fit the operands. -/
structure ArgsOk (V : Id → Prop) (es args : List Exp) : Prop where
  len : args.length = es.length
  cx : ∀ (j : Nat) (e : Exp), es[j]? = some e → simple e = false → ∃ x, args[j]? = some (.var x)
  inj : ∀ j j' x, Cx es args j x → Cx es args j' x → j = j'
  fresh : ∀ j x, Cx es args j x → x.isGlobal = false ∧ ¬ V x ∧ ∀ e ∈ es, ¬ Free x e

mutual
/-- `CpsS e t`: `t` is a result of `cps-simple` for `e`. -/
inductive CpsS : Exp → Exp → Prop
  | var (x : Id) : CpsS (.var x) (.var x)
  | set {x : Id} {e t : Exp} : x.isGlobal = true → CpsS e t → CpsS (.set x e) (.set x t)
  | ite {a b c ta tb tc : Exp} : CpsS a ta → CpsS b tb → CpsS c tc → CpsS (.ite a b c) (.ite ta tb tc)
  | prim {eff : Effect} {p : PrimName} {es : List Exp} {ids : List Id} {vals exps : List Exp} : p ≠ .halt →
      PArgs es ids vals exps → simpleAll es = true → ids.Nodup → (∀ x ∈ ids, x.isGlobal = false ∧ (∀ e ∈ es, ¬ Free x e)) →
      CpsS (.prim eff p es) (letExp ids.reverse vals.reverse (.prim eff p exps))
  | lam {k : Id} {ids : List Id} {b t : Exp} : k.isGlobal = false → ¬ Free k b → Cps (fun x => x = k) b (.var k) t →
      CpsS (.lam ids b) (.lam (k :: ids) t)
  | fix {ids : List Id} {lams lams' : List Exp} {b t : Exp} : CpsSs lams lams' → CpsS b t →
      CpsS (.fix ids lams b) (.fix ids lams' t)
  | null {b t : Exp} : CpsS b t → CpsS (.app (.lam [] b) []) t
  | idlet {x : Id} {e t : Exp} : x.isGlobal = false → CpsS e t → CpsS (.app (.lam [x] (.var x)) [e]) t
  | begin {x y : Id} {e b t tb : Exp} : ¬ Free x b → ¬ Free y b → isVarOf x b = false → CpsS e t → CpsS b tb →
      CpsS (.app (.lam [x] b) [e]) (.app (.lam [y] tb) [t])
  | letE {ids : List Id} {es ts : List Exp} {b tb : Exp} : ids.length = es.length → CpsSs es ts → CpsS b tb →
      varLike (.app (.lam ids b) es) = false → simpleAll es = true →
      CpsS (.app (.lam ids b) es) (.app (.lam ids tb) ts)
/-- the same for lists. -/
inductive CpsSs : List Exp → List Exp → Prop
  | nil : CpsSs [] []
  | cons {e t : Exp} {es ts : List Exp} : CpsS e t → CpsSs es ts → CpsSs (e :: es) (t :: ts)
/-- operands of a primitive: those that are not variables are named by `ids`. -/
inductive PArgs : List Exp → List Id → List Exp → List Exp → Prop
  | nil : PArgs [] [] [] []
  | var {e : Exp} {x : Id} {es : List Exp} {ids : List Id} {vals exps : List Exp} : varLike e = true →
      CpsS e (.var x) → PArgs es ids vals exps → PArgs (e :: es) ids vals (.var x :: exps)
  | tmp {e t : Exp} {x : Id} {es : List Exp} {ids : List Id} {vals exps : List Exp} : varLike e = false →
      CpsS e t → PArgs es ids vals exps → PArgs (e :: es) (x :: ids) (t :: vals) (.var x :: exps)
/-- `Cps V e k t`: `t` is a result of `cps` for `e` and the continuation expression `k`; the variables in `V`,
which `k` may mention, are not rebound by `t`. -/
inductive Cps : (Id → Prop) → Exp → Exp → Exp → Prop
  | simple {V : Id → Prop} {e k t : Exp} : CpsS e t → Cps V e k (.app k [ktrapExp, t])
  | set {V : Id → Prop} {x ek r : Id} {e k t : Exp} : x.isGlobal = true → ek ≠ r → r.isGlobal = false → ¬ V ek → ¬ V r →
      Cps V e (.lam [ek, r] (.app k [ktrapExp, .set x (.var r)])) t → Cps V (.set x e) k t
  | iteV {V : Id → Prop} {a b c t : Exp} {k : Id} : CpsIte V a b c (.var k) t → Cps V (.ite a b c) (.var k) t
  | iteK {V : Id → Prop} {a b c k t : Exp} {x : Id} : ¬ V x → x.isGlobal = false → ¬ Free x (.ite a b c) →
      CpsIte (fun y => y = x) a b c (.var x) t → Cps V (.ite a b c) k (letExp [x] [k] t)
  | list {V : Id → Prop} {e : Exp} {op : Op} {es args : List Exp} {k fin t : Exp} :
      (e = .app f rs ∧ op = .call ∧ es = f :: rs ∨ ∃ eff p, e = .prim eff p es ∧ op = .prim eff p ∧ simpleAll es = false) →
      ArgsOk V es args → Fin V op es args k fin → Code V es args fin (posFrom (fun e => !Cps.simple e) 0 es) t →
      Cps V e k t
  | fix {V : Id → Prop} {ids : List Id} {lams lams' : List Exp} {b k t : Exp} : CpsSs lams lams' → (∀ x ∈ ids, ¬ V x) →
      Cps V b k t → Cps V (.fix ids lams b) k (.fix ids lams' t)
  | null {V : Id → Prop} {b k t : Exp} : Cps V b k t → Cps V (.app (.lam [] b) []) k t
  | idlet {V : Id → Prop} {x : Id} {e k t : Exp} : x.isGlobal = false → Cps.simple e = false → Cps V e k t →
      Cps V (.app (.lam [x] (.var x)) [e]) k t
  | beginS {V : Id → Prop} {x y ek : Id} {e b k t tb : Exp} : ¬ Free x b → ¬ V ek → ¬ V y → ¬ Free ek b → ¬ Free y b →
      CpsS e t → Cps V b k tb → Cps V (.app (.lam [x] b) [e]) k (.app (.lam [ek, y] tb) [ktrapExp, t])
  | begin {V : Id → Prop} {x y ek : Id} {e b k t tb : Exp} : Cps.simple e = false →
      ¬ Free x b → ek ≠ y → ¬ V ek → ¬ V y → ¬ Free ek b → ¬ Free y b →
      Cps (fun x => V x ∨ Free x b) e (.lam [ek, y] tb) t → Cps V b k tb → Cps V (.app (.lam [x] b) [e]) k t
  | letcc {V : Id → Prop} {x : Id} {b k t : Exp} : x.isGlobal = false → Cps (fun y => y = x) b (.var x) t →
      Cps V (.letcc x b) k (letExp [x] [k] t)
  | withccV {V : Id → Prop} {x : Id} {e k t : Exp} : x.isGlobal = false → Cps (fun y => y = x) e (.var x) t →
      Cps V (.withcc (.var x) e) k t
  | withccT {V : Id → Prop} {eff : Effect} {e k t : Exp} : Cps (fun _ => False) e (letExp [] [] (.prim eff .ktrap [])) t →
      Cps V (.withcc (.prim eff .ktrap []) e) k t
  | withccL {V : Id → Prop} {kid : Id} {ids : List Id} {b tb e k t : Exp} : kid.isGlobal = false → ¬ Free kid b →
      Cps (fun x => x = kid) b (.var kid) tb → Cps (fun y => Free y (.lam ids b)) e (.lam (kid :: ids) tb) t →
      Cps V (.withcc (.lam ids b) e) k t
  | withccC {V : Id → Prop} {ek r : Id} {c e k t t1 : Exp} : ek ≠ r → r.isGlobal = false → ¬ Free ek e → ¬ Free r e →
      Cps (fun x => Free x e) c (.lam [ek, r] t1) t → Cps (fun y => y = r) e (.var r) t1 → Cps V (.withcc c e) k t
/-- conditional with a variable for its continuation. -/
inductive CpsIte : (Id → Prop) → Exp → Exp → Exp → Exp → Exp → Prop
  | s {V : Id → Prop} {a b c k ta tb tc : Exp} : CpsS a ta → Cps V b k tb → Cps V c k tc →
      CpsIte V a b c k (.ite ta tb tc)
  | c {V : Id → Prop} {a b c k t tb tc : Exp} {ek r : Id} : ek ≠ r → r.isGlobal = false → ¬ V ek → ¬ V r →
      ¬ Free ek b → ¬ Free r b → ¬ Free ek c → ¬ Free r c →
      Cps (fun x => V x ∨ Free x b ∨ Free x c) a (.lam [ek, r] (.ite (.var r) tb tc)) t → Cps V b k tb → Cps V c k tc →
      CpsIte V a b c k t
/-- what is done with the arguments. -/
inductive Fin : (Id → Prop) → Op → List Exp → List Exp → Exp → Exp → Prop
  | call {V : Id → Prop} {es as : List Exp} {a k : Exp} :
      (∀ (j : Nat) (e t : Exp), es[j]? = some e → (a :: as)[j]? = some t → Cps.simple e = true → CpsS e t) →
      Fin V .call es (a :: as) k (.app a (k :: as))
  | prim {V : Id → Prop} {eff : Effect} {p : PrimName} {es as : List Exp} {k : Exp} : p ≠ .halt →
      (∀ (j : Nat) (e t : Exp), es[j]? = some e → as[j]? = some t → Cps.simple e = true → CpsS e t) →
      Fin V (.prim eff p) es as k (.app k [ktrapExp, .prim eff p as])
  | letE {V : Id → Prop} {ids : List Id} {b tb k : Exp} {es as : List Exp} : ids.length = es.length →
      (∀ x ∈ ids, ¬ V x) →
      (∀ (j : Nat) (e t : Exp), es[j]? = some e → as[j]? = some t → Cps.simple e = true → CpsS e t) →
      Cps V b k tb → Fin V .call (.lam ids b :: es) (.lam ids tb :: as) k (.app (.lam ids tb) as)
/-- code that evaluates the operands at the given positions and then continues with `fin`. -/
inductive Code : (Id → Prop) → List Exp → List Exp → Exp → List Nat → Exp → Prop
  | nil {V : Id → Prop} {es args : List Exp} {fin : Exp} : Code V es args fin [] fin
  | cons {V : Id → Prop} {es args : List Exp} {fin e t t1 : Exp} {i : Nat} {is : List Nat} {ek r : Id} :
      es[i]? = some e → Cps.simple e = false → args[i]? = some (.var r) → ¬ VL V es args ek →
      Cps (VL V es args) e (.lam [ek, r] t1) t → Code V es args fin is t1 → Code V es args fin (i :: is) t
end

end Verif.Cps
