import Verif.Core.Ast
/-
Lambda lifting, /repo/5.sf:195-266.

Simplifications.  Fresh time stamps are threaded explicitly; their order within one `let-exp` is the order of
the Lean text (the host evaluates operands in an unspecified order).  The accumulated `top-ids` and `top-lams`
are one list of pairs.  Forms that do not exist after CPS conversion (`letcc`, `withcc`, assignments to lexical
variables), which the code rejects, are left alone.
-/
namespace Verif.Lift
open Verif.Core Verif.Sets

/-- `called-lam-indices`, 5.sf:201-203. -/
def calledIdx (ids : List Id) (fvs : List Id) : List Nat :=
  (intersectionq fvs ids).filterMap (fun x => posq x ids)

/-- `lam-free-outs`, 5.sf:204-205. -/
def freeOuts (ids : List Id) (fvs : List Id) : List Id := setdiffq fvs ids

/-- `make-step-fn`, 5.sf:206-209. -/
def stepFn (calls : List Nat) (fovs : List Id) (av : List (List Id)) : List Id :=
  reduceLeft (fun i a => unionq a (av.getD i [])) fovs calls

/-- The loop of `extra-vars`, 5.sf:216-221; `none` if the number of steps is not enough. -/
def evLoop (fs : List (List Nat × List Id)) : Nat → Nat → Bool → List (List Id) → Option (List (List Id))
  | 0, _, _, _ => none
  | fuel+1, i, wrap, av =>
    if i = fs.length then
      if wrap then evLoop fs fuel 0 false av else some av
    else
      let f := fs.getD i ([], [])
      let next := stepFn f.1 f.2 av
      if seteq next (av.getD i []) then evLoop fs fuel (i + 1) wrap av
      else evLoop fs fuel (i + 1) true (av.set i next)

/-- the step functions, 5.sf:210-214. -/
def stepFns (ids : List Id) (fvs : List (List Id)) : List (List Nat × List Id) :=
  fvs.map fun f => (calledIdx ids f, freeOuts ids f)

/-- `extra-vars` with a step budget, from the free variables of the lambdas, 5.sf:200-221. -/
def extraVarsFuel (fuel : Nat) (ids : List Id) (fvs : List (List Id)) : Option (List (List Id)) :=
  evLoop (stepFns ids fvs) fuel 0 false (List.replicate fvs.length [])

/-- A sufficient budget (theorem `c37_extra_vars`). -/
def evBudget (fvs : List (List Id)) : Nat := (fvs.length * fvs.flatten.length + 1) * (fvs.length + 1)

/-- `extra-vars`, 5.sf:200-221. -/
def extraVars (ids : List Id) (lams : List Exp) : List (List Id) :=
  (extraVarsFuel (evBudget (lams.map freeLexvars)) ids (lams.map freeLexvars)).getD []

/-- `rename-id` over a list (3.sf:220-221). -/
def renameIds : List Id → Nat → List Id × Nat
  | [], n => ([], n)
  | _ :: ids, n => let (r, n') := renameIds ids (n + 1); (lexId n :: r, n')

/-- `lambda-exp->ids`. -/
def params : Exp → List Id
  | .lam ids _ => ids
  | _ => []

/-- `curry-lam`, 5.sf:223-226, `curry-exp`, 3.sf:470-473: a lambda that calls the label with its own arguments
followed by the extra variables. -/
def curryLam (ps : List Id) (xvars : List Id) (tid : Id) (n : Nat) : Exp × Nat :=
  let (ids', n') := renameIds ps n
  (.lam ids' (.app (.var tid) (ids'.map .var ++ xvars.map .var)), n')

/-- `(map curry-lam lam* xvars* tid*)`. -/
def curryLams : List (List Id) → List (List Id) → List Id → Nat → List Exp × Nat
  | ps :: pss, xs :: xss, t :: ts, n =>
    let (e, n1) := curryLam ps xs t n
    let (es, n2) := curryLams pss xss ts n1
    (e :: es, n2)
  | _, _, _, n => ([], n)

/-- fresh labels for the lambdas, 5.sf:237. -/
def labels : List Id → Nat → List Id × Nat
  | [], n => ([], n)
  | _ :: ids, n => let (r, n') := labels ids (n + 1); (labelId n :: r, n')

/-- State of the pass: next time stamp, lifted procedures. -/
structure LSt where
  next : Nat
  top : List (Id × Exp)

/-- the information shared by the procedures of a group: their ids, parameter lists, extra variables,
labels. -/
structure Group where
  ids : List Id
  pss : List (List Id)
  xss : List (List Id)
  tids : List Id

/-- `lift-lam` and `float-lam` for one procedure whose lifted body is given, 5.sf:228-232, 239-242. -/
def floatOne (g : Group) (ps xs : List Id) (tid : Id) (body : Exp) (s : LSt) : LSt :=
  let (cs, n) := curryLams g.pss g.xss g.tids s.next
  ⟨n, (tid, .lam (ps ++ xs) (letExp g.ids cs body)) :: s.top⟩

/-- the result of `lift-lams`, 5.sf:244-245. -/
def closeGroup (g : Group) (body : Exp) (s : LSt) : Exp × LSt :=
  let (cs, n) := curryLams g.pss g.xss g.tids s.next
  (letExp g.ids cs body, ⟨n, s.top⟩)

mutual
/-- `lift`, 5.sf:247-262. -/
def lift : Exp → LSt → Exp × LSt
  | .var x, s => (.var x, s)
  | .set x e, s => let (e', s) := lift e s; (.set x e', s)
  | .ite a b c, s =>
    let (a', s) := lift a s
    let (b', s) := lift b s
    let (c', s) := lift c s
    (.ite a' b' c', s)
  | .prim eff p es, s => let (es', s) := liftAll es s; (.prim eff p es', s)
  | .app (.lam ids b) es, s =>
    if ids.length = es.length then
      let (es', s) := liftAll es s
      let (b', s) := lift b s
      (letExp ids es' b', s)
    else
      let (f', s) := lift (.lam ids b) s
      let (es', s) := liftAll es s
      (.app f' es', s)
  | .app f es, s =>
    let (f', s) := lift f s
    let (es', s) := liftAll es s
    (.app f' es', s)
  | .lam ids b, s =>
    let l := lexId s.next
    let g : Group := ⟨[l], [ids], extraVars [l] [.lam ids b], [labelId (s.next + 1)]⟩
    let (b', s) := lift b ⟨s.next + 2, s.top⟩
    closeGroup g (.var l) (floatOne g ids (g.xss.getD 0 []) (g.tids.getD 0 l) b' s)
  | .fix ids lams body, s =>
    let (tids, n) := labels ids s.next
    let g : Group := ⟨ids, lams.map params, extraVars ids lams, tids⟩
    let s := liftLams g lams g.xss tids ⟨n, s.top⟩
    let (body', s) := lift body s
    closeGroup g body' s
  | .letcc x b, s => (.letcc x b, s)
  | .withcc k e, s => (.withcc k e, s)
/-- `(map lift …)`. -/
def liftAll : List Exp → LSt → List Exp × LSt
  | [], s => ([], s)
  | e :: es, s =>
    let (e', s) := lift e s
    let (es', s) := liftAll es s
    (e' :: es', s)
/-- `(for-each float-lam lam* xvars* tid*)`, 5.sf:243. -/
def liftLams (g : Group) : List Exp → List (List Id) → List Id → LSt → LSt
  | .lam ps b :: ls, xs :: xss, t :: ts, s =>
    let (b', s) := lift b s
    liftLams g ls xss ts (floatOne g ps xs t b' s)
  | _, _, _, s => s
end

/-- `lambda-lift`, 5.sf:264-266. -/
def lambdaLift (e : Exp) (n : Nat) : Exp :=
  let (b, s) := lift e ⟨n, []⟩
  .fix (s.top.map Prod.fst) (s.top.map Prod.snd) b

end Verif.Lift
