import Verif.Core.Machine
/-
Beta substitution, /repo/4.sf:734-905.

Simplifications.  `prim-cexp?` (6.sf:134-136), a test of the C text of a primitive, is the parameter `cexp`.
The recursion of `/repo` is not structural (a new redex is processed again), so the model has a bound on the depth
of the recursion; running out of it is recorded.  Besides the expression, the model returns the list of the
kinds of substitution it has made, which /repo does not.
-/
namespace Verif.Beta
open Verif.Core

/-- `bs-zero-cost-ref-transparent?`, 4.sf:740-750. -/
def zeroCost (cexp : PrimName → Bool) : Exp → Bool
  | .var x => !x.isGlobal || x.isGlobalConst
  | .prim eff p rands => eff.refTransparent && rands.isEmpty && cexp p
  | _ => false

mutual
/-- `bs-ref-transparent?`, 4.sf:752-765. -/
def transparent : Exp → Bool
  | .var x => !x.isGlobal || x.isGlobalConst
  | .ite a b c => transparent a && transparent b && transparent c
  | .prim eff _ rands => eff.refTransparent && transparentAll rands
  | .lam _ _ => true
  | .app (.lam ids body) rands => decide (ids.length = rands.length) && transparentAll rands && transparent body
  | _ => false
/-- `(andmap bs-ref-transparent? rands)`. -/
def transparentAll : List Exp → Bool
  | [] => true
  | e :: es => transparent e && transparentAll es
end

mutual
/-- `bs-removable-if-dead?`, 4.sf:767-783. -/
def removable : Exp → Bool
  | .var _ => true
  | .ite a b c => removable a && removable b && removable c
  | .prim eff _ rands => eff.removable && removableAll rands
  | .lam _ _ => true
  | .app (.lam ids body) rands => decide (ids.length = rands.length) && removableAll rands && removable body
  | .letcc _ body => removable body
  | .withcc k e => removable k && removable e
  | _ => false
/-- `(andmap bs-removable-if-dead? rands)`. -/
def removableAll : List Exp → Bool
  | [] => true
  | e :: es => removable e && removableAll es
end

/-- `id-one-of?`, 4.sf:786-787. -/
def isVar (x : Id) : Exp → Bool
  | .var y => decide (x = y)
  | _ => false

/-- `bs-arg-of-application?`, 4.sf:785-795. -/
def argOfApplication (x : Id) : Exp → Bool
  | .prim _ _ rands => transparentAll rands && rands.any (isVar x)
  | .app f rands => transparent f && transparentAll rands && (isVar x f || rands.any (isVar x))
  | _ => false

/-- `bs-cheap-ref-transparent?`, 4.sf:797-803. -/
def cheapTransparent (cexp : PrimName → Bool) : Exp → Bool
  | .prim eff _ rands => eff.refTransparent && decide (rands.length ≤ 2) && rands.all (zeroCost cexp)
  | _ => false

/-- `bs-cheap-lambda?`, 4.sf:805-815. -/
def cheapLambda (cexp : PrimName → Bool) : Exp → Bool
  | .lam _ (.prim _ _ rands) => rands.all (zeroCost cexp)
  | .lam _ (.app f rands) => zeroCost cexp f && rands.all (zeroCost cexp)
  | _ => false

/-- the loop in `curry-exp?`, 3.sf:480-484. -/
def startsWith : List Id → List Exp → Bool
  | [], _ => true
  | x :: xs, e :: es => isVar x e && startsWith xs es
  | _ :: _, [] => false

/-- `curry-exp?`, 3.sf:475-486. -/
def isCurry : Exp → Bool
  | .lam ids (.app (.var f) rands) => f.isLabel && startsWith ids rands
  | _ => false

/-- an element of `substs`: the id, its replacement, and its replacement in operator position if that differs. -/
structure Entry where
  id : Id
  exp : Exp
  head : Option Exp

/-- `(assq id substs)`. -/
def find (x : Id) : List Entry → Option Entry
  | [] => none
  | n :: ns => if n.id = x then some n else find x ns

/-- What the pass has done. `fuel`: run out of recursion depth; `drop r`: a dead binding of `r` removed; `move r`: an
expression `r` used once, not transparent, moved into the application in the body; `sub r`: a transparent `r` used
once substituted; `copy r`: a small `r` without procedures substituted; `copyLam r`: a procedure `r` substituted
more than once. -/
inductive Act where
  | fuel
  | drop (r : Exp)
  | move (r : Exp)
  | sub (r : Exp)
  | copy (r : Exp)
  | copyLam (r : Exp)

/-- `hold-cps-invariants?` and `hold-lifting-invariants?`, 4.sf:738, and `prim-cexp?`. -/
structure Opts where
  cps : Bool
  lift : Bool
  cexp : PrimName → Bool

/-- What happens to a binding. -/
inductive Dec where
  | pass
  | skip
  | subst (a : Act)
  | partially (a : Act)

/-- the decision in 4.sf:859-888. -/
def decideLet (o : Opts) (x : Id) (rand body : Exp) : Dec :=
  let refc := refCount x body
  if refc = 0 then
    if removable rand then .skip else .pass
  else if refc = 1 then
    if transparent rand then .subst (.sub rand)
    else if !o.cps && argOfApplication x body then .subst (.move rand)
    else .pass
  else if refc = 2 && !o.cps && cheapTransparent o.cexp rand then .subst (.copy rand)
  else if (if o.lift then isCurry rand else cheapLambda o.cexp rand) then
    if onlyApplied x body then .subst (.copyLam rand) else .partially (.copyLam rand)
  else if zeroCost o.cexp rand then .subst (.copy rand)
  else .pass

/-- State of the loop over the bindings, 4.sf:843-854; `acts` is added by the model. -/
structure LetLoop where
  outIds : List Id
  outRands : List Exp
  substs : List Entry
  acts : List Act

/-- the loop over the bindings, 4.sf:843-888. -/
def letLoop (o : Opts) (body : Exp) : List Id → List Exp → LetLoop → LetLoop
  | x :: ids, rand :: rands, l =>
    match decideLet o x rand body with
    | .pass => letLoop o body ids rands { l with outIds := x :: l.outIds, outRands := rand :: l.outRands }
    | .skip => letLoop o body ids rands { l with acts := .drop rand :: l.acts }
    | .subst a => letLoop o body ids rands { l with substs := ⟨x, rand, none⟩ :: l.substs, acts := a :: l.acts }
    | .partially a =>
      letLoop o body ids rands
        { outIds := x :: l.outIds, outRands := rand :: l.outRands, substs := ⟨x, .var x, some rand⟩ :: l.substs,
          acts := a :: l.acts }
  | _, _, l => l

/-- results of a list. -/
def fsts (rs : List (Exp × List Act)) : List Exp := rs.map (·.1)
/-- records of a list. -/
def snds (rs : List (Exp × List Act)) : List Act := rs.flatMap (·.2)

/-- `beta-subst` and `bs`, 4.sf:817-903, with at most `n` nested calls. -/
def bs (o : Opts) : Nat → List Entry → Exp → Exp × List Act
  | 0, _, e => (e, [.fuel])
  | n + 1, s, e =>
    match e with
    | .var x => (match find x s with | some en => en.exp | none => .var x, [])
    | .set x e => let r := bs o n s e; (.set x r.1, r.2)
    | .ite a b c =>
      let ra := bs o n s a; let rb := bs o n s b; let rc := bs o n s c
      (.ite ra.1 rb.1 rc.1, ra.2 ++ rb.2 ++ rc.2)
    | .prim eff p rands => let rs := rands.map (bs o n s); (.prim eff p (fsts rs), snds rs)
    | .lam ids b => let r := bs o n s b; (.lam ids r.1, r.2)
    | .fix ids lams b =>
      let rs := lams.map (bs o n s); let r := bs o n s b
      (.fix ids (fsts rs) r.1, snds rs ++ r.2)
    | .letcc x b => let r := bs o n s b; (.letcc x r.1, r.2)
    | .withcc k e => let rk := bs o n s k; let r := bs o n s e; (.withcc rk.1 r.1, rk.2 ++ r.2)
    | .app f rands =>
      match f, rands with
      | .lam [] b, [] => bs o n s b
      | f, rands =>
        if isIdLet (.app f rands) then
          match rands with
          | [r] => bs o n s r
          | _ => (.app f rands, [.fuel])
        else if isLet (.app f rands) then
          match f with
          | .lam ids body =>
            let rs := rands.map (bs o n s)
            let l := letLoop o body ids (fsts rs) ⟨[], [], s, []⟩
            let r := bs o n l.substs body
            (if l.outIds.isEmpty then r.1 else letExp l.outIds l.outRands r.1, snds rs ++ (l.acts ++ r.2))
          | _ => (.app f rands, [.fuel])
        else
          let rf : Exp × List Act :=
            match f with
            | .var x =>
              (match find x s with
                | some en => (match en.head with | some h => h | none => en.exp)
                | none => .var x, [])
            | f => bs o n s f
          let rs := rands.map (bs o n s)
          let e' : Exp := .app rf.1 (fsts rs)
          if isLet e' then
            let r := bs o n s e'
            (r.1, rf.2 ++ (snds rs ++ r.2))
          else (e', rf.2 ++ snds rs)

/-- `beta-substitute`, 4.sf:738-905, with recursion depth at most `n`. -/
def betaSubstitute (o : Opts) (n : Nat) (e : Exp) : Exp := (bs o n [] e).1

end Verif.Beta
