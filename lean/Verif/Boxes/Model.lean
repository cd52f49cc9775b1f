import Verif.Core.Ast
/-
Assignment elimination, /repo/4.sf:288-410.

Fresh ids come from a counter that is passed along.  `boxing error` (assignment to a local variable that is not in
the list of substitutions) leaves the assignment unchanged here.
-/
namespace Verif.Boxes
open Verif.Core

/-- `assq` in the list of substitutions. -/
def assq (x : Id) : List (Id × Id) → Option Id
  | [] => none
  | (y, b) :: s => if x = y then some b else assq x s

/-- `box-exp`, 4.sf:298-300. -/
def boxExp (e : Exp) : Exp := .prim ⟨true, false, false⟩ .box [e]
/-- `boxref-exp`, 4.sf:318-320. -/
def boxrefExp (b : Exp) : Exp := .prim ⟨false, true, false⟩ .boxref [b]
/-- `boxset-exp`, 4.sf:338-340. -/
def boxsetExp (b e : Exp) : Exp := .prim ⟨false, false, true⟩ .boxset [b, e]

/-- the loop over the parameters of a lambda expression, 4.sf:382-395: the assigned ones with their new ids, in
order. -/
def boxIds (body : Exp) : List Id → Nat → List (Id × Id) × Nat
  | [], n => ([], n)
  | x :: ids, n =>
    if assigned x body then
      let r := boxIds body ids (n + 1)
      ((x, lexId n) :: r.1, r.2)
    else boxIds body ids n

mutual
/-- `box-subst`, 4.sf:359-408, with the list of substitutions `s`. -/
def box (s : List (Id × Id)) : Exp → Nat → Exp × Nat
  | .var x, n =>
    match assq x s with
    | some b => (boxrefExp (.var b), n)
    | none => (.var x, n)
  | .set x e, n =>
    let r := box s e n
    if x.isGlobal then (.set x r.1, r.2)
    else match assq x s with
      | some b => (boxsetExp (.var b) r.1, r.2)
      | none => (.set x r.1, r.2)
  | .ite a b c, n =>
    let ra := box s a n
    let rb := box s b ra.2
    let rc := box s c rb.2
    (.ite ra.1 rb.1 rc.1, rc.2)
  | .app (.lam [] b) [], n => box s b n
  | .app (.lam [x] (.var y)) [e], n =>
    if x = y then box s e n
    else
      let r := box s (.lam [x] (.var y)) n
      let rs := box s e r.2
      (.app r.1 [rs.1], rs.2)
  | .prim eff p es, n => let r := boxAll s es n; (.prim eff p r.1, r.2)
  | .app f es, n =>
    let r := box s f n
    let rs := boxAll s es r.2
    (.app r.1 rs.1, rs.2)
  | .fix ids lams b, n =>
    let r := boxAll s lams n
    let rb := box s b r.2
    (.fix ids r.1 rb.1, rb.2)
  | .lam ids b, n =>
    let ps := boxIds b ids n
    let r := box (ps.1.reverse ++ s) b ps.2
    (.lam ids (letExp (ps.1.map (·.2)) (ps.1.map (fun p => boxExp (.var p.1))) r.1), r.2)
  | .letcc x b, n =>
    if assigned x b then
      let r := box ((x, lexId n) :: s) b (n + 1)
      (.letcc x (letExp [lexId n] [boxExp (.var x)] r.1), r.2)
    else
      let r := box s b n
      (.letcc x r.1, r.2)
  | .withcc k e, n =>
    let rk := box s k n
    let re := box s e rk.2
    (.withcc rk.1 re.1, re.2)
/-- `(map box …)`. -/
def boxAll (s : List (Id × Id)) : List Exp → Nat → List Exp × Nat
  | [], n => ([], n)
  | e :: es, n =>
    let r := box s e n
    let rs := boxAll s es r.2
    (r.1 :: rs.1, rs.2)
end

/-- `remove-assignments`, 4.sf:357-410; `n` is the next time stamp. -/
def removeAssignments (e : Exp) (n : Nat) : Exp := (box [] e n).1

end Verif.Boxes
