import Verif.Core.Ast
/-
CPS conversion, /repo/5.sf:26-164.

Fresh ids come from a counter that is passed along; the order of `lexical-id` calls within one expression, which
Scheme leaves open, is fixed here.  Local assignments (removed by an earlier pass) make `cps-complex` fail in
/repo; here they are left unchanged.
-/
namespace Verif.Cps
open Verif.Core Verif.Sets

mutual
/-- `cps-simple?`, 5.sf:76-95.  The clauses for degenerate lets, `begin` and `let` agree. -/
def simple : Exp → Bool
  | .var _ => true
  | .set x e => x.isGlobal && simple e
  | .ite a b c => simple a && simple b && simple c
  | .prim _ _ es => simpleAll es
  | .lam _ _ => true
  | .fix _ _ b => simple b
  | .app (.lam ids b) es => decide (ids.length = es.length) && (simpleAll es && simple b)
  | .app _ _ => false
  | .letcc _ _ => false
  | .withcc _ _ => false
/-- `(andmap cps-simple? …)`. -/
def simpleAll : List Exp → Bool
  | [] => true
  | e :: es => simple e && simpleAll es
end

/-- `noreturn-exp`, 5.sf:158-159. -/
def ktrapExp : Exp := .prim noEffect .ktrap []

/-- is the expression the variable `x`? -/
def isVarOf (x : Id) : Exp → Bool
  | .var y => decide (x = y)
  | _ => false

/-- is the expression a variable? -/
def isVar : Exp → Bool
  | .var _ => true
  | _ => false

mutual
/-- `cps-simple`, 5.sf:97-127. -/
def cpsSimple : Exp → Nat → Exp × Nat
  | .var x, n => (.var x, n)
  | .set x e, n => let r := cpsSimple e n; (.set x r.1, r.2)
  | .ite a b c, n =>
    let ra := cpsSimple a n
    let rb := cpsSimple b ra.2
    let rc := cpsSimple c rb.2
    (.ite ra.1 rb.1 rc.1, rc.2)
  | .prim eff p es, n =>
    let r := cpsPrimArgs es [] [] [] n
    (letExp r.1.1 r.1.2.1 (.prim eff p r.1.2.2.reverse), r.2)
  | .lam ids b, n =>
    let r := cps b (.var (lexId n)) (n + 1)
    (.lam (lexId n :: ids) r.1, r.2)
  | .fix ids lams b, n =>
    let r := cpsSimples lams n
    let rb := cpsSimple b r.2
    (.fix ids r.1 rb.1, rb.2)
  | .app (.lam [] b) [], n => cpsSimple b n
  | .app (.lam [x] b) [e], n =>
    if isVarOf x b then cpsSimple e n
    else if referenced x b then
      let r := cpsSimple e n
      let rb := cpsSimple b r.2
      (letExp [x] [r.1] rb.1, rb.2)
    else
      let r := cpsSimple e n
      let rb := cpsSimple b r.2
      (letExp [lexId rb.2] [r.1] rb.1, rb.2 + 1)
  | .app (.lam ids b) es, n =>
    let r := cpsSimples es n
    let rb := cpsSimple b r.2
    (letExp ids r.1 rb.1, rb.2)
  | e, n => (e, n)
termination_by e => 3 * sizeOf e
/-- `(map cps-simple …)`. -/
def cpsSimples : List Exp → Nat → List Exp × Nat
  | [], n => ([], n)
  | e :: es, n =>
    let r := cpsSimple e n
    let rs := cpsSimples es r.2
    (r.1 :: rs.1, rs.2)
termination_by es => 3 * sizeOf es
/-- the loop over the operands of a primitive, 5.sf:106-116: ids, their values and the arguments, each in reverse. -/
def cpsPrimArgs : List Exp → List Id → List Exp → List Exp → Nat → (List Id × List Exp × List Exp) × Nat
  | [], ids, vals, exps, n => ((ids, vals, exps), n)
  | e :: es, ids, vals, exps, n =>
    let r := cpsSimple e n
    if isVar r.1 then cpsPrimArgs es ids vals (r.1 :: exps) r.2
    else cpsPrimArgs es (lexId r.2 :: ids) (r.1 :: vals) (.var (lexId r.2) :: exps) (r.2 + 1)
termination_by es => 3 * sizeOf es
/-- `cps`, 5.sf:129-132, and `cps-complex`, 5.sf:28-74. -/
def cps : Exp → Exp → Nat → Exp × Nat
  | e, kexp, n =>
    if simple e then
      let r := cpsSimple e n
      (.app kexp [ktrapExp, r.1], r.2)
    else
      match e with
      | .set x e => cpsOne e (fun v m => (.app kexp [ktrapExp, .set x v], m)) n
      | .ite a b c =>
        if isVar kexp then
          cpsOne a (fun t m =>
            let rb := cps b kexp m
            let rc := cps c kexp rb.2
            (.ite t rb.1 rc.1, rc.2)) n
        else
          let r := cpsOne a (fun t m =>
            let rb := cps b (.var (lexId n)) m
            let rc := cps c (.var (lexId n)) rb.2
            (.ite t rb.1 rc.1, rc.2)) (n + 1)
          (letExp [lexId n] [kexp] r.1, r.2)
      | .prim eff p es => cpsList es (fun as m => (.app kexp [ktrapExp, .prim eff p as], m)) n
      | .fix ids lams b =>
        let r := cpsSimples lams n
        let rb := cps b kexp r.2
        (.fix ids r.1 rb.1, rb.2)
      | .app (.lam [] b) [] => cps b kexp n
      | .app (.lam [x] b) [e] =>
        if isVarOf x b then cps e kexp n
        else if referenced x b then
          cpsList [e] (fun as m =>
            let rb := cps b kexp m
            (letExp [x] as rb.1, rb.2)) n
        else
          let rb := cps b kexp (n + 2)
          cps e (.lam [lexId n, lexId (n + 1)] rb.1) rb.2
      | .app (.lam ids b) es =>
        if ids.length = es.length then
          cpsList es (fun as m =>
            let rb := cps b kexp m
            (letExp ids as rb.1, rb.2)) n
        else
          cpsList (.lam ids b :: es) (fun as m =>
            (match as with | a :: as => .app a (kexp :: as) | [] => kexp, m)) n
      | .app f es =>
        cpsList (f :: es) (fun as m =>
          (match as with | a :: as => .app a (kexp :: as) | [] => kexp, m)) n
      | .letcc x b =>
        let r := cps b (.var x) n
        (letExp [x] [kexp] r.1, r.2)
      | .withcc c e => cpsOne c (fun k m => cps e k m) n
      | e => (e, n)
termination_by e => 3 * sizeOf e + 2
/-- `cps-list`, 5.sf:134-147. -/
def cpsList : List Exp → (List Exp → Nat → Exp × Nat) → Nat → Exp × Nat
  | [], inner, n => inner [] n
  | e :: es, inner, n =>
    if simple e then
      cpsList es (fun as m => let r := cpsSimple e m; inner (r.1 :: as) r.2) n
    else
      let r1 := cpsList es (fun as m => inner (.var (lexId n) :: as) m) (n + 2)
      cps e (.lam [lexId (n + 1), lexId n] r1.1) r1.2
termination_by es => 3 * sizeOf es + 1
/-- `cps-one`, 5.sf:149-156. -/
def cpsOne : Exp → (Exp → Nat → Exp × Nat) → Nat → Exp × Nat
  | e, inner, n =>
    if simple e then
      let r := cpsSimple e n; inner r.1 r.2
    else
      let r1 := inner (.var (lexId n)) (n + 2)
      cps e (.lam [lexId (n + 1), lexId n] r1.1) r1.2
termination_by e => 3 * sizeOf e + 3
end

/-- `halt-exp`, 3.sf:512-514. -/
def haltExp (e : Exp) : Exp := .prim ⟨true, true, true⟩ .halt [e]

/-- `cps-convert`, 5.sf:26, 161-164; `n` is the next time stamp. -/
def cpsConvert (e : Exp) (n : Nat) : Exp :=
  (cps e (.lam [lexId (n + 1), lexId n] (haltExp (.var (lexId n)))) (n + 2)).1

end Verif.Cps
