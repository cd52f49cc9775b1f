import Verif.Fold.Model
import Verif.Core.Cells
/-
Transformation of `letrec` and `letrec*` into `fix`, /repo/4.sf:16-285.

Simplifications.  Time stamps of new ids are passed along explicitly, in the order in which the parts of a `letrec` stand
in the program (/repo visits them grouped by kind, which only changes the numbers).  The parts of a `letrec` are found
by looking through several levels of the expression, so the recursion is not structural; the model stops at a given
depth and leaves the expression as it is there.  Where `varassign*-exp?` takes the `car` of an empty list (an assignment
`(set! y z)` follows the expected ones, 4.sf:38-39), the model answers that the pattern does not match.
-/
namespace Verif.Letrec
open Verif.Core
open Verif.Fold (beginExp mapK)

/-! ### patterns -/

/-- `begin-exp?`, 3.sf:395-400, with the parts. -/
def beginParts : Exp → Option (Id × Exp × Exp)
  | .app (.lam [x] b) [e] => if referenced x b then none else some (x, e, b)
  | _ => none

/-- the loop of `varassign*-exp?` (4.sf:33-44) and `varassign*-exp->ids` (4.sf:48-54): the assigned ids. -/
def assignsOf (ids : List Id) : List Id → Exp → Option (List Id)
  | [], b => if isVoid b then some [] else none
  | t :: ts, e =>
    match beginParts e with
    | some (_, .set x (.var t'), b) => if t' = t ∧ x ∉ ids then (assignsOf ids ts b).map (x :: ·) else none
    | _ => none

/-- `varassign*-exp?`, 4.sf:30-46, with the parts. -/
def assignsParts : Exp → Option (List Id × List Exp)
  | .app (.lam ids b) rands => if ids.length = rands.length then (assignsOf ids ids b).map (·, rands) else none
  | _ => none

/-- `letrec-exp?`, 4.sf:69-78, with ids, operands and body. -/
def letrecParts : Exp → Option (List Id × List Exp × Exp)
  | .app (.lam ids b) rands =>
    if ids.length = rands.length ∧ ids ≠ [] ∧ rands.all isVoid = true then
      match beginParts b with
      | some (_, e1, e2) =>
        match assignsParts e1 with
        | some (ids', rs) => if ids' = ids then some (ids, rs, e2) else none
        | none => none
      | none => none
    else none
  | _ => none

/-- the loops of `letrec*-exp?` (4.sf:108-117), `letrec*-exp->rands` (4.sf:123-129) and `letrec*-exp->body` (4.sf:131-135). -/
def initsOf : List Id → Exp → Option (List Exp × Exp)
  | [], b => some ([], b)
  | x :: ids, e =>
    match beginParts e with
    | some (_, .set y r, b) => if y = x then (initsOf ids b).map (fun p => (r :: p.1, p.2)) else none
    | _ => none

/-- `letrec*-exp?`, 4.sf:103-118, with ids, operands and body. -/
def letrecStarParts : Exp → Option (List Id × List Exp × Exp)
  | .app (.lam ids b) rands =>
    if ids.length = rands.length ∧ ids ≠ [] ∧ rands.all isVoid = true then (initsOf ids b).map (ids, ·) else none
  | _ => none

/-! ### kinds of bindings -/

mutual
/-- `fl-simple?`, 4.sf:156-170. -/
def simple : Exp → Bool
  | .var _ => true
  | .ite a b c => simple a && simple b && simple c
  | .prim eff _ es => eff.refTransparent && simples es
  | .lam _ _ => true
  | .app (.lam ids b) es => decide (ids.length = es.length) && simples es && simple b
  | .withcc k e => simple k && simple e
  | _ => false
/-- `(andmap fl-simple? …)`. -/
def simples : List Exp → Bool
  | [] => true
  | e :: es => simple e && simples es
end

/-- `lambda-exp?`. -/
def isLam : Exp → Bool
  | .lam _ _ => true
  | _ => false

/-- unreferenced, simple, lambda, complex: 4.sf:172-180. -/
inductive Kind where
  | u | s | l | c
deriving DecidableEq

/-- `(andmap (lambda (id) (not (assq id vi))) ids)`, 4.sf:195-196, 4.sf:267. -/
def mentionsNone (ids : List Id) (e : Exp) : Bool := ids.all (fun y => !(vinfo e).any (fun u => u.1 = y))

/-- `classify`, 4.sf:186-200; `vi` is the variable use in all operands and the body. -/
def classify (ids : List Id) (vi : List (Id × Use)) (x : Id) (e : Exp) : Kind :=
  let vus := vi.filter (fun u => u.1 = x)
  if vus.isEmpty then .u
  else if vus.any (·.2.assign) then .c
  else if simple e && mentionsNone ids e then .s
  else if isLam e then .l
  else .c

/-- `bnd`, 4.sf:172. -/
structure Bnd where
  kind : Kind
  id : Id
  exp : Exp

/-- bindings of the ids, with operands `rs` instead of the given ones. -/
def bnds (ids0 : List Id) (vi : List (Id × Use)) : List Id → List Exp → List Exp → List Bnd
  | x :: ids, e :: es, r :: rs => ⟨classify ids0 vi x e, x, r⟩ :: bnds ids0 vi ids es rs
  | _, _, _ => []

/-- `classify-bindings`, 4.sf:182-201, with operands `rs` instead of the given ones. -/
def classifyBindings (ids : List Id) (rands : List Exp) (body : Exp) (rs : List Exp) : List Bnd :=
  bnds ids (vinfoAll rands (vinfo body)) ids rands rs

/-! ### results -/

/-- `(reduce-right/right-seed begin-exp base exps)`, and the loop 4.sf:247-256; new ids from `k` on. -/
def begins : Nat → List Exp → Exp → Exp × Nat
  | k, [], b => (b, k)
  | k, e :: es, b => let r := begins (k + 1) es b; (beginExp k e r.1, r.2)

/-- `varassign*-exp`, 4.sf:20-29. -/
def assignsExp (k : Nat) (ids : List Id) (rands : List Exp) : Exp × Nat :=
  let tmps := (List.range ids.length).map (fun i => lexId (k + i))
  let r := begins (k + ids.length) (List.zipWith (fun x t => .set x (.var t)) ids tmps) voidExp
  (letExp tmps rands r.1, r.2)

/-- `refix`, 4.sf:273-280, for the bindings `bs`, with recursion depth at most `n` (the number of bindings suffices:
each round removes one). -/
def refix : Nat → List (Id × Exp) → Exp → Exp
  | 0, _, body => body
  | n + 1, bs, body =>
    let new := fun (b : Id × Exp) => mentionsNone (bs.map (·.1)) b.2
    let sb := bs.filter new
    let lb := bs.filter (fun b => !new b)
    if sb.isEmpty then if lb.isEmpty then body else .fix (bs.map (·.1)) (bs.map (·.2)) body
    else letExp (sb.map (·.1)) (sb.map (·.2)) (refix n lb body)

/-- bindings of some kind. -/
def ofKind (k : Kind) (bs : List Bnd) : List Bnd := bs.filter (fun b => b.kind = k)

/-- the outer part of the result, 4.sf:216-224 and 4.sf:237-246. -/
def around (bs : List Bnd) (inner : Exp) : Exp :=
  let sb := ofKind .s bs
  let cb := ofKind .c bs
  let lb := ofKind .l bs
  letExp (sb.map (·.id) ++ cb.map (·.id)) (sb.map (·.exp) ++ cb.map (fun _ => voidExp))
    (refix lb.length (lb.map (fun b => (b.id, b.exp))) inner)

/-- the result for `letrec`, 4.sf:213-234; operands and body are already processed. -/
def letrecResult (k : Nat) (bs : List Bnd) (body : Exp) : Exp × Nat :=
  let cb := ofKind .c bs
  let c := if cb.isEmpty then (body, k)
    else let v := assignsExp k (cb.map (·.id)) (cb.map (·.exp)); (beginExp v.2 v.1 body, v.2 + 1)
  let r := begins c.2 ((ofKind .u bs).map (·.exp)) c.1
  (around bs r.1, r.2)

/-- the initializations left over in a `letrec*`, 4.sf:247-255. -/
def starInits (bs : List Bnd) : List Exp :=
  (bs.filter (fun b => b.kind = .c || b.kind = .u)).map (fun b => if b.kind = .c then .set b.id b.exp else b.exp)

/-- the result for `letrec*`, 4.sf:235-256. -/
def letrecStarResult (k : Nat) (bs : List Bnd) (body : Exp) : Exp × Nat :=
  let r := begins k (starInits bs) body
  (around bs r.1, r.2)

/-- `fix`, 4.sf:203-266, with recursion depth at most `n`; returns the next unused time stamp, too.  There are no `fix`
expressions in the programs the pass is applied to. -/
def fixL : Nat → Nat → Exp → Exp × Nat
  | 0, k, e => (e, k)
  | n + 1, k, e =>
    match e with
    | .var x => (.var x, k)
    | .set x e => let r := fixL n k e; (.set x r.1, r.2)
    | .ite a b c =>
      let ra := fixL n k a; let rb := fixL n ra.2 b; let rc := fixL n rb.2 c
      (.ite ra.1 rb.1 rc.1, rc.2)
    | .prim eff p es => let rs := mapK (fixL n) k es; (.prim eff p rs.1, rs.2)
    | .lam ids b => let r := fixL n k b; (.lam ids r.1, r.2)
    | .fix ids lams b => (.fix ids lams b, k)
    | .letcc x b => let r := fixL n k b; (.letcc x r.1, r.2)
    | .withcc c e => let rc := fixL n k c; let r := fixL n rc.2 e; (.withcc rc.1 r.1, r.2)
    | .app f es =>
      if isDegLet (.app f es) then
        match es with
        | [] => (match f with | .lam _ b => fixL n k b | f => (.app f [], k))
        | e :: _ => fixL n k e
      else match letrecParts (.app f es) with
        | some (ids, rands, body) =>
          let rs := mapK (fixL n) k rands
          let rb := fixL n rs.2 body
          letrecResult rb.2 (classifyBindings ids rands body rs.1) rb.1
        | none =>
          match letrecStarParts (.app f es) with
          | some (ids, rands, body) =>
            let rs := mapK (fixL n) k rands
            let rb := fixL n rs.2 body
            letrecStarResult rb.2 (classifyBindings ids rands body rs.1) rb.1
          | none =>
            let rf := fixL n k f
            let rs := mapK (fixL n) rf.2 es
            (.app rf.1 rs.1, rs.2)

/-- `fix-letrecs`, 4.sf:154-285; ids with time stamps from `k` on are unused. -/
def fixLetrecs (n k : Nat) (e : Exp) : Exp := (fixL n k e).1

/-! ### the meaning of programs with `letrec` -/

mutual
/-- the variables bound by a `letrec` or `letrec*` somewhere in an expression. -/
def recIds : Exp → List Id
  | .var _ => []
  | .set _ e => recIds e
  | .ite a b c => recIds a ++ recIds b ++ recIds c
  | .prim _ _ es => recIdsAll es
  | .app f es =>
    (match letrecParts (.app f es) with
      | some (ids, _, _) => ids
      | none => match letrecStarParts (.app f es) with
        | some (ids, _, _) => ids
        | none => []) ++ recIds f ++ recIdsAll es
  | .lam _ b => recIds b
  | .fix _ lams b => recIdsAll lams ++ recIds b
  | .letcc _ b => recIds b
  | .withcc k e => recIds k ++ recIds e
/-- for lists. -/
def recIdsAll : List Exp → List Id
  | [] => []
  | e :: es => recIds e ++ recIdsAll es
end

/-- the value that variables bound by `letrec` have before their initialization. -/
def blank : Val → Bool
  | .atom n => n == 1
  | _ => false

/-- One step of a program with `letrec`: as in `cstep`, but reading a variable of `U` that has no value yet is an error
(R7RS 4.2.2, "it is an error to refer to the value of a variable before it is initialized"). -/
def rstep {W : Type} (U : Id → Bool) (M : Sem W) (ord : Op → List Exp → List Nat) : State W → Option (State W)
  | .ev (.var x) ρ κ σ =>
    if U x && !x.isGlobal && ((fetch x ρ σ.heap).map blank).getD false then none else cstep M ord (.ev (.var x) ρ κ σ)
  | s => cstep M ord s

instance {W : Type} (U : Id → Bool) (M : Sem W) (ord : Op → List Exp → List Nat) : Final (rstep U M ord) := ⟨fun _ _ => rfl⟩

/-- It differs from `cstep` in the additional errors only. -/
theorem rstep_cstep {W : Type} {U : Id → Bool} {M : Sem W} {ord : Op → List Exp → List Nat} {s s' : State W} (h : rstep U M ord s = some s') :
    cstep M ord s = some s' := by
  unfold rstep at h
  split at h
  · split at h
    · cases h
    · exact h
  · exact h

theorem rstep_none {W : Type} (M : Sem W) (ord : Op → List Exp → List Nat) : rstep (fun _ => false) M ord = cstep M ord := by
  funext s
  unfold rstep
  split
  · simp
  · rfl

end Verif.Letrec
