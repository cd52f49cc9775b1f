import Verif.Core.Machine
import Verif.Fold.Model
/-
Values unboxing, /repo/5.sf:268-359, with the information on the C types of variable uses, 3.sf:772-847.

Simplifications.  The C types of primitives, which /repo finds in their C text (6.sf:121-152, 294-307), are given by tables;
the types `obj`, `objptr` and `void`, which are never used for unboxed variables (3.sf:834-838, 5.sf:283, 291-293), are left out of them.
Ids made by `cvar-id` (3.sf:235-239) are ordinary local ids; their C types are kept in a list on the side.  Time stamps of new
ids are passed along explicitly.  `letcc` and `withcc`, which do not occur at this stage, are left as they are (in /repo they are an
error, like assignments to local variables).
-/
namespace Verif.Unbox
open Verif.Core Verif.Sets
open Verif.Fold (Types TEnv tlook exts ctype ctypes)

/-- C types found in the text of a primitive: `arg p n` is `(c-argref-ctype p n)`, 6.sf:294-307: the type to which the text
converts operand `n`, as in `fixnum_from_$arg`. -/
structure CTypes (τ : Type) extends Types τ where
  arg : PrimName → Nat → Option τ

variable {τ : Type} [DecidableEq τ]

mutual
/-- `exp-vinfo`, 3.sf:772-807: the uses of variables, with the C type of the use. -/
def cinfo (t : CTypes τ) : Exp → List (Id × Option τ)
  | .var x => [(x, none)]
  | .set x e => (x, none) :: cinfo t e
  | .ite a b c => cinfo t a ++ (cinfo t b ++ cinfo t c)
  | .prim _ p es => cinfoPrim t p 0 es []
  | .app f es => cinfoAll t es (match f with | .var x => [(x, none)] | f => cinfo t f)
  | .lam ids b => keep (fun u => !memq u.1 ids) (cinfo t b)
  | .fix ids lams b => keep (fun u => !memq u.1 ids) (cinfoAll t lams (cinfo t b))
  | .letcc x b => keep (fun u => !decide (u.1 = x)) (cinfo t b)
  | .withcc k e => cinfo t k ++ cinfo t e
/-- the loop over the operands of a primitive, 3.sf:782-789. -/
def cinfoPrim (t : CTypes τ) (p : PrimName) : Nat → List Exp → List (Id × Option τ) → List (Id × Option τ)
  | _, [], vi => vi
  | n, .var x :: es, vi => cinfoPrim t p (n + 1) es ((x, t.arg p n) :: vi)
  | n, e :: es, vi => cinfoPrim t p (n + 1) es (cinfo t e ++ vi)
/-- `(reduce-right (lambda (exp vi) (append (exp-vinfo exp) vi)) base exps)`. -/
def cinfoAll (t : CTypes τ) : List Exp → List (Id × Option τ) → List (Id × Option τ)
  | [], base => base
  | e :: es, base => cinfo t e ++ cinfoAll t es base
end

/-- `var-uses-in-exp`, 3.sf:809-816, for the C types of the uses. -/
def useTypes (t : CTypes τ) (x : Id) (e : Exp) : List (Option τ) :=
  let rec loop : List (Id × Option τ) → List (Option τ) → List (Option τ)
    | [], uses => uses
    | u :: vi, uses => if x = u.1 then loop vi (u.2 :: uses) else loop vi uses
  loop (cinfo t e) []

/-- `var-unboxed-ctype-in-exp`, 3.sf:840-847. -/
def unboxedType (t : CTypes τ) (x : Id) (e : Exp) : Option τ :=
  let rec loop : List (Option τ) → Option τ → Option τ
    | [], c => c
    | some T :: us, c => if c = none ∨ c = some T then loop us (some T) else none
    | none :: _, _ => none
  loop (useTypes t x e) none

/-- substitutions of variables for variables. -/
abbrev Subst := List (Id × Id)

/-- `(cond [(assq id substs) => cdr] [else exp])`, 5.sf:303. -/
def slook (x : Id) : Subst → Id
  | [] => x
  | (y, c) :: s => if x = y then c else slook x s

/-- the next unused time stamp, and the C types of the ids made so far. -/
structure St (τ : Type) where
  next : Nat
  types : List (Id × τ)

/-- `cvar-id`, 3.sf:235-239: the new id. -/
def St.id (st : St τ) : Id := lexId st.next
/-- `cvar-id`: the state after it. -/
def St.add (st : St τ) (T : τ) : St τ := ⟨st.next + 1, (lexId st.next, T) :: st.types⟩

/-- `unbox-ctype-test`, 5.sf:275-287: the variable and its type, if the test is a check of the type of a variable, and the
variable is used with this type, more than once, if the test succeeds. -/
def testOf (t : CTypes τ) : Exp → Exp → Option (Id × τ)
  | .prim _ p [.var x], b =>
    match unboxedType t x b with
    | some T => if refCount x b > 1 ∧ t.check p = some T then some (x, T) else none
    | none => none
  | _, _ => none

/-- `var-unboxed-ctype`, 5.sf:289-295. -/
def letType (t : CTypes τ) (x : Id) (body rand : Exp) : Option τ :=
  match unboxedType t x body, ctype t.toTypes [] rand with
  | some T, some U => if T = U then some U else none
  | _, _ => none

/-- the test for formals, 5.sf:348-349. -/
def formalType (t : CTypes τ) (x : Id) (body : Exp) : Option τ :=
  if refCount x body > 1 then unboxedType t x body else none

/-- result of the loops over bound variables: ids, operands, substitution, state. -/
structure Out (τ : Type) where
  ids : List Id
  rands : List Exp
  s : Subst
  st : St τ

/-- the loop over the variables of a `let`, 5.sf:321-333. -/
def letLoop (t : CTypes τ) (body : Exp) : List Id → List Exp → Out τ → Out τ
  | x :: xs, e :: es, o =>
    match letType t x body e with
    | some T => letLoop t body xs es ⟨o.st.id :: o.ids, e :: o.rands, (x, o.st.id) :: o.s, o.st.add T⟩
    | none => letLoop t body xs es ⟨x :: o.ids, e :: o.rands, o.s, o.st⟩
  | _, _, o => o

/-- the loop over formals, 5.sf:341-355. -/
def lamLoop (t : CTypes τ) (body : Exp) : List Id → Out τ → Out τ
  | x :: xs, o =>
    match formalType t x body with
    | some T => lamLoop t body xs ⟨o.st.id :: o.ids, .var x :: o.rands, (x, o.st.id) :: o.s, o.st.add T⟩
    | none => lamLoop t body xs o
  | [], o => o

mutual
/-- `unbox-vals`, 5.sf:298-357. -/
def uv (t : CTypes τ) : Subst → St τ → Exp → Exp × St τ
  | s, st, .var x => (.var (slook x s), st)
  | s, st, .set x e => let r := uv t s st e; (.set x r.1, r.2)
  | s, st, .ite a b c =>
    let ra := uv t s st a
    match testOf t a b with
    | some (x, T) =>
      let rb := uv t ((x, ra.2.id) :: s) (ra.2.add T) b
      let rc := uv t s rb.2 c
      (.ite ra.1 (letExp [ra.2.id] [.var x] rb.1) rc.1, rc.2)
    | none =>
      let rb := uv t s ra.2 b
      let rc := uv t s rb.2 c
      (.ite ra.1 rb.1 rc.1, rc.2)
  | s, st, .prim eff p es => let rs := uvs t s st es; (.prim eff p rs.1, rs.2)
  | s, st, .app (.lam ids b) es =>
    if isNullLet (.app (.lam ids b) es) then uv t s st b
    else
      let rs := uvs t s st es
      if isIdLet (.app (.lam ids b) es) then (rs.1.headD voidExp, rs.2)
      else if ids.length = es.length then
        let o := letLoop t b ids rs.1 ⟨[], [], s, rs.2⟩
        let rb := uv t o.s o.st b
        (.app (.lam o.ids rb.1) o.rands, rb.2)
      else
        let rf := uv t s rs.2 (.lam ids b)
        (.app rf.1 rs.1, rf.2)
  | s, st, .app f es =>
    let rs := uvs t s st es
    let rf := uv t s rs.2 f
    (.app rf.1 rs.1, rf.2)
  | s, st, .lam ids b =>
    let o := lamLoop t b ids ⟨[], [], s, st⟩
    let rb := uv t o.s o.st b
    (.lam ids (if o.ids = [] then rb.1 else letExp o.ids o.rands rb.1), rb.2)
  | s, st, .fix ids lams b =>
    let rs := uvs t s st lams
    let rb := uv t s rs.2 b
    (.fix ids rs.1 rb.1, rb.2)
  | _, st, .letcc x b => (.letcc x b, st)
  | _, st, .withcc k e => (.withcc k e, st)
/-- `(map uv exps)`. -/
def uvs (t : CTypes τ) : Subst → St τ → List Exp → List Exp × St τ
  | _, st, [] => ([], st)
  | s, st, e :: es =>
    let r := uv t s st e
    let rs := uvs t s r.2 es
    (r.1 :: rs.1, rs.2)
end

/-- `unbox-values`, 5.sf:273-359; ids with time stamps from `k` on are unused.  The new program, and the C types of its new ids. -/
def unboxValues (t : CTypes τ) (k : Nat) (e : Exp) : Exp × List (Id × τ) :=
  let r := uv t [] ⟨k, []⟩ e
  (r.1, r.2.types)

end Verif.Unbox
