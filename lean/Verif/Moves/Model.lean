/-
Passing arguments at calls in generated code: /repo/7.sf:242-268 (cg-depends-on?, cg-fast-goto?), 145-167
(cg-tgt-rval, cg-prim-args), 358-413 (the move sequences of labelapp, gclabelapp and app expressions),
432-447 (cg-gcsafe-cexp?), 466-505 (cg-cexp).

Simplifications.  Generated text is kept as a small syntax tree (`Text`) instead of characters.  Operands of
primitives in one C expression are evaluated left to right (C leaves the order open; the model uses the same
order in the reference evaluation).  Code for operands that are not plain C expressions is opaque: it may
compute any value from the variables and the state, may change the state, and may leave anything in the
registers above its target.
-/
namespace Verif.Moves

/-- Variables. -/
abbrev Id := Nat

/-- Entry of a register environment: a variable or a temporary (a number in the code). -/
inductive Slot where
  | var (id : Id)
  | tmp
deriving DecidableEq

/-- Expressions reaching the code generator.  For `prim`, `inl` records
`(and (prim-cexp? prim) (gc-safe-effect? effect))`. -/
inductive Exp where
  | var (id : Id)
  | gassign (id : Id) (e : Exp)
  | ite (a b c : Exp)
  | letE (ids : List Id) (rands : List Exp) (body : Exp)
  | curry (id : Id) (ids : List Id) (rands : List Exp)
  | labelapp (id : Id) (rands : List Exp)
  | app (rator : Exp) (rands : List Exp)
  | prim (p : Nat) (inl : Bool) (rands : List Exp)

mutual
/-- `dep?`, /repo/7.sf:243-259. -/
def dep (sp : List Slot) : Exp → Bool
  | .var id => sp.contains (.var id)
  | .gassign _ e => dep sp e
  | .ite a b c => dep sp a || dep sp b || dep sp c
  | .letE _ rands body => depAny sp rands || dep sp body
  | .curry _ _ rands => depAny sp rands
  | .labelapp _ rands => depAny sp rands
  | .app rator rands => dep sp rator || depAny sp rands
  | .prim _ _ rands => depAny sp rands
/-- `(ormap dep? rands)`. -/
def depAny (sp : List Slot) : List Exp → Bool
  | [] => false
  | e :: es => dep sp e || depAny sp es
end

/-- the loop of `cg-fast-goto?`, /repo/7.sf:263-268. -/
def fastLoop : List Exp → List Slot → List Slot → Bool
  | [], _, _ => true
  | _ :: _, [], _ => false
  | _ :: _, .tmp :: _, _ => false
  | e :: es, .var id :: regs, sp =>
    if sp.isEmpty || !dep sp e then fastLoop es regs (.var id :: sp) else false

/-- `cg-fast-goto?`, /repo/7.sf:261-268. -/
def fastGoto (renv : List Slot) (rands : List Exp) : Bool := fastLoop rands renv.reverse []

mutual
/-- `cg-gcsafe-cexp?`, /repo/7.sf:432-447. -/
def inlineable : Exp → Bool
  | .var _ => true
  | .ite a b c => inlineable a && inlineable b && inlineable c
  | .prim _ inl rands => inl && inlineableAll rands
  | _ => false
/-- `(andmap cg-gcsafe-cexp? rands)`. -/
def inlineableAll : List Exp → Bool
  | [] => true
  | e :: es => inlineable e && inlineableAll es
end

/-- Where a variable lives: global C variable, unboxed local C variable (both kept in the state), or a
register. -/
inductive Kind where
  | global | cvar | reg
deriving DecidableEq

/-- Generated C expressions. -/
inductive Text where
  | reg (i : Nat)
  | named (id : Id)
  | ite (a b c : Text)
  | prim (p : Nat) (args : List Text)

/-- `posq`, /repo/3.sf: position of the first occurrence. -/
def posq (s : Slot) : List Slot → Option Nat
  | [] => none
  | x :: xs => if x = s then some 0 else (posq s xs).map (· + 1)

/-- `cg-tgt-rval` of a variable, /repo/7.sf:145-162; `none` is a compiler error. -/
def cgVar (kind : Id → Kind) (renv : List Slot) (id : Id) : Option Text :=
  match kind id with
  | .reg =>
    match posq (.var id) renv with
    | some p => some (.reg (renv.length - p - 1))
    | none => none
  | _ => some (.named id)

mutual
/-- `cg-cexp`, /repo/7.sf:466-505. -/
def cgCexp (kind : Id → Kind) (renv : List Slot) : Exp → Option Text
  | .var id => cgVar kind renv id
  | .ite a b c =>
    match cgCexp kind renv a, cgCexp kind renv b, cgCexp kind renv c with
    | some ta, some tb, some tc => some (.ite ta tb tc)
    | _, _, _ => none
  | .prim p _ rands =>
    match cgCexps kind renv rands with
    | some ts => some (.prim p ts)
    | none => none
  | _ => none
/-- `(map (lambda (rand) (cg-cexp rand renv)) rands)`. -/
def cgCexps (kind : Id → Kind) (renv : List Slot) : List Exp → Option (List Text)
  | [] => some []
  | e :: es =>
    match cgCexp kind renv e, cgCexps kind renv es with
    | some t, some ts => some (t :: ts)
    | _, _ => none
end

/-- Opaque code: compute `e` into register `tgt`, with the register environment it is compiled in. -/
structure Code where
  tgt : Nat
  exp : Exp
  renv : List Slot

/-- `cg-prim-args`, /repo/7.sf:181-204: the code to run first, the operand texts, the register environment
afterwards. -/
def primArgs (kind : Id → Kind) : List Exp → List Slot → Option (List Code × List Text × List Slot)
  | [], renv => some ([], [], renv)
  | e :: es, renv =>
    if inlineable e then
      match cgCexp kind renv e, primArgs kind es renv with
      | some t, some (cs, ts, renv') => some (cs, t :: ts, renv')
      | _, _ => none
    else
      match primArgs kind es (.tmp :: renv) with
      | some (cs, ts, renv') =>
        some (⟨renv.length, e, renv⟩ :: cs, .reg renv.length :: ts, renv')
      | none => none

/-- Meaning of primitives and of opaque code. -/
structure Sem (Val State : Type) where
  prim : Nat → List Val → State → Val × State
  truth : Val → Bool
  named : Id → State → Val
  /-- value, new state, and what is left in the registers above the target -/
  other : Exp → (Id → State → Val) → State → Val × State × (Nat → Val)

variable {Val State : Type}

mutual
/-- Evaluation of a C expression in the registers `r`. -/
def teval (S : Sem Val State) (r : Nat → Val) : Text → State → Val × State
  | .reg i, σ => (r i, σ)
  | .named id, σ => (S.named id σ, σ)
  | .ite a b c, σ =>
    let (v, σ) := teval S r a σ
    if S.truth v then teval S r b σ else teval S r c σ
  | .prim p args, σ =>
    let (vs, σ) := tevals S r args σ
    S.prim p vs σ
/-- operands, left to right. -/
def tevals (S : Sem Val State) (r : Nat → Val) : List Text → State → List Val × State
  | [], σ => ([], σ)
  | t :: ts, σ =>
    let (v, σ) := teval S r t σ
    let (vs, σ) := tevals S r ts σ
    (v :: vs, σ)
end

/-- The value of a variable during execution: read through the register environment. -/
def lookup (S : Sem Val State) (kind : Id → Kind) (renv : List Slot) (r : Nat → Val) (id : Id) (σ : State) :
    Val :=
  match kind id with
  | .reg =>
    match posq (.var id) renv with
    | some p => r (renv.length - p - 1)
    | none => S.named id σ  -- not reached: such code is rejected
  | _ => S.named id σ

/-- Run the opaque pieces of code. -/
def runCode (S : Sem Val State) (kind : Id → Kind) : List Code → (Nat → Val) → State → (Nat → Val) × State
  | [], r, σ => (r, σ)
  | c :: cs, r, σ =>
    let (v, σ, junk) := S.other c.exp (lookup S kind c.renv r) σ
    runCode S kind cs (fun j => if j < c.tgt then r j else if j = c.tgt then v else junk j) σ

/-- The moves `r[base+k] = text_k;` in order, from number `k` on. -/
def moves (S : Sem Val State) (base : Nat) : Nat → List Text → (Nat → Val) → State → (Nat → Val) × State
  | _, [], r, σ => (r, σ)
  | k, t :: ts, r, σ =>
    let (v, σ) := teval S r t σ
    moves S base (k + 1) ts (fun j => if j = base + k then v else r j) σ

/-- The generated code for a call with the operands `rands` (`gclabelapp`, `labelapp`: the arguments;
`app`: operator and arguments), /repo/7.sf:358-413: the fast sequence moves into `r[k]`, the slow one into
`r[live+k]` and then shifts the register window by `live`.  The result is the registers at the target of the
jump (relative to the new window) and the state; `none` is a compiler error. -/
def call (S : Sem Val State) (kind : Id → Kind) (renv : List Slot) (rands : List Exp)
    (r : Nat → Val) (σ : State) : Option ((Nat → Val) × State) :=
  match primArgs kind rands renv with
  | none => none
  | some (cs, ts, renv') =>
    let (r, σ) := runCode S kind cs r σ
    if fastGoto renv rands then some (moves S 0 0 ts r σ)
    else
      let live := renv'.length
      let (r, σ) := moves S live 0 ts r σ
      some (fun j => r (live + j), σ)

end Verif.Moves
