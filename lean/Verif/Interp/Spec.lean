import Verif.Interp.Model
/-
Reference semantics of core expressions: environments map names to locations, a store maps locations to
values, expressions are evaluated directly.
-/
namespace Verif.Interp

/-- A location: number of the block of variables created together, index in the block. -/
abbrev Loc := Nat × Nat

/-- Environments: the innermost binding of a name comes first. -/
abbrev Env := List (Name × Loc)

/-- Values of the reference semantics. -/
inductive RVal where
  | atom (a : Atom)
  | pair (a d : RVal)
  | prim (p : Prim)
  | clos (ps : List Name) (rest : Bool) (body : Exp) (env : Env)

/-- A constant as a value. -/
def Datum.toR : Datum → RVal
  | .atom a => .atom a
  | .pair a d => .pair a.toR d.toR

/-- Store and global variables. -/
structure RSt where
  store : List (List RVal)
  glob : Name → RVal

/-- only `#f` is false. -/
def RVal.truth : RVal → Bool
  | .atom (.bool false) => false
  | _ => true

/-- The location of a name: its innermost binding. -/
def find (x : Name) : Env → Option Loc
  | [] => none
  | (y, l) :: env => if y = x then some l else find x env

/-- Contents of a location. -/
def RSt.get (s : RSt) (l : Loc) : Option RVal :=
  match s.store[l.1]? with
  | some b => b[l.2]?
  | none => none

/-- Assign a location; `none` if there is no such location. -/
def RSt.put (s : RSt) (l : Loc) (v : RVal) : Option RSt :=
  match s.store[l.1]? with
  | some b => if l.2 < b.length then some { s with store := s.store.set l.1 (b.set l.2 v) } else none
  | none => none

/-- Bindings of names to the locations of block `a`, from index `i` on. -/
def bindFrom (a : Nat) : List Name → Nat → Env
  | [], _ => []
  | x :: xs, i => (x, (a, i)) :: bindFrom a xs (i + 1)

/-- New variables `xs` with the values `vs` (nothing happens if there are none). -/
def extend (xs : List Name) (vs : List RVal) (env : Env) (s : RSt) : Env × RSt :=
  if xs = [] then (env, s)
  else (bindFrom s.store.length xs 0 ++ env, { s with store := s.store ++ [vs] })

/-- lift. -/
def getRes (o : Option RVal) (s : RSt) : Res RVal RSt :=
  match o with | some v => .ok v s | none => .err

/-- assignment as a step. -/
def putRes (s : RSt) (l : Loc) (v : RVal) : Res RVal RSt :=
  match s.put l v with
  | some s => .ok (.atom .void) s
  | none => .err

/-- assign a variable: its innermost binding, or the global. -/
def assign (x : Name) (v : RVal) (env : Env) (s : RSt) : Res RVal RSt :=
  match find x env with
  | some l => putRes s l v
  | none => .ok (.atom .void) { s with glob := fun y => if y = x then v else s.glob y }

/-- The (unspecified) initial value of `letrec` variables. -/
def letrecInit (n : Nat) : Atom := if n ≤ 3 then .bool false else .void

section
variable (app : RVal → List RVal → RSt → Res RVal RSt)
mutual
/-- Evaluate an expression. -/
def eval : Exp → Env → RSt → Res RVal RSt
  | .var x, env, s =>
    match find x env with
    | some l => getRes (s.get l) s
    | none => .ok (s.glob x) s
  | .cst d, _, s => .ok d.toR s
  | .set x e, env, s => (eval e env s).bind fun v s => assign x v env s
  | .lam ps rest body, env, s => .ok (.clos ps rest body env) s
  | .ite a b c, env, s => (eval a env s).bind fun v s => if v.truth then eval b env s else eval c env s
  | .when a b, env, s => (eval a env s).bind fun v s => if v.truth then eval b env s else .ok (.atom .nil) s
  | .letrec xs vals body, env, s =>
    let r := extend xs (List.replicate xs.length (.atom (letrecInit xs.length))) env s
    (evalLet vals r.1 s.store.length 0 r.2).bind fun _ s => eval body r.1 s
  | .begin e es, env, s => (eval e env s).bind fun v s => evalSeq v es env s
  | .define x e, env, s =>
    (eval e env s).bind fun v s => (assign x v env s).bind fun _ s => .ok (.atom (.sym x)) s
  | .app f args, env, s =>
    (eval f env s).bind fun vf s => (evalAll args env s).bind fun vs s => app vf vs s
/-- operands, left to right. -/
def evalAll : List Exp → Env → RSt → Res (List RVal) RSt
  | [], _, s => .ok [] s
  | e :: es, env, s => (eval e env s).bind fun v s => (evalAll es env s).bind fun vs s => .ok (v :: vs) s
/-- the remaining expressions of a `begin`; the value is the last one's. -/
def evalSeq (v : RVal) : List Exp → Env → RSt → Res RVal RSt
  | [], _, s => .ok v s
  | e :: es, env, s => (eval e env s).bind fun v s => evalSeq v es env s
/-- evaluate and assign the `letrec` variables in order. -/
def evalLet : List Exp → Env → Nat → Nat → RSt → Res RVal RSt
  | [], _, _, _, s => .ok (.atom .void) s
  | e :: es, env, a, i, s =>
    (eval e env s).bind fun v s => (putRes s (a, i) v).bind fun _ s => evalLet es env a (i + 1) s
end
end

/-- a list value. -/
def listR : List RVal → RVal
  | [] => .atom .nil
  | v :: vs => .pair v (listR vs)

/-- Values of the parameters for the given arguments; `none` if the count is wrong.  Implementation limit:
at most 999 arguments. -/
def params (ps : List Name) (rest : Bool) (args : List RVal) : Option (List RVal) :=
  if args.length ≥ 1000 then none
  else if rest then
    if ps.length - 1 ≤ args.length then
      some (args.take (ps.length - 1) ++ [listR (args.drop (ps.length - 1))])
    else none
  else if args.length = ps.length then some args else none

/-- all arguments are atoms. -/
def atomsR : List RVal → Option (List Atom)
  | [] => some []
  | .atom a :: vs => (atomsR vs).map (a :: ·)
  | _ :: _ => none

/-- Built-in procedures. -/
def primR (δ : Delta) (p : Prim) (args : List RVal) : Option RVal :=
  match p, args with
  | .cons, [a, d] => some (.pair a d)
  | .car, [.pair a _] => some a
  | .cdr, [.pair _ d] => some d
  | .op n, args =>
    match atomsR args with
    | some as => (δ n as).map .atom
    | none => none
  | _, _ => none

/-- Procedure application; `fuel` bounds the depth of calls. -/
def applyR (δ : Delta) : Nat → RVal → List RVal → RSt → Res RVal RSt
  | 0, _, _, _ => .timeout
  | fuel+1, f, args, s =>
    match f with
    | .prim p => getRes (primR δ p args) s
    | .clos ps rest body env =>
      match params ps rest args with
      | none => .err
      | some vs => let r := extend ps vs env s; eval (applyR δ fuel) body r.1 r.2
    | _ => .err

/-- Evaluate at top level. -/
def evalTop (δ : Delta) (fuel : Nat) (e : Exp) (s : RSt) : Res RVal RSt := eval (applyR δ fuel) e [] s

mutual
/-- Well-formed input: `letrec` binds at least one variable (guaranteed by the expander, make-letrec,
ints.sf:237-238), one value per variable; a rest parameter is one of the parameters; fewer than 1000
parameters. -/
def Wf : Exp → Prop
  | .var _ => True
  | .cst _ => True
  | .set _ e => Wf e
  | .lam ps rest body => (rest = true → ps ≠ []) ∧ ps.length < 1000 ∧ Wf body
  | .ite a b c => Wf a ∧ Wf b ∧ Wf c
  | .when a b => Wf a ∧ Wf b
  | .letrec xs vals body => xs ≠ [] ∧ vals.length = xs.length ∧ WfAll vals ∧ Wf body
  | .begin e es => Wf e ∧ WfAll es
  | .define _ e => Wf e
  | .app f args => Wf f ∧ WfAll args
/-- all of a list. -/
def WfAll : List Exp → Prop
  | [] => True
  | e :: es => Wf e ∧ WfAll es
end

end Verif.Interp
