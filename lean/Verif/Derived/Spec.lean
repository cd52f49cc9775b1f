import Verif.Derived.Model
/-
Specification for C68: what the derived forms mean, without expansion (R7RS 4.2, 7.3).
-/
namespace Verif.Derived.Spec
open Verif.Derived

abbrev Env := Nat → Option Nat

/-- a loop: variables, steps, test, results, commands. -/
structure Loop where
  xs : List Nat
  steps : Steps
  test : E
  rs : List E
  cs : List E

/-- what operands are for. -/
inductive G
  | app
  | prim (p : Nat)
  | lett (xs : List Nat) (b : E) (env : Env)
  | letrec (xs : List Nat) (b : E) (env : Env)
  | values
  /-- the first or next values of the variables of a loop -/
  | loop (d : Loop) (env : Env)

/-- what a computation waits for. -/
inductive F
  | args (g : G) (done : List V) (todo : List E) (env : Env)
  | set (x : Nat) (env : Env)
  | ite (b c : E) (env : Env)
  | seq (b : E) (env : Env)
  | callcc
  | letS (x : Nat) (xs : List Nat) (es : List E) (b : E) (env : Env)
  | letrecS (x : Nat) (xs : List Nat) (es : List E) (b : E) (env : Env)
  | receive (xs : List Nat) (b : E) (env : Env)
  | letvS (xs : List Nat) (bs : Binds) (b : E) (env : Env)
  /-- the values of the variables `ys` are there -/
  | letv (ys : List Nat) (vs : List V) (xs : List Nat) (bs : Binds) (b : E) (env : Env)
  | and (es : List E) (env : Env)
  | or (es : List E) (env : Env)
  | condTest (cl : Cond) (env : Env)
  | condArrow (p : E) (cl : Cond) (env : Env)
  | condBody (b : E) (cl : Cond) (env : Env)
  | caseKey (cl : Case) (env : Env)
  /-- a procedure that is to be called with `v` -/
  | callWith (v : V)
  | begin (es : List E) (env : Env)
  /-- the test of a loop in `env`, with its variables in `env'` -/
  | doTest (d : Loop) (env env' : Env)
  /-- the commands of a loop -/
  | doCmd (cs : List E) (d : Loop) (env env' : Env)

inductive Ctl
  | ev (e : E) (env : Env)
  | ret (vs : List V)

structure S (W : Type) where
  ctl : Ctl
  k : List F
  cells : List V
  clos : List (List Nat × E × Env)
  conts : List (List F)
  world : W

variable {W : Type}

def upd (x l : Nat) (env : Env) : Env := fun y => if y = x then some l else env y

/-- variables get new cells. -/
def bind : List Nat → List V → Env → S W → Option (Env × S W)
  | [], [], env, s => some (env, s)
  | x :: xs, v :: vs, env, s => bind xs vs (upd x s.cells.length env) { s with cells := s.cells ++ [v] }
  | _, _, _, _ => none

def get (env : Env) (x : Nat) (s : S W) : Option V := (env x).bind (fun l => s.cells[l]?)

def put (env : Env) (x : Nat) (v : V) (s : S W) : Option (S W) :=
  (env x).bind (fun l => if l < s.cells.length then some { s with cells := s.cells.set l v } else none)

def putAll (env : Env) : List Nat → List V → S W → Option (S W)
  | [], [], s => some s
  | x :: xs, v :: vs, s => (put env x v s).bind (putAll env xs vs)
  | _, _, _ => none

def call (f : V) (vs : List V) (s : S W) : Option (S W) :=
  match f with
  | .clo i => (s.clos[i]?).bind (fun c => (bind c.1 vs c.2.2 s).map (fun p => { p.2 with ctl := .ev c.2.1 p.1 }))
  | .cont i => (s.conts[i]?).map (fun k => { s with ctl := .ret vs, k := k })
  | .atom _ => none

def finish (pr : Prims W) (g : G) (vs : List V) (s : S W) : Option (S W) :=
  match g with
  | .app => match vs with | f :: vs => call f vs s | [] => none
  | .prim p => (pr.prim p vs s.world).map (fun r => { s with ctl := .ret [r.1], world := r.2 })
  | .lett xs b env => (bind xs vs env s).map (fun p => { p.2 with ctl := .ev b p.1 })
  | .letrec xs b env => (putAll env xs vs s).map (fun s => { s with ctl := .ev b env })
  | .values => some { s with ctl := .ret vs }
  -- the test is evaluated with the variables in new cells
  | .loop d env => (bind d.xs vs env s).map (fun p => { p.2 with ctl := .ev d.test p.1, k := .doTest d env p.1 :: p.2.k })

def args (pr : Prims W) (g : G) (done : List V) (todo : List E) (env : Env) (s : S W) : Option (S W) :=
  match todo with
  | [] => finish pr g done s
  | e :: es => some { s with ctl := .ev e env, k := .args g done es env :: s.k }

/-- the expressions of the steps: variables without step keep their values. -/
def stepExps : List Nat → Steps → List E
  | x :: xs, .keep l => .var x :: stepExps xs l
  | _ :: xs, .step e l => e :: stepExps xs l
  | _, _ => []

/-- the clause of `case` for a key: an expression, or one for a procedure that gets the key. -/
inductive Pick
  | exp (e : E)
  | proc (e : E)

def pick (eqv : V → V → Bool) (v : V) : Case → Pick
  | .nil => .exp (.const .void)
  | .els e => .exp e
  | .elsArrow p => .proc p
  | .data ds b cl => if ds.any (eqv v) then .exp b else pick eqv v cl
  | .arrow ds p cl => if ds.any (eqv v) then .proc p else pick eqv v cl

/-- commands of a loop, then the steps. -/
def cmds (pr : Prims W) (cs : List E) (d : Loop) (env env' : Env) (s : S W) : Option (S W) :=
  match cs with
  | [] => args pr (.loop d env) [] (stepExps d.xs d.steps) env' s
  | c :: cs => some { s with ctl := .ev c env', k := .doCmd cs d env env' :: s.k }

/-- the assignments of letrec*, then the body. -/
def assign (xs : List Nat) (es : List E) (b : E) (env : Env) (s : S W) : S W :=
  match xs, es with
  | x :: xs, e :: es => { s with ctl := .ev e env, k := .letrecS x xs es b env :: s.k }
  | _, _ => { s with ctl := .ev b env }

/-- the bindings of let-values that are left; `ys` are the variables whose values `vs` are there. -/
def letVals (ys : List Nat) (vs : List V) (bs : Binds) (b : E) (env : Env) (s : S W) : Option (S W) :=
  match bs with
  | .nil => (bind ys vs env s).map (fun p => { p.2 with ctl := .ev b p.1 })
  | .cons xs e bs => some { s with ctl := .ev e env, k := .letv ys vs xs bs b env :: s.k }

/-- one after the other, the value is that of the last one. -/
def begins (es : List E) (env : Env) (s : S W) : S W :=
  match es with
  | [] => { s with ctl := .ret [.void] }
  | [e] => { s with ctl := .ev e env }
  | e :: es => { s with ctl := .ev e env, k := .begin es env :: s.k }

def step (pr : Prims W) (s : S W) : Option (S W) :=
  match s.ctl with
  | .ev (.const v) _ => some { s with ctl := .ret [v] }
  | .ev (.var x) env => (get env x s).map (fun v => { s with ctl := .ret [v] })
  | .ev (.set x e) env => some { s with ctl := .ev e env, k := .set x env :: s.k }
  | .ev (.lam xs b) env => some { s with ctl := .ret [.clo s.clos.length], clos := s.clos ++ [(xs, b, env)] }
  | .ev (.app es) env => args pr .app [] es env s
  | .ev (.prim p es) env => args pr (.prim p) [] es env s
  | .ev (.ite a b c) env => some { s with ctl := .ev a env, k := .ite b c env :: s.k }
  | .ev (.seq a b) env => some { s with ctl := .ev a env, k := .seq b env :: s.k }
  | .ev (.callcc e) env => some { s with ctl := .ev e env, k := .callcc :: s.k }
  | .ev (.lett xs es b) env => args pr (.lett xs b env) [] es env s
  -- the name is bound to the procedure in its body; it is not visible in the operands
  | .ev (.named f xs es b) env =>
    args pr .app [.clo s.clos.length] es env
      { s with cells := s.cells ++ [.clo s.clos.length], clos := s.clos ++ [(xs, b, upd f s.cells.length env)] }
  | .ev (.letS xs es b) env =>
    match xs, es with
    | x :: xs, e :: es => some { s with ctl := .ev e env, k := .letS x xs es b env :: s.k }
    | _, _ => some { s with ctl := .ev b env }
  | .ev (.letrec xs es b) env => (bind xs (xs.map (fun _ => .void)) env s).bind (fun p => args pr (.letrec xs b p.1) [] es p.1 p.2)
  | .ev (.letrecS xs es b) env => (bind xs (xs.map (fun _ => .f)) env s).map (fun p => assign xs es b p.1 p.2)
  | .ev (.values es) env => args pr .values [] es env s
  | .ev (.receive xs e b) env => some { s with ctl := .ev e env, k := .receive xs b env :: s.k }
  | .ev (.letvS .nil b) env => some { s with ctl := .ev b env }
  | .ev (.letvS (.cons xs e bs) b) env => some { s with ctl := .ev e env, k := .letvS xs bs b env :: s.k }
  | .ev (.letv bs b) env => letVals [] [] bs b env s
  | .ev (.when a b) env => some { s with ctl := .ev a env, k := .ite b (.const .void) env :: s.k }
  | .ev (.unless a b) env => some { s with ctl := .ev a env, k := .ite (.const .void) b env :: s.k }
  | .ev (.and []) _ => some { s with ctl := .ret [.t] }
  | .ev (.and [e]) env => some { s with ctl := .ev e env }
  | .ev (.and (e :: es)) env => some { s with ctl := .ev e env, k := .and es env :: s.k }
  | .ev (.or []) _ => some { s with ctl := .ret [.f] }
  | .ev (.or [e]) env => some { s with ctl := .ev e env }
  | .ev (.or (e :: es)) env => some { s with ctl := .ev e env, k := .or es env :: s.k }
  | .ev (.cond .nil) _ => some { s with ctl := .ret [.void] }
  | .ev (.cond (.els e)) env => some { s with ctl := .ev e env }
  | .ev (.cond (.test e cl)) env => some { s with ctl := .ev e env, k := .condTest cl env :: s.k }
  | .ev (.cond (.arrow e p cl)) env => some { s with ctl := .ev e env, k := .condArrow p cl env :: s.k }
  | .ev (.cond (.body e b cl)) env => some { s with ctl := .ev e env, k := .condBody b cl env :: s.k }
  | .ev (.case e cl) env => some { s with ctl := .ev e env, k := .caseKey cl env :: s.k }
  | .ev (.doo xs es steps test rs cs) env => args pr (.loop ⟨xs, steps, test, rs, cs⟩ env) [] es env s
  | .ret vs =>
    match s.k with
    | [] => none
    -- several values
    | .receive xs b env :: k => (bind xs vs env { s with k := k }).map (fun p => { p.2 with ctl := .ev b p.1 })
    | .letvS xs bs b env :: k => (bind xs vs env { s with k := k }).map (fun p => { p.2 with ctl := .ev (.letvS bs b) p.1 })
    | .letv ys us xs bs b env :: k => if xs.length = vs.length then letVals (ys ++ xs) (us ++ vs) bs b env { s with k := k } else none
    | f :: k =>
      match vs with
      | [v] =>
        match f with
        | .args g done todo env => args pr g (done ++ [v]) todo env { s with k := k }
        | .set x env => (put env x v { s with k := k }).map (fun s => { s with ctl := .ret [.void] })
        | .ite b c env => some { s with ctl := .ev (if v ≠ .f then b else c) env, k := k }
        | .seq b env => some { s with ctl := .ev b env, k := k }
        | .callcc => call v [.cont s.conts.length] { s with k := k, conts := s.conts ++ [k] }
        | .letS x xs es b env => (bind [x] [v] env { s with k := k }).map (fun p => { p.2 with ctl := .ev (.letS xs es b) p.1 })
        | .letrecS x xs es b env => (put env x v { s with k := k }).map (assign xs es b env)
        | .and es env => some (if v ≠ .f then { s with ctl := .ev (.and es) env, k := k } else { s with ctl := .ret [.f], k := k })
        | .or es env => some (if v ≠ .f then { s with ctl := .ret [v], k := k } else { s with ctl := .ev (.or es) env, k := k })
        | .condTest cl env => some (if v ≠ .f then { s with ctl := .ret [v], k := k } else { s with ctl := .ev (.cond cl) env, k := k })
        | .condArrow p cl env => some (if v ≠ .f then { s with ctl := .ev p env, k := .callWith v :: k } else { s with ctl := .ev (.cond cl) env, k := k })
        | .condBody b cl env => some { s with ctl := .ev (if v ≠ .f then b else .cond cl) env, k := k }
        | .caseKey cl env =>
          match pick pr.eqv v cl with
          | .exp e => some { s with ctl := .ev e env, k := k }
          | .proc p => some { s with ctl := .ev p env, k := .callWith v :: k }
        | .callWith u => call v [u] { s with k := k }
        | .begin es env => some (begins es env { s with k := k })
        | .doTest d env env' => if v ≠ .f then some (begins d.rs env' { s with k := k }) else cmds pr d.cs d env env' { s with k := k }
        | .doCmd cs d env env' => cmds pr cs d env env' { s with k := k }
        | _ => none
      | _ => none

def start (w : W) (e : E) : S W :=
  { ctl := .ev e (fun _ => none), k := [], cells := [], clos := [], conts := [], world := w }

/-- what is seen at the end: the values and the world. -/
def result (s : S W) : Option (List V × W) :=
  match s.ctl, s.k with
  | .ret vs, [] => some (vs, s.world)
  | _, _ => none

end Verif.Derived.Spec
