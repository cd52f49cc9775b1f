/-
Derived forms: the macros of lib/libl.sf:109-255 (let, let*, letrec, letrec*, receive, let*-values, let-values, when, unless, cond, and, or, do),
3560-3586 (case) and 4260-4264 (values).

Simplifications.  Programs are trees.  A variable of a program is a number; the variables inserted by macros (`x`, `tmp`, `key`, `loop`, `k`, `tmp-a`)
are names of their own, as hygiene (C58) makes sure.  The body of a form is one expression (`seq` for several).  `((lambda (x ...) body) e ...)`
is the form `lett`, internal definitions are `letrec`, `(call-with-values (lambda () e) (lambda (x ...) body))` is `recv`.
Formals have no rest argument.  Operands are evaluated from left to right.  `eq?` and `eqv?` agree on symbols.

To compare programs before and after expansion the machine keeps the cells of inserted variables apart from those of the program, and the procedures
made by `do` and the continuations captured by `values` are values of their own; the numbers of cells, procedures and continuations of the program are not
changed by this.
-/
namespace Verif.Derived

/-- values of programs: numbers, symbols, …; procedures; continuations.  `atom 0` is `#f`, `atom 1` is `#t`, `atom 2` is the value of `(if #f #f)`. -/
inductive V
  | atom (n : Nat)
  | clo (i : Nat)
  | cont (i : Nat)
  deriving DecidableEq

abbrev V.f : V := .atom 0
abbrev V.t : V := .atom 1
abbrev V.void : V := .atom 2

mutual
/-- programs. -/
inductive E
  | const (v : V)
  | var (x : Nat)
  | set (x : Nat) (e : E)
  | lam (xs : List Nat) (b : E)
  | app (es : List E)
  | prim (p : Nat) (es : List E)
  | ite (a b c : E)
  | seq (a b : E)
  /-- `(call/cc e)` -/
  | callcc (e : E)
  /-- `(let ([x e] ...) b)` -/
  | lett (xs : List Nat) (es : List E) (b : E)
  /-- `(let f ([x e] ...) b)` -/
  | named (f : Nat) (xs : List Nat) (es : List E) (b : E)
  | letS (xs : List Nat) (es : List E) (b : E)
  | letrec (xs : List Nat) (es : List E) (b : E)
  | letrecS (xs : List Nat) (es : List E) (b : E)
  | values (es : List E)
  /-- `(receive (x ...) e b)` -/
  | receive (xs : List Nat) (e b : E)
  /-- `(let*-values ([(x ...) e] ...) b)` -/
  | letvS (bs : Binds) (b : E)
  | letv (bs : Binds) (b : E)
  | when (a b : E)
  | unless (a b : E)
  | and (es : List E)
  | or (es : List E)
  | cond (cl : Cond)
  | case (e : E) (cl : Case)
  /-- `(do ([x e step ...] ...) [test r ...] c ...)` -/
  | doo (xs : List Nat) (es : List E) (steps : Steps) (test : E) (rs cs : List E)
/-- `([(x ...) e] ...)`. -/
inductive Binds
  | nil
  | cons (xs : List Nat) (e : E) (bs : Binds)
/-- clauses of `cond`. -/
inductive Cond
  | nil
  /-- `[else e]` -/
  | els (e : E)
  /-- `[e]` -/
  | test (e : E) (cl : Cond)
  /-- `[e => p]` -/
  | arrow (e p : E) (cl : Cond)
  /-- `[e b]` -/
  | body (e b : E) (cl : Cond)
/-- clauses of `case`. -/
inductive Case
  | nil
  | els (e : E)
  | elsArrow (p : E)
  | data (ds : List V) (b : E) (cl : Case)
  | arrow (ds : List V) (p : E) (cl : Case)
/-- steps of `do`. -/
inductive Steps
  | nil
  /-- no step -/
  | keep (l : Steps)
  | step (e : E) (l : Steps)
end

/-- the lists of variables. -/
def Binds.formals : Binds → List (List Nat)
  | .nil => []
  | .cons xs _ bs => xs :: bs.formals

/-- variables. -/
inductive Name
  | user (n : Nat)
  /-- `x` of `or`, libl.sf:241. -/
  | x
  /-- `tmp` of `cond`, libl.sf:227. -/
  | tmp
  /-- `key` of `case`, libl.sf:3586. -/
  | key
  /-- `loop` of `do`, libl.sf:249. -/
  | loop
  /-- `k` of `values`, libl.sf:4263. -/
  | k
  /-- the variables `tmp-a` of `let-values`, libl.sf:172-174. -/
  | val (n : Nat)
  deriving DecidableEq

/-- expanded programs. -/
inductive C
  | const (v : V)
  | var (x : Name)
  | set (x : Name) (e : C)
  /-- `inserted` tells whether a macro made it. -/
  | lam (inserted : Bool) (xs : List Name) (b : C)
  | app (es : List C)
  | prim (p : Nat) (es : List C)
  | ite (a b c : C)
  | seq (a b : C)
  | callcc (e : C)
  | lett (xs : List Name) (es : List C) (b : C)
  | letrec (xs : List Name) (es : List C) (b : C)
  | recv (xs : List Name) (e b : C)
  /-- `(call/cc (lambda (x) b))` in `values` -/
  | letcc (x : Name) (b : C)
  /-- `(throw x e ...)`, libl.sf:4255-4258 -/
  | throw (x : Name) (es : List C)
  /-- `(eqv? e 'v)` or `(eq? e 'v)` -/
  | eqv (e : C) (v : V)

/-! ### expansion -/

abbrev names (xs : List Nat) : List Name := xs.map .user

/-- `(if #f #f)`. -/
abbrev voidC : C := .const .void

/-- one after the other; `(begin e ... last)`. -/
def seqs : List C → C → C
  | [], last => last
  | e :: es, last => .seq e (seqs es last)

/-- `compare`, libl.sf:3563-3568. -/
def compare : List V → C
  | [] => .const .f
  | d :: ds => .ite (.eqv (.var .key) d) (.const .t) (compare ds)

/-- let*, libl.sf:118-122. -/
def letStar : List Nat → List C → C → C
  | x :: xs, e :: es, b => .lett [.user x] [e] (letStar xs es b)
  | _, _, b => b

/-- the assignments of letrec*, libl.sf:129-135. -/
def assigns : List Nat → List C → C → C
  | x :: xs, e :: es, b => .seq (.set (.user x) e) (assigns xs es b)
  | _, _, b => b

/-- let*-values, libl.sf:157-161. -/
def letStarValues : List (List Name) → List C → C → C
  | [x] :: xss, e :: es, b => .lett [x] [e] (letStarValues xss es b)
  | xs :: xss, e :: es, b => .recv xs e (letStarValues xss es b)
  | _, _, b => b

/-- the formals of let-values with new variables, libl.sf:164-174; `n` of them are in use. -/
def temps : Nat → List (List Nat) → List (List Name)
  | _, [] => []
  | n, xs :: xss => (List.range' n xs.length).map .val :: temps (n + xs.length) xss

/-- and, libl.sf:231-235. -/
def andC : List C → C
  | [] => .const .t
  | [e] => e
  | e :: es => .ite e (andC es) (.const .f)

/-- or, libl.sf:237-241. -/
def orC : List C → C
  | [] => .const .f
  | [e] => e
  | e :: es => .lett [.x] [e] (.ite (.var .x) (.var .x) (orC es))

/-- `(begin e ...)`. -/
def beginC : List C → C
  | [] => voidC
  | [e] => e
  | e :: es => .seq e (beginC es)

/-- the procedure `loop` of `do`, libl.sf:249-255. -/
def loopC (test : C) (rs cs steps : List C) : C :=
  .ite test (beginC (voidC :: rs)) (seqs cs (.app (.var .loop :: steps)))

mutual
/-- the expansion of a program. -/
def expand : E → C
  | .const v => .const v
  | .var x => .var (.user x)
  | .set x e => .set (.user x) (expand e)
  | .lam xs b => .lam false (names xs) (expand b)
  | .app es => .app (expandL es)
  | .prim p es => .prim p (expandL es)
  | .ite a b c => .ite (expand a) (expand b) (expand c)
  | .seq a b => .seq (expand a) (expand b)
  | .callcc e => .callcc (expand e)
  -- libl.sf:109-116
  | .lett xs es b => .lett (names xs) (expandL es) (expand b)
  | .named f xs es b => .app (.letrec [.user f] [.lam false (names xs) (expand b)] (.var (.user f)) :: expandL es)
  | .letS xs es b => letStar xs (expandL es) (expand b)
  -- libl.sf:124-127
  | .letrec xs es b => .letrec (names xs) (expandL es) (expand b)
  | .letrecS xs es b => .lett (names xs) (xs.map (fun _ => .const .f)) (assigns xs (expandL es) (expand b))
  -- libl.sf:4260-4263
  | .values es => .letcc .k (.throw .k (expandL es))
  -- libl.sf:150-155
  | .receive xs e b => .recv (names xs) (expand e) (expand b)
  | .letvS bs b => letStarValues (bs.formals.map names) (expandB bs) (expand b)
  -- without bindings this is `(let () . body)`, libl.sf:176
  | .letv bs b =>
    letStarValues (temps 0 bs.formals) (expandB bs) (.lett (names bs.formals.flatten) ((List.range bs.formals.flatten.length).map (fun i => .var (.val i))) (expand b))
  -- libl.sf:213-219
  | .when a b => .ite (expand a) (expand b) voidC
  | .unless a b => .ite (expand a) voidC (expand b)
  | .and es => andC (expandL es)
  | .or es => orC (expandL es)
  | .cond cl => expandCond cl
  | .case e cl => .lett [.key] [expand e] (expandCase cl)
  | .doo xs es steps test rs cs =>
    .app (.letrec [.loop] [.lam true (names xs) (loopC (expand test) (expandL rs) (expandL cs) (expandSteps xs steps))] (.var .loop) :: expandL es)
def expandL : List E → List C
  | [] => []
  | e :: es => expand e :: expandL es
def expandB : Binds → List C
  | .nil => []
  | .cons _ e bs => expand e :: expandB bs
/-- cond, libl.sf:221-229. -/
def expandCond : Cond → C
  | .nil => voidC
  | .els e => expand e
  | .test e cl => .lett [.x] [expand e] (.ite (.var .x) (.var .x) (expandCond cl))
  | .arrow e p cl => .lett [.tmp] [expand e] (.ite (.var .tmp) (.app [expand p, .var .tmp]) (expandCond cl))
  | .body e b cl => .ite (expand e) (expand b) (expandCond cl)
/-- case, libl.sf:3569-3583. -/
def expandCase : Case → C
  | .nil => voidC
  | .els e => expand e
  | .elsArrow p => .app [expand p, .var .key]
  | .data ds b cl => .ite (compare ds) (expand b) (expandCase cl)
  | .arrow ds p cl => .ite (compare ds) (.app [expand p, .var .key]) (expandCase cl)
/-- `do-step`, libl.sf:244. -/
def expandSteps : List Nat → Steps → List C
  | x :: xs, .keep l => .var (.user x) :: expandSteps xs l
  | _ :: xs, .step e l => expand e :: expandSteps xs l
  | _, _ => []
end

/-! ### the machine for expanded programs -/

/-- addresses. -/
inductive Loc
  | user (n : Nat)
  | temp (n : Nat)
  deriving DecidableEq

abbrev Env := Name → Option Loc

mutual
/-- values of the machine. -/
inductive CV
  | v (v : V)
  /-- the procedure made by `do`. -/
  | tclo (xs : List Name) (b : C) (env : Env)
  /-- the continuation captured by `values`. -/
  | tcont (k : List CF)
/-- what operands are for. -/
inductive CG
  | app
  | prim (p : Nat)
  | lett (xs : List Name) (b : C) (env : Env)
  | letrec (xs : List Name) (b : C) (env : Env)
  | throw (k : List CF)
/-- frames of continuations. -/
inductive CF
  | args (g : CG) (done : List CV) (todo : List C) (env : Env)
  | set (x : Name) (env : Env)
  | ite (b c : C) (env : Env)
  | seq (b : C) (env : Env)
  | callcc
  | recv (xs : List Name) (b : C) (env : Env)
  | eqv (v : V)
end

inductive CCtl
  | ev (e : C) (env : Env)
  | ret (vs : List CV)

structure CS (W : Type) where
  ctl : CCtl
  k : List CF
  /-- cells of variables of the program, of inserted variables. -/
  cells : List CV
  temps : List CV
  clos : List (List Name × C × Env)
  conts : List (List CF)
  world : W

variable {W : Type}

/-- the primitives and `eqv?`. -/
structure Prims (W : Type) where
  prim : Nat → List V → W → Option (V × W)
  eqv : V → V → Bool

def upd (x : Name) (l : Loc) (env : Env) : Env := fun y => if y = x then some l else env y

/-- variables get new cells. -/
def bindC : List Name → List CV → Env → CS W → Option (Env × CS W)
  | [], [], env, s => some (env, s)
  | .user x :: xs, v :: vs, env, s => bindC xs vs (upd (.user x) (.user s.cells.length) env) { s with cells := s.cells ++ [v] }
  | x :: xs, v :: vs, env, s => bindC xs vs (upd x (.temp s.temps.length) env) { s with temps := s.temps ++ [v] }
  | _, _, _, _ => none

def getC (env : Env) (x : Name) (s : CS W) : Option CV :=
  match env x with
  | some (.user l) => s.cells[l]?
  | some (.temp l) => s.temps[l]?
  | none => none

def putC (env : Env) (x : Name) (v : CV) (s : CS W) : Option (CS W) :=
  match env x with
  | some (.user l) => if l < s.cells.length then some { s with cells := s.cells.set l v } else none
  | some (.temp l) => if l < s.temps.length then some { s with temps := s.temps.set l v } else none
  | none => none

def putAllC (env : Env) : List Name → List CV → CS W → Option (CS W)
  | [], [], s => some s
  | x :: xs, v :: vs, s => (putC env x v s).bind (putAllC env xs vs)
  | _, _, _ => none

/-- arguments of primitives. -/
def plain : List CV → Option (List V)
  | [] => some []
  | .v v :: l => (plain l).map (v :: ·)
  | _ :: _ => none

def truthy : CV → Bool
  | .v v => v ≠ .f
  | _ => true

/-- calls. -/
def callC (f : CV) (vs : List CV) (s : CS W) : Option (CS W) :=
  match f with
  | .v (.clo i) => (s.clos[i]?).bind (fun c => (bindC c.1 vs c.2.2 s).map (fun p => { p.2 with ctl := .ev c.2.1 p.1 }))
  | .v (.cont i) => (s.conts[i]?).map (fun k => { s with ctl := .ret vs, k := k })
  | .tclo xs b env => (bindC xs vs env s).map (fun p => { p.2 with ctl := .ev b p.1 })
  | _ => none

/-- all operands are there. -/
def finishC (pr : Prims W) (g : CG) (vs : List CV) (s : CS W) : Option (CS W) :=
  match g with
  | .app => match vs with | f :: vs => callC f vs s | [] => none
  | .prim p => (plain vs).bind (fun vs => (pr.prim p vs s.world).map (fun r => { s with ctl := .ret [.v r.1], world := r.2 }))
  | .lett xs b env => (bindC xs vs env s).map (fun p => { p.2 with ctl := .ev b p.1 })
  | .letrec xs b env => (putAllC env xs vs s).map (fun s => { s with ctl := .ev b env })
  | .throw k => some { s with ctl := .ret vs, k := k }

/-- evaluation of operands. -/
def argsC (pr : Prims W) (g : CG) (done : List CV) (todo : List C) (env : Env) (s : CS W) : Option (CS W) :=
  match todo with
  | [] => finishC pr g done s
  | e :: es => some { s with ctl := .ev e env, k := .args g done es env :: s.k }

def stepC (pr : Prims W) (s : CS W) : Option (CS W) :=
  match s.ctl with
  | .ev (.const v) _ => some { s with ctl := .ret [.v v] }
  | .ev (.var x) env => (getC env x s).map (fun v => { s with ctl := .ret [v] })
  | .ev (.set x e) env => some { s with ctl := .ev e env, k := .set x env :: s.k }
  | .ev (.lam false xs b) env => some { s with ctl := .ret [.v (.clo s.clos.length)], clos := s.clos ++ [(xs, b, env)] }
  | .ev (.lam true xs b) env => some { s with ctl := .ret [.tclo xs b env] }
  | .ev (.app es) env => argsC pr .app [] es env s
  | .ev (.prim p es) env => argsC pr (.prim p) [] es env s
  | .ev (.ite a b c) env => some { s with ctl := .ev a env, k := .ite b c env :: s.k }
  | .ev (.seq a b) env => some { s with ctl := .ev a env, k := .seq b env :: s.k }
  | .ev (.callcc e) env => some { s with ctl := .ev e env, k := .callcc :: s.k }
  | .ev (.lett xs es b) env => argsC pr (.lett xs b env) [] es env s
  -- the cells exist before the operands are evaluated
  | .ev (.letrec xs es b) env => (bindC xs (xs.map (fun _ => .v .void)) env s).bind (fun p => argsC pr (.letrec xs b p.1) [] es p.1 p.2)
  | .ev (.recv xs e b) env => some { s with ctl := .ev e env, k := .recv xs b env :: s.k }
  | .ev (.letcc x b) env => (bindC [x] [.tcont s.k] env s).map (fun p => { p.2 with ctl := .ev b p.1 })
  | .ev (.throw x es) env => match getC env x s with | some (.tcont k) => argsC pr (.throw k) [] es env s | _ => none
  | .ev (.eqv e v) env => some { s with ctl := .ev e env, k := .eqv v :: s.k }
  | .ret vs =>
    match s.k with
    | [] => none
    | .recv xs b env :: k => (bindC xs vs env { s with k := k }).map (fun p => { p.2 with ctl := .ev b p.1 })
    | f :: k =>
      match vs with
      | [v] =>
        match f with
        | .args g done todo env => argsC pr g (done ++ [v]) todo env { s with k := k }
        | .set x env => (putC env x v { s with k := k }).map (fun s => { s with ctl := .ret [.v .void] })
        | .ite b c env => some { s with ctl := .ev (if truthy v then b else c) env, k := k }
        | .seq b env => some { s with ctl := .ev b env, k := k }
        | .callcc => callC v [.v (.cont s.conts.length)] { s with k := k, conts := s.conts ++ [k] }
        | .eqv d => match v with | .v u => some { s with ctl := .ret [.v (if pr.eqv u d then .t else .f)], k := k } | _ => none
        | .recv _ _ _ => none
      | _ => none

def startC (w : W) (e : C) : CS W :=
  { ctl := .ev e (fun _ => none), k := [], cells := [], temps := [], clos := [], conts := [], world := w }

/-- what is seen at the end. -/
def resultC (s : CS W) : Option (List CV × W) :=
  match s.ctl, s.k with
  | .ret vs, [] => some (vs, s.world)
  | _, _ => none

end Verif.Derived
