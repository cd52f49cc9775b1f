import Verif.Wind.Props
/-
Parameters and exceptions: lib/libl.sf:2696-2727 (make-parameter, parameterize), 4243-4283 (call/cc, dynamic-wind), 4286-4374
(with-exception-handler, raise, raise-continuable, guard).

Programs are trees in which the rest of a computation is a function of the value it waits for; the library procedures are steps of a machine
that does what the text of their definitions says.  The dynamic states are those of `Wind.Model`.

Simplifications.  Procedures take one argument and return one value.  The thunks given to `dynamic-wind`
read parameters and change the world in one step: they return normally and do not capture continuations.  Parameters are numbered; their
converters are functions (`conv`), and they are changed by `parameterize` only.  The error object raised when a handler returns has the
raised object, but not the handler, in its list of irritants.
-/
namespace Verif.Exc

/-- Values.  All but the first three are procedures and objects of the library. -/
inductive V
  /-- numbers, symbols, … -/
  | atom (n : Nat)
  /-- a procedure of the program, by its place in the table of procedures. -/
  | clo (i : Nat)
  /-- a continuation captured by call/cc. -/
  | cont (i : Nat)
  /-- `(case-lambda [() eh] [(obj) (handler obj)])`, libl.sf:4312. -/
  | hand (h eh : V)
  /-- `default-handler`, libl.sf:4301-4308. -/
  | dflt
  /-- the handler of `guard`, libl.sf:4358-4370: a procedure with free variables `guard-k` and (by its place in a table) the clauses. -/
  | ghand (c i : Nat)
  /-- `guard-k` or `handler-k`, by its place in a table. -/
  | gcont (i : Nat)
  /-- `(lambda () (apply values args))`, libl.sf:4374. -/
  | tret (v : V)
  /-- `(lambda () (let ([var condition]) (guard-aux …)))`, libl.sf:4362-4368. -/
  | tclause (c : Nat) (cond : V) (k : Nat)
  /-- `(lambda () (raise-continuable condition))`, libl.sf:4366-4367. -/
  | treraise (v : V)
  /-- the error object of libl.sf:4319. -/
  | returned (v : V)

mutual
/-- Programs. -/
inductive Prog (W : Type)
  | ret (v : V)
  | bind (p : Prog W) (k : V → Prog W)
  /-- reads parameters, changes the world. -/
  | act (f : (Nat → V) → W → V × W)
  /-- makes a procedure. -/
  | lam (f : V → Prog W)
  /-- calls a procedure. -/
  | app (f v : V)
  /-- `(call/cc f)`. -/
  | callcc (f : V → Prog W)
  /-- `(dynamic-wind before (lambda () body) after)`. -/
  | wind (before after : (Nat → V) → W → W) (body : Prog W)
  /-- `(parameterize ([p v] ...) body)`. -/
  | params (l : List (Nat × V)) (body : Prog W)
  /-- `(with-exception-handler h (lambda () body))`. -/
  | handle (h : V) (body : Prog W)
  | raise (v : V)
  /-- `raise-continuable`. -/
  | raiseC (v : V)
  /-- `(guard (x clauses) body)`. -/
  | guard (clauses : V → Clause W) (body : Prog W)
  /-- `(k (lambda () (raise-continuable v)))`. -/
  | again (k v : V)
/-- The clauses of `guard`: an expression that is the value, a test with the clauses that depend on its value, or no clauses. -/
inductive Clause (W : Type)
  | hit (p : Prog W)
  | test (p : Prog W) (k : V → Clause W)
  | miss
end

variable {W : Type}

/-- `guard-aux`, libl.sf:4332-4352. -/
def clProg (reraise : Prog W) : Clause W → Prog W
  | .hit p => p
  | .test p k => .bind p (fun v => clProg reraise (k v))
  | .miss => reraise

/-- the thunks of dynamic states: those of the program and those of `parameterize`, libl.sf:2720, 2722. -/
inductive Thunk (W : Type)
  | user (f : (Nat → V) → W → W)
  | sets (l : List (Nat × V))

/-- values of the parameters; the first one is `current-exception-handler`. -/
abbrev Cells := Nat → V

/-- `(p v #t)`, libl.sf:2704, 2710. -/
def set1 (x : Nat) (v : V) (c : Cells) : Cells := fun y => if y = x then v else c y

/-- `(p v #t) ...` from left to right. -/
def setAll : List (Nat × V) → Cells → Cells
  | [], c => c
  | (x, v) :: l, c => setAll l (set1 x v c)

/-- the parameters of the program. -/
def user (c : Cells) : Nat → V := fun x => c (x + 1)

/-- calls of thunks, one after the other. -/
def runThunks : List (Thunk W) → Cells × W → Cells × W
  | [], s => s
  | .user f :: l, (c, w) => runThunks l (c, f (user c) w)
  | .sets ps :: l, (c, w) => runThunks l (setAll ps c, w)

/-- what a computation waits for. -/
inductive Frame (W : Type)
  | bind (k : V → Prog W)
  /-- the rest of `dynamic-wind`, libl.sf:4270-4272. -/
  | leave (here : Nat)

/-- `((call/cc …))`: the value is called without arguments, libl.sf:4355, 4359. -/
def callF : Frame W := .bind (fun th => .app th (.atom 0))

inductive Ctl (W : Type)
  | ev (p : Prog W)
  | ret (v : V)
  /-- the end of the program: with a value, or with an exception nobody has handled (`false`). -/
  | stop (ok : Bool) (v : V)

structure State (W : Type) where
  ctl : Ctl W
  k : List (Frame W)
  /-- dynamic states. -/
  dyn : Wind.State (Thunk W)
  cells : Cells
  world : W
  /-- procedures. -/
  clos : List (V → Prog W)
  /-- the clauses of the `guard`s entered. -/
  cls : List (V → Clause W)
  /-- captured continuations, with the variable `here` of libl.sf:4246. -/
  conts : List (List (Frame W) × Nat)
  /-- the continuations captured in `guard`. -/
  gconts : List (List (Frame W) × Nat)

/-- `(dynamic-state-reroot! there)`.  It ends, see C21. -/
def goto (s : State W) (there : Nat) : Option (State W) :=
  (Wind.reroot (2 * s.dyn.next + 1) { s.dyn with log := [] } there).map (fun d =>
    { s with dyn := d, cells := (runThunks d.log (s.cells, s.world)).1, world := (runThunks d.log (s.cells, s.world)).2 })

/-- `dynamic-wind`, libl.sf:4266-4269. -/
def wind (s : State W) (before after : Thunk W) (body : Prog W) : Option (State W) :=
  (Wind.enter (2 * s.dyn.next + 3) { s.dyn with log := [] } before after).map (fun d =>
    { s with
      ctl := .ev body, k := .leave s.dyn.cur :: s.k, dyn := d
      cells := (runThunks d.log (s.cells, s.world)).1, world := (runThunks d.log (s.cells, s.world)).2 })

/-- invoking a continuation, libl.sf:4249-4251. -/
def throw (s : State W) (c : List (Frame W) × Nat) (v : V) : Option (State W) :=
  (goto s c.2).map (fun s => { s with ctl := .ret v, k := c.1 })

/-- `parameterize` with the values `l` for the parameters, libl.sf:2715-2724; the macro puts the bindings in reverse order. -/
def bindParams (s : State W) (l : List (Nat × V)) (body : Prog W) : Option (State W) :=
  wind s (.sets l.reverse) (.sets (l.reverse.map (fun p => (p.1, s.cells p.1)))) body

/-- `(eh)`, libl.sf:4303, 4312, 4317, 4323. -/
def parent : V → V
  | .hand _ eh => eh
  | v => v

/-- one step. -/
def step (conv : Nat → V → V) (s : State W) : Option (State W) :=
  match s.ctl with
  | .stop _ _ => none
  | .ret v =>
    match s.k with
    | [] => some { s with ctl := .stop true v }
    | .bind f :: k => some { s with ctl := .ev (f v), k := k }
    | .leave here :: k => (goto s here).map (fun s => { s with ctl := .ret v, k := k })
  | .ev (.ret v) => some { s with ctl := .ret v }
  | .ev (.bind p f) => some { s with ctl := .ev p, k := .bind f :: s.k }
  | .ev (.act f) => some { s with ctl := .ret (f (user s.cells) s.world).1, world := (f (user s.cells) s.world).2 }
  | .ev (.lam f) => some { s with ctl := .ret (.clo s.clos.length), clos := s.clos ++ [f] }
  | .ev (.callcc f) => some { s with ctl := .ev (f (.cont s.conts.length)), conts := s.conts ++ [(s.k, s.dyn.cur)] }
  | .ev (.wind b a p) => wind s (.user b) (.user a) p
  -- `new` is `(p value #f)`, libl.sf:2718
  | .ev (.params l p) => bindParams s (l.map (fun b => (b.1 + 1, conv b.1 b.2))) p
  -- libl.sf:4310-4313
  | .ev (.handle h p) => bindParams s [(0, .hand h (s.cells 0))] p
  -- libl.sf:4315-4319
  | .ev (.raise v) => bindParams s [(0, parent (s.cells 0))] (.bind (.app (s.cells 0) v) (fun _ => .raise (.returned v)))
  -- libl.sf:4321-4324
  | .ev (.raiseC v) => bindParams s [(0, parent (s.cells 0))] (.app (s.cells 0) v)
  -- libl.sf:4354-4374
  | .ev (.guard cl p) =>
    some { s with
      ctl := .ev (.handle (.ghand s.cls.length s.gconts.length) (.bind p (fun v => .app (.gcont s.gconts.length) (.tret v))))
      k := callF :: s.k
      cls := s.cls ++ [cl]
      gconts := s.gconts ++ [(callF :: s.k, s.dyn.cur)] }
  | .ev (.again k v) => some { s with ctl := .ev (.app k (.treraise v)) }
  | .ev (.app f v) =>
    match f with
    | .clo i => (s.clos[i]?).map (fun g => { s with ctl := .ev (g v) })
    | .cont i => (s.conts[i]?).bind (fun c => throw s c v)
    | .gcont i => (s.gconts[i]?).bind (fun c => throw s c v)
    | .hand h _ => some { s with ctl := .ev (.app h v) }
    | .dflt => some { s with ctl := .stop false v }
    -- libl.sf:4358-4370; the `guard` has been entered before
    | .ghand c i =>
      (s.gconts[i]?).map (fun _ => { s with
        ctl := .ev (.app (.gcont i) (.tclause c v s.gconts.length))
        k := callF :: s.k
        gconts := s.gconts ++ [(callF :: s.k, s.dyn.cur)] })
    | .tret u => some { s with ctl := .ret u }
    | .tclause c u k => (s.cls[c]?).map (fun cl => { s with ctl := .ev (clProg (.again (.gcont k) u) (cl u)) })
    | .treraise u => some { s with ctl := .ev (.raiseC u) }
    | _ => none

/-- a program starts. -/
def start (ps : Nat → V) (w : W) (p : Prog W) : State W :=
  { ctl := .ev p, k := [], dyn := Wind.init, cells := fun x => match x with | 0 => .dflt | x + 1 => ps x, world := w, clos := [], cls := [], conts := [], gconts := [] }

/-- what is seen at the end. -/
def result (s : State W) : Option (Bool × V × W) :=
  match s.ctl with
  | .stop ok v => some (ok, v, s.world)
  | _ => none

end Verif.Exc
