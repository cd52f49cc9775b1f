import Verif.Exc.Model
/-
Specification for C66: the dynamic environment (handlers, values of parameters, active calls of `dynamic-wind`) is a part of continuations.
There are no dynamic states, and no assignments of parameters.
-/
namespace Verif.Exc.Spec
variable {W : Type}

/-- an active call of `dynamic-wind`: its number, its thunks, and the values of the parameters outside. -/
structure Wnd (W : Type) where
  id : Nat
  before : (Nat → V) → W → W
  after : (Nat → V) → W → W
  ps : Nat → V

/-- dynamic environments. -/
structure Dyn (W : Type) where
  /-- the handlers, innermost first. -/
  hs : List V
  /-- values of the parameters. -/
  ps : Nat → V
  /-- active calls of `dynamic-wind`, innermost first. -/
  ws : List (Wnd W)

inductive Frame (W : Type)
  | bind (k : V → Prog W)
  /-- the dynamic environment of the rest. -/
  | restore (d : Dyn W)

structure State (W : Type) where
  ctl : Ctl W
  k : List (Frame W)
  d : Dyn W
  world : W
  /-- number of dynamic extents so far. -/
  n : Nat
  clos : List (V → Prog W)
  cls : List (V → Clause W)
  conts : List (List (Frame W) × Dyn W)
  gconts : List (List (Frame W) × Dyn W)

/-- the calls in `l` that are not in `l'`. -/
def only (l l' : List (Wnd W)) : List (Wnd W) := l.filter (fun e => !(l'.any (fun e' => e'.id == e.id)))

/-- control leaves the calls in `l` and enters those in `l'`: the `after` thunks of the calls left are called, innermost first, then the
`before` thunks of the calls entered, outermost first; each with the parameters outside of the call. -/
def travel (l l' : List (Wnd W)) (w : W) : W :=
  (only l' l).reverse.foldl (fun w e => e.before e.ps w) ((only l l').foldl (fun w e => e.after e.ps w) w)

/-- control goes to another dynamic environment. -/
def go (s : State W) (d : Dyn W) : State W := { s with d := d, world := travel s.d.ws d.ws s.world }

/-- the program runs in a new dynamic environment until it returns. -/
def within (s : State W) (d : Dyn W) (p : Prog W) : State W := { s with ctl := .ev p, k := .restore s.d :: s.k, d := d, n := s.n + 1 }

/-- `parameterize`: the leftmost binding of a parameter counts. -/
def bound (conv : Nat → V → V) : List (Nat × V) → (Nat → V) → (Nat → V)
  | [], ps => ps
  | (x, v) :: l, ps => fun y => if y = x then conv x v else bound conv l ps y

/-- one step. -/
def step (conv : Nat → V → V) (s : State W) : Option (State W) :=
  match s.ctl with
  | .stop _ _ => none
  | .ret v =>
    match s.k with
    | [] => some { s with ctl := .stop true v }
    | .bind f :: k => some { s with ctl := .ev (f v), k := k }
    | .restore d :: k => some { go s d with ctl := .ret v, k := k }
  | .ev (.ret v) => some { s with ctl := .ret v }
  | .ev (.bind p f) => some { s with ctl := .ev p, k := .bind f :: s.k }
  | .ev (.act f) => some { s with ctl := .ret (f s.d.ps s.world).1, world := (f s.d.ps s.world).2 }
  | .ev (.lam f) => some { s with ctl := .ret (.clo s.clos.length), clos := s.clos ++ [f] }
  | .ev (.callcc f) => some { s with ctl := .ev (f (.cont s.conts.length)), conts := s.conts ++ [(s.k, s.d)] }
  | .ev (.wind b a p) => some { within s { s.d with ws := ⟨s.n + 1, b, a, s.d.ps⟩ :: s.d.ws } p with world := b s.d.ps s.world }
  | .ev (.params l p) => some (within s { s.d with ps := bound conv l s.d.ps } p)
  | .ev (.handle h p) => some (within s { s.d with hs := h :: s.d.hs } p)
  -- the handler is called with the outer handlers; for `raise`, it must not return
  | .ev (.raise v) =>
    match s.d.hs with
    | [] => some { s with ctl := .stop false v }
    | h :: hs => some { within s { s.d with hs := hs } (.app h v) with k := .bind (fun _ => .raise (.returned v)) :: .restore s.d :: s.k }
  | .ev (.raiseC v) =>
    match s.d.hs with
    | [] => some { s with ctl := .stop false v }
    | h :: hs => some (within s { s.d with hs := hs } (.app h v))
  | .ev (.guard cl p) =>
    some { within s { s.d with hs := .ghand s.cls.length s.gconts.length :: s.d.hs } p with
      cls := s.cls ++ [cl], gconts := s.gconts ++ [(s.k, s.d)] }
  -- back to where the exception was raised, if no clause of `guard` applies
  | .ev (.again (.gcont i) v) => (s.gconts[i]?).map (fun c => { go s c.2 with ctl := .ev (.raiseC v), k := c.1 })
  | .ev (.again k v) => some { s with ctl := .ev (.app k (.treraise v)) }
  | .ev (.app f v) =>
    match f with
    | .clo i => (s.clos[i]?).map (fun g => { s with ctl := .ev (g v) })
    | .cont i => (s.conts[i]?).map (fun c => { go s c.2 with ctl := .ret v, k := c.1 })
    -- continuations of `guard` are given thunks
    | .gcont i => (s.gconts[i]?).map (fun c => { go s c.2 with ctl := .ev (.app v (.atom 0)), k := c.1 })
    | .hand h _ => some { s with ctl := .ev (.app h v) }
    | .dflt => some { s with ctl := .stop false v }
    -- an exception is raised inside of a `guard`: its clauses are tried in the dynamic environment of the `guard`
    | .ghand c i =>
      (s.gconts[i]?).bind (fun g => (s.cls[c]?).map (fun cl =>
        { go s g.2 with ctl := .ev (clProg (.again (.gcont s.gconts.length) v) (cl v)), k := g.1, gconts := s.gconts ++ [(s.k, s.d)] }))
    | .tret u => some { s with ctl := .ret u }
    | .tclause c u k => (s.cls[c]?).map (fun cl => { s with ctl := .ev (clProg (.again (.gcont k) u) (cl u)) })
    | .treraise u => some { s with ctl := .ev (.raiseC u) }
    | _ => none

/-- a program starts. -/
def start (ps : Nat → V) (w : W) (p : Prog W) : State W :=
  { ctl := .ev p, k := [], d := ⟨[], ps, []⟩, world := w, n := 0, clos := [], cls := [], conts := [], gconts := [] }

/-- what is seen at the end. -/
def result (s : State W) : Option (Bool × V × W) :=
  match s.ctl with
  | .stop ok v => some (ok, v, s.world)
  | _ => none

end Verif.Exc.Spec

namespace Verif.Exc

/-- `n` steps. -/
def iter {σ : Type} (f : σ → Option σ) : Nat → σ → Option σ
  | 0, s => some s
  | n + 1, s => (f s).bind (iter f n)

/-- The execution from `s` ends with the result `r` (`none` is an error). -/
def Ends {σ ρ : Type} (f : σ → Option σ) (res : σ → Option ρ) (s : σ) (r : Option ρ) : Prop :=
  ∃ n s', iter f n s = some s' ∧ f s' = none ∧ res s' = r

end Verif.Exc
