/-
Promises: lib/libl.sf:2732-2752 (make-promise, make-lazy-promise, force, delay, delay-force) and 0.sf:1619-1643.

`force` runs in segments that cannot be interrupted: from its start (or restart) to the call of the delayed thunk, and from the
return of the thunk to the next call of the thunk or the return of `force`.  Between segments anything may happen: the thunk may
force other promises or the same one, create promises, and, through continuations, return several times or never.  A history is
therefore an arbitrary list of segments chosen by an adversary.

Values and thunks are elements of an arbitrary type `V`.
-/
namespace Verif.Promise

variable {V : Type}

/-! ### LibL promises -/

/-- a promise is a box holding a pair `(done . value-or-thunk)` -/
structure State (V : Type) where
  box : Nat → Nat
  car : Nat → Bool
  cdr : Nat → V
  boxes : Nat
  pairs : Nat

def State.init (v0 : V) : State V := { box := fun _ => 0, car := fun _ => false, cdr := fun _ => v0, boxes := 0, pairs := 0 }

inductive Event (V : Type)
  /-- `(make-promise v)`, `(make-lazy-promise v)` -/
  | make (done : Bool) (v : V)
  /-- `(force p)` is called -/
  | force (p : Nat)
  /-- a call of a thunk made by `(force p)` returns the promise `newp` -/
  | ret (p newp : Nat)

inductive Out (V : Type)
  /-- a new promise -/
  | made (p : Nat)
  /-- `(force p)` returns `v` -/
  | deliver (p : Nat) (v : V)
  /-- `(force p)` calls the thunk `th` -/
  | eval (p : Nat) (th : V)
  /-- type error: not a promise -/
  | invalid

/-- libl.sf:2734-2735 -/
def make (s : State V) (done : Bool) (v : V) : State V × Out V :=
  ({ box := fun b => if b = s.boxes then s.pairs else s.box b
     car := fun p => if p = s.pairs then done else s.car p
     cdr := fun p => if p = s.pairs then v else s.cdr p
     boxes := s.boxes + 1, pairs := s.pairs + 1 }, .made s.boxes)

/-- first segment of `force`, libl.sf:2738-2741 -/
def force (s : State V) (p : Nat) : State V × Out V :=
  let pc := s.box p
  if s.car pc then (s, .deliver p (s.cdr pc)) else (s, .eval p (s.cdr pc))

/-- second segment of `force`, libl.sf:2741-2746 -/
def ret (s : State V) (p newp : Nat) : State V × Out V :=
  let pc := s.box p
  let s' := if s.car pc then s else
    let s1 := { s with car := fun q => if q = pc then s.car (s.box newp) else s.car q }
    let s2 := { s1 with cdr := fun q => if q = pc then s1.cdr (s1.box newp) else s1.cdr q }
    { s2 with box := fun b => if b = newp then pc else s2.box b }
  force s' p

def step (s : State V) : Event V → State V × Out V
  | .make d v => make s d v
  | .force p => if p < s.boxes then force s p else (s, .invalid)
  | .ret p newp => if p < s.boxes ∧ newp < s.boxes then ret s p newp else (s, .invalid)

/-- the outputs of a history -/
def run : State V → List (Event V) → List (Out V)
  | _, [] => []
  | s, e :: es => (step s e).2 :: run (step s e).1 es

/-! ### promises of the basic library -/

/-- 0.sf:1619-1634: the variables `result-ready?` and `result` of each promise, and its `proc` -/
structure State0 (V : Type) where
  ready : Nat → Bool
  result : Nat → V
  proc : Nat → V
  count : Nat

inductive Event0 (V : Type)
  | make (proc : V)
  | force (p : Nat)
  /-- a call of `proc` made by promise `p` returns `x` -/
  | ret (p : Nat) (x : V)

def step0 (v0 : V) (s : State0 V) : Event0 V → State0 V × Out V
  | .make proc =>
    ({ ready := fun q => if q = s.count then false else s.ready q
       result := fun q => if q = s.count then v0 else s.result q
       proc := fun q => if q = s.count then proc else s.proc q
       count := s.count + 1 }, .made s.count)
  | .force p => if p < s.count then
      if s.ready p then (s, .deliver p (s.result p)) else (s, .eval p (s.proc p))
    else (s, .invalid)
  | .ret p x => if p < s.count then
      if s.ready p then (s, .deliver p (s.result p))
      else ({ s with ready := fun q => if q = p then true else s.ready q
                     result := fun q => if q = p then x else s.result q }, .deliver p x)
    else (s, .invalid)

def run0 (v0 : V) : State0 V → List (Event0 V) → List (Out V)
  | _, [] => []
  | s, e :: es => (step0 v0 s e).2 :: run0 v0 (step0 v0 s e).1 es

def State0.init (v0 : V) : State0 V := { ready := fun _ => false, result := fun _ => v0, proc := fun _ => v0, count := 0 }

end Verif.Promise
