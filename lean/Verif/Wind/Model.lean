/-
Dynamic extents: lib/libl.sf:4243-4283 (`*current-dynamic-state*`, call/cc, dynamic-wind, dynamic-state-reroot!).

A dynamic state is a pair in the heap; it is identified here by its address (a `Nat`).  Its car is #f (`none`) or a
pair of a before and an after thunk; its cdr is '() (`none`) or another state.  Calling a thunk appends it to the log.
Simplifications: thunks return normally and do not themselves change the dynamic state; the values passed to
continuations and the C stack are not modelled.  `none` results: a type error (car of #f) or running out of fuel.
-/
namespace Verif.Wind

variable {Thunk : Type}

structure State (Thunk : Type) where
  car : Nat → Option (Thunk × Thunk)
  cdr : Nat → Option Nat
  cur : Nat
  next : Nat
  log : List Thunk

/-- `(define *current-dynamic-state* (list #f))`, libl.sf:4243 -/
def init : State Thunk := { car := fun _ => none, cdr := fun _ => none, cur := 0, next := 1, log := [] }

/-- the body of `dynamic-state-reroot!` after the recursive call, libl.sf:4275-4281 -/
def rerootStep (s : State Thunk) (there : Nat) : Option (State Thunk) := do
  let (before, after) ← s.car there
  some { s with
    car := fun x => if x = there then none else if x = s.cur then some (after, before) else s.car x
    cdr := fun x => if x = there then none else if x = s.cur then some there else s.cdr x
    cur := there
    log := s.log ++ [before] }

/-- `dynamic-state-reroot!`, libl.sf:4272-4281 -/
def reroot : Nat → State Thunk → Nat → Option (State Thunk)
  | 0, _, _ => none
  | f + 1, s, there =>
    if s.cur = there then some s
    else do
      let s1 ← reroot f s (← s.cdr there)
      rerootStep s1 there

/-- entry of `dynamic-wind`, libl.sf:4265-4267: `(dynamic-state-reroot! (cons (cons before after) here))`.
Leaving it normally, libl.sf:4270, and invoking a continuation, libl.sf:4250, are `reroot here`. -/
def enter (fuel : Nat) (s : State Thunk) (before after : Thunk) : Option (State Thunk) :=
  reroot fuel { s with
    car := fun x => if x = s.next then some (before, after) else s.car x
    cdr := fun x => if x = s.next then some s.cur else s.cdr x
    next := s.next + 1 } s.next

/-- what a program can do with dynamic states: enter a new extent with the given thunks, or go to (the extent of) a state captured
earlier - by returning from dynamic-wind or by invoking a continuation -/
inductive Op (Thunk : Type)
  | enter (before after : Thunk)
  | goto (there : Nat)

def step (fuel : Nat) (s : State Thunk) : Op Thunk → Option (State Thunk)
  | .enter b a => enter fuel s b a
  | .goto t => reroot fuel s t

def run (fuel : Nat) : State Thunk → List (Op Thunk) → Option (State Thunk)
  | s, [] => some s
  | s, o :: os => do run fuel (← step fuel s o) os

end Verif.Wind
