import Verif.Wind.Model
/-
Specification of dynamic extents, independent of the implementation: an immutable tree of extents.
-/
namespace Verif.Wind

variable {Thunk : Type}

/-- The extents entered so far, extent `i+1` being `exts[i]`; each has a parent extent and its two thunks.  Extent 0 is the
outermost one. -/
structure Extent (Thunk : Type) where
  parent : Nat
  before : Thunk
  after : Thunk

abbrev Tree (Thunk : Type) := List (Extent Thunk)

/-- the extents enclosing extent `x`, itself included, innermost first, without the outermost extent 0; parents are older
than their children, `n` bounds the depth -/
def enclosing (t : Tree Thunk) : Nat → Nat → List Nat
  | 0, _ => []
  | _, 0 => []
  | n + 1, x + 1 => match t[x]? with
    | none => []
    | some e => (x + 1) :: enclosing t n e.parent

/-- the extents one is in when in extent `x`, innermost first -/
def inside (t : Tree Thunk) (x : Nat) : List Nat := enclosing t (x + 1) x

/-- extents left on the way from `x` to `y`, innermost first -/
def left (t : Tree Thunk) (x y : Nat) : List Nat := (inside t x).filter (fun e => !(inside t y).contains e)

/-- extents entered on the way from `x` to `y`, outermost first -/
def entered (t : Tree Thunk) (x y : Nat) : List Nat := (left t y x).reverse

/-- the thunks to run on the way from `x` to `y` -/
def thunks (t : Tree Thunk) (x y : Nat) : List Thunk :=
  (left t x y).filterMap (fun e => t[e - 1]?.map (·.after)) ++ (entered t x y).filterMap (fun e => t[e - 1]?.map (·.before))

structure Spec (Thunk : Type) where
  tree : Tree Thunk
  cur : Nat
  log : List Thunk

def Spec.init : Spec Thunk := { tree := [], cur := 0, log := [] }

/-- specification of the operations: entering a new extent adds it below the current one -/
def Spec.step (s : Spec Thunk) : Op Thunk → Spec Thunk
  | .enter b a =>
    let tree := s.tree ++ [⟨s.cur, b, a⟩]
    { tree := tree, cur := tree.length, log := s.log ++ thunks tree s.cur tree.length }
  | .goto t => { s with cur := t, log := s.log ++ thunks s.tree s.cur t }

def Spec.run : Spec Thunk → List (Op Thunk) → Spec Thunk
  | s, [] => s
  | s, o :: os => run (s.step o) os

/-- continuations can only be invoked after they have been captured: `goto` goes to an existing extent -/
def Valid : Spec Thunk → List (Op Thunk) → Prop
  | _, [] => True
  | s, o :: os => (match o with | .goto t => t ≤ s.tree.length | .enter _ _ => True) ∧ Valid (s.step o) os

end Verif.Wind
