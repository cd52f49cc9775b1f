import Verif.Core.Steps
/-
Meaning of core expressions with assignments to local variables (the programs before `remove-assignments`): the
machine of `Machine`, except that every parameter is bound to a new cell of the store, references read the cell and
assignments write it.  Procedures of a `fix` are bound directly; they cannot be assigned.

The code in /repo has no interpreter for core expressions; this file is the reference meaning used in the
statements about compiler passes.
-/
namespace Verif.Core

/-- parameters bound to the cells `a`, `a + 1`, …; the first parameter is innermost. -/
def bindCells : List Id → Nat → Env → Env
  | [], _, ρ => ρ
  | x :: xs, a, ρ => .bind x (.box a) (bindCells xs (a + 1) ρ)

/-- contents of a local variable. -/
def fetch (x : Id) (ρ : Env) (heap : List Val) : Option Val :=
  match ρ.lookup x with
  | some (.box a) => heap[a]?
  | r => r

/-- One step.  An assignment to a local variable evaluates the expression and then writes the cell of the variable,
like the primitive `boxset`. -/
def cstep {W : Type} (M : Sem W) (ord : Op → List Exp → List Nat) : State W → Option (State W)
  | .ev (.var x) ρ κ σ =>
    match (if x.isGlobal then σ.glob x else fetch x ρ σ.heap) with
    | some v => some (.ret v κ σ)
    | none => none
  | .ev (.set x e) ρ κ σ =>
    if x.isGlobal then some (.ev e ρ (.set x κ) σ)
    else match ρ.lookup x with
      | some (.box a) =>
        some (.ev e ρ (.args (.prim noEffect .boxset) [.var x, e] (upd (fun _ => .trap) 0 (.box a)) 1 [] ρ κ) σ)
      | _ => none
  | .ev (.letcc x b) ρ κ σ =>
    some (.ev b (.bind x (.box σ.heap.length) ρ) κ { σ with heap := σ.heap ++ [.cont κ] })
  | .ap (.clos ids b ρ) vs κ σ =>
    if ids.length = vs.length then
      some (.ev b (bindCells ids σ.heap.length ρ) κ { σ with heap := σ.heap ++ vs })
    else none
  | .ap (.rclos ids lams i ρ) vs κ σ =>
    match lams[i]? with
    | some (.lam ps b) =>
      if ps.length = vs.length then
        some (.ev b (bindCells ps σ.heap.length (.fix ids lams ρ)) κ { σ with heap := σ.heap ++ vs })
      else none
    | _ => none
  | s => step M ord s

instance {W : Type} (M : Sem W) (ord : Op → List Exp → List Nat) : Final (cstep M ord) := ⟨fun _ _ => rfl⟩

/-- An order of evaluation that depends on the number of operands only. -/
def positional (ord : Op → Nat → List Nat) : Op → List Exp → List Nat := fun op es => ord op es.length

/-- It visits every operand exactly once. -/
def FairPos (ord : Op → Nat → List Nat) : Prop := ∀ op n, (ord op n).Perm (List.range n)

end Verif.Core
