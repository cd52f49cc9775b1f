import Verif.Core.Ast
/-
Meaning of core expressions without assignments to local variables (the programs between `remove-assignments` and
code generation): an abstract machine with environments, continuations, a store of boxes and global variables, and
an abstract outside world.

The code in /repo has no interpreter for core expressions; this file is the reference meaning used in the
statements about compiler passes.  Conventions taken from the code generator (7.sf): an assignment to a global
variable returns `void` (7.sf:280-284), an assignment to a box returns the assigned value (the-boxset-prim,
4.sf:327-328), everything except `#f` counts as true.  Primitives other than the ones named in `PrimName` are arbitrary functions from the outside of their
arguments and the world to an atom and a new world; they may fail.  The order in which operands are evaluated is a
parameter.
-/
namespace Verif.Core

/-- What a primitive or an observer can see of a value: atoms and the shape of pairs. -/
inductive View where
  | atom (n : Nat)
  | pair (a d : View)
  | box
  | proc
deriving DecidableEq

/-- Meaning of the primitives `op n`, for worlds of type `W`. -/
structure Sem (W : Type) where
  op : Nat → List View → W → Option (Nat × W)

/-- What is applied to a list of operands. -/
inductive Op where
  | prim (eff : Effect) (p : PrimName)
  | call

mutual
/-- Values.  `atom 0` is `#f`, `atom 1` is `void`.  `rclos ids lams i ρ` is the `i`-th procedure of a `fix` group evaluated in `ρ`.
`cont` is a continuation reified by `letcc`.  `trap` is the value of `ktrap()`, 5.sf:158-159. -/
inductive Val where
  | atom (n : Nat)
  | pair (a d : Val)
  | box (a : Nat)
  | trap
  | clos (ids : List Id) (body : Exp) (ρ : Env)
  | rclos (ids : List Id) (lams : List Exp) (i : Nat) (ρ : Env)
  | cont (κ : Kont)
/-- Environments. -/
inductive Env where
  | nil
  | bind (x : Id) (v : Val) (ρ : Env)
  | fix (ids : List Id) (lams : List Exp) (ρ : Env)
/-- Continuations.  `halt`: end of the program; `throw v`: pass the result to the continuation or procedure `v`
(`withcc`); `trap`: must not be returned to; `args op es done i todo ρ κ`: waiting for operand `i` of `es`, with
the values of the operands evaluated so far and the list of the operands still to evaluate. -/
inductive Kont where
  | halt
  | trap
  | throw (v : Val)
  | set (x : Id) (κ : Kont)
  | ite (b c : Exp) (ρ : Env) (κ : Kont)
  | args (op : Op) (es : List Exp) (done : Nat → Val) (i : Nat) (todo : List Nat) (ρ : Env) (κ : Kont)
  | withcc (e : Exp) (ρ : Env)
end

/-- the outside of a value. -/
def Val.view : Val → View
  | .atom n => .atom n
  | .pair a d => .pair a.view d.view
  | .box _ => .box
  | .trap => .proc
  | .clos _ _ _ => .proc
  | .rclos _ _ _ _ => .proc
  | .cont _ => .proc

/-- `#f`. -/
def Val.isFalse : Val → Bool
  | .atom n => n == 0
  | _ => false

/-- position of an id in a list. -/
def idxOf (x : Id) : List Id → Option Nat
  | [] => none
  | y :: ys => if x = y then some 0 else (idxOf x ys).map (· + 1)

/-- value of a local variable. -/
def Env.lookup (x : Id) : Env → Option Val
  | .nil => none
  | .bind y v ρ => if x = y then some v else ρ.lookup x
  | .fix ids lams ρ =>
    match idxOf x ids with
    | some i => some (.rclos ids lams i ρ)
    | none => ρ.lookup x

/-- parameters and arguments; the first parameter is innermost. -/
def bindAll : List Id → List Val → Env → Env
  | x :: xs, v :: vs, ρ => .bind x v (bindAll xs vs ρ)
  | _, _, ρ => ρ

/-- Globals, boxes, world. -/
structure Store (W : Type) where
  glob : Id → Option Val
  heap : List Val
  world : W

/-- States of the machine. -/
inductive State (W : Type) where
  | ev (e : Exp) (ρ : Env) (κ : Kont) (σ : Store W)
  | args (op : Op) (es : List Exp) (done : Nat → Val) (todo : List Nat) (ρ : Env) (κ : Kont) (σ : Store W)
  | ap (f : Val) (vs : List Val) (κ : Kont) (σ : Store W)
  | ret (v : Val) (κ : Kont) (σ : Store W)
  | done (v : Val) (w : W)

/-- Result of a primitive: a value, or the end of the program. -/
inductive PrimRes (W : Type) where
  | ok (v : Val) (σ : Store W)
  | stop (v : Val)

/-- Primitives. -/
def doPrim {W : Type} (M : Sem W) : PrimName → List Val → Store W → Option (PrimRes W)
  | .void, [], σ => some (.ok (.atom 1) σ)
  | .halt, [v], _ => some (.stop v)
  | .ktrap, [], σ => some (.ok .trap σ)
  | .box, [v], σ => some (.ok (.box σ.heap.length) { σ with heap := σ.heap ++ [v] })
  | .boxref, [.box a], σ => σ.heap[a]?.map (fun v => .ok v σ)
  | .boxset, [.box a, v], σ =>
    if a < σ.heap.length then some (.ok v { σ with heap := σ.heap.set a v }) else none
  | .cons, [a, d], σ => some (.ok (.pair a d) σ)
  | .car, [.pair a _], σ => some (.ok a σ)
  | .cdr, [.pair _ d], σ => some (.ok d σ)
  | .op n, vs, σ => (M.op n (vs.map Val.view) σ.world).map (fun r => .ok (.atom r.1) { σ with world := r.2 })
  | _, _, _ => none

/-- record the value of an operand. -/
def upd (d : Nat → Val) (i : Nat) (v : Val) : Nat → Val := fun j => if j = i then v else d j

/-- the values of `n` operands. -/
def vals (d : Nat → Val) (n : Nat) : List Val := (List.range n).map d

/-- One step; `none` if the machine is stuck or has finished.  `ord op es` lists the positions of the operands `es`
in the order of their evaluation. -/
def step {W : Type} (M : Sem W) (ord : Op → List Exp → List Nat) : State W → Option (State W)
  | .ev (.var x) ρ κ σ =>
    match (if x.isGlobal then σ.glob x else ρ.lookup x) with
    | some v => some (.ret v κ σ)
    | none => none
  | .ev (.set x e) ρ κ σ => if x.isGlobal then some (.ev e ρ (.set x κ) σ) else none
  | .ev (.ite a b c) ρ κ σ => some (.ev a ρ (.ite b c ρ κ) σ)
  | .ev (.prim eff p es) ρ κ σ => some (.args (.prim eff p) es (fun _ => .trap) (ord (.prim eff p) es) ρ κ σ)
  | .ev (.app f es) ρ κ σ => some (.args .call (f :: es) (fun _ => .trap) (ord .call (f :: es)) ρ κ σ)
  | .ev (.lam ids b) ρ κ σ => some (.ret (.clos ids b ρ) κ σ)
  | .ev (.fix ids lams b) ρ κ σ => some (.ev b (.fix ids lams ρ) κ σ)
  | .ev (.letcc x b) ρ κ σ => some (.ev b (.bind x (.cont κ) ρ) κ σ)
  | .ev (.withcc k e) ρ _ σ => some (.ev k ρ (.withcc e ρ) σ)
  | .args op es d (i :: todo) ρ κ σ =>
    match es[i]? with
    | some e => some (.ev e ρ (.args op es d i todo ρ κ) σ)
    | none => none
  | .args (.prim _ p) es d [] _ κ σ =>
    match doPrim M p (vals d es.length) σ with
    | some (.ok v σ') => some (.ret v κ σ')
    | some (.stop v) => some (.done v σ.world)
    | none => none
  | .args .call es d [] _ κ σ =>
    match vals d es.length with
    | f :: vs => some (.ap f vs κ σ)
    | [] => none
  | .ap (.clos ids b ρ) vs κ σ => if ids.length = vs.length then some (.ev b (bindAll ids vs ρ) κ σ) else none
  | .ap (.rclos ids lams i ρ) vs κ σ =>
    match lams[i]? with
    | some (.lam ps b) => if ps.length = vs.length then some (.ev b (bindAll ps vs (.fix ids lams ρ)) κ σ) else none
    | _ => none
  | .ap (.cont κ') [v] _ σ => some (.ret v κ' σ)
  | .ap _ _ _ _ => none
  | .ret v .halt σ => some (.done v σ.world)
  | .ret _ .trap _ => none
  | .ret v (.throw p) σ => some (.ap p [v] .trap σ)
  | .ret v (.set x κ) σ => some (.ret (.atom 1) κ { σ with glob := fun y => if y = x then some v else σ.glob y })
  | .ret v (.ite b c ρ κ) σ => some (.ev (if v.isFalse then c else b) ρ κ σ)
  | .ret v (.args op es d i todo ρ κ) σ => some (.args op es (upd d i v) todo ρ κ σ)
  | .ret v (.withcc e ρ) σ => if v.view = .proc then some (.ev e ρ (.throw v) σ) else none
  | .done _ _ => none

/-- evaluation of operands from left to right. -/
def leftToRight : Op → List Exp → List Nat := fun _ es => List.range es.length

/-- An order of evaluation visits every operand exactly once. -/
def FairOrder (ord : Op → List Exp → List Nat) : Prop :=
  ∀ op es, (ord op es).Perm (List.range es.length)

/-- the world of a state. -/
def State.world {W : Type} : State W → W
  | .ev _ _ _ σ => σ.world
  | .args _ _ _ _ _ _ σ => σ.world
  | .ap _ _ _ σ => σ.world
  | .ret _ _ σ => σ.world
  | .done _ w => w

end Verif.Core
