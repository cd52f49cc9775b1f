import Verif.Fx.Model
/-
Operators with any number of operands, /repo/lib/libl.sf.

Each operator is a macro, used when it stands in operator position, and a procedure `%residual-…`, used everywhere else.  Operands and
results are computations: they may fail and change a state.  Operands of primitives and procedures are evaluated from left to
right.  `none` as the result of an expansion: no rule of the macro matches (2.sf:1054-1056; the rule `_` is for uses as a variable only,
2.sf:1062-1064).
-/
namespace Verif.Nary

/-- Computations with a state. -/
def Comp (σ α : Type) := σ → Option (α × σ)

namespace Comp
variable {σ α β : Type}

/-- a value or variable. -/
def pure (a : α) : Comp σ α := fun s => some (a, s)
/-- one computation after the other. -/
def bind (c : Comp σ α) (f : α → Comp σ β) : Comp σ β := fun s => (c s).bind fun r => f r.1 r.2
/-- an operation that may fail. -/
def lift (a : Option α) : Comp σ α := fun s => a.map fun x => (x, s)
end Comp

variable {σ α β : Type}

/-- evaluation of operands. -/
def evalAll : List (Comp σ α) → Comp σ (List α)
  | [] => .pure []
  | c :: cs => c.bind fun x => (evalAll cs).bind fun xs => .pure (x :: xs)

/-- a primitive with two operands. -/
def prim2 (f : α → α → Option β) (x y : Comp σ α) : Comp σ β := x.bind fun a => y.bind fun b => .lift (f a b)

/-- Macros like `<`, libl.sf:757-785 (`fx=?` …), 953-981 (`fl=?` …), 1165-1193 (`=` …), 1405-1495 (characters), 1627-1684 (strings): two operands, or
`(let ([t y]) (and (< x t) (< t z ...)))`. -/
def cmpMacro (f : α → α → Option Bool) : List (Comp σ α) → Option (Comp σ Bool)
  | [] => none
  | [_] => none
  | [x, y] => some (prim2 f x y)
  | x :: y :: z :: zs => some (y.bind fun t => (prim2 f x (.pure t)).bind fun b => if b then ((cmpMacro f (.pure t :: z :: zs)).getD (fun _ => none)) else .pure false)
termination_by cs => cs.length

/-- Macros like `+`, libl.sf:1235-1241 (`+`), 1243-1249 (`*`), 1287-1293 (`gcd`), 1300-1306 (`lcm`): `(+ (+ x y) z ...)`. -/
def leftMacro (f : α → α → Option α) (e : α) : List (Comp σ α) → Option (Comp σ α)
  | [] => some (.pure e)
  | [x] => some x
  | [x, y] => some (prim2 f x y)
  | x :: y :: z :: zs => leftMacro f e (prim2 f x y :: z :: zs)
termination_by cs => cs.length

/-- Macros like `fx+`, libl.sf:816-828 (`fx+`, `fx*`), 1024-1036 (`fl+`, `fl*`), 1709-1714 (`string-append`), 2158-2163 (`append`):
`(fx+ x (fx+ y z ...))`. -/
def rightMacro (f : α → α → Option α) (e : α) : List (Comp σ α) → Option (Comp σ α)
  | [] => some (.pure e)
  | [x] => some x
  | [x, y] => some (prim2 f x y)
  | x :: y :: z :: zs => (rightMacro f e (y :: z :: zs)).map fun r => prim2 f x r

/-- Macros like `-`, libl.sf:830-842 (`fx-`, `fx/`), 1038-1050 (`fl-`, `fl/`), 1251-1263 (`-`, `/`). -/
def subMacro (g : α → Option α) (f : α → α → Option α) : List (Comp σ α) → Option (Comp σ α)
  | [] => none
  | [x] => some (x.bind fun a => .lift (g a))
  | [x, y] => some (prim2 f x y)
  | x :: y :: z :: zs => subMacro g f (prim2 f x y :: z :: zs)
termination_by cs => cs.length

/-- Macros like `fxmax`, libl.sf:802-814 (`fxmax`, `fxmin`), 1010-1022 (`flmax`, `flmin`). -/
def maxMacro (f : α → α → Option α) : List (Comp σ α) → Option (Comp σ α)
  | [] => none
  | [x] => some x
  | [x, y] => some (prim2 f x y)
  | x :: y :: z :: zs => maxMacro f (prim2 f x y :: z :: zs)
termination_by cs => cs.length

/-! ### the procedures -/

/-- the loop in `cmp-reducer`, libl.sf:4653-4657. -/
def cmpLoop (f : α → α → Option Bool) (x : α) : List α → Option Bool
  | [] => some true
  | y :: args => (f x y).bind fun b => if b then cmpLoop f y args else some false

/-- `cmp-reducer`, libl.sf:4649-4657. -/
def cmpReducer (f : α → α → Option Bool) : List α → Option Bool
  | [] => some true
  | x :: args => cmpLoop f x args

/-- the loop in the other reducers, libl.sf:4681-4684, 4717-4720, 4737-4740. -/
def loop (f : α → α → Option α) (x : α) : List α → Option α
  | [] => some x
  | y :: args => (f x y).bind fun z => loop f z args

/-- `addmul-reducer`, libl.sf:4711-4720. -/
def addmulReducer (f : α → α → Option α) (s : α) : List α → Option α
  | [] => some s
  | x :: args => loop f x args

/-- `minmax-reducer`, libl.sf:4677-4684: at least one argument. -/
def minmaxReducer (f : α → α → Option α) : List α → Option α
  | [] => none
  | x :: args => loop f x args

/-- `subdiv-reducer`, libl.sf:4731-4740: at least one argument. -/
def subdivReducer (g : α → Option α) (f : α → α → Option α) : List α → Option α
  | [] => none
  | [x] => g x
  | x :: args => loop f x args

/-- `append-reducer`, libl.sf:4843-4850. -/
def appendReducer (f : α → α → Option α) (s : α) : List α → Option α
  | [] => some s
  | [x] => some x
  | x :: y :: args => (appendReducer f s (y :: args)).bind fun r => f x r

/-- A call of a procedure with a list of arguments. -/
def callProc (r : List α → Option β) (cs : List (Comp σ α)) : Comp σ β := (evalAll cs).bind fun xs => .lift (r xs)

/-- `cons*`, `%residual-cons*`, libl.sf:4895-4897. -/
def consStar (cons : α → α → α) (x : α) : List α → α
  | [] => x
  | y :: l => cons x (consStar cons y l)

/-! ### `map` and `for-each` -/

/-- the loop for one list in `%residual-map`, libl.sf:4802-4804. -/
def mapLoop1 (p : α → Comp σ β) : List α → List β → Comp σ (List β)
  | [], r => .pure r.reverse
  | x :: l, r => (p x).bind fun y => mapLoop1 p l (y :: r)

/-- `(let lp ([l* l*]) (or (null? l*) (and (pair? (car l*)) (lp (cdr l*)))))`, libl.sf:4806. -/
def allPairs : List (List α) → Bool
  | [] => true
  | [] :: _ => false
  | (_ :: _) :: ls => allPairs ls

/-- the loop for several lists, libl.sf:4805-4808.  The number of rounds is bounded by the length of the first list. -/
def mapLoopN (p : List α → Comp σ β) : Nat → List (List α) → List β → Comp σ (List β)
  | 0, _, r => .pure r.reverse
  | n + 1, ls, r =>
    if allPairs ls then (p (ls.filterMap List.head?)).bind fun y => mapLoopN p n (ls.map List.tail) (y :: r) else .pure r.reverse

/-- `%residual-map`, libl.sf:4801-4808. -/
def residualMap (p : List α → Comp σ β) (l : List α) (ls : List (List α)) : Comp σ (List β) :=
  match ls with
  | [] => mapLoop1 (fun x => p [x]) l []
  | ls => mapLoopN p (l.length + 1) (l :: ls) []

/-- the loops of `%residual-for-each`, libl.sf:4811-4815. -/
def forLoop1 (p : α → Comp σ β) : List α → Comp σ Unit
  | [] => .pure ()
  | x :: l => (p x).bind fun _ => forLoop1 p l
@[inherit_doc forLoop1]
def forLoopN (p : List α → Comp σ β) : Nat → List (List α) → Comp σ Unit
  | 0, _ => .pure ()
  | n + 1, ls => if allPairs ls then (p (ls.filterMap List.head?)).bind fun _ => forLoopN p n (ls.map List.tail) else .pure ()

/-- `%residual-for-each`, libl.sf:4810-4815. -/
def residualForEach (p : List α → Comp σ β) (l : List α) (ls : List (List α)) : Comp σ Unit :=
  match ls with
  | [] => forLoop1 (fun x => p [x]) l
  | ls => forLoopN p (l.length + 1) (l :: ls)

end Verif.Nary
