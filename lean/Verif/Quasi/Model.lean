/-
Quasiquotation: the macro `quasiquote`, lib/libl.sf:3641-3651.

Simplifications.  `unquote`, `unquote-splicing` and `quasiquote` are recognised as symbols.  Expressions are data, with values given by `Ev`; so are
the values.  `append` and `list->vector` fail if their (first) argument is not a list.
-/
namespace Verif.Quasi

/-- data.  The elements of a vector are a list. -/
inductive D
  | nil
  | sym (n : Nat)
  | atom (n : Nat)
  | pair (a b : D)
  | vec (l : D)
  deriving DecidableEq

/-- the symbols `quasiquote`, `unquote`, `unquote-splicing`. -/
abbrev quasi : D := .sym 0
abbrev unquote : D := .sym 1
abbrev splicing : D := .sym 2

/-- expansions. -/
inductive Q
  /-- the expression `x` -/
  | exp (x : D)
  /-- `'d` -/
  | quote (d : D)
  /-- `(cons a b)` -/
  | cons (a b : Q)
  /-- `(append x b)` -/
  | append (x : D) (b : Q)
  /-- `(list->vector a)` -/
  | toVec (a : Q)

/-- the element of a list of one. -/
def only : D → Option D
  | .pair x .nil => some x
  | _ => none

/-- `x` of `(unquote-splicing x)`. -/
def spliced : D → Option D
  | .pair a b => if a = splicing then only b else none
  | _ => none

/-- the macro, rules in order.  The level `n` is the number of elements nested in the last argument, libl.sf:3646-3648. -/
def qq : D → Nat → Q
  | .pair a b, n =>
    match (if a = unquote ∧ n = 0 then only b else none) with
    -- libl.sf:3643
    | some x => .exp x
    | none =>
      match (if n = 0 then spliced a else none) with
      -- libl.sf:3644, 3645
      | some x => if b = .nil then .exp x else .append x (qq b n)
      | none =>
        -- libl.sf:3646
        if a = quasi ∧ (only b).isSome then .cons (.quote quasi) (qq b (n + 1))
        -- libl.sf:3647, 3648
        else if (a = unquote ∨ a = splicing) ∧ (only b).isSome ∧ n ≠ 0 then .cons (.quote a) (qq b (n - 1))
        -- libl.sf:3649
        else .cons (qq a n) (qq b n)
  -- libl.sf:3650
  | .vec l, n => .toVec (qq l n)
  -- libl.sf:3651
  | d, _ => .quote d

/-! ### values of expansions -/

variable {W : Type}

/-- computations with effects that may fail. -/
abbrev M (W α : Type) := W → Option (α × W)

/-- operands in one of two orders. -/
def both {α β : Type} (ltr : Bool) (a : M W α) (b : M W β) : M W (α × β) := fun w =>
  if ltr then (a w).bind (fun x => (b x.2).map (fun y => ((x.1, y.1), y.2)))
  else (b w).bind (fun y => (a y.2).map (fun x => ((x.1, y.1), x.2)))

/-- `append` of two lists. -/
def append : D → D → Option D
  | .nil, y => some y
  | .pair a b, y => (append b y).map (.pair a)
  | _, _ => none

def isList : D → Bool
  | .nil => true
  | .pair _ b => isList b
  | _ => false

/-- values of expressions. -/
abbrev Ev (W : Type) := D → M W D

def run (ev : Ev W) (ltr : Bool) : Q → M W D
  | .exp x => ev x
  | .quote d => fun w => some (d, w)
  | .cons a b => fun w => (both ltr (run ev ltr a) (run ev ltr b) w).map (fun r => (.pair r.1.1 r.1.2, r.2))
  | .append x b => fun w => (both ltr (ev x) (run ev ltr b) w).bind (fun r => (append r.1.1 r.1.2).map (fun d => (d, r.2)))
  | .toVec a => fun w => (run ev ltr a w).bind (fun r => if isList r.1 then some (.vec r.1, r.2) else none)

end Verif.Quasi
