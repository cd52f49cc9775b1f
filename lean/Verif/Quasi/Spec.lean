import Verif.Quasi.Model
/-
Specification for C69: templates (R7RS 4.2.8), how they are written and what their values are.
-/
namespace Verif.Quasi

mutual
/-- templates. -/
inductive T
  /-- a symbol, number, … or the empty list -/
  | atom (d : D)
  | pair (a b : T)
  /-- `,x` at the outermost level -/
  | unq (x : D)
  /-- `(,@x . b)` at the outermost level -/
  | splice (x : D) (b : T)
  /-- `(k . b)`, where `k` is one of `quasiquote`, `unquote`, `unquote-splicing` and the level of `b` is another one -/
  | form (k : D) (b : T)
  /-- `#(e ...)` -/
  | vec (es : Els)
/-- elements of vectors. -/
inductive Els
  | nil
  | one (t : T) (es : Els)
  /-- `,@x` at the outermost level -/
  | splice (x : D) (es : Els)
end

mutual
/-- the datum the reader gives. -/
def T.print : T → D
  | .atom d => d
  | .pair a b => .pair a.print b.print
  | .unq x => .pair unquote (.pair x .nil)
  | .splice x b => .pair (.pair splicing (.pair x .nil)) b.print
  | .form k b => .pair k b.print
  | .vec es => .vec es.print
def Els.print : Els → D
  | .nil => .nil
  | .one t es => .pair t.print es.print
  | .splice x es => .pair (.pair splicing (.pair x .nil)) es.print
end

/-- `(a . b)` is a form that is not a plain pair at the level `n`. -/
def Special (n : Nat) (a b : D) : Prop :=
  (a = quasi ∨ a = unquote ∨ (a = splicing ∧ n ≠ 0)) ∧ ∃ x, b = .pair x .nil

/-- `(unquote-splicing x)` at the outermost level. -/
def Splice (n : Nat) (a : D) : Prop := n = 0 ∧ ∃ x, a = .pair splicing (.pair x .nil)

mutual
/-- templates of level `n`. -/
def T.Wf (n : Nat) : T → Prop
  | .atom d => (∀ a b, d ≠ .pair a b) ∧ ∀ l, d ≠ .vec l
  | .pair a b => a.Wf n ∧ b.Wf n ∧ ¬ Special n a.print b.print ∧ ¬ Splice n a.print
  | .unq _ => n = 0
  | .splice _ b => n = 0 ∧ b.Wf n
  | .form k b => (∃ x, b.print = .pair x .nil) ∧ ((k = quasi ∧ b.Wf (n + 1)) ∨ ((k = unquote ∨ k = splicing) ∧ n ≠ 0 ∧ b.Wf (n - 1)))
  | .vec es => es.Wf n
def Els.Wf (n : Nat) : Els → Prop
  | .nil => True
  | .one t es => t.Wf n ∧ ¬ Splice n t.print ∧ es.Wf n
  | .splice _ es => n = 0 ∧ es.Wf n
end

variable {W : Type}

mutual
/-- the value of a template. -/
def T.value (ev : Ev W) (ltr : Bool) : T → M W D
  | .atom d => fun w => some (d, w)
  | .pair a b => fun w => (both ltr (a.value ev ltr) (b.value ev ltr) w).map (fun r => (.pair r.1.1 r.1.2, r.2))
  | .unq x => ev x
  -- nothing to append, any object
  | .splice x (.atom .nil) => ev x
  | .splice x b => fun w => (both ltr (ev x) (b.value ev ltr) w).bind (fun r => (append r.1.1 r.1.2).map (fun d => (d, r.2)))
  | .form k b => fun w => (b.value ev ltr w).map (fun r => (.pair k r.1, r.2))
  | .vec es => fun w => (es.value ev ltr w).map (fun r => (.vec r.1, r.2))
/-- the list of values of elements. -/
def Els.value (ev : Ev W) (ltr : Bool) : Els → M W D
  | .nil => fun w => some (.nil, w)
  | .one t es => fun w => (both ltr (t.value ev ltr) (es.value ev ltr) w).map (fun r => (.pair r.1.1 r.1.2, r.2))
  | .splice x es => fun w => (both ltr (ev x) (es.value ev ltr) w).bind (fun r => (append r.1.1 r.1.2).map (fun d => (d, r.2)))
end

mutual
/-- no vector in the template ends in two elements that look like `,x`, `` `x `` or (in nested templates) `,@x`. -/
def T.Clear (n : Nat) : T → Prop
  | .atom _ => True
  | .pair a b => a.Clear n ∧ b.Clear n
  | .unq _ => True
  | .splice _ b => b.Clear n
  | .form k b => b.Clear (if k = quasi then n + 1 else n - 1)
  | .vec es => es.Clear n
def Els.Clear (n : Nat) : Els → Prop
  | .nil => True
  | .one t es => t.Clear n ∧ es.Clear n ∧ ¬ Special n t.print es.print
  | .splice _ es => es.Clear n
end

/-- data as read: elements of vectors are lists. -/
def Proper : D → Prop
  | .pair a b => Proper a ∧ Proper b
  | .vec l => Proper l ∧ isList l = true
  | _ => True

/-- C69 in full. -/
def C69Full : Prop := ∀ (W : Type) (ev : Ev W) (ltr : Bool) (t : T), t.Wf 0 → run ev ltr (qq t.print 0) = t.value ev ltr

end Verif.Quasi
