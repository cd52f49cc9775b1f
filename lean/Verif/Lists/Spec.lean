import Verif.Lists.Model
/-
Specification vocabulary for lists on the heap (independent of the list functions; only uses the heap's car and cdr).
-/
namespace Verif.Lists

/-- `Seg h o ps t`: following cdr from `o` passes exactly the pairs `ps`, in order, and then arrives at `t`. -/
def Seg (h : Heap) : Obj → List Nat → Obj → Prop
  | o, [], t => o = t
  | o, p :: ps, t => o = .ptr p ∧ Seg h (h.cdr p) ps t

/-- `o` is a proper list, in allocated memory, with elements `xs`. -/
def ListOf (h : Heap) (o : Obj) (xs : List Obj) : Prop :=
  ∃ ps : List Nat, Seg h o ps .nil ∧ (∀ p ∈ ps, p < h.next) ∧ ps.map h.car = xs

/-- same heap except possibly for pairs at or above `n` -/
def AgreeBelow (n : Nat) (h h' : Heap) : Prop := ∀ p < n, h'.car p = h.car p ∧ h'.cdr p = h.cdr p

end Verif.Lists
