import Verif.ListHeap.Model
/-
Specification: what a value on the heap is as a list.
-/
namespace Verif.ListHeap.Spec
open Verif.ListHeap (Val Heap)

/-- From the value, cdrs lead through the pairs at the addresses `as`, whose cars are `xs`, to the value `t`. -/
inductive Chain (h : Heap) : Val → List Nat → List Val → Val → Prop where
  | nil {t} : Chain h t [] [] t
  | cons {a x d as xs t} : h[a]? = some (x, d) → Chain h d as xs t → Chain h (.ptr a) (a :: as) (x :: xs) t

/-- A proper list with the elements `xs`. -/
def IsList (h : Heap) (l : Val) (xs : List Val) : Prop := ∃ as, Chain h l as xs .null

/-- `h'` is `h` with new pairs, and from `v` exactly the new pairs lead to `t`, with the elements `xs`. -/
def Fresh (h h' : Heap) (v : Val) (xs : List Val) (t : Val) : Prop :=
  ∃ new as, h' = h ++ new ∧ new.length = xs.length ∧ Chain h' v as xs t ∧
    ∀ a, a ∈ as ↔ h.length ≤ a ∧ a < h'.length

/-- Not a pair. -/
def Atomic (h : Heap) (v : Val) : Prop := ∀ a, v = .ptr a → h[a]? = none

end Verif.ListHeap.Spec
