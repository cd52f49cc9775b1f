/-
List and set utilities of the compiler, 3.sf:45-105.

Elements are compared with `eq?`; the model uses an arbitrary type with decidable equality.  The functions
are transcribed recursion by recursion.
-/
namespace Verif.Sets
variable {α : Type} [DecidableEq α]

/-- `memq` used as a boolean (0.sf:2043). -/
def memq (x : α) : List α → Bool
  | [] => false
  | y :: l => if x = y then true else memq x l

/-- `iota` (3.sf:43-44). -/
def iota (n m : Nat) : List Nat := if n < m then n :: iota (n + 1) m else []
termination_by m - n

/-- `keep` (3.sf:46-49). -/
def keep (f : α → Bool) : List α → List α
  | [] => []
  | x :: l => if f x then x :: keep f l else keep f l

/-- `adjoinq` (3.sf:51-52). -/
def adjoinq (x : α) (s : List α) : List α := if memq x s then s else x :: s

/-- `subsetq?` (3.sf:54-55), `andmap` unfolded. -/
def subsetq (s1 s2 : List α) : Bool :=
  match s1 with
  | [] => true
  | x :: t => if memq x s2 then subsetq t s2 else false

/-- `seteq?` (3.sf:57-58). -/
def seteq (s1 s2 : List α) : Bool := subsetq s1 s2 && subsetq s2 s1

/-- `unionq` (3.sf:60-63). -/
def unionq : List α → List α → List α
  | [], s2 => s2
  | x :: t, s2 => if memq x s2 then unionq t s2 else x :: unionq t s2

/-- `intersectionq` (3.sf:65-68). -/
def intersectionq : List α → List α → List α
  | [], _ => []
  | x :: t, s2 => if memq x s2 then x :: intersectionq t s2 else intersectionq t s2

/-- `setdiffq` (3.sf:70-73). -/
def setdiffq : List α → List α → List α
  | [], _ => []
  | x :: t, s2 => if memq x s2 then setdiffq t s2 else x :: setdiffq t s2

/-- `reduce-right` (3.sf:75-78). -/
def reduceRight {β : Type} (f : α → β → β) (base : β) : List α → β
  | [] => base
  | x :: t => f x (reduceRight f base t)

/-- `reduce-left` (3.sf:80-83). -/
def reduceLeft {β : Type} (f : α → β → β) (base : β) : List α → β
  | [] => base
  | x :: t => reduceLeft f (f x base) t

/-- `posq` (3.sf:102-106). -/
def posqLoop (x : α) : List α → Nat → Option Nat
  | [], _ => none
  | y :: t, i => if y = x then some i else posqLoop x t (i + 1)
@[inherit_doc posqLoop] def posq (x : α) (l : List α) : Option Nat := posqLoop x l 0

end Verif.Sets
