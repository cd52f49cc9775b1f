import Verif.Gc.Model
/-
What a well-formed heap is, which blocks are reachable, and what it means for two
heaps to hold the same data.
-/
namespace Verif.Gc

/-- The number of words of contents of the block at `a`. -/
def len (m : Mem) (a : Nat) : Nat := if m (a - 1) % 2 = 1 then m (a - 1) / 2 else 1

/-- `as` are the blocks, in order of address, that fill the memory from `lo` up
to `hi`: each has a header and at least one word of contents. -/
def Tiles (m : Mem) : Nat → Nat → List Nat → Prop
  | lo, hi, [] => lo = hi
  | lo, hi, a :: as => a = lo + 1 ∧ 1 ≤ len m a ∧ Tiles m (a + len m a) hi as

/-- The root cells. -/
def Roots.cells (R : Roots) : List Nat :=
  List.range' R.regs (R.regp - R.regs) ++ R.globs.flatten

/-- A word is a pointer to one of the blocks `as` or a foreign word. -/
def Val (ext : Nat → Prop) (as : List Nat) (v : Nat) : Prop := ext v ∨ ∃ a ∈ as, v = 8 * a

/-- A well-formed heap in space `S`: the blocks `as` fill it from `hp` to its
end; all root cells and all words of ordinary blocks are pointers to blocks or
foreign words (`ext`: immediate objects, static closures, …); the header and the
contents of native blocks are foreign and the header is not null.  Roots are
outside the heap. -/
structure Wf (ext : Nat → Prop) (R : Roots) (S : Space) (m : Mem) (hp : Nat) (as : List Nat) :
    Prop where
  lo : S.base ≤ hp
  tiles : Tiles m hp S.lim as
  roots : ∀ p ∈ R.cells, Val ext as (m p)
  words : ∀ a ∈ as, m (a - 1) % 2 = 1 → ∀ i < len m a, Val ext as (m (a + i))
  native : ∀ a ∈ as, m (a - 1) % 2 = 0 → ext (m (a - 1)) ∧ m (a - 1) ≠ 0 ∧ ext (m a)

/-- The block at `a` can be reached from the roots. -/
inductive Reach (m : Mem) (R : Roots) (as : List Nat) : Nat → Prop
  | root {p a : Nat} : p ∈ R.cells → a ∈ as → m p = 8 * a → Reach m R as a
  | step {a b i : Nat} : Reach m R as a → m (a - 1) % 2 = 1 → i < len m a → b ∈ as →
      m (a + i) = 8 * b → Reach m R as b

/-- The word `w` of the new heap stands for the word `v` of the old one: pointers
to blocks are renamed by `f`, all else is identical. -/
def Same (as : List Nat) (f : Nat → Nat) (v w : Nat) : Prop :=
  (∀ a ∈ as, v = 8 * a → w = 8 * f a) ∧ ((∀ a ∈ as, v ≠ 8 * a) → w = v)

/-- The heap `m'` with blocks `as'` holds exactly the reachable part of the heap
`m` with blocks `as`, up to the renaming `f` of block addresses: `f` is a
one-to-one correspondence between the reachable blocks and the new blocks, and
roots, headers and contents agree. -/
structure Iso (R : Roots) (m : Mem) (as : List Nat) (m' : Mem) (as' : List Nat) (f : Nat → Nat) :
    Prop where
  onto : ∀ b, b ∈ as' ↔ ∃ a, Reach m R as a ∧ f a = b
  inj : ∀ a a', Reach m R as a → Reach m R as a' → f a = f a' → a = a'
  roots : ∀ p ∈ R.cells, Same as f (m p) (m' p)
  headers : ∀ a, Reach m R as a → m' (f a - 1) = m (a - 1)
  words : ∀ a, Reach m R as a → ∀ i < len m a, Same as f (m (a + i)) (m' (f a + i))

/-- `c` is a cell of the space `S`. -/
def Space.Has (S : Space) (c : Nat) : Prop := S.base ≤ c ∧ c < S.lim

/-- The spaces have no cell in common. -/
def Space.Disj (S T : Space) : Prop := S.lim ≤ T.base ∨ T.lim ≤ S.base

/-- Neither a root cell nor a foreign word lies in the space. -/
structure Apart (ext : Nat → Prop) (R : Roots) (S : Space) : Prop where
  cells : ∀ p ∈ R.cells, ¬ S.Has p
  ext : ∀ v, ext v → inSp S v = false

end Verif.Gc
