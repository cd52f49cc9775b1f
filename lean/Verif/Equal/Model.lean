import Verif.Cmp.Model
/-
Equivalence predicates and list searches of the base library: iseqv, ismemv, isassv, isequal, ismember, isassoc
(0.sf:1923-2009); LibL repeats all but isequal word for word (lib/libl.sf:3464-3551).

Objects are machine words (natural numbers).  A heap says which words point to heap objects (the test
`!x || notaptr(x) || notobjptr(x)` is `H x = none`) and what they hold.  The header word is represented by the constructor of
`Node` together with the block size, so "headers differ" is "different constructor or different size".
-/
namespace Verif.Equal

/-- object word -/
abbrev Obj := Nat

/-- Contents of a heap object.  `F` stands for the values of flonums other than NaN, with -0.0 identified with 0.0 (C `==` on
doubles is equality there and false on NaN, which is `none`). -/
inductive Node (F : Type) where
  /-- native object with header FLONUM_NTAG -/
  | flo (v : Option F)
  /-- native object with header STRING_NTAG (characters before the final NUL) -/
  | str (s : List Char)
  /-- native object with header BYTEVECTOR_NTAG -/
  | bytes (b : List Nat)
  /-- any other native object; `h` is its header -/
  | native (h : Nat)
  /-- ordinary block, header = size (pairs, vectors, boxes, records, closures) -/
  | blk (ws : List Obj)
  deriving DecidableEq

/-- a heap -/
abbrev Heap (F : Type) := Obj → Option (Node F)

variable {F : Type} [DecidableEq F]

/-- C `==` on flonum_t -/
def feq : Option F → Option F → Bool
  | some a, some b => a = b
  | _, _ => false

/-- `strcmp(..) == 0` -/
def seq (s t : List Char) : Bool := Cmp.strcmp s t == .eq

/-- iseqv (0.sf:1923-1930, lib/libl.sf:3465-3471) -/
def iseqv (H : Heap F) (x y : Obj) : Bool :=
  if x = y then true else
  match H x, H y with
  | some (.flo a), some (.flo b) => feq a b
  | _, _ => false

/-- the component loop of isequal: `for (i = 1; i < n-1; ++i) if (!isequal(..)) return 0;` followed by the tail jump for the last
component (the jump is a call whose result is returned). -/
def cmpAll (eqf : Obj → Obj → Option Bool) : List Obj → List Obj → Option Bool
  | x :: xs, y :: ys =>
    match eqf x y with
    | some true => cmpAll eqf xs ys
    | r => r
  | _, _ => some true

/-- isequal (0.sf:1965-1974).  `none`: the recursion is deeper than the fuel.  Words 0 of blocks are compared by identity. -/
def isequal (H : Heap F) : Nat → Obj → Obj → Option Bool
  | 0, _, _ => none
  | n + 1, x, y =>
    if x = y then some true else
    match H x, H y with
    | some (.flo a), some (.flo b) => some (feq a b)
    | some (.str s), some (.str t) => some (seq s t)
    | some (.blk (w :: ws)), some (.blk (u :: us)) =>
      if ws.length = us.length ∧ w = u then cmpAll (isequal H n) ws us else some false
    | _, _ => some false

/-- immediate empty list, `mknull()` (any fixed word that is not a heap pointer) and the pair tag -/
structure Tags where
  /-- mknull() -/
  null : Obj
  /-- word 0 of a pair -/
  pair : Obj

/-- car and cdr of a pair (0.sf pair section); anything else fails the C assertion, `none` -/
def uncons (H : Heap F) (T : Tags) (p : Obj) : Option (Obj × Obj) :=
  match H p with
  | some (.blk [t, a, d]) => if t = T.pair then some (a, d) else none
  | _ => none

/-- `for (; l != mknull(); l = cdr(l)) { if (test(car(l))) return l; } return 0;`.  Outer `none`: out of fuel or not a pair or the
test did not finish; `some none`: fell through to `return 0` (#f). -/
def memLoop (H : Heap F) (T : Tags) (test : Obj → Option Bool) : Nat → Obj → Option (Option Obj)
  | 0, _ => none
  | n + 1, l =>
    if l = T.null then some none else do
      let (a, d) ← uncons H T l
      match ← test a with
      | true => some (some l)
      | false => memLoop H T test n d

/-- `for (; l != mknull(); l = cdr(l)) { obj p = car(l); if (test(car(p))) return p; } return 0;` -/
def assLoop (H : Heap F) (T : Tags) (test : Obj → Option Bool) : Nat → Obj → Option (Option Obj)
  | 0, _ => none
  | n + 1, l =>
    if l = T.null then some none else do
      let (p, d) ← uncons H T l
      let (k, _) ← uncons H T p
      match ← test k with
      | true => some (some p)
      | false => assLoop H T test n d

/-- `y == x` -/
def testEq (x y : Obj) : Option Bool := some (y = x)

/-- `is_flonum_obj(y) && fx == flonum_from_obj(y)` -/
def testFlo (H : Heap F) (fx : Option F) (y : Obj) : Option Bool :=
  match H y with
  | some (.flo v) => some (feq fx v)
  | _ => some false

/-- `isstring(y) && 0 == strcmp(xs, stringchars(y))` -/
def testStr (H : Heap F) (xs : List Char) (y : Obj) : Option Bool :=
  match H y with
  | some (.str s) => some (seq xs s)
  | _ => some false

/-- the test chosen by ismemv and isassv (0.sf:1932-1963) -/
def testV (H : Heap F) (x : Obj) : Obj → Option Bool :=
  match H x with
  | none => testEq x
  | some (.flo fx) => testFlo H fx
  | some _ => testEq x

/-- the test chosen by ismember and isassoc (0.sf:1976-2009); `eqf` is the isequal of the library at hand -/
def testE (H : Heap F) (eqf : Obj → Obj → Option Bool) (x : Obj) : Obj → Option Bool :=
  match H x with
  | none => testEq x
  | some (.flo fx) => testFlo H fx
  | some (.str xs) => testStr H xs
  | some _ => fun y => eqf y x

/-- ismemv (0.sf:1932-1946) -/
def ismemv (H : Heap F) (T : Tags) (n : Nat) (x l : Obj) := memLoop H T (testV H x) n l
/-- isassv (0.sf:1948-1962) -/
def isassv (H : Heap F) (T : Tags) (n : Nat) (x l : Obj) := assLoop H T (testV H x) n l
/-- ismember (0.sf:1976-1993) -/
def ismember (H : Heap F) (T : Tags) (eqf : Obj → Obj → Option Bool) (n : Nat) (x l : Obj) := memLoop H T (testE H eqf x) n l
/-- isassoc (0.sf:1995-2012) -/
def isassoc (H : Heap F) (T : Tags) (eqf : Obj → Obj → Option Bool) (n : Nat) (x l : Obj) := assLoop H T (testE H eqf x) n l

end Verif.Equal
