import Verif.Imm.Model
/-
Fixnum arithmetic.

* `Verif.Fx` part 1: the `fx…` operators of the compiler's own runtime, /repo/0.sf lines 417-538
  (24-bit fixnums, computed in C `int`).
* part 2: the numeric helpers of LibL, /repo/lib/libl.sf lines 456-617 (30-bit fixnums, computed
  in C `long`), in the `NDEBUG` variant (lines 463-494) and the checking variant (lines 515-590).

Part 1: undefined behaviour of C (signed overflow, division by zero, bad shift counts) makes the model
function return `none`.  Part 2: outcomes are `Except Fault`, telling undefined behaviour from a failing
`assert`.
-/
namespace Verif.Fx
open Verif.Imm

/-- A C `int` expression: defined only if the mathematical value fits 32 bits. -/
def cint (z : Int) : Option (BitVec 32) :=
  if -2147483648 ≤ z ∧ z ≤ 2147483647 then some (BitVec.ofInt 32 z) else none

/-- The integer a fixnum object stands for (`fixnum_from_obj`). -/
def val (o : Obj) : Int := (fixnumFromObj o).toInt

/-- `(fx+ x y)`, /repo/0.sf:436. -/
def fxAdd (a b : Obj) : Option Obj := (cint (val a + val b)).map objFromFixnum
/-- `(fx- x y)`, /repo/0.sf:442. -/
def fxSub (a b : Obj) : Option Obj := (cint (val a - val b)).map objFromFixnum
/-- `(fx- x)`, /repo/0.sf:441. -/
def fxNeg (a : Obj) : Option Obj := (cint (-val a)).map objFromFixnum
/-- `(fx* x y)`, /repo/0.sf:449. -/
def fxMul (a b : Obj) : Option Obj := (cint (val a * val b)).map objFromFixnum
/-- `(fx/ x y)`, /repo/0.sf:454: C99 `/` truncates; division by zero is undefined. -/
def fxQuo (a b : Obj) : Option Obj :=
  if val b = 0 then none else (cint ((val a).tdiv (val b))).map objFromFixnum
/-- `(fx% x y)`, /repo/0.sf:458. -/
def fxRem (a b : Obj) : Option Obj :=
  if val b = 0 then none else (cint ((val a).tmod (val b))).map objFromFixnum
/-- `fxlogand`, `fxlogor`, `fxlogxor`, /repo/0.sf:464, 471, 478: C `int` bit operations. -/
def fxLogand (a b : Obj) : Obj := objFromFixnum (fixnumFromObj a &&& fixnumFromObj b)
@[inherit_doc fxLogand] def fxLogor (a b : Obj) : Obj := objFromFixnum (fixnumFromObj a ||| fixnumFromObj b)
@[inherit_doc fxLogand] def fxLogxor (a b : Obj) : Obj := objFromFixnum (fixnumFromObj a ^^^ fixnumFromObj b)
/-- `fxsll`, /repo/0.sf:487: `int << int`, C99 6.5.7: undefined for counts outside 0..31, negative
left operand, or a result that does not fit. -/
def fxSll (a b : Obj) : Option Obj :=
  if 0 ≤ val b ∧ val b < 32 ∧ 0 ≤ val a then (cint (val a * 2 ^ (val b).toNat)).map objFromFixnum
  else none
/-- `fxsrl`, /repo/0.sf:491: `int >> int` (arithmetic shift). -/
def fxSrl (a b : Obj) : Option Obj :=
  if 0 ≤ val b ∧ val b < 32 then (cint (val a / 2 ^ (val b).toNat)).map objFromFixnum else none
/-- Comparisons, /repo/0.sf:495-515 (binary cases), and sign tests 417-424. -/
def fxEq (a b : Obj) : Bool := val a = val b
@[inherit_doc fxEq] def fxLt (a b : Obj) : Bool := val a < val b
@[inherit_doc fxEq] def fxGt (a b : Obj) : Bool := val a > val b
@[inherit_doc fxEq] def fxLe (a b : Obj) : Bool := val a ≤ val b
@[inherit_doc fxEq] def fxGe (a b : Obj) : Bool := val a ≥ val b
/-- `fxeven?`/`fxodd?`, /repo/0.sf:426-430: C `%` truncates, so `%2` may be -1. -/
def fxEven (a : Obj) : Bool := (val a).tmod 2 == 0
@[inherit_doc fxEven] def fxOdd (a : Obj) : Bool := (val a).tmod 2 != 0
/-- `(fxmin x y)`, /repo/0.sf:520. -/
def fxMin (a b : Obj) : Obj := if fxLt a b then a else b
/-- `(fxmax x y)`, /repo/0.sf:525. -/
def fxMax (a b : Obj) : Obj := if fxGt a b then a else b

/-- `fxexpt`'s local loop `ex`, /repo/0.sf:532-538; `x`, `y` are the integer values; the literals
`0`, `1`, `2` are fixnums.  `none` is C undefined behaviour in a product.  `fuel` makes the loop
structurally recursive; the theorems show that 2*|y|+1 is always enough.  Each `fx*`
re-boxes, i.e. reduces modulo 2^24 (`Int.bmod`). -/
def fxexptLoop (x : Int) : Nat → Int → Option Int
  | 0, _ => none
  | fuel+1, y =>
    if y = 0 then some 1
    else if x = 0 then some 0
    else if y < 0 then some 0
    else if y = 1 then some x
    else if y.tmod 2 ≠ 0 then
      match fxexptLoop x fuel (y - 1) with
      | none => none
      | some r => (cint (x * r)).map fun v => v.toInt.bmod (2^24)
    else
      match fxexptLoop x fuel (y.tdiv 2) with
      | none => none
      | some z => (cint (z * z)).map fun v => v.toInt.bmod (2^24)

/-- `(fxexpt x y)`, /repo/0.sf:531. -/
def fxexpt (x y : Int) : Option Int := fxexptLoop x (2 * y.natAbs + 1) y

/-! ### LibL -/

/-- /repo/lib/libl.sf:460-461. -/
notation "FIXNUM_MIN" => (-536870912 : Int)
/-- /repo/lib/libl.sf:461. -/
notation "FIXNUM_MAX" => (536870911 : Int)

/-- A fixnum value of LibL. -/
abbrev isFx (z : Int) : Prop := FIXNUM_MIN ≤ z ∧ z ≤ FIXNUM_MAX

/-- C `long` range; a `long` expression is defined only inside it. -/
abbrev isLong (z : Int) : Prop := -9223372036854775808 ≤ z ∧ z ≤ 9223372036854775807
/-- What can go wrong in C: undefined behaviour, or a failing `assert`. -/
inductive Fault | ub | abort
deriving DecidableEq, Repr
/-- Outcome of a C computation. -/
abbrev C (α : Type) := Except Fault α
/-- A C `long` expression: undefined unless the value fits. -/
def clong (z : Int) : C Int := if isLong z then .ok z else .error .ub
/-- `assert(c)`. -/
def cassert (c : Prop) [Decidable c] (k : C α) : C α := if c then k else .error .abort

/-- checking `fxneg`, libl.sf:516-519. -/
def lfxneg (x : Int) : C Int := cassert (x ≠ FIXNUM_MIN) (clong (-x))
/-- checking `fxabs`, libl.sf:520-523. -/
def lfxabs (x : Int) : C Int := cassert (x ≠ FIXNUM_MIN) (clong (if x < 0 then -x else x))
/-- checking `fxadd`, libl.sf:524-528. -/
def lfxadd (x y : Int) : C Int :=
  (clong (x + y)).bind fun z => cassert (z ≥ FIXNUM_MIN ∧ z ≤ FIXNUM_MAX) (pure z)
/-- checking `fxsub`, libl.sf:529-533. -/
def lfxsub (x y : Int) : C Int :=
  (clong (x - y)).bind fun z => cassert (z ≥ FIXNUM_MIN ∧ z ≤ FIXNUM_MAX) (pure z)
/-- checking `fxmul`, libl.sf:534-538.  Simplification: the range test is done there in `double`; here on
integers (for 30-bit operands the rounded product compares the same way as the exact one, because the
bounds are exactly representable and rounding is monotone). -/
def lfxmul (x y : Int) : C Int :=
  cassert (x * y ≥ FIXNUM_MIN ∧ x * y ≤ FIXNUM_MAX) (clong (x * y))
/-- C `/` on `long`: truncating, undefined for 0 and on overflow. -/
def cdiv (x y : Int) : C Int := if y = 0 then .error .ub else clong (x.tdiv y)
/-- C `%` on `long`. -/
def crem (x y : Int) : C Int := if y = 0 then .error .ub else clong (x.tmod y)
/-- `fxquo`, libl.sf:546-549 (checking) and 473 (NDEBUG, without assertions). -/
def lfxquo (x y : Int) : C Int :=
  cassert (y ≠ 0) (cassert (x ≠ FIXNUM_MIN ∨ y ≠ -1) (cdiv x y))
/-- `fxrem`, libl.sf:550-553. -/
def lfxrem (x y : Int) : C Int := cassert (y ≠ 0) (crem x y)
/-- `fxmqu`, libl.sf:555-559 (and 477-479). -/
def lfxmqu (x y : Int) : C Int :=
  cassert (y ≠ 0) <| cassert (x ≠ FIXNUM_MIN ∨ y ≠ -1) <|
    (cdiv x y).bind fun q =>
      pure (if (x < 0 ∧ y > 0) ∨ (x > 0 ∧ y < 0) then q - 1 else q)
/-- `fxmlo`, libl.sf:560-563 (and 480-482). -/
def lfxmlo (x y : Int) : C Int :=
  cassert (y ≠ 0) <| (crem x y).bind fun r =>
    pure (if (r < 0 ∧ y > 0) ∨ (r > 0 ∧ y < 0) then r + y else r)
/-- `fxdiv`, libl.sf:565-569 (and 484-486). -/
def lfxdiv (x y : Int) : C Int :=
  cassert (y ≠ 0) <| cassert (x ≠ FIXNUM_MIN ∨ y ≠ -1) <|
    (cdiv x y).bind fun q => (crem x y).bind fun r =>
      pure (if r < 0 then (if y > 0 then q - 1 else q + 1) else q)
/-- `fxmod`, libl.sf:570-573 (and 487-489). -/
def lfxmod (x y : Int) : C Int :=
  cassert (y ≠ 0) <| (crem x y).bind fun r =>
    pure (if r < 0 then (if y > 0 then r + y else r - y) else r)
/-- the `while (b) c = a%b, a = b, b = c;` loop of `fxgcd`, libl.sf:491, 576.
`a`, `b` are non-negative here, so C `%` is `Nat` `%`. -/
def gcdLoop (a b : Nat) : Nat :=
  if h : b = 0 then a else gcdLoop b (a % b)
termination_by b
decreasing_by exact Nat.mod_lt _ (Nat.pos_of_ne_zero h)
/-- checking `fxgcd`, libl.sf:574-579: `labs` is undefined only for LONG_MIN. -/
def lfxgcd (x y : Int) : C Int :=
  (clong (x.natAbs : Int)).bind fun _ => (clong (y.natAbs : Int)).bind fun _ =>
    let a : Int := gcdLoop x.natAbs y.natAbs
    cassert (a ≤ FIXNUM_MAX) (pure a)
/-- checking `fxasl`, libl.sf:580-583: `x << y` in `long` (C99: undefined for negative `x`). -/
def lfxasl (x y : Int) : C Int :=
  cassert (y ≥ 0 ∧ y < 30) (if 0 ≤ x then clong (x * 2 ^ y.toNat) else .error .ub)
/-- checking `fxasr`, libl.sf:584-588. -/
def lfxasr (x y : Int) : C Int :=
  cassert (y ≥ 0 ∧ y < 30) <| cassert (y = 0 ∨ x ≥ 0) <| pure (x / 2 ^ y.toNat)

/-- `fxpow`, libl.sf:600-605, checking variant.  Every product is a `long` product (`clong`).
The `goto retry` and the recursive call both decrease `y`; `fuel` is shown sufficient. -/
def lfxpowLoop : Nat → Int → Int → C Int
  | 0, _, _ => .error .ub  -- never reached
  | fuel+1, x, y =>
    if y = 0 then pure 1
    else if y = 1 then pure x
    else if y.tmod 2 = 1 then
      (lfxpowLoop fuel x (y - 1)).bind fun r => (clong (x * r)).bind fun x' =>
        cassert (FIXNUM_MIN ≤ x' ∧ x' ≤ FIXNUM_MAX) (pure x')
    else
      (clong (x * x)).bind fun x' =>
        cassert (FIXNUM_MIN ≤ x' ∧ x' ≤ FIXNUM_MAX) (lfxpowLoop fuel x' (y.tdiv 2))
@[inherit_doc lfxpowLoop] def lfxpow (x y : Int) : C Int :=
  cassert (y ≥ 0) (lfxpowLoop (2 * y.natAbs + 1) x y)

/-- `fxsqrt`, libl.sf:609-612; arguments are non-negative, so `>>`/`<<` are `/4`/`*2`. -/
def lfxsqrtLoop (x : Nat) : Nat :=
  if _h : x < 2 then x
  else
    let s := lfxsqrtLoop (x / 4) * 2
    let l := s + 1
    if l * l > x then s else l
termination_by x
@[inherit_doc lfxsqrtLoop] def lfxsqrt (x : Int) : C Int :=
  cassert (x ≥ 0) (pure (lfxsqrtLoop x.toNat))

end Verif.Fx
