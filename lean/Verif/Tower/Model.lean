import Verif.Tower.Float
import Verif.Fx.Model
/-
Arithmetic on numbers of both kinds, /repo/lib/libl.sf: helpers (456-651), flonums (941-1126), generic procedures (1128-1374), and the
procedures behind `max` and `min` (4677-4709).  Fixnums are C `long`s in the range of `Verif.Fx`; checking variants (no `NDEBUG`).  Operations
with more than two operands are folds, see `Verif.Nary`.
-/
namespace Verif.Tower
open Verif.Fx

/-- A number. -/
inductive Num (F : Ieee) where
  | fx (n : ℤ)
  | fl (t : F.T)

variable {F : Ieee}

/-- C comparisons of `double`s. -/
def flt (a b : F.T) : Bool := (F.v a).lt (F.v b)
@[inherit_doc flt] def feq (a b : F.T) : Bool := (F.v a).eq (F.v b)
@[inherit_doc flt] def fle (a b : F.T) : Bool := (F.v a).le (F.v b)

/-- `flisint`, libl.sf:595: `f > -HUGE_VAL && f < HUGE_VAL && f == floor(f)`. -/
def flisint (f : F.T) : Bool := (Ext.minf.lt (F.v f) && (F.v f).lt .pinf) && feq f (F.floor f)

/-- `(long)f`: undefined if the value does not fit. -/
def toLong (f : F.T) : C ℤ :=
  match F.v f with
  | .fin q => clong (trunc q)
  | _ => .error .ub

/-- `fxflo`, libl.sf:588-592. -/
def fxflo (f : F.T) : C ℤ := do
  let l ← toLong f
  cassert (feq (F.ofInt l) f = true) (cassert (l ≥ FIXNUM_MIN ∧ l ≤ FIXNUM_MAX) (pure l))

/-- `fxmul`, libl.sf:534-538, with the test in `double` as it is there. -/
def fxmulTest (F : Ieee) (x y : ℤ) : C ℤ :=
  let z := F.mul (F.ofInt x) (F.ofInt y)
  cassert ((fle (F.ofInt FIXNUM_MIN) z && fle z (F.ofInt FIXNUM_MAX)) = true) (clong (x * y))

/-- `fxifdv`, libl.sf:612-617, and `fxfl/`, 1121-1126. -/
def fxdivide (x y : ℤ) : C (Num F) :=
  cassert (y ≠ 0) <| cassert (x ≠ FIXNUM_MIN ∨ y ≠ -1) <| do
    let r ← crem x y
    if r = 0 then do let q ← cdiv x y; pure (.fx q)
    else pure (.fl (F.div (F.ofInt x) (F.ofInt y)))

/-- `y != 0.0 && flisint(x) && flisint(y)` -/
def flargs (x y : F.T) : Bool := (!feq y (F.ofInt 0) && flisint x) && flisint y

/-- `flquo`, libl.sf:619-624. -/
def flquo (x y : F.T) : C F.T := cassert (flargs x y = true) (pure (F.modf (F.div x y)))
/-- `flrem`, libl.sf:625-629. -/
def flrem (x y : F.T) : C F.T := cassert (flargs x y = true) (pure (F.fmod x y))
/-- `flmqu`, libl.sf:630-634. -/
def flmqu (x y : F.T) : C F.T := cassert (flargs x y = true) (pure (F.floor (F.div x y)))
/-- `flmlo`, libl.sf:635-639. -/
def flmlo (x y : F.T) : C F.T := cassert (flargs x y = true) (pure (F.sub x (F.mul y (F.floor (F.div x y)))))

/-- the loop of `flgcd`, libl.sf:644: `while (b > 0.0) c = fmod(a, b), a = b, b = c;` with a bound on the number of rounds. -/
def flgcdLoop : ℕ → F.T → F.T → Option F.T
  | 0, _, _ => none
  | n + 1, a, b => if flt (F.ofInt 0) b then flgcdLoop n b (F.fmod a b) else some a

/-- `flgcd`, libl.sf:640-646; `none`: not finished after `n` rounds. -/
def flgcd (n : ℕ) (x y : F.T) : C (Option F.T) :=
  cassert ((flisint (F.fabs x) && flisint (F.fabs y)) = true) (pure (flgcdLoop n (F.fabs x) (F.fabs y)))

/-- `flround`, libl.sf:647-652. -/
def flround (x : F.T) : F.T :=
  let f := F.floor x
  let c := F.ceil x
  let d := F.sub x f
  let u := F.sub c x
  if feq d u then if feq (F.fmod f (F.ofInt 2)) (F.ofInt 0) then f else c
  else if flt d u then f else c

/-- `real-binop`, libl.sf:1153-1163. -/
def binop {α : Type} (fxop : ℤ → ℤ → α) (flop : F.T → F.T → α) : Num F → Num F → α
  | .fx a, .fx b => fxop a b
  | .fx a, .fl b => flop (F.ofInt a) b
  | .fl a, .fx b => flop a (F.ofInt b)
  | .fl a, .fl b => flop a b

/-- `=`, libl.sf:1165-1169. -/
def numEq : Num F → Num F → Bool := binop (fun a b => decide (a = b)) feq
/-- `<`, libl.sf:1171-1175. -/
def numLt : Num F → Num F → Bool := binop (fun a b => decide (a < b)) flt
/-- `>`, libl.sf:1177-1181. -/
def numGt : Num F → Num F → Bool := binop (fun a b => decide (a > b)) (fun a b => flt b a)
/-- `<=`, libl.sf:1183-1187. -/
def numLe : Num F → Num F → Bool := binop (fun a b => decide (a ≤ b)) fle
/-- `>=`, libl.sf:1189-1193. -/
def numGe : Num F → Num F → Bool := binop (fun a b => decide (a ≥ b)) (fun a b => fle b a)

/-- a result of the operation on fixnums. -/
def fxr (c : C ℤ) : C (Num F) := do let n ← c; pure (.fx n)
/-- a result of the operation on flonums. -/
def flr (c : C F.T) : C (Num F) := do let t ← c; pure (.fl t)

/-- `+`, libl.sf:1237-1243. -/
def add : Num F → Num F → C (Num F) := binop (fun a b => fxr (lfxadd a b)) (fun a b => pure (.fl (F.add a b)))
/-- `*`, libl.sf:1245-1251. -/
def mul : Num F → Num F → C (Num F) := binop (fun a b => fxr (lfxmul a b)) (fun a b => pure (.fl (F.mul a b)))
/-- `-`, libl.sf:1253-1258. -/
def sub : Num F → Num F → C (Num F) := binop (fun a b => fxr (lfxsub a b)) (fun a b => pure (.fl (F.sub a b)))
/-- `/`, libl.sf:1260-1265. -/
def div : Num F → Num F → C (Num F) := binop fxdivide (fun a b => pure (.fl (F.div a b)))
/-- `-` with one operand, libl.sf:1255. -/
def neg : Num F → C (Num F)
  | .fx a => fxr (lfxneg a)
  | .fl a => pure (.fl (F.neg a))
/-- `abs`, libl.sf:1267-1268. -/
def abs : Num F → C (Num F)
  | .fx a => fxr (lfxabs a)
  | .fl a => pure (.fl (F.fabs a))

/-- `quotient`, libl.sf:1270-1271. -/
def quotient : Num F → Num F → C (Num F) := binop (fun a b => fxr (lfxquo a b)) (fun a b => flr (flquo a b))
/-- `remainder`, libl.sf:1273-1274. -/
def remainder : Num F → Num F → C (Num F) := binop (fun a b => fxr (lfxrem a b)) (fun a b => flr (flrem a b))
/-- `modulo`, libl.sf:1282-1283. -/
def modulo : Num F → Num F → C (Num F) := binop (fun a b => fxr (lfxmlo a b)) (fun a b => flr (flmlo a b))

/-- a result of `flgcd`. -/
def gcdr (c : C (Option F.T)) : C (Option (Num F)) := do let t ← c; pure (t.map .fl)
/-- `gcd` of two operands, libl.sf:1292. -/
def gcd2 (n : ℕ) : Num F → Num F → C (Option (Num F)) :=
  binop (fun a b => do let g ← lfxgcd a b; pure (some (.fx g))) (fun a b => gcdr (flgcd n a b))
/-- `gcd` of one operand, libl.sf:1291. -/
def gcd1 (x : Num F) : Num F := x

/-- `zero?`, `positive?`, `negative?`, libl.sf:1195-1202. -/
def isZero : Num F → Bool
  | .fx a => decide (a = 0)
  | .fl a => feq a (F.ofInt 0)
@[inherit_doc isZero] def isPos : Num F → Bool
  | .fx a => decide (a > 0)
  | .fl a => flt (F.ofInt 0) a
@[inherit_doc isZero] def isNeg : Num F → Bool
  | .fx a => decide (a < 0)
  | .fl a => flt a (F.ofInt 0)

/-- `lcm/2`, libl.sf:1296-1298, on fixnums. -/
def lcmfx (x y : ℤ) : C ℤ := do
  let g ← lfxgcd x y
  if g = 0 then pure g else do
    let a ← lfxabs x
    let q ← lfxquo a g
    let b ← lfxabs y
    lfxmul q b
/-- `lcm` of one operand, libl.sf:1303. -/
def lcm1 (x : Num F) : Num F := x

/-- `even?`, libl.sf:1204-1205, 997-998; `fxeven?` and `fxodd?`, libl.sf:796-800, look at the last bit. -/
def isEven : Num F → Bool
  | .fx a => decide (a % 2 = 0)
  | .fl a => flisint (F.div a (F.ofInt 2))
/-- `odd?`, libl.sf:1207-1208, 994-995. -/
def isOdd : Num F → Bool
  | .fx a => decide (a % 2 ≠ 0)
  | .fl a => flisint (F.div (F.add a (F.ofInt 1)) (F.ofInt 2))

/-- `nan?`, libl.sf:1210-1211, 1000-1003. -/
def isNan : Num F → Bool
  | .fx _ => false
  | .fl a => !feq a a
/-- `flinfinite?`, libl.sf:1005-1008. -/
def flInf (a : F.T) : Bool := (F.v a).le .minf || Ext.pinf.le (F.v a)
/-- `infinite?`, libl.sf:1213-1214. -/
def isInf : Num F → Bool
  | .fx _ => false
  | .fl a => flInf a
/-- `finite?`, libl.sf:1216-1217. -/
def isFinite : Num F → Bool
  | .fx _ => true
  | .fl a => !flInf a

/-- `integer?`, libl.sf:1135-1136. -/
def isInteger : Num F → Bool
  | .fx _ => true
  | .fl a => flisint a
/-- `rational?`, libl.sf:1140. -/
def isRational : Num F → Bool := isInteger
/-- `exact`, libl.sf:1146-1147. -/
def toExact : Num F → C (Num F)
  | .fx a => pure (.fx a)
  | .fl a => fxr (fxflo a)
/-- `inexact`, libl.sf:1148-1149. -/
def toInexact : Num F → F.T
  | .fx a => F.ofInt a
  | .fl a => a
/-- `exact?`, libl.sf:1144. -/
def isExact : Num F → Bool
  | .fx _ => true
  | .fl _ => false
/-- `numerator`, `denominator`, libl.sf:1311-1315. -/
def numerator (x : Num F) : Num F := x
@[inherit_doc numerator] def denominator (_ : Num F) : Num F := .fx 1

/-- `floor`, `ceiling`, `truncate`, `round`, libl.sf:1320-1330. -/
def numFloor : Num F → Num F
  | .fx a => .fx a
  | .fl a => .fl (F.floor a)
@[inherit_doc numFloor] def numCeiling : Num F → Num F
  | .fx a => .fx a
  | .fl a => .fl (F.ceil a)
@[inherit_doc numFloor] def numTruncate : Num F → Num F
  | .fx a => .fx a
  | .fl a => .fl (F.modf a)
@[inherit_doc numFloor] def numRound : Num F → Num F
  | .fx a => .fx a
  | .fl a => .fl (flround a)

/-- `(if (fl>? a b) a b)`. -/
def flmax (a b : F.T) : Num F := if flt b a then .fl a else .fl b
/-- `(if (fl<? a b) a b)`. -/
def flmin (a b : F.T) : Num F := if flt a b then .fl a else .fl b
/-- `%residual-max/2`, libl.sf:4691-4698. -/
def max2 : Num F → Num F → Num F := binop (fun a b => if a > b then .fx a else .fx b) flmax
/-- `%residual-min/2`, libl.sf:4701-4708. -/
def min2 : Num F → Num F → Num F := binop (fun a b => if a < b then .fx a else .fx b) flmin
/-- `%residual-max`, libl.sf:4677-4684, 4699. -/
def maxL (x : Num F) : List (Num F) → Num F
  | [] => x
  | y :: ys => maxL (max2 x y) ys
/-- `%residual-min`, libl.sf:4677-4684, 4709. -/
def minL (x : Num F) : List (Num F) → Num F
  | [] => x
  | y :: ys => minL (min2 x y) ys

/-- the test in `log` with two operands, libl.sf:1342: `(fx=? b 10)`; the object of a flonum is a pointer. -/
def logTest : Num F → C Bool
  | .fx b => pure (decide (b = 10))
  | .fl _ => .error .ub

end Verif.Tower
