/-
Arity annotations of interpreted procedures (int/ints.sf:1016-1018, 1253-1258, 1783-1786; the same text is in
int/intl.sf:1676-1678).
-/
namespace Verif.Arity

/-- A result stored as a fixnum: two's complement reduction to 24 bits, see `Verif.Imm`. -/
def fx (z : Int) : Int := z.bmod (2 ^ 24)

/-- `argc->annotation` (int/ints.sf:1016). -/
def argcAnn (c : Int) : Int := fx (fx (c * 1000) + c)
/-- `range-argc->annotation` (int/ints.sf:1017). -/
def rangeAnn (cmin cmax : Int) : Int := fx (fx (cmin * 1000) + cmax)
/-- `rest-argc->annotation` (int/ints.sf:1018); the argument counts the rest parameter. -/
def restAnn (c : Int) : Int := fx (fx (fx (c - 1) * 1000) + 999)

/-- Outcome of `argcheck` for non-special annotations. -/
inductive Res | apply | badArgc | special
deriving DecidableEq

/-- The count test of `argcheck` (int/ints.sf:1256-1259); C `/` and `%` truncate.  Negative annotations
select the argument checks of built-ins, which are not modelled (`special`). -/
def argcheck (ann ac : Int) : Res :=
  if ann ≥ 0 then
    if ann.tdiv 1000 ≤ ac ∧ ac ≤ ann.tmod 1000 then .apply else .badArgc
  else .special

/-- `annotated-procedure-argc-ok?` (int/ints.sf:1783-1786). -/
def argcOk (ann ac : Int) : Bool := ann.tdiv 1000 ≤ ac && ac ≤ ann.tmod 1000

end Verif.Arity
