import Verif.Beta.Model
import Verif.Core.Steps
import Verif.Core.Uniq
/-
C36: two programs that beta substitution changes.
-/
namespace Verif.Beta
open Verif.Core

/-- Meaning of primitives for the examples: `op n` without operands returns `n`, with three it combines the first and
the last; the world does not change. -/
def sampleSem : Sem Unit := ⟨fun n vs w =>
  match vs with
  | [] => some (n, w)
  | [.atom a] => some (a, w)
  | [.atom a, _, .atom c] => some (a + 10 * c, w)
  | _ => none⟩

/-- the order of evaluation of operands is left open: the results do not depend on it in the examples. -/
def opts : Opts := ⟨false, false, fun _ => true⟩

/-- effect `?` -/
def obs : Effect := ⟨false, true, false⟩
/-- effect `!` -/
def prod : Effect := ⟨false, false, true⟩

/-- `(letcc k (let ((d (withcc k 5))) 6))`: leaves with 5. -/
def leaves : Exp :=
  .letcc (lexId 0) (letExp [lexId 1] [.withcc (.var (lexId 0)) (.prim noEffect (.op 5) [])] (.prim noEffect (.op 6) []))

/-- `(let ((f (lambda (y z) (p y y z)))) (let ((h (lambda (q) (f (let ((t (o 2))) (let ((u (o t))) (let ((v (o u))) 2))) (f B 3))))) (h 1)))`,
where `o` observes and `B` has an effect. -/
def captures : Exp :=
  let f := lexId 0; let y := lexId 1; let z := lexId 2; let h := lexId 3; let q := lexId 4; let t := lexId 5; let u := lexId 6; let v := lexId 7
  letExp [f] [.lam [y, z] (.prim prod (.op 0) [.var y, .var y, .var z])]
    (letExp [h] [.lam [q] (.app (.var f) [letExp [t] [.prim obs (.op 9) []] (letExp [u] [.prim obs (.op 9) [.var t]] (letExp [v] [.prim obs (.op 9) [.var u]]
        (.prim noEffect (.op 2) []))),
      .app (.var f) [.prim prod (.op 7) [], .prim noEffect (.op 3) []]])]
      (.app (.var h) [.prim noEffect (.op 1) []]))

end Verif.Beta
