import Verif.Reader.Lex
/-
From decimal literals to the text of C constants: the `%const` templates for decimals of /repo/0.sf:564-572; LibM and LibL have the same templates for the
data considered here (/repo/lib/libm.sf:861-868, /repo/lib/libl.sf:921-928).

The text is what stands after `flonum($live, `.  `none`: no template, so the literal falls through to the previous `%const`, which ends in an error of
the compiler.
-/
namespace Verif.DecLit
open Verif.Reader Verif.Width

/-- `(_ decimal e ms indigs frdigs es exdigs)`, 0.sf:569-571: type, representation, and the other five components of a datum. -/
def decText (d : SX) : Option (List Char) :=
  match d.nth 0, d.nth 1, d.nth 2, d.nth 3, d.nth 4, d.nth 5, d.nth 6 with
  | .sym ty, .sym rep, .sym ms, .str ip, .str fp, .sym es, .str ep =>
    if ty = cs!"decimal" ∧ rep = cs!"e" then some (ms ++ (ip ++ '.' :: (fp ++ 'e' :: (es ++ ep)))) else none
  | _, _, _, _, _, _, _ => none

end Verif.DecLit
