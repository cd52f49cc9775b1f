import Verif.NumText.Model
import Verif.Num.Props
/-
Specification: the grammar of numbers of R7RS 7.1.1 without fractions and complex numbers, and what a text
denotes.  Used of the model: the type of results and the operations of C on doubles (`Fl`), the tests for
digits and the value of a row of digits.
-/
namespace Verif.NumText.Spec
open Verif.Num (isDig value)
open Verif.NumText (Fl Res)

/-- An optional sign. -/
def Sign (sg : List Char) : Prop := sg = [] ∨ sg = ['+'] ∨ sg = ['-']

/-- One or more digits. -/
def Digits (r : Nat) (ds : List Char) : Prop := ds ≠ [] ∧ ∀ c ∈ ds, isDig r c = true

/-- An integer: optional sign and digits. -/
def IntNum (r : Nat) (s : List Char) (n : Int) : Prop :=
  ∃ sg ds, s = sg ++ ds ∧ Sign sg ∧ Digits r ds ∧
    n = (if sg = ['-'] then -(value r ds : Int) else value r ds)

/-- Digits with or without a point. -/
def Mantissa (m : List Char) : Prop :=
  Digits 10 m ∨ ∃ a b, m = a ++ '.' :: b ∧ (a ≠ [] ∨ b ≠ []) ∧ (∀ c ∈ a, isDig 10 c = true) ∧
    ∀ c ∈ b, isDig 10 c = true

/-- An optional exponent. -/
def Exponent (x : List Char) : Prop :=
  x = [] ∨ ∃ e sg ds, x = e :: (sg ++ ds) ∧ (e = 'e' ∨ e = 'E') ∧ Sign sg ∧ Digits 10 ds

/-- A decimal. -/
def Decimal (s : List Char) : Prop :=
  ∃ sg m x, s = sg ++ (m ++ x) ∧ Sign sg ∧ Mantissa m ∧ Exponent x

/-- A decimal with a point or an exponent. -/
def DecNum (s : List Char) : Prop := Decimal s ∧ ∃ c ∈ s, c = '.' ∨ c = 'e' ∨ c = 'E'

/-- `±inf.0` and `±nan.0`, in letters of any case. -/
def Special {D : Type} (F : Fl D) (s : List Char) (d : D) : Prop :=
  ∃ c t, s = c :: t ∧ (c = '+' ∨ c = '-') ∧
    ((t.map Char.toLower = ['i','n','f','.','0'] ∧ d = F.inf (c = '-')) ∨
     (t.map Char.toLower = ['n','a','n','.','0'] ∧ d = F.nan))

/-- Radix part of a prefix. -/
def RadixPart (t : List Char) (r r' : Nat) : Prop :=
  (t = [] ∧ r' = r) ∨ ∃ c, t = ['#', c] ∧
    (((c = 'b' ∨ c = 'B') ∧ r' = 2) ∨ ((c = 'o' ∨ c = 'O') ∧ r' = 8) ∨
     ((c = 'd' ∨ c = 'D') ∧ r' = 10) ∨ ((c = 'x' ∨ c = 'X') ∧ r' = 16))

/-- Exactness asked for. -/
inductive Ex where
  | unsaid
  | exact
  | inexact

/-- Exactness part of a prefix. -/
def ExPart (t : List Char) (ex : Ex) : Prop :=
  (t = [] ∧ ex = .unsaid) ∨ ∃ c, t = ['#', c] ∧
    (((c = 'e' ∨ c = 'E') ∧ ex = .exact) ∨ ((c = 'i' ∨ c = 'I') ∧ ex = .inexact))

/-- A prefix: the two parts in one or the other order. -/
def Prefix (t : List Char) (r r' : Nat) (ex : Ex) : Prop :=
  ∃ a b, RadixPart a r r' ∧ ExPart b ex ∧ (t = a ++ b ∨ t = b ++ a)

/-- Range of fixnums. -/
def Fixnum (n : Int) : Prop := -2 ^ 29 ≤ n ∧ n < 2 ^ 29

/-- Range of the C type long. -/
def Long (n : Int) : Prop := -2 ^ 63 ≤ n ∧ n < 2 ^ 63

/-- What a text without prefix denotes in radix `r` if the exactness `ex` is asked for.  Exact numbers are
fixnums; an integer outside of long can only be read as inexact, and in radix ten only; the value of a decimal is
that of strtod. -/
inductive Denotes {D : Type} (F : Fl D) : Nat → Ex → List Char → Res D → Prop where
  | int {r ex s n} : IntNum r s n → Fixnum n → ex ≠ .inexact → Denotes F r ex s (.fx n)
  | intInexact {r s n} : IntNum r s n → Long n → Denotes F r .inexact s (.fl (F.ofInt n))
  | bigInexact {s n d} : IntNum 10 s n → ¬ Long n → F.val s = some d → Denotes F 10 .inexact s (.fl d)
  | dec {ex s d} : (DecNum s ∧ F.val s = some d) ∨ Special F s d → ex ≠ .exact → Denotes F 10 ex s (.fl d)
  | decExact {s d n} : (DecNum s ∧ F.val s = some d) ∨ Special F s d → F.toLong d = some n → Fixnum n →
      F.eq (F.ofInt n) d = true → Denotes F 10 .exact s (.fx n)
  | decUndefined {s d} : (DecNum s ∧ F.val s = some d) ∨ Special F s d → F.toLong d = none →
      Denotes F 10 .exact s .ub

/-- A text is read as a number. -/
def Reads {D : Type} (F : Fl D) (s : List Char) (r : Nat) (res : Res D) : Prop :=
  ∃ p b r' ex, s = p ++ b ∧ Prefix p r r' ex ∧ Denotes F r' ex b res

end Verif.NumText.Spec
