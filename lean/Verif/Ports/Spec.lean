import Verif.Ports.Model

/-
Specification for C71: an input port is the list of the bytes still to be read.
-/
namespace Verif.Ports.Spec

/-- the first byte. -/
def first (f : Nat → Res) : List Nat → Res
  | [] => .eof
  | b :: _ => f b

/-- a block of at most `k` bytes. -/
def block (f : List Nat → Res) (k : Nat) (l : List Nat) : Res := if k ≠ 0 ∧ l = [] then .eof else f (l.take k)

/-- a line ends at a line feed, a carriage return, or both in this order (R7RS, 6.13.2). -/
def isEol (b : Nat) : Bool := b == 10 || b == 13

/-- what follows the end of a line. -/
def afterEol : List Nat → List Nat
  | 13 :: 10 :: l => l
  | _ :: l => l
  | [] => []

def line (l : List Nat) : Res := if l = [] then .eof else .str (l.takeWhile (!isEol ·))

def afterLine (l : List Nat) : List Nat := afterEol (l.dropWhile (!isEol ·))

/-- `s` with the elements from `i` on replaced by those of `l`. -/
def paste (s : List Nat) (i : Nat) (l : List Nat) : List Nat := s.take i ++ l ++ s.drop (i + l.length)

/-- the number of bytes read into positions `i` to `j`. -/
def count (i j : Nat) (l : List Nat) : Res := if i < j ∧ l = [] then .eof else .num (l.take (j - i)).length

def step (l : List Nat) : Op → List Res × List Nat
  | .readChar => ([first .char l], l.tail)
  | .peekChar => ([first .char l], l)
  | .readU8 => ([first .num l], l.tail)
  | .peekU8 => ([first .num l], l)
  | .readLine => ([line l], afterLine l)
  | .readSub k => ([block .str k l], l.drop k)
  | .readSubU8 k => ([block .bytes k l], l.drop k)
  | .readSub! s i j => ([count i j l, .str (paste s i (l.take (j - i)))], l.drop (j - i))
  | .readSubU8! s i j => ([count i j l, .bytes (paste s i (l.take (j - i)))], l.drop (j - i))
  -- nothing can be read from a closed port
  | .close => ([.void], [])

def run : List Nat → List Op → List Res
  | _, [] => []
  | l, o :: os => (step l o).1 ++ run (step l o).2 os

/-- arguments in range. -/
def InRange : Op → Prop
  | .readSub! s _ j => j ≤ s.length
  | .readSubU8! s _ j => j ≤ s.length
  | _ => True

/-- every carriage return is before a line feed. -/
def Crlf : List Nat → Prop
  | [] => True
  | 13 :: l => l.head? = some 10 ∧ Crlf l
  | _ :: l => Crlf l

/-- what goes wrong in the code is left out: in string ports, NUL and (if `char` is signed) bytes from 128; in lines, NUL and carriage returns alone. -/
def Clean (sgn : Bool) (src : Source) (l : List Nat) (os : List Op) : Prop :=
  (src = .string → ∀ b ∈ l, b ≠ 0 ∧ (sgn = true → b < 128)) ∧ (Op.readLine ∈ os → Crlf l ∧ ∀ b ∈ l, b ≠ 0)

end Verif.Ports.Spec
