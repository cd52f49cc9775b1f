import Mathlib.Data.List.Infix
/-
String utilities of the compiler (6.sf:18-108, 322-331).

Strings are lists of characters.  `none` as the outer result means "string-ref or substring
called with an index outside the string", which is undefined behaviour in the C runtime; so a result
`some _` also says that no access is out of range.  Fixnum overflow of the indices is not modelled
(string lengths are far below the fixnum limit).  A Scheme result of #f is `some none` for functions that
return a string.
-/
namespace Verif.Str

/-- `string-ref` (0.sf string section): out-of-range access is `none`. -/
def ref (s : List Char) (i : Nat) : Option Char := s[i]?

/-- `substring` (0.sf): requires `a ≤ b ≤ length`. -/
def substring (s : List Char) (a b : Nat) : Option (List Char) :=
  if a ≤ b ∧ b ≤ s.length then some ((s.take b).drop a) else none

/-- The common inner loop `(let loop ([i 0]) (or (>= i ssl) (and (char=? … …) (loop (+ i 1)))))` with the two
accesses as functions of `i` (6.sf:21-24, 29-32, 37-40). -/
def matchLoop (f g : Nat → Option Char) (ssl i : Nat) : Option Bool :=
  if i ≥ ssl then some true
  else do
    let a ← f i
    let b ← g i
    if a = b then matchLoop f g ssl (i + 1) else some false
termination_by ssl - i

/-- `string-starts-with?` (6.sf:18-24). -/
def startsWith (str sstr : List Char) : Option Bool :=
  if sstr.length ≤ str.length then
    matchLoop (fun i => ref str i) (fun i => ref sstr i) sstr.length 0
  else some false

/-- `string-ends-with?` (6.sf:26-32). Natural subtraction never truncates because `i < ssl ≤ sl`. -/
def endsWith (str sstr : List Char) : Option Bool :=
  if sstr.length ≤ str.length then
    matchLoop (fun i => ref str (str.length - i - 1)) (fun i => ref sstr (sstr.length - i - 1)) sstr.length 0
  else some false

/-- `string-contains-at?` (6.sf:34-40). -/
def containsAt (str : List Char) (pos : Nat) (sstr : List Char) : Option Bool :=
  if (sstr.length : Int) ≤ (str.length : Int) - pos then
    matchLoop (fun i => ref str (pos + i)) (fun i => ref sstr i) sstr.length 0
  else some false

/-- loop of `string-contains?` (6.sf:45-48) -/
def containsLoop (str sstr : List Char) (pos : Nat) : Option Bool :=
  if _h : (sstr.length : Int) ≤ (str.length : Int) - pos then do
    if ← containsAt str pos sstr then some true else containsLoop str sstr (pos + 1)
  else some false
termination_by str.length + 1 - pos

/-- `string-contains?` (6.sf:42-48). -/
def contains (str sstr : List Char) : Option Bool :=
  if sstr.length ≤ str.length then containsLoop str sstr 0 else some false

/-- loop of `substring-before` (6.sf:53-57) -/
def beforeLoop (str sstr : List Char) (pos : Nat) : Option (Option (List Char)) :=
  if _h : (sstr.length : Int) ≤ (str.length : Int) - pos then do
    if ← containsAt str pos sstr then (substring str 0 pos).map some else beforeLoop str sstr (pos + 1)
  else some none
termination_by str.length + 1 - pos

/-- `substring-before` (6.sf:50-57). -/
def substringBefore (str sstr : List Char) : Option (Option (List Char)) :=
  if sstr.length ≤ str.length then beforeLoop str sstr 0 else some none

/-- loop of `substring-after` (6.sf:62-66) -/
def afterLoop (str sstr : List Char) (pos : Nat) : Option (Option (List Char)) :=
  if _h : (sstr.length : Int) ≤ (str.length : Int) - pos then do
    if ← containsAt str pos sstr then (substring str (pos + sstr.length) str.length).map some
    else afterLoop str sstr (pos + 1)
  else some none
termination_by str.length + 1 - pos

/-- `substring-after` (6.sf:59-66). -/
def substringAfter (str sstr : List Char) : Option (Option (List Char)) :=
  if sstr.length ≤ str.length then afterLoop str sstr 0 else some none

/-- `substring-before-suffix` (6.sf:68-71). -/
def beforeSuffix (str sstr : List Char) : Option (Option (List Char)) := do
  if ← endsWith str sstr then (substring str 0 (str.length - sstr.length)).map some else some none

/-- `substring-after-prefix` (6.sf:73-76). -/
def afterPrefix (str sstr : List Char) : Option (Option (List Char)) := do
  if ← startsWith str sstr then (substring str sstr.length str.length).map some else some none

/-- `string-member?` (6.sf:78-82). -/
def memberLoop (c : Char) (str : List Char) (pos : Nat) : Option Bool :=
  if _h : pos < str.length then do
    let d ← ref str pos
    if c = d then some true else memberLoop c str (1 + pos)
  else some false
termination_by str.length - pos

/-- `string-member?` (6.sf:78-82). -/
def stringMember (c : Char) (str : List Char) : Option Bool := memberLoop c str 0

/-- loop of `string-span` (6.sf:90-95) -/
def spanLoop (str cs : List Char) (pos : Nat) : Option Nat :=
  if _h : pos ≥ str.length then some pos
  else do
    let c ← ref str pos
    if ← stringMember c cs then spanLoop str cs (1 + pos) else some pos
termination_by str.length - pos

/-- `string-span` (6.sf:90-95). -/
def stringSpan (str cs : List Char) : Option Nat := spanLoop str cs 0

/-- `substring-after-span` (6.sf:104-108). -/
def afterSpan (str cs : List Char) : Option (List Char) := do
  let n ← stringSpan str cs
  if n = 0 then some str else substring str n str.length

/-- loop of `path-strip-directory` (6.sf:323-326) -/
def stripDirLoop : List Char → List Char → List Char
  | [], r => r
  | c :: l, r => if c = '\\' ∨ c = '/' ∨ c = ':' then r else stripDirLoop l (c :: r)

/-- `path-strip-directory` (6.sf:322-326). -/
def pathStripDirectory (filename : List Char) : List Char := stripDirLoop filename.reverse []

/-- `memv` on a list of characters (0.sf:2043-2066), returning the tail that starts with the element. -/
def memv (c : Char) : List Char → Option (List Char)
  | [] => none
  | d :: l => if c = d then some (d :: l) else memv c l

/-- `path-strip-extension` (6.sf:328-331). -/
def pathStripExtension (filename : List Char) : List Char :=
  match memv '.' filename.reverse with
  | some r => r.tail.reverse
  | none => filename

end Verif.Str
