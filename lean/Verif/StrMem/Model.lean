import Verif.Cbuf.Model
import Verif.Symt.Model
/-
Strings of the large library as blocks of memory: lib/libl.sf:1500-1620 (allocation, constants, constructors), 1617-1624
(length and access), 1686-1740 (change of case, parts, concatenation, copies, filling, search), 2371-2375 (symbols and strings),
1819-1860 (bytevectors), 4591-4617 (strings and bytevectors).

A block has a field for the number of characters, and the bytes after it.  Bytes not yet written are `none`.  An access outside of the
block, the use of a byte that was never written, a failing assertion, an overflow of `int` and a call of `toupper` or
`tolower` with an argument that is neither an unsigned char nor EOF are `none`.  Memory is always sufficient (`cxm_cknull`
ends the program otherwise).  `char` is signed (as on the usual platforms), `int` has 32 bits, EOF is -1, and the
locale is "C".  Copying into the heap of the program and collections are C17.
-/
namespace Verif.StrMem

abbrev Mem := List (Option Nat)

/-- the data of a string, libl.sf:1509-1513: `*d` and `sdatachars(d)`; of a bytevector, libl.sf:1829-1832. -/
structure Data where
  len : Nat
  mem : Mem

/-- `malloc` of `n` bytes. -/
def malloc (n : Nat) : Mem := List.replicate n none

/-- a load. -/
def load (m : Mem) (i : Nat) : Option Nat := (m[i]?).join

/-- a store of the low eight bits. -/
def store (m : Mem) (i c : Nat) : Option Mem := if i < m.length then some (m.set i (some (c % 256))) else none

/-- `memset(m+i, c, n)`. -/
def memset (m : Mem) (i c : Nat) : Nat → Option Mem
  | 0 => some m
  | n + 1 => do memset (← store m i c) (i + 1) c n

/-- `memcpy(m+i, s+j, n)` between different blocks. -/
def memcpy (m : Mem) (i : Nat) (s : Mem) (j : Nat) : Nat → Option Mem
  | 0 => some m
  | n + 1 =>
    match s[j]? with
    | none => none
    | some b => if i < m.length then memcpy (m.set i b) (i + 1) s (j + 1) n else none

/-- `strlen`. -/
def strlen : Mem → Option Nat
  | [] => none
  | none :: _ => none
  | some b :: m => if b = 0 then some 0 else (strlen m).map (· + 1)

/-- `strcpy(m+i, s)`. -/
def strcpy (m : Mem) (i : Nat) : Mem → Option Mem
  | [] => none
  | none :: _ => none
  | some b :: s => do
    let m' ← store m i b
    if b = 0 then some m' else strcpy m' (i + 1) s

/-- `strchr(s, c)`: the index. The terminator counts. -/
def strchr (c : Nat) : Mem → Option (Option Nat)
  | [] => none
  | none :: _ => none
  | some b :: s => if b = c % 256 then some (some 0) else if b = 0 then some none else (strchr c s).map (Option.map (· + 1))

/-- `newstring`, libl.sf:1528-1532; the operand is a pointer to the first of the bytes. -/
def newstring (s : Mem) : Option Data := do
  let l ← strlen s
  some ⟨l, ← strcpy (malloc (l + 1)) 0 s⟩

/-- `newstringn`, libl.sf:1535-1539. -/
def newstringn (s : Mem) (n : Nat) : Option Data := do
  let m ← memcpy (malloc (n + 1)) 0 s 0 n
  some ⟨n, ← store m n 0⟩

/-- `allocstring`, libl.sf:1542-1547. -/
def allocstring (n : Int) (c : Nat) : Option Data :=
  if 0 < n + 1 ∧ n + 1 < 2 ^ 31 then do
    let m ← memset (malloc (n.toNat + 1)) 0 c n.toNat
    some ⟨n.toNat, ← store m n.toNat 0⟩
  else none

/-- `substring`, libl.sf:1550-1557. -/
def substring (d : Data) (frm to : Int) : Option Data :=
  if 0 ≤ frm ∧ frm ≤ to ∧ to ≤ d.len then do
    let n := (to - frm).toNat
    let m ← memcpy (malloc (n + 1)) 0 d.mem frm.toNat n
    some ⟨n, ← store m n 0⟩
  else none

/-- `stringcat`, libl.sf:1560-1566. -/
def stringcat (d0 d1 : Data) : Option Data :=
  if d0.len + d1.len < 2 ^ 31 then do
    let n := d0.len + d1.len
    let m ← memcpy (malloc (n + 1)) 0 d0.mem 0 d0.len
    let m ← memcpy m d0.len d1.mem 0 d1.len
    some ⟨n, ← store m n 0⟩
  else none

/-- `dupstring`, libl.sf:1569-1573. -/
def dupstring (d : Data) : Option Data := do
  some ⟨d.len, ← memcpy (malloc (d.len + 1)) 0 d.mem 0 (d.len + 1)⟩

/-- the loop of `stringfill`, libl.sf:1578. -/
def fillLoop (m : Mem) (c i : Nat) : Nat → Option Mem
  | 0 => some m
  | n + 1 => do fillLoop (← store m i c) c (i + 1) n

/-- `stringfill`, libl.sf:1576-1579. -/
def stringfill (d : Data) (c : Nat) : Option Data := do
  some { d with mem := ← fillLoop d.mem c 0 d.len }

/-- the stores of `string`, libl.sf:1611-1615. -/
def putAll (m : Mem) (i : Nat) : List Nat → Option Mem
  | [] => some m
  | c :: cs => do putAll (← store m i c) (i + 1) cs

/-- `(string c ...)`, libl.sf:1607-1616. -/
def stringOf (cs : List Nat) : Option Data := do
  let d ← allocstring cs.length 32
  some { d with mem := ← putAll d.mem 0 cs }

/-- `string-length`, libl.sf:1617-1618. -/
def stringLength (d : Data) : Nat := d.len

/-- `string-ref`, libl.sf:1620-1621, with the assertion of `stringref` (1515-1519). -/
def stringRef (d : Data) (k : Int) : Option Nat := if 0 ≤ k ∧ k < d.len then load d.mem k.toNat else none

/-- `string-set!`, libl.sf:1623-1624. -/
def stringSet (d : Data) (k : Int) (c : Nat) : Option Data :=
  if 0 ≤ k ∧ k < d.len then (store d.mem k.toNat c).map fun m => { d with mem := m } else none

/-- a byte as the argument of a function of `<ctype.h>`: `*s` is a signed character. -/
def ctype (f : Nat → Nat) (b : Nat) : Option Nat :=
  if b < 128 then some (f b)
  else if b = 255 then some 255 /- EOF -/
  else none

/-- `toupper` in the "C" locale. -/
def toupper (b : Nat) : Nat := if 97 ≤ b ∧ b ≤ 122 then b - 32 else b

/-- `tolower` in the "C" locale. -/
def tolower (b : Nat) : Nat := if 65 ≤ b ∧ b ≤ 90 then b + 32 else b

/-- the loop `for (s = sdatachars(d); *s; ++s) *s = f(*s);`, libl.sf:1689, 1695. -/
def caseLoop (f : Nat → Nat) : Mem → Option Mem
  | [] => none
  | none :: _ => none
  | some b :: m => if b = 0 then some (some b :: m) else do
    let b' ← ctype f b
    some (some b' :: (← caseLoop f m))

/-- `string-upcase`, libl.sf:1686-1690. -/
def stringUpcase (d : Data) : Option Data := do
  let d' ← dupstring d
  some { d' with mem := ← caseLoop toupper d'.mem }

/-- `string-downcase`, libl.sf:1692-1696. -/
def stringDowncase (d : Data) : Option Data := do
  let d' ← dupstring d
  some { d' with mem := ← caseLoop tolower d'.mem }

/-- `string-position`, libl.sf:1738-1741; `none` inside stands for `#f`. -/
def stringPosition (c : Nat) (d : Data) : Option (Option Nat) := strchr c d.mem

/-- the string constant with the given bytes, libl.sf:1588-1596: an array of `char` with a terminator, copied at each evaluation. -/
def constant (cs : List Nat) : Option Data := newstring (cs.map some ++ [some 0])

/-! ### symbols -/

/-- `string->symbol`, libl.sf:2374-2375; the table is that of C09, for C strings. -/
def stringToSymbol (hash : List Nat → Nat) (t : Symt.Table (List Nat)) (d : Data) : Option (Symt.Table (List Nat) × Nat) := do
  Symt.intern hash t (← Cbuf.cstring d.mem)

/-- `symbol->string`, libl.sf:2371-2372; the name is a block made by `strcpy` (libl.sf:2260-2261). -/
def symbolToString (t : Symt.Table (List Nat)) (sym : Nat) : Option Data := do
  let name ← Symt.symbolname t sym
  newstring (name.map some ++ [some 0])

/-! ### strings and bytevectors -/

/-- `newbytevector`, libl.sf:1855-1858. -/
def newbytevector (s : Mem) (n : Nat) : Option Data := do some ⟨n, ← memcpy (malloc n) 0 s 0 n⟩

/-- `(utf8->string bv)`, libl.sf:4599-4601. -/
def utf8ToString (d : Data) : Option Data := newstringn d.mem d.len

/-- `(string->utf8 str)`, libl.sf:4613-4615. -/
def stringToUtf8 (d : Data) : Option Data := newbytevector d.mem d.len

/-- the loops of `write-subbytevector` (libl.sf:3301-3302) and `write-substring` (3199-3200) into a buffer, `n` times. -/
def writeLoop (d : Data) : Nat → Nat → Cbuf.Buf → Option Cbuf.Buf
  | _, 0, b => some b
  | i, n + 1, b => do
    let c ← if i < d.len then load d.mem i else none
    writeLoop d (i + 1) n (← Cbuf.cbputc b c)

/-- `subutf8->string`, libl.sf:4591-4595: the characters of the result. -/
def subUtf8ToString (d : Data) (start stop : Nat) : Option (List Nat) := do
  let b ← writeLoop d start (stop - start) Cbuf.newcb
  (Cbuf.getString b).map (·.2)

/-- `substring->utf8`, libl.sf:4605-4609: the bytes of the result. -/
def substringToUtf8 (d : Data) (start stop : Nat) : Option (List Nat) := do
  let b ← writeLoop d start (stop - start) Cbuf.newcb
  Cbuf.getBytes b

end Verif.StrMem
