/-
Input ports: lib/libl.sf:2785-2935 (generic, closed, file, string and bytevector input ports) and lib/libl.sf:3136-3190, 3257-3290 (read-char,
peek-char, %read-line, read-substring!, read-substring, read-u8, peek-u8, read-subbytevector!, read-subbytevector).

Simplifications.  One port at a time.  The bytes of a FILE are a list and `ungetc` puts one back (the C library).  Whether the C type `char` is signed
is the parameter `sgn`.  Asserts are checks: `none` is a stop or undefined behaviour.  The output port of `%read-line` is the list of the bytes
written; its string ends at the first NUL (this is C23).  Storage is never freed while in use.
-/
namespace Verif.Ports

/-- ports.  In a string port `buf` are the characters with the NUL after them, in a bytevector port the bytes; `p` is an index into `buf`; the end `e`
of a bytevector port is that of `buf`. -/
inductive Port
  | closed
  | file (rest : List Nat)
  | string (buf : List Nat) (p : Nat)
  | bytes (buf : List Nat) (p : Nat)

abbrev EOF : Int := -1

/-- the value of a `char`. -/
def charVal (sgn : Bool) (b : Nat) : Int := if sgn && decide (128 ≤ b) then (b : Int) - 256 else b

/-- the methods `getch`: libl.sf:2826 (closed), `fgetc`, 2891-2892 (string), 2921-2922 (bytevector). -/
def getch (sgn : Bool) : Port → Option (Int × Port)
  | .closed => some (EOF, .closed)
  | .file [] => some (EOF, .file [])
  | .file (b :: bs) => some (b, .file bs)
  | .string buf p =>
    (buf[p]?).map (fun b => if charVal sgn b = 0 then (EOF, .string buf p) else (charVal sgn b, .string buf (p + 1)))
  | .bytes buf p =>
    if buf.length ≤ p then some (EOF, .bytes buf p) else (buf[p]?).map (fun b => ((b % 256 : Nat), .bytes buf (p + 1)))

/-- the methods `ungetch`: libl.sf:2827 (closed), `ungetc`, 2893-2894 (string), 2923-2924 (bytevector). -/
def ungetch (sgn : Bool) (c : Int) : Port → Option Port
  | .closed => some .closed
  | .file bs => some (.file (c.toNat :: bs))
  | .string buf p =>
    if p = 0 then none else if (buf[p - 1]?).map (charVal sgn) = some c then some (.string buf (p - 1)) else none
  | .bytes buf p =>
    if p = 0 then none else if (buf[p - 1]?).map Int.ofNat = some c then some (.bytes buf (p - 1)) else none

/-- `iportpeekc`, libl.sf:2813-2816. -/
def peekc (sgn : Bool) (p : Port) : Option (Int × Port) :=
  (getch sgn p).bind (fun r => if r.1 ≠ EOF then (ungetch sgn r.1 r.2).map (fun p => (r.1, p)) else some r)

/-- `close-input-port`, libl.sf:2832-2837. -/
def close (_ : Port) : Port := .closed

/-- Scheme objects: end of file, characters, numbers, strings, bytevectors. -/
inductive Res
  | eof
  | char (n : Nat)
  | num (n : Nat)
  | str (s : List Nat)
  | bytes (s : List Nat)
  | void
  deriving DecidableEq

/-- `obj_from_char`, libl.sf:1396, 291: 24 bits of payload. -/
def mkchar (c : Int) : Nat := (c % 16777216).toNat

/-- `c == EOF ? mkeof() : obj_from_char(c)`, libl.sf:3140. -/
def charRes (c : Int) : Res := if c = EOF then .eof else .char (mkchar c)

/-- `c == EOF ? mkeof() : obj_from_fixnum(c & 0xff)`, libl.sf:3253. -/
def u8Res (c : Int) : Res := if c = EOF then .eof else .num (c % 256).toNat

/-- `read-char`, libl.sf:3137-3141. -/
def readChar (sgn : Bool) (p : Port) : Option (Res × Port) := (getch sgn p).map (fun r => (charRes r.1, r.2))

/-- `peek-char`, libl.sf:3143-3147. -/
def peekChar (sgn : Bool) (p : Port) : Option (Res × Port) := (peekc sgn p).map (fun r => (charRes r.1, r.2))

/-- `read-u8`, libl.sf:3250-3254. -/
def readU8 (sgn : Bool) (p : Port) : Option (Res × Port) := (getch sgn p).map (fun r => (u8Res r.1, r.2))

/-- `peek-u8`, libl.sf:3256-3260. -/
def peekU8 (sgn : Bool) (p : Port) : Option (Res × Port) := (peekc sgn p).map (fun r => (u8Res r.1, r.2))

/-- `get-output-string`: up to the first NUL. -/
def getString (op : List Nat) : List Nat := op.takeWhile (· ≠ 0)

/-- the number of bytes a port still holds. -/
def size : Port → Nat
  | .closed => 0
  | .file bs => bs.length
  | .string buf p => buf.length - p
  | .bytes buf p => buf.length - p

/-- the loop of `%read-line`, libl.sf:3155-3164; `op` holds the bytes written so far.  The first argument bounds the number of rounds. -/
def lineLoop (sgn : Bool) : Nat → Bool → List Nat → Port → Option (Res × Port)
  | 0, _, _, _ => none
  | n + 1, nothing, op, p =>
    (readChar sgn p).bind (fun r =>
      match r.1 with
      | .eof => some (if nothing then .eof else .str (getString op), r.2)
      | .char 10 => some (.str (getString op), r.2)
      | .char 13 => lineLoop sgn n false op r.2
      | .char c => lineLoop sgn n false (op ++ [c % 256]) r.2
      | _ => none)

/-- `%read-line`, libl.sf:3155-3164. -/
def readLine (sgn : Bool) (p : Port) : Option (Res × Port) := lineLoop sgn (size p + 1) true [] p

/-- the loop of `read-substring!`, libl.sf:3172-3178: the result, the string after it, the port. -/
def subLoop (sgn : Bool) (start : Nat) : Nat → Nat → List Nat → Port → Option (Res × List Nat × Port)
  | 0, i, str, p => some (.num (i - start), str, p)
  | n + 1, i, str, p =>
    (readChar sgn p).bind (fun r =>
      match r.1 with
      | .eof => some (if i = start then .eof else .num (i - start), str, r.2)
      | .char c => if i < str.length then subLoop sgn start n (i + 1) (str.set i (c % 256)) r.2 else none
      | _ => none)

/-- `read-substring!`, libl.sf:3172-3178; the loop makes `end - start` rounds. -/
def readSub! (sgn : Bool) (str : List Nat) (start stop : Nat) (p : Port) : Option (Res × List Nat × Port) :=
  subLoop sgn start (stop - start) start str p

/-- `read-substring`, libl.sf:3180-3185 (`make-string` fills with question marks, libl.sf:1603). -/
def readSub (sgn : Bool) (k : Nat) (p : Port) : Option (Res × Port) :=
  (readSub! sgn (List.replicate k 63) 0 k p).bind (fun r =>
    match r.1 with
    | .eof => some (.eof, r.2.2)
    | .num n => some (.str (if n = k then r.2.1 else r.2.1.take n), r.2.2)
    | _ => none)

/-- the loop of `read-subbytevector!`, libl.sf:3268-3274. -/
def subU8Loop (sgn : Bool) (start : Nat) : Nat → Nat → List Nat → Port → Option (Res × List Nat × Port)
  | 0, i, vec, p => some (.num (i - start), vec, p)
  | n + 1, i, vec, p =>
    (readU8 sgn p).bind (fun r =>
      match r.1 with
      | .eof => some (if i = start then .eof else .num (i - start), vec, r.2)
      | .num c => if i < vec.length then subU8Loop sgn start n (i + 1) (vec.set i (c % 256)) r.2 else none
      | _ => none)

/-- `read-subbytevector!`, libl.sf:3268-3274. -/
def readSubU8! (sgn : Bool) (vec : List Nat) (start stop : Nat) (p : Port) : Option (Res × List Nat × Port) :=
  subU8Loop sgn start (stop - start) start vec p

/-- `read-subbytevector`, libl.sf:3276-3281.  The new bytevector is not filled (libl.sf:1909); zeros here, and no property depends on them. -/
def readSubU8 (sgn : Bool) (k : Nat) (p : Port) : Option (Res × Port) :=
  (readSubU8! sgn (List.replicate k 0) 0 k p).bind (fun r =>
    match r.1 with
    | .eof => some (.eof, r.2.2)
    | .num n => some (.bytes (if n = k then r.2.1 else r.2.1.take n), r.2.2)
    | _ => none)

/-- what a program does to a port. -/
inductive Op
  | readChar
  | peekChar
  | readU8
  | peekU8
  | readLine
  | readSub (k : Nat)
  | readSubU8 (k : Nat)
  /-- `(read-substring! str start end p)`; the result shown is the string after it, with the value of the call before it -/
  | readSub! (str : List Nat) (start stop : Nat)
  | readSubU8! (vec : List Nat) (start stop : Nat)
  | close
  deriving DecidableEq

def step (sgn : Bool) (p : Port) : Op → Option (List Res × Port)
  | .readChar => (readChar sgn p).map (fun r => ([r.1], r.2))
  | .peekChar => (peekChar sgn p).map (fun r => ([r.1], r.2))
  | .readU8 => (readU8 sgn p).map (fun r => ([r.1], r.2))
  | .peekU8 => (peekU8 sgn p).map (fun r => ([r.1], r.2))
  | .readLine => (readLine sgn p).map (fun r => ([r.1], r.2))
  | .readSub k => (readSub sgn k p).map (fun r => ([r.1], r.2))
  | .readSubU8 k => (readSubU8 sgn k p).map (fun r => ([r.1], r.2))
  | .readSub! s i j => (readSub! sgn s i j p).map (fun r => ([r.1, .str r.2.1], r.2.2))
  | .readSubU8! s i j => (readSubU8! sgn s i j p).map (fun r => ([r.1, .bytes r.2.1], r.2.2))
  | .close => some ([.void], close p)

/-- the results of a program. -/
def run (sgn : Bool) : Port → List Op → Option (List Res)
  | _, [] => some []
  | p, o :: os => (step sgn p o).bind (fun r => (run sgn r.2 os).map (r.1 ++ ·))

/-- sources of bytes. -/
inductive Source
  | file
  | string
  | bytevector
  deriving DecidableEq

/-- `open-input-file` (libl.sf:2868), `open-input-string` (2901-2904), `open-input-bytevector` (2931-2935). -/
def openPort (b : List Nat) : Source → Port
  | .file => .file b
  | .string => .string (b ++ [0]) 0
  | .bytevector => .bytes b 0

end Verif.Ports
