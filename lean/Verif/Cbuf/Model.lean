/-
String and bytevector output ports of LibL: lib/libl.sf:3042-3103 (`newcb`, `cbgrow`, `cbputc`, `cbdata`, get-output-string,
get-output-bytevector), 2960-2971 (`oportputc`, `oportputs`, `oportwrite`) and 1528-1532 (`newstring`).

A buffer is the list of its bytes (`none`: not yet written) together with the fill position.  Writing outside the
buffer, or reading a byte outside it or not yet written, is undefined behaviour: the result is `none`.  `size_t`
is unbounded.  A character is stored as `c % 256`.  Closed ports are not modelled.
-/
namespace Verif.Cbuf

structure Buf where
  buf : List (Option Nat)
  fill : Nat

/-- `newcb`, libl.sf:3045-3049 -/
def newcb : Buf := { buf := List.replicate 64 none, fill := 0 }

/-- `cbgrow`, libl.sf:3051-3057 -/
def cbgrow (b : Buf) (n : Nat) : Buf :=
  let oldsz := b.buf.length
  let newsz := oldsz * 2
  let newsz := if oldsz + n > newsz then newsz + n else newsz
  { b with buf := b.buf ++ List.replicate (newsz - oldsz) none }

/-- a store into the buffer -/
def put (b : Buf) (i c : Nat) : Option Buf :=
  if i < b.buf.length then some { b with buf := b.buf.set i (some (c % 256)) } else none

/-- `cbputc`, libl.sf:3058-3060 -/
def cbputc (b : Buf) (c : Nat) : Option Buf := do
  let b := if b.fill = b.buf.length then cbgrow b 1 else b
  let b ← put b b.fill c
  some { b with fill := b.fill + 1 }

/-- `oportwrite` / repeated `oportputc` -/
def cbwrite : Buf → List Nat → Option Buf
  | b, [] => some b
  | b, c :: cs => do cbwrite (← cbputc b c) cs

/-- `oportputs`: writes up to the terminating NUL of the C string (the list holds the bytes, followed by a NUL) -/
def cbputs : Buf → List Nat → Option Buf
  | b, [] => some b
  | b, c :: cs => if c = 0 then some b else do cbputs (← cbputc b c) cs

/-- `cbdata`, libl.sf:3065-3067 -/
def cbdata (b : Buf) : Option Buf :=
  let b := if b.fill = b.buf.length then cbgrow b 1 else b
  put b b.fill 0

/-- reading a C string -/
def cstring : List (Option Nat) → Option (List Nat)
  | [] => none
  | none :: _ => none
  | some c :: bs => if c = 0 then some [] else do some (c :: (← cstring bs))

/-- reading `n` bytes -/
def bytes : Nat → List (Option Nat) → Option (List Nat)
  | 0, _ => some []
  | _, [] => none
  | _, none :: _ => none
  | n + 1, some c :: bs => do some (c :: (← bytes n bs))

/-- get-output-string, libl.sf:3079-3085: the new buffer and the string -/
def getString (b : Buf) : Option (Buf × List Nat) := do
  let b ← cbdata b
  some (b, ← cstring b.buf)

/-- get-output-bytevector, libl.sf:3101-3107 -/
def getBytes (b : Buf) : Option (List Nat) := bytes b.fill b.buf

inductive Op
  | putc (c : Nat)
  | puts (s : List Nat)
  | write (s : List Nat)
  | getString
  | getBytes

/-- a history of operations; the result lists what the reads returned -/
def run : Buf → List Op → Option (List (List Nat))
  | _, [] => some []
  | b, .putc c :: os => do run (← cbputc b c) os
  | b, .puts s :: os => do run (← cbputs b s) os
  | b, .write s :: os => do run (← cbwrite b s) os
  | b, .getString :: os => do
    let (b', s) ← getString b
    some (s :: (← run b' os))
  | b, .getBytes :: os => do
    let s ← getBytes b
    some (s :: (← run b os))

end Verif.Cbuf
