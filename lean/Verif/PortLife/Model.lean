import Verif.Fx.Model
/-
Life of ports, /repo/lib/libl.sf:2778-3113, and what the collector does with them, /repo/6.sf:538-548.

A port is a native object: a tag, which is a pointer to a table of functions, and a pointer to data in memory of C (a `FILE`, or a structure with a
pointer to a buffer).  Modelled: which blocks of memory and which files are in use at each moment.  Not modelled: contents (see `Verif.Ports`,
`Verif.Cbuf`).  Addresses returned by `malloc`, `realloc` and `fopen` are chosen freely among those not in use, so that addresses that were given back may
come again.
-/
namespace Verif.PortLife
open Verif.Fx (Fault C)

abbrev Addr := Nat

/-- Tags, libl.sf:2795-2798, 2946-2949. -/
inductive Tag | closed | file | str | bv
deriving DecidableEq

/-- A port: input or output, tag, pointer. -/
structure Port where
  out : Bool
  tag : Tag
  data : Addr

/-- Memory of C: blocks in use, files in use, and the contents of the field `base` (libl.sf:2882, 2909) or `buf` (3041) of structures; `none` is NULL. -/
structure Mem where
  live : Addr → Bool
  files : Addr → Bool
  fld : Addr → Option Addr

/-- change of a function. -/
def upd {α : Type} (f : Addr → α) (a : Addr) (v : α) : Addr → α := fun x => if x = a then v else f x

/-- `free`: undefined for a block not in use. -/
def free (m : Mem) : Option Addr → C Mem
  | none => .ok m
  | some a => if m.live a then .ok { m with live := upd m.live a false } else .error .ub
/-- access to a block. -/
def access (m : Mem) (a : Addr) : C Unit := if m.live a then .ok () else .error .ub
/-- reading of the field. -/
def load (m : Mem) (a : Addr) : C (Option Addr) := if m.live a then .ok (m.fld a) else .error .ub
/-- writing of the field. -/
def store (m : Mem) (a : Addr) (v : Option Addr) : C Mem := if m.live a then .ok { m with fld := upd m.fld a v } else .error .ub
/-- `malloc`, which returned `a`. -/
def malloc (m : Mem) (a : Addr) : Mem := { m with live := upd m.live a true }
/-- `fclose`: undefined for a file not in use. -/
def fclose (m : Mem) (a : Addr) : C Mem := if m.files a then .ok { m with files := upd m.files a false } else .error .ub
/-- access to a file. -/
def faccess (m : Mem) (a : Addr) : C Unit := if m.files a then .ok () else .error .ub

/-- `sifree`, libl.sf:2887-2888, and `bvifree`, 2914-2915. -/
def siFree (m : Mem) (fp : Addr) : C Mem := do
  let b ← load m fp
  let m ← free m b
  free m (some fp)
/-- `siclose`, libl.sf:2889-2890, and `bviclose`, 2916-2918. -/
def siClose (m : Mem) (fp : Addr) : C Mem := do
  let b ← load m fp
  let m ← free m b
  store m fp none
/-- `freecb`, libl.sf:3048. -/
def cbFree (m : Mem) (fp : Addr) : C Mem := do
  let b ← load m fp
  let m ← free m b
  free m (some fp)
/-- `cbclose`, libl.sf:3060. -/
def cbClose (m : Mem) (fp : Addr) : C Mem := do
  let b ← load m fp
  let m ← free m b
  store m fp none

/-- `free` in the tables of functions: libl.sf:2831, 2852-2853 (`ffree` does nothing), 2895-2897, 2923-2925, 2983, 3004-3006, 3066-3068, 3087-3089. -/
def vtFree (m : Mem) (p : Port) : C Mem :=
  match p.tag with
  | .closed => .ok m
  | .file => .ok m
  | .str | .bv => if p.out then cbFree m p.data else siFree m p.data
/-- `close` in the tables of functions. -/
def vtClose (m : Mem) (p : Port) : C Mem :=
  match p.tag with
  | .closed => .ok m
  | .file => fclose m p.data
  | .str | .bv => if p.out then cbClose m p.data else siClose m p.data

/-- `close-input-port`, libl.sf:2840-2845, `close-output-port`, 2992-2997: memory afterwards, and the port. -/
def close (m : Mem) (p : Port) : C (Mem × Port) := do
  let m ← vtClose m p
  let m ← vtFree m p
  pure (m, { p with tag := .closed })

/-- reading of a character (`getch` in the tables, libl.sf:2833, 2856, 2891-2892, 2919-2920; `ungetch` touches the same block): `true` if the port is not closed. -/
def getch (m : Mem) (p : Port) : C Bool :=
  match p.tag with
  | .closed => .ok false
  | .file => do faccess m p.data; pure true
  | .str | .bv => do
    let b ← load m p.data
    match b with
    | none => pure true
    | some b => do access m b; pure true

/-- `cbgrow`, libl.sf:3049-3055: `realloc` returned `a`; the old block is given back. -/
def cbgrow (m : Mem) (fp : Addr) (a : Addr) : C Mem := do
  let b ← load m fp
  let m ← free m b
  store (malloc m a) fp (some a)

/-- the growth in `cbputc` and `cbdata`, if any. -/
def cbroom (m : Mem) (fp : Addr) : Option Addr → C Mem
  | some a => cbgrow m fp a
  | none => .ok m
/-- the byte that is stored. -/
def cbbyte (m : Mem) : Option Addr → C Mem
  | some b => do access m b; pure m
  | none => .error .ub
/-- `cbputc`, libl.sf:3056-3058; `cbdata`, 3063-3065: perhaps `cbgrow`, then a byte is stored. -/
def cbputc (m : Mem) (fp : Addr) (g : Option Addr) : C Mem := do
  let m ← cbroom m fp g
  let b ← load m fp
  cbbyte m b

/-- writing of a character (`putch` in the tables, libl.sf:2985, 3006), and `get-output-string`, `get-output-bytevector` (3076-3103; the latter stores no byte): memory, and `true` if the port is not closed. -/
def putch (m : Mem) (p : Port) (g : Option Addr) : C (Mem × Bool) :=
  match p.tag with
  | .closed => .ok (m, false)
  | .file => do faccess m p.data; pure (m, true)
  | .str | .bv => do let m ← cbputc m p.data g; pure (m, true)

/-- Memory and ports; the ports that are gone are `none`. -/
structure State where
  mem : Mem
  port : Nat → Option Port
  next : Nat

/-- What a program and the collector do. -/
inductive Op where
  /-- `open-input-file`, …, libl.sf:2869-2877, 3028-3036, and the ports of `stdin`, `stdout`, `stderr`, 2860, 3010, 3019; `fopen` returned `f`. -/
  | openFile (out : Bool) (f : Addr)
  /-- `open-input-string`, 2901-2904, `open-input-bytevector`, 2929-2933, `open-output-string`, 3072-3074, `open-output-bytevector`, 3093-3095;
  `malloc` returned `d` for the structure and `b` for the buffer. -/
  | openMem (out : Bool) (bytes : Bool) (d b : Addr)
  /-- reading from port `i`. -/
  | get (i : Nat)
  /-- writing to port `i`. -/
  | put (i : Nat) (g : Option Addr)
  /-- closing port `i`. -/
  | close (i : Nat)
  /-- the collector finds port `i` unreachable, `finalize`, 6.sf:538-548. -/
  | collect (i : Nat)

/-- One operation.  Ports of the wrong kind fail an assertion; ports that are gone cannot be named. -/
def step (s : State) : Op → C State
  | .openFile o f => .ok ⟨{ s.mem with files := upd s.mem.files f true }, upd s.port s.next (some ⟨o, .file, f⟩), s.next + 1⟩
  | .openMem o t d b => do
    let m ← store (malloc (malloc s.mem d) b) d (some b)
    pure ⟨m, upd s.port s.next (some ⟨o, if t then .bv else .str, d⟩), s.next + 1⟩
  | .get i =>
    match s.port i with
    | some p => if p.out then .error .abort else do let _ ← getch s.mem p; pure s
    | none => .error .abort
  | .put i g =>
    match s.port i with
    | some p => if p.out then do let r ← putch s.mem p g; pure { s with mem := r.1 } else .error .abort
    | none => .error .abort
  | .close i =>
    match s.port i with
    | some p => do let r ← close s.mem p; pure { s with mem := r.1, port := upd s.port i (some r.2) }
    | none => .error .abort
  | .collect i =>
    match s.port i with
    | some p => do let m ← vtFree s.mem p; pure { s with mem := m, port := upd s.port i none }
    | none => .error .abort

/-- Nothing in use. -/
def start : State := ⟨⟨fun _ => false, fun _ => false, fun _ => none⟩, fun _ => none, 0⟩

end Verif.PortLife
