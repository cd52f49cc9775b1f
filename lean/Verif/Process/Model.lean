import Verif.Wind.Model
import Verif.StrMem.Model
/-
The process interface of LibL: `exit`, `emergency-exit` and `command-line`, /repo/lib/libl.sf lines 4406-4432 (the same `argv->list` is
/repo/0.sf:2081-2093), and the end of `main`, /repo/6.sf:630-632.

Dynamic states are those of `Verif.Wind`, strings those of `Verif.StrMem`.
-/
namespace Verif.Process
open Verif.StrMem

/-- Arguments of `exit`, as far as `exit` tells them apart. -/
inductive Val where
  | bool (b : Bool)
  | fixnum (n : Int)
  | other
deriving DecidableEq

/-- `emergency-exit`, libl.sf:4406-4412: the argument of C `exit`. -/
def emergencyExit : List Val → Int
  | [] => 0
  | [v] => if v = .bool true then 0 else
    match v with
    | .fixnum n => n
    | _ => 1
  | _ => 1

variable {Thunk : Type}

/-- `exit`, libl.sf:4414-4418: thunks called so far, and the argument of C `exit`.  `exit-ds` is the dynamic state at the time LibL is loaded, state 0. -/
def exitProc (fuel : Nat) (s : Wind.State Thunk) (args : List Val) : Option (List Thunk × Int) := do
  let s' ← Wind.reroot fuel s 0
  some (s'.log, emergencyExit args)

/-- What a parent process sees of the argument of C `exit`: its low eight bits (POSIX `exit`, `WEXITSTATUS`). -/
def seen (n : Int) : Nat := (n % 256).toNat

/-- `res = (cxg_regs[2] != 0); return res;`, 6.sf:630-632: the result of `main`. -/
def mainStatus (v : Val) : Int := if v = .bool false then 0 else 1

/-- `argv-ref`, libl.sf:4420-4425.  `argv` is an array of pointers to texts that ends with a null pointer; outer `none`: undefined. -/
def argvRef (argv : List (Option Mem)) (i : Nat) : Option (Option Data) :=
  match argv[i]? with
  | none => none
  | some none => some none
  | some (some s) => (newstring s).map some

/-- The loop of `command-line`, libl.sf:4428-4432. -/
def commandLoop (argv : List (Option Mem)) : Nat → List Data → Nat → Option (List Data)
  | 0, _, _ => none
  | f + 1, r, i =>
    match argvRef argv i with
    | none => none
    | some none => some r.reverse
    | some (some d) => commandLoop argv f (d :: r) (i + 1)

/-- `command-line`, libl.sf:4427-4432. -/
def commandLine (argv : List (Option Mem)) : Option (List Data) := commandLoop argv (argv.length + 1) [] 0

end Verif.Process
