import Verif.Str.Model
/-
The driver of the compiler: `main` and the end of `compile-file`, /repo/c.sf lines 309-323 and 381-406; exit status, /repo/6.sf:630-632.

Files are a function from names to contents; names are taken as they are (two names of one file are two files).  The compiler proper, from `parse-file` to
`code-generate`, is a parameter: it reads files, and gives the text of the C module and whether it has a `main`, or stops with an error (`reset` is
`exit(1)`, /repo/0.sf:2078).  Every file can be written.  The messages of `maybe-log` and the listings of `-d` are left out, as is what `-W` warns about.
-/
namespace Verif.Driver

abbrev Name := List Char
abbrev Text := List Char
abbrev Files := Name → Option Text

/-- Messages on the standard output. -/
inductive Msg where
  | about
  | missing (n : Name)
  | compiling (n : Name)
  | writing (n : Name)
  | code (t : Text)
deriving DecidableEq

/-- How a run ends: the files, the standard output, the exit status. -/
structure End where
  files : Files
  out : List Msg
  status : Nat

/-- The compiler proper. -/
abbrev Compiler := Files → Name → Option (Text × Bool)

/-- `delete-file`, /repo/0.sf:1915-1918; its result is not used. -/
def delete (w : Files) (n : Name) : Files := fun m => if m = n then none else w m

/-- `with-output-to-file`, /repo/0.sf:1759-1765, of a text. -/
def write (w : Files) (n : Name) (t : Text) : Files := fun m => if m = n then some t else w m

/-- The name of the C file, c.sf:317. -/
def outName (n : Name) : Name := Str.pathStripExtension n ++ ['.', 'c']

/-- `compile-file` for a file, c.sf:315-323, after the compiler proper; the result is the name of the C file. -/
def compileFile (C : Compiler) (w : Files) (n : Name) : Option (Files × Name) :=
  match C w n with
  | none => none
  | some (t, _) => some (write (delete w (outName n)) (outName n) t, outName n)

/-- `res = (cxg_regs[2] != 0)`, /repo/6.sf:630: the status for a result of `main`. -/
def statusOf (truthy : Bool) : Nat := if truthy then 1 else 0

/-- `-` as an argument, c.sf:397 with 312-314: the C module is written to the standard output; the result is that of the last expression of `display-module`,
c.sf:362-368, the void object of `fputs` (not `#f`) if the module has a `main`; `v0` stands for the value of an `if` without the second branch. -/
def compileStdin (C : Compiler) (v0 : Bool) (w : Files) (out : List Msg) : End :=
  match C w ['-'] with
  | none => ⟨w, out, 1⟩
  | some (t, hasMain) => ⟨w, out ++ [.code t], statusOf (if hasMain then true else v0)⟩

/-- Option names, c.sf:393-397. -/
def optV : Name := ['-', 'v']
@[inherit_doc optV] def optW : Name := ['-', 'W']
@[inherit_doc optV] def optD : Name := ['-', 'd']
@[inherit_doc optV] def optHelp : Name := ['-', '-', 'h', 'e', 'l', 'p']
@[inherit_doc optV] def optStdin : Name := ['-']

/-- The loop of `main`, c.sf:390-406; `log` is `*showlog*`. -/
def mainLoop (C : Compiler) (v0 : Bool) (log : Bool) (w : Files) (out : List Msg) : List Name → End
  | [] => ⟨w, out, statusOf false⟩
  | a :: as =>
    if a = optV then mainLoop C v0 true w out as
    else if a = optW then mainLoop C v0 log w out as
    else if a = optD then mainLoop C v0 log w out as
    else if a = optHelp then ⟨w, out ++ [.about], statusOf false⟩
    else if a = optStdin then compileStdin C v0 w out
    else if (w a).isNone then ⟨w, out ++ [.missing a], statusOf true⟩
    else
      match compileFile C w a with
      | none => ⟨w, if log then out ++ [.compiling a] else out, 1⟩
      | some (w', o) =>
        mainLoop C v0 log w' (if log then out ++ [.compiling a, .writing o] else out) as

/-- `main`, c.sf:381-390, on the arguments after the name of the program. -/
def main (C : Compiler) (v0 : Bool) (w : Files) (args : List Name) : End :=
  if args = [] then ⟨w, [.about], statusOf true⟩ else mainLoop C v0 false w [] args

end Verif.Driver
