import Verif.Str.Props
import Verif.Names.Props
/-
Loading of modules: /repo/c.sf:141-262 (parse-file), and the function `MODULE` of generated code, /repo/6.sf:489-503.

Simplifications.  A file is the list of its top-level forms after expansion; `none` is a file that cannot be opened.  In the file compiled the
forms `load`, `%include`, … are recognised before expansion (c.sf:236-262), so there they are those written in the file itself.  Names in `define`,
texts of other forms and the messages are left out.  The recursion over loaded files has fuel; `none` is an error or the fuel is used up.
-/
namespace Verif.Modules
open Verif.Str Verif.Names

abbrev File := List Char
abbrev Name := List Char

/-- top-level forms, c.sf:171-188, 236-262. -/
inductive Form
  /-- `(load "file")` -/
  | load (f : File)
  /-- `(define id exp)` -/
  | define (x : Nat)
  /-- `(%include …)` -/
  | incl (t : Nat)
  /-- `(%definition "text")` -/
  | defn (t : Nat)
  /-- `(%localdef "text")` -/
  | localdef (t : Nat)
  /-- `(%% …)` -/
  | spec (t : Nat)
  /-- expressions, assignments -/
  | other (t : Nat)
  deriving DecidableEq

/-- what `load` and `open` see. -/
abbrev Files := File → Option (List Form)

/-- `module-name`, c.sf:148-149. -/
def moduleName (f : File) : Name := cMangle (pathStripExtension (pathStripDirectory f)) "module_".toList

/-- the variables `module-visits` and `module-loads`, c.sf:150-151. -/
structure St where
  visits : List Name
  loads : List Name

/-- the loop over the forms of a loaded file, c.sf:164-188; `add` is `module-add-load!`, lists are in reverse order.  The third part of the result tells
whether there are definitions (`sdefs`). -/
def scan (add : File → St → Option (Option Name × List Nat × List Nat × St)) :
    List Form → List Nat → List Nat → Bool → St → Option (List Nat × List Nat × Bool × St)
  | [], incs, defs, sdefs, s => some (incs, defs, sdefs, s)
  | .load f :: forms, incs, defs, sdefs, s =>
    match add f s with
    | some (_, xincs, xdefs, s') => scan add forms (xincs ++ incs) (xdefs ++ defs) sdefs s'
    | none => none
  | .define _ :: forms, incs, defs, _, s => scan add forms incs defs true s
  | .incl t :: forms, incs, defs, sdefs, s => scan add forms (t :: incs) defs sdefs s
  | .defn t :: forms, incs, defs, sdefs, s => scan add forms incs (t :: defs) sdefs s
  | _ :: forms, incs, defs, sdefs, s => scan add forms incs defs sdefs s

/-- `module-add-load!`, c.sf:153-188. -/
def addLoad (fs : Files) : Nat → File → St → Option (Option Name × List Nat × List Nat × St)
  | 0, _, _ => none
  | n + 1, f, s =>
    if moduleName f ∈ s.visits then some (none, [], [], s)
    else
      match fs f with
      | none => none
      | some forms =>
        match scan (addLoad fs n) forms [] [] false { s with visits := moduleName f :: s.visits } with
        | none => none
        | some (incs, defs, sdefs, s') =>
          if sdefs then some (some (moduleName f), incs, defs, { s' with loads := moduleName f :: s'.loads })
          else some (none, incs, defs, s')

/-- the parts of a module that have to do with other modules, c.sf:206-229: `extern` declarations, the calls of `LOAD()` in their order, includes and
definitions. -/
structure Module where
  externs : List Name
  loads : List Name
  incs : List Nat
  defs : List Nat

/-- the loop over the forms of the file compiled, c.sf:190-262; the last argument but one tells whether there were other forms. -/
def scanMain (add : File → St → Option (Option Name × List Nat × List Nat × St)) :
    List Form → List Name → List Nat → List Nat → Bool → St → Option Module
  | [], ext, incs, defs, _, s => some ⟨ext.reverse, s.loads, incs.reverse, defs.reverse⟩
  | .incl t :: forms, ext, incs, defs, b, s => scanMain add forms ext (t :: incs) defs b s
  | .spec _ :: forms, ext, incs, defs, b, s => if b then none else scanMain add forms ext incs defs b s
  | .defn t :: forms, ext, incs, defs, b, s => scanMain add forms ext incs (t :: defs) b s
  | .localdef t :: forms, ext, incs, defs, b, s => scanMain add forms ext incs (t :: defs) b s
  | .load f :: forms, ext, incs, defs, b, s =>
    if b then none
    else
      match add f s with
      | some (name, xincs, xdefs, s') =>
        scanMain add forms (match name with | some n => n :: ext | none => ext) (xincs ++ incs) (xdefs ++ defs) b s'
      | none => none
  | .define _ :: forms, ext, incs, defs, _, s => scanMain add forms ext incs defs true s
  | .other _ :: forms, ext, incs, defs, _, s => scanMain add forms ext incs defs true s

/-- `parse-file`, c.sf:146-262. -/
def parseFile (fs : Files) (fuel : Nat) (f : File) : Option Module :=
  (fs f).bind (fun forms => scanMain (addLoad fs fuel) forms [] [] [] false ⟨[], []⟩)

/-- `LOAD()` of the modules that are linked together. -/
def link (fs : Files) (fuel : Nat) (files : List File) (n : Name) : Option (List Name) :=
  (files.find? (fun f => moduleName f == n)).bind (fun f => (parseFile fs fuel f).map (·.loads))

/-- modules whose `root.next` is set, and the modules whose code has run, in order. -/
structure Run where
  loaded : List Name
  log : List Name

/-- calls of functions, one after the other. -/
def calls (call : Name → Run → Option Run) : List Name → Run → Option Run
  | [], r => some r
  | n :: l, r => (call n r).bind (calls call l)

/-- the function `MODULE`, 6.sf:489-503, of the module `n`; `mods` are the calls of `LOAD()`. -/
def call (mods : Name → Option (List Name)) : Nat → Name → Run → Option Run
  | 0, _, _ => none
  | k + 1, n, r =>
    if n ∈ r.loaded then some r
    else
      match mods n with
      | none => none
      | some l => (calls (call mods k) l { r with loaded := n :: r.loaded }).map (fun r => { r with log := r.log ++ [n] })

/-- `main`, 6.sf:622: the modules whose code runs, in order, in the program made of the modules `files`, started at the module `f`. -/
def start (fs : Files) (fuel : Nat) (files : List File) (f : File) : Option (List Name) :=
  (call (link fs fuel files) fuel (moduleName f) ⟨[], []⟩).map (·.log)

end Verif.Modules
