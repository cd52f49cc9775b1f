import Verif.Modules.Model
/-
Specification for C67.
-/
namespace Verif.Modules

/-- the file `f` has the form `(load "g")`. -/
def Loads (fs : Files) (f g : File) : Prop := ∃ forms, fs f = some forms ∧ .load g ∈ forms

/-- `f` loads `g`, directly or not. -/
inductive Needs (fs : Files) : File → File → Prop
  | load {f g : File} : Loads fs f g → Needs fs f g
  | more {f g h : File} : Needs fs f g → Loads fs g h → Needs fs f h

/-- the file defines something. -/
def Defines (fs : Files) (f : File) : Prop := ∃ forms x, fs f = some forms ∧ .define x ∈ forms

/-- no `load` after definitions and expressions, and no `%%`. -/
def HeadFirst : List Form → Prop
  | [] => True
  | .define _ :: l => (∀ f, .load f ∉ l) ∧ (∀ t, .spec t ∉ l)
  | .other _ :: l => (∀ f, .load f ∉ l) ∧ (∀ t, .spec t ∉ l)
  | _ :: l => HeadFirst l

/-- `files` is a complete set of modules: all can be read, loads are in the set, the forms are in the right order, and the names of modules are different. -/
structure Project (fs : Files) (files : List File) : Prop where
  read : ∀ f ∈ files, ∃ forms, fs f = some forms ∧ HeadFirst forms
  closed : ∀ f ∈ files, ∀ g : File, Loads fs f g → g ∈ files
  names : ∀ f ∈ files, ∀ g ∈ files, moduleName f = moduleName g → f = g

/-- forms with the texts of loaded files in the place of the first `load` of each; `v` are the files that are in the text already. -/
def spliceAll (text : File → List File → List Form × List File) : List Form → List File → List Form × List File
  | [], v => ([], v)
  | .load f :: l, v =>
    let a := if f ∈ v then ([], v) else text f v
    let b := spliceAll text l a.2
    (a.1 ++ b.1, b.2)
  | x :: l, v =>
    let b := spliceAll text l v
    (x :: b.1, b.2)

/-- the text of a loaded file, without its local definitions. -/
def splice (fs : Files) : Nat → File → List File → List Form × List File
  | 0, _, v => ([], v)
  | n + 1, f, v => spliceAll (splice fs n) (((fs f).getD []).filter (fun x => match x with | .localdef _ => false | _ => true)) (f :: v)

/-- includes and definitions of a text. -/
def inclOf : Form → Option Nat
  | .incl t => some t
  | _ => none
def defnOf : Form → Option Nat
  | .defn t => some t
  | .localdef t => some t
  | _ => none

/-- `f` or what it loads. -/
def From (fs : Files) (f g : File) : Prop := f = g ∨ Needs fs f g

end Verif.Modules
