import Verif.Parse.Prog
import Verif.Parse.Built
/-
C61: the parser (3.sf:571-763) on programs of the core language.
-/
namespace Verif.Parse
open Verif.Core
open Verif.Expand (Var Out Host)

/-- **C61**.  A program of the core language whose variables are not `load`, `%include` or `%%` is accepted.  In the tree each local
variable has an id of its own, every occurrence of a variable is the id of the innermost binding or the one id of the global
variable, and every literal is computed once, before the program.  The binders are all different and the free ids are
global (`FixProg`, assumed by C35).  The references are the global variables of the program.
Missing: variables with the names `load`, `%include`, `%%`; see `c61_counterexample`. -/
theorem c61_program_partial (h : Nat → S) (hh : Atoms h) (pn : List Char → PrimName) (prog : List Out) (hS : ∀ o ∈ prog, TopShape h o) :
    ∃ e g cs k, parseProgram pn (renderAll h prog) = some (e, g.map (·.1), k) ∧ Program h pn prog e g cs ∧ Letrec.FixProg k e ∧
      (∀ s, s ∈ g.map (·.1) ↔ ∃ o ∈ prog, Refers [] o s) ∧ ∀ x, Free x e → x.isGlobal = true :=
  parse_ok hh hS

/-- **C61**, for one expression: the tree of an expression in the scope `Γ`, for any state of the parser. -/
theorem c61_expr_partial (h : Nat → S) (hh : Atoms h) (pn : List Char → PrimName) (n : Nat) (o : Out) (hn : (render h o).size ≤ n)
    (hS : Shape h o) (Γ : List (Var × Id)) (hΓ : ∀ v x, (v, x) ∈ Γ → Small v) (st : St) (hst : Inv h pn st) :
    ∃ e st', psexp pn n (env Γ) (render h o) st = some (e, st') ∧ Reads h pn st'.globals (qs st') Γ o e ∧
      (∀ x, Free x e → x ∈ Γ.map (·.2) ∨ x.isGlobal = true) ∧ Literals h pn st'.globals st'.consts.reverse := by
  obtain ⟨e, st', a1, a2, a3, a4⟩ := psexp_ok (pn := pn) hh n o Γ hn hS (fun p hp => hΓ p.1 p.2 hp) st hst
  refine ⟨e, st', a1, a3, fun x hx => (a4 x hx).imp_right fun hN => ?_, a2.inv.lits⟩
  have := hN.2
  simp [Id.isGlobal, this]

section
variable {pn : List Char → PrimName} {n : Nat} {e : List (Sym × Id)} {st : St}

/-- a keyword is not a variable -/
theorem keyword_none {k : Sym} (hk : k ∈ keywords) : psexp pn n e (.sym k) st = none := by
  cases n with
  | zero => rfl
  | succ n =>
    unfold psexp
    simp [sexpMatch, lst, list, y, isList1, isId, hk, prims]

theorem app_none {k : Sym} (hk : k ∈ keywords) (d : S) : mapP (psexp pn n e) (items (.pair (.sym k) d)) st = none := by
  simp [items, mapP, keyword_none hk]

theorem arg_none {k : Sym} (hk : k ∈ keywords) (d a : S) : mapP (psexp pn n e) (items (.pair a (.pair (.sym k) d))) st = none := by
  simp only [items, mapP, keyword_none hk]
  cases psexp pn n e a st <;> rfl

/-- **C61**: a keyword is refused as a variable: standing alone, as a formal of `lambda`, as the variable of `letcc`, `letrec` or `set!`. -/
theorem c61_keywords (pn : List Char → PrimName) (n : Nat) (e : List (Sym × Id)) (st : St) (k : Sym) (hk : k ∈ keywords) (b : S) :
    psexp pn n e (.sym k) st = none ∧ (∀ l r, psexp pn n e (lst [y "lambda", lst (l ++ .sym k :: r), b]) st = none) ∧
    psexp pn n e (lst [y "letcc", .sym k, b]) st = none ∧ psexp pn n e (lst [y "set!", .sym k, b]) st = none ∧
    ∀ l r a, psexp pn n e (lst [y "letrec", lst (l ++ lst [.sym k, a] :: r), b]) st = none := by
  have kl : ∀ k : String, k.toList ∈ ["lambda", "letcc", "letrec"].map String.toList → k.toList ∈ keywords := by
    intro k h
    generalize k.toList = k at h
    revert k; decide
  have hne : k ≠ ['<', 'i', 'd', '>'] := by rintro rfl; revert hk; decide
  cases n with
  | zero => exact ⟨rfl, fun _ _ => rfl, rfl, rfl, fun _ _ _ => rfl⟩
  | succ n =>
    refine ⟨keyword_none hk, fun l r => ?_, ?_, ?_, fun l r a => ?_⟩
    · have := app_none (pn := pn) (n := n) (e := e) (st := st) (kl "lambda" (by decide)) (lst [lst (l ++ .sym k :: r), b])
      unfold psexp
      simp [sexpMatch, lst, list, y, isList1, isId, prims, hk, hne, isList_list, items_list] at this ⊢
      simp [this]
    · have := app_none (pn := pn) (n := n) (e := e) (st := st) (kl "letcc" (by decide)) (lst [.sym k, b])
      unfold psexp
      simp [sexpMatch, lst, list, y, isList1, isId, prims, hk, hne] at this ⊢
      simp [this]
    · have := arg_none (pn := pn) (n := n) (e := e) (st := st) hk (lst [b]) (y "set!")
      unfold psexp
      simp [sexpMatch, lst, list, y, isList1, isId, prims, hk, hne] at this ⊢
      simp [this]
    · have := app_none (pn := pn) (n := n) (e := e) (st := st) (kl "letrec" (by decide)) (lst [lst (l ++ lst [.sym k, a] :: r), b])
      unfold psexp
      simp [sexpMatch, lst, list, y, isList1, isId, prims, hk, hne, isList_list, items_list] at this ⊢
      simp [this]

/-- **C61**: what stands after `%prim`, `%prim*`, `%prim?!`, `%prim*?!` must be a text.  (The other marks are not in the list of keywords, so
that the form is read as the application of a global variable.  The symbol `<string-forest>` matches itself, 3.sf:629.) -/
theorem c61_texts (pn : List Char → PrimName) (n : Nat) (e : List (Sym × Id)) (st : St) (k : String)
    (hk : k ∈ ["%prim", "%prim*", "%prim?!", "%prim*?!"]) (x : S) (hx : ¬ IsText x)
    (hs : x ≠ y "<string-forest>") (xs : List S) :
    psexp pn n e (.pair (y k) (.pair x (lst xs))) st = none := by
  have hx' : isForest x = false := by
    cases e : isForest x with
    | false => rfl
    | true => exact (hx (text_iff.1 e)).elim
  have hs : x ≠ .sym ['<', 's', 't', 'r', 'i', 'n', 'g', '-', 'f', 'o', 'r', 'e', 's', 't', '>'] := hs
  cases n with
  | zero => rfl
  | succ n =>
    simp only [List.mem_cons, List.not_mem_nil, or_false] at hk
    rcases hk with rfl | rfl | rfl | rfl
    · have := app_none (pn := pn) (n := n) (e := e) (st := st) (k := "%prim".toList) (by decide) (.pair x (lst xs))
      unfold psexp
      simp [sexpMatch, lst, list, y, isList1, prims, isList_list, hx', hs] at this ⊢
      simp [this, isId]
    · have := app_none (pn := pn) (n := n) (e := e) (st := st) (k := "%prim*".toList) (by decide) (.pair x (lst xs))
      unfold psexp
      simp [sexpMatch, lst, list, y, isList1, prims, isList_list, hx', hs] at this ⊢
      simp [this, isId]
    · have := app_none (pn := pn) (n := n) (e := e) (st := st) (k := "%prim?!".toList) (by decide) (.pair x (lst xs))
      unfold psexp
      simp [sexpMatch, lst, list, y, isList1, prims, isList_list, hx', hs] at this ⊢
      simp [this, isId]
    · have := app_none (pn := pn) (n := n) (e := e) (st := st) (k := "%prim*?!".toList) (by decide) (.pair x (lst xs))
      unfold psexp
      simp [sexpMatch, lst, list, y, isList1, prims, isList_list, hx', hs] at this ⊢
      simp [this, isId]

example : "if".toList ∈ keywords := by decide
example : ¬ IsText (lst [.str "f(".toList, .sym "x".toList]) := fun h => by cases text_iff.2 h

end

/-- What the parser does not read: the variables are in `P`, there are no formals with a rest argument and no data after `%const`,
`%definition`, `%localdef`. -/
inductive Readable (P : Var → Prop) : Out → Prop where
  | var {v} : P v → Readable P (.var v)
  | lam {vs b} : (∀ v ∈ vs, P v) → Readable P b → Readable P (.lam vs none b)
  | letcc {v b} : P v → Readable P b → Readable P (.letcc v b)
  | set {v a} : P v → Readable P a → Readable P (.set v a)
  | form {kw os} : (∀ o ∈ os, Readable P o) → Readable P (.form kw os)
  | prim {kw sf os} : (∀ o ∈ os, Readable P o) → Readable P (.prim kw sf os)
  | letrec {vs os b} : (∀ v ∈ vs, P v) → (∀ o ∈ os, Readable P o) → Readable P b → Readable P (.letrec vs os b)
  | app {f os} : Readable P f → (∀ o ∈ os, Readable P o) → Readable P (.app f os)
  | define {v a} : P v → Readable P a → Readable P (.define v a)

theorem isList_conv {h : Nat → S} : ∀ {d : Macros.Sx}, Macros.isList d = true → isList (conv h d) = true
  | .nil, _ => rfl
  | .pair _ d, e => isList_conv (d := d) e
  | .atom _, e => by cases e
  | .vec _, e => by cases e
  | .sid _ _ _, e => by cases e

theorem forest_conv {hs : Host} {h : Nat → S} (H : ∀ n, hs.isStr n = true → ∃ s, h n = .str s) :
    ∀ {x : Macros.Sx}, Expand.okSf hs x = true → isForest (conv h x) = true
  | .nil, _ => rfl
  | .atom n, e => by obtain ⟨s, hs'⟩ := H n e; simp [conv, hs', isForest]
  | .sid _ _ _, e => by cases e
  | .vec x, e => forest_conv H (x := x) e
  | .pair a d, e => by
    simp only [Expand.okSf, Bool.and_eq_true] at e
    simp [conv, isForest, forest_conv H e.1.2, forest_conv H e.2, isList_conv e.1.1]

theorem prim_effect {kw : String} (hk : kw ∈ Expand.primNames) : ∃ eff, (kw, eff) ∈ prims := by
  have : ∀ k ∈ Expand.primNames, ∃ p ∈ prims, p.1 = k := by decide +kernel
  obtain ⟨p, hp, rfl⟩ := this kw hk
  exact ⟨p.2, hp⟩

open Expand.Direct in
theorem shape_of {hs : Host} {h : Nat → S} (H : ∀ n, hs.isStr n = true → ∃ s, h n = .str s) {o : Out} (hb : Built hs o) :
    Readable OkVar o → Shape h o := by
  induction hb with
  | var => intro hr; cases hr with | var hv => exact .var hv
  | lam _ ih => intro hr; cases hr with | lam hv hr => exact .lam hv (ih hr)
  | letcc _ ih => intro hr; cases hr with | letcc hv hr => exact .letcc hv (ih hr)
  | set _ ih => intro hr; cases hr with | set hv hr => exact .set hv (ih hr)
  | @iff os hl _ ih =>
    intro hr
    cases hr with
    | form hr =>
      have hs := fun o ho => ih o ho (hr o ho)
      match os, hl, hs with
      | [a, b], _, hs => exact .if2 (hs a (by simp)) (hs b (by simp))
      | [a, b, c], _, hs => exact .if3 (hs a (by simp)) (hs b (by simp)) (hs c (by simp))
      | [], hl, _ => simp at hl
      | [_], hl, _ => simp at hl
      | _ :: _ :: _ :: _ :: _, hl, _ => simp at hl
  | @withcc os hl _ ih =>
    intro hr
    cases hr with
    | form hr =>
      have hs := fun o ho => ih o ho (hr o ho)
      match os, hl, hs with
      | [a, b], _, hs => exact .withcc (hs a (by simp)) (hs b (by simp))
  | quote _ ih => intro hr; cases hr with | form hr => exact .quote (ih (hr _ (by simp)))
  | begin _ ih => intro hr; cases hr with | form hr => exact .begin fun o ho => ih o ho (hr o ho)
  | raw => intro hr; cases hr
  | prim hk hsf _ ih =>
    intro hr
    obtain ⟨eff, he⟩ := prim_effect hk
    cases hr with
    | prim hr => exact .prim (prim_iff.2 he) (text_iff.1 (forest_conv H hsf)) fun o ho => ih o ho (hr o ho)
  | letrec hl _ _ i1 i2 =>
    intro hr
    cases hr with
    | letrec hv hr hb => exact .letrec hv hl (fun o ho => i1 o ho (hr o ho)) (i2 hb)
  | app _ _ i1 i2 => intro hr; cases hr with | app hf hr => exact .app (i1 hf) fun o ho => i2 o ho (hr o ho)

/-- The full statement of C61: the parser accepts what the expander makes of a program, if there are no formals with a rest argument, no
`%const` and less than `10 ^ 33` locations.  The function `h` says what the atoms are. -/
def C61Full : Prop := ∀ (hs : Host) (h : Nat → S) (pn : List Char → PrimName) (n : Nat) (forms : List Macros.Sx) (os : List Out)
  (st : Expand.Store) (ln : Nat), Atoms h → (∀ n, hs.isStr n = true → ∃ s, h n = .str s) →
  Expand.expandTop hs false n forms Expand.builtinStore 0 = some (.prog os st ln) → (∀ o ∈ os, Readable Small o) →
    ∃ e g cs k, parseProgram pn (renderAll h os) = some (e, g.map (·.1), k) ∧ Program h pn os e g cs ∧ Letrec.FixProg k e

open Expand.Direct in
/-- **C61**, after the expander: an expanded program is accepted and has the tree described by `Program`.
Missing: as for `c61_program_partial`. -/
theorem c61_expanded_partial (hs : Host) (h : Nat → S) (pn : List Char → PrimName) (n : Nat) (forms : List Macros.Sx) (os : List Out)
    (st : Expand.Store) (ln : Nat) (hh : Atoms h) (H : ∀ n, hs.isStr n = true → ∃ s, h n = .str s)
    (he : Expand.expandTop hs false n forms Expand.builtinStore 0 = some (.prog os st ln)) (hr : ∀ o ∈ os, Readable OkVar o) :
    ∃ e g cs k, parseProgram pn (renderAll h os) = some (e, g.map (·.1), k) ∧ Program h pn os e g cs ∧ Letrec.FixProg k e ∧
      (∀ s, s ∈ g.map (·.1) ↔ ∃ o ∈ os, Refers [] o s) ∧ ∀ x, Free x e → x.isGlobal = true := by
  refine parse_ok hh fun o ho => ?_
  have hb := expandTop_built he o ho
  have hro := hr o ho
  cases o with
  | define v a => cases hro with | define hv ha => exact .define hv (shape_of H hb ha)
  | _ => exact .expr (shape_of H hb hro)

namespace ParseCase

/-- the atoms are strings. -/
def h : Nat → S := fun n => .str ("s".toList ++ Nat.toDigits 10 n)

theorem atoms : Atoms h := fun n => .inl ⟨_, rfl⟩

theorem okx (n : Nat) (hn : n < 10 ^ 33 := by decide) (s : String) (hk : name (.loc n s) ∉ keywords := by decide +kernel) : OkVar (.loc n s) :=
  ⟨by intro m t e; cases e; exact hn, hk⟩

theorem okg (s : String) (hk : name (.glob s) ∉ keywords := by decide +kernel) : OkVar (.glob s) :=
  ⟨(fun _ _ e => by cases e), hk⟩

/-- the literal `(%quote (%prim "s0" (%quote (%prim #("s1")))))` -/
def lit : Out := .form "%quote" [.prim "%prim" (.atom 0) [.form "%quote" [.prim "%prim" (.vec (.pair (.atom 1) .nil)) []]]]

/-- `(define f (lambda (x y) (letrec ([y <lit>]) (if x (f y <lit>)))))` and `(begin (f <lit>) z)`; the inner `y` is another variable
than the outer one. -/
def prog : List Out :=
  [.define (.glob "f") (.lam [.loc 0 "x", .loc 1 "y"] none (.letrec [.loc 2 "y"] [lit]
     (.form "if" [.var (.loc 0 "x"), .app (.var (.glob "f")) [.var (.loc 2 "y"), lit]]))),
   .form "begin" [.app (.var (.glob "f")) [lit], .var (.glob "z")]]

theorem lit_shape : Shape h lit :=
  .quote (.prim (eff := ⟨false, false, false⟩) rfl (text_iff.1 rfl) (by
    simp only [List.mem_singleton, forall_eq]
    exact .quote (.prim (eff := ⟨false, false, false⟩) rfl (text_iff.1 rfl) (by simp))))

theorem prog_shape : ∀ o ∈ prog, TopShape h o := by
  simp only [prog, List.mem_cons, List.not_mem_nil, or_false, forall_eq_or_imp, forall_eq]
  refine ⟨.define (okg "f") (.lam ?_ (.letrec ?_ rfl ?_ (.if2 (.var (okx 0 (s := "x"))) (.app (.var (okg "f")) ?_)))),
    .expr (.begin ?_)⟩
  · simp only [List.mem_cons, List.not_mem_nil, or_false, forall_eq_or_imp, forall_eq]
    exact ⟨okx 0 (s := "x"), okx 1 (s := "y")⟩
  · simp only [List.mem_cons, List.not_mem_nil, or_false, forall_eq_or_imp, forall_eq]
    exact okx 2 (s := "y")
  · simpa using lit_shape
  · simp only [List.mem_cons, List.not_mem_nil, or_false, forall_eq_or_imp, forall_eq]
    exact ⟨.var (okx 2 (s := "y")), lit_shape⟩
  · simp only [List.mem_cons, List.not_mem_nil, or_false, forall_eq_or_imp, forall_eq]
    exact ⟨.app (.var (okg "f")) (by simpa using lit_shape), .var (okg "z")⟩

example := c61_program_partial h atoms (fun _ => .op 0) prog prog_shape

/-- the references of the program, and the number of time stamps. -/
example : (parseProgram (fun _ => .op 0) (renderAll h prog)).map (fun r => (r.2.1.map String.ofList, r.2.2)) = some (["z", "f"], 16) := by
  decide +kernel

example := c61_expr_partial h atoms (fun _ => .op 0) (render h lit).size lit (Nat.le_refl _) lit_shape [] nofun ⟨1, [], []⟩ inv_init

/-- `(define f (lambda (x) (if x (f x))))`, expanded. -/
example := c61_expanded_partial ⟨fun _ => [], fun _ => [], fun _ => true⟩ h (fun _ => .op 0) 20
  [Expand.listOf [.sym "define", .sym "f", Expand.listOf [.sym "lambda", Expand.listOf [.sym "x"],
    Expand.listOf [.sym "if", .sym "x", Expand.listOf [.sym "f", .sym "x"]]]]]
  [.define (.glob "f") (.lam [.loc 0 "x"] none (.form "if" [.var (.loc 0 "x"), .app (.var (.glob "f")) [.var (.loc 0 "x")]]))]
  Expand.builtinStore 0 atoms (fun n _ => ⟨_, rfl⟩) (by rfl) (by
    have hx := okx 0 (s := "x")
    simp only [List.mem_cons, List.not_mem_nil, or_false, forall_eq_or_imp, forall_eq]
    refine .define (okg "f") (.lam (by simpa using hx) (.form ?_))
    simp only [List.mem_cons, List.not_mem_nil, or_false, forall_eq_or_imp, forall_eq]
    exact ⟨.var hx, .app (.var (okg "f")) (by simpa using Readable.var hx)⟩)

end ParseCase

/-- **A global variable with the name `load` is refused**: the expander accepts the program `load`; the parser has the symbol in the list of
its keywords (3.sf:571-574), for which the expander has no other name. -/
theorem c61_counterexample : ¬ C61Full := by
  intro hf
  obtain ⟨e, g, cs, k, h1, _⟩ := hf ⟨fun _ => [], fun _ => [], fun _ => false⟩ (fun n => .atom n) (fun _ => .op 0) 5 [.sym "load"]
    [.var (.glob "load")] Expand.builtinStore 0 (fun n => .inr ⟨n, rfl⟩) (by simp) (by rfl)
    (by
      intro o ho
      simp only [List.mem_singleton] at ho
      subst ho
      exact .var (by intro n s e; cases e))
  have : parseProgram (fun _ => .op 0) (renderAll (fun n => .atom n) [.var (.glob "load")]) = none := by decide +kernel
  rw [this] at h1
  cases h1

end Verif.Parse
