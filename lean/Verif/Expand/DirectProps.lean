import Verif.Expand.Scoped
/-
C59: the expander of Verif/Expand/Model.lean, which is written in continuation-passing style and takes a depth, computes
exactly what the rules of Verif/Expand/Direct.lean say.  C60: its output has no unbound local variables.
-/
namespace Verif.Expand
open Verif.Macros Direct

/-- **C59**: an expression has the output that the rules give, and only that. -/
theorem c59_expr (h : Host) (idn : Nat) (env : Env) (st : Store) (ln : Nat) (x : Sx) (o : Out) :
    (∃ n, expandExpr (recs h false n).any x idn env st ln = some o) ↔ Expr h true idn env st ln x o :=
  ⟨fun ⟨n, e⟩ => expandExpr_sound (recs_sound n).1 e, fun H => let ⟨N, hN⟩ := H.complete; ⟨N, hN N (Nat.le_refl N)⟩⟩

/-- **C59**: a program has the outputs, the store and the number of locations that the rules give, and only those. -/
theorem c59_program (h : Host) (forms : List Sx) (st : Store) (ln : Nat) (os : List Out) (st' : Store) (ln' : Nat) :
    (∃ n, expandTop h false n forms st ln = some (.prog os st' ln')) ↔
      Top h true 0 [] st ln [] forms (.done st' ln' os.reverse) := by
  constructor
  · rintro ⟨n, e⟩
    obtain ⟨r, hr, ha⟩ := topN_sound n e
    cases r with
    | done =>
      simp only [TAnswers, Option.some.injEq, Ans.prog.injEq] at ha
      obtain ⟨rfl, rfl, rfl⟩ := ha
      rw [List.reverse_reverse]
      exact hr
    | stop => cases (show Ans.prog _ _ _ = .out _ from ha)
  · intro H
    obtain ⟨N, hN⟩ := H.complete
    exact ⟨N, hN N (Nat.le_refl N) _ _ (by simp [TAnswers])⟩

/-- **C59**: the expansion ends early, with an output in place of the program, exactly if the rules say so. -/
theorem c59_stop (h : Host) (forms : List Sx) (st : Store) (ln : Nat) (o : Out) :
    (∃ n, expandTop h false n forms st ln = some (.out o)) ↔ Top h true 0 [] st ln [] forms (.stop o) := by
  constructor
  · rintro ⟨n, e⟩
    obtain ⟨r, hr, ha⟩ := topN_sound n e
    cases r with
    | done => cases ha
    | stop => cases (show Ans.out o = .out _ from ha); exact hr
  · intro H
    obtain ⟨N, hN⟩ := H.complete
    exact ⟨N, hN N (Nat.le_refl N) _ _ rfl⟩

/-- **C59**: an answer found at some depth is found at all sufficient depths. -/
theorem c59_settles (h : Host) (forms : List Sx) (st : Store) (ln n : Nat) (a : Ans) (e : expandTop h false n forms st ln = some a) :
    ∃ N, ∀ m ≥ N, expandTop h false m forms st ln = some a := by
  obtain ⟨r, hr, ha⟩ := topN_sound n e
  obtain ⟨N, hN⟩ := hr.complete
  exact ⟨N, fun m hm => hN m hm _ _ ha⟩

/-- **C59**: there is at most one answer, whatever the depths. -/
theorem c59_unique (h : Host) (forms : List Sx) (st : Store) (ln n n' : Nat) (a a' : Ans)
    (e : expandTop h false n forms st ln = some a) (e' : expandTop h false n' forms st ln = some a') : a = a' := by
  obtain ⟨N, hN⟩ := c59_settles h forms st ln n a e
  obtain ⟨N', hN'⟩ := c59_settles h forms st ln n' a' e'
  have := (hN (max N N') (by omega)).symm.trans (hN' (max N N') (by omega))
  exact Option.some.inj this

/-- The full statement of C60: the local variables of every program that the expander accepts are bound. -/
def C60Full : Prop := ∀ (h : Host) (n : Nat) (forms : List Sx) (ln : Nat) (os : List Out) (st' : Store) (ln' : Nat),
  expandTop h false n forms builtinStore ln = some (.prog os st' ln') → ClosedProg (fun _ => False) os

theorem builtinStore_ok {S : Var → Prop} : StoreOk S builtinStore := by
  intro p hp
  simp only [builtinStore, List.mem_reverse, List.mem_map] at hp
  obtain ⟨b, _, rfl⟩ := hp
  trivial

/-- **C60**: if no `begin` is dropped and literals are expressions (`false` instead of `true` in the rules), the local
variables of the program are bound: by a `lambda`, `letcc` or `letrec` around them, or by an earlier top-level definition.
Missing: programs with a `begin` as an operator, as a keyword argument or as the expansion of an identifier, and programs
that redefine `%quote` to make definitions; see `c60_counterexample`. -/
theorem c60_closed_partial (h : Host) (forms : List Sx) (ln : Nat) (os : List Out) (st' : Store) (ln' : Nat)
    (H : Top h false 0 [] builtinStore ln [] forms (.done st' ln' os.reverse)) :
    (∃ N, ∀ n ≥ N, expandTop h false n forms builtinStore ln = some (.prog os st' ln')) ∧ ClosedProg (fun _ => False) os := by
  constructor
  · obtain ⟨N, hN⟩ := H.complete
    exact ⟨N, fun n hn => hN n hn _ _ (by simp [TAnswers])⟩
  · obtain ⟨new, e, hc, _⟩ := H.scoped (fun _ => False) builtinStore_ok
    simp only [List.append_nil, List.reverse_inj] at e
    exact e ▸ hc

/-- **C60**, for expressions: if the store holds only variables and code of a scope, the output is closed in the scope. -/
theorem c60_expr_partial (h : Host) (S : Var → Prop) (idn : Nat) (env : Env) (st : Store) (ln : Nat) (x : Sx) (o : Out)
    (hst : ∀ l v, (l, v) ∈ st → (∀ w, v = .var w → Closed S (.var w)) ∧ ∀ c, v = .code c → Closed S c)
    (H : Expr h false idn env st ln x o) : Closed S o :=
  H.scoped S (by
    rintro ⟨l, v⟩ hp
    obtain ⟨h1, h2⟩ := hst l v hp
    cases v with
    | var w => exact h1 w rfl
    | code c => exact h2 c rfl
    | _ => trivial)

namespace DirectCase

/-- a symbol. -/
abbrev s (x : String) : Sx := .sym x
/-- a list. -/
abbrev l (xs : List Sx) : Sx := listOf xs
/-- literals stand for themselves. -/
def host : Host := ⟨fun n => [.sym "integer", .atom n], fun x => [.sym x], fun _ => false⟩

/-- the keyword of a form. -/
theorem kw {h q ex lsd idn st ln} {b : String} (e : lookupLocation (.sym b) st = some (.builtin b)) :
    Form h q ex true lsd idn [] st ln (s b) (.syn (.builtin b) (s b) st ln) :=
  .keyword e nofun nofun

/-- `(lambda (x) (if x y))` -/
def prog : Sx := l [s "lambda", l [s "x"], l [s "if", s "x", s "y"]]

theorem prog_top : Top host false 0 [] builtinStore 0 [] [prog] (.done builtinStore 0
    [.lam [.loc 0 "x"] none (.form "if" [.var (.loc 0 "x"), .var (.glob "y")])]) := by
  refine .expr ?_ .nil
  refine .use (b := "lambda") (hd := s "lambda") (st' := builtinStore) (ln' := 0) rfl (.keyword rfl nofun nofun) ?_
  refine Use.lambda (f := l [s "x"]) (e := l [s "if", s "x", s "y"])
    (o := .form "if" [.var (.loc 0 "x"), .var (.glob "y")]) rfl (by decide) (by decide) ?_
  refine .expr (.use (b := "if") (hd := s "if") rfl (.keyword rfl nofun nofun) (.iff (.inl rfl) ?_))
  exact .cons (.expr (.var rfl)) (.cons (.expr (.var rfl)) .nil)

example := c60_closed_partial host [prog] 0
  [.lam [.loc 0 "x"] none (.form "if" [.var (.loc 0 "x"), .var (.glob "y")])] builtinStore 0 prog_top

/-- `((syntax-lambda () (define x y) x))`: a body with a definition. -/
def body : Sx := l [l [s "syntax-lambda", l [], l [s "define", s "x", s "y"], s "x"]]

theorem body_top : Top host false 0 [] builtinStore 0 [] [body] (.done builtinStore 0
    [.letrec [.loc 0 "x"] [.var (.glob "y")] (.var (.loc 0 "x"))]) := by
  refine .expr ?_ .nil
  refine .expand (v := .slam [] [l [s "define", s "x", s "y"], s "x"] []) (st' := builtinStore) (ln' := 0) rfl
    (.use (b := "syntax-lambda") (hd := s "syntax-lambda") rfl (.keyword rfl nofun nofun) (.synlambda (by decide) rfl)) nofun ?_
  refine .slam rfl .nil ?_ (.inl rfl)
  refine .next (.defn (.use (b := "define") (hd := s "define") rfl (.keyword rfl nofun nofun) (.define (.inl rfl) rfl))
    (.var nofun nofun rfl)) ?_
  refine .last .nil ?_
  exact .last (vs := [.loc 0 "x"]) (is := [.var (.glob "y")]) (os := []) (o := .var (.loc 0 "x")) (by simp)
    (.cons rfl (.expr (.var rfl)) .nil) .nil (.expr (.var rfl))

example := c60_closed_partial host [body] 0 [.letrec [.loc 0 "x"] [.var (.glob "y")] (.var (.loc 0 "x"))] builtinStore 0 body_top

/-- `(define-syntax or2 (syntax-rules () [(_ a b) ((lambda (t) (if t t b)) a)]))` -/
def or2 : Sx := l [s "define-syntax", s "or2", l [s "syntax-rules", l [], l [l [s "_", s "a", s "b"],
  l [l [s "lambda", l [s "t"], l [s "if", s "t", s "t", s "b"]], s "a"]]]]

/-- the store of an answer. -/
def store : Option Ans → Store
  | some (.prog _ st _) => st
  | _ => []

/-- the program `(define-syntax or2 …) (define f (lambda (t) (or2 t x)))`. -/
example := (c59_program host [or2, l [s "define", s "f", l [s "lambda", l [s "t"], l [s "or2", s "t", s "x"]]]] builtinStore 0
  [.define (.glob "f") (.lam [.loc 0 "t"] none (.app (.lam [.loc 1 "t"] none
    (.form "if" [.var (.loc 1 "t"), .var (.loc 1 "t"), .var (.glob "x")])) [.var (.loc 0 "t")]))]
  (store (expandTop host false 20 [or2] builtinStore 0)) 0).mp ⟨20, by rfl⟩

/-- `((begin f) x) (define y 1)`: the expansion ends with `f`. -/
example := (c59_stop host [l [l [s "begin", s "f"], s "x"], l [s "define", s "y", .atom 1]] builtinStore 0 (.var (.glob "f"))).mp ⟨20, by rfl⟩

/-- `(lambda () ((syntax-lambda () (define x 1) ((begin x)) 2)))` -/
def bad : Sx := l [s "lambda", l [], l [l [s "syntax-lambda", l [], l [s "define", s "x", .atom 1], l [l [s "begin", s "x"]], .atom 2]]]

end DirectCase

open DirectCase in
/-- **A `begin` as an operator leaves an unbound variable**: `(lambda () ((syntax-lambda () (define x 1) ((begin x)) 2)))` is
expanded to `(lambda () x)`, where the `x` is the local variable of the lost definition. -/
theorem c60_counterexample : ¬ C60Full := by
  intro hf
  have h1 := hf host 30 [bad] 0 [.lam [] none (.var (.loc 0 "x"))] builtinStore 0 (by rfl)
  obtain ⟨h1, _⟩ := h1
  cases h1 with
  | lam h1 =>
    cases h1 with
    | loc h1 => simp at h1

end Verif.Expand
