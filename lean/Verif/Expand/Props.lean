import Verif.Expand.Alpha
/-
C58: the macro expander is hygienic: the numbers given to inserted identifiers do not matter, and the names of the variables
bound by a `lambda` expression do not matter.
-/
namespace Verif.Expand
open Verif.Macros

section
variable {h : Host}

/-- **The numbers of inserted identifiers do not matter.**  A program that mentions neither `syntax-lambda` nor `%quote` and
`%const` has been expanded; the next form is expanded with the numbers of the inserted identifiers starting at `i` (`0` in
the code).  Had they started at any larger number, the output would be the same.  (Without the restriction this is false:
`c58_counterexample`.) -/
theorem c58_ids_partial {n : Nat} {pre : List Sx} (hpre : ∀ x ∈ pre, Plain Tame x) {os0 : List Out} {st : Store} {ln : Nat}
    (hr : expandTop h false n pre builtinStore 0 = some (.prog os0 st ln)) {m : Nat} {x : Sx} (hx : Plain Tame x) {i j : Nat}
    (hij : i ≤ j) {os : List Out} {st1 : Store} {ln1 : Nat}
    (h1 : expandFrom h false m [x] st ln i = some (.prog os st1 ln1)) :
    ∃ os' st1', expandFrom h false m [x] st ln j = some (.prog os' st1' ln1) ∧ List.Forall₂ (OutRel h sameBut) os os' := by
  obtain ⟨st', q1, q2⟩ := prefix_sim (gl := false) (fun _ _ ha => ha) hpre hr
  rw [hr] at q1
  cases q1
  have hclo : ∀ (s s' : Ident) (a : Nat) (l : Key), sameBut s s' → sameBut (s.1, .num a, l) (s'.1, .num (a + (j - i)), l) :=
    fun s s' a l hs => ⟨hs.1, rfl⟩
  have q3 : StoreRel h sameBut (j - i) false st st := q2.up (by rintro s _ rfl; exact ⟨rfl, rfl⟩) (Nat.zero_le _) hclo
  obtain ⟨a', h2, h3⟩ := expandFrom_sim (gl := false) (P := Tame) (fun _ _ ha => ha) (fun s s' hs => hs.2) hclo (fun s => ⟨rfl, rfl⟩) m
    (forms := [x]) (by simpa using hx) q3 ln i _ h1
  rw [Nat.add_sub_cancel' hij] at h2
  rcases h3 with ⟨_, _, _, os', st1', h4, rfl, h5, _⟩ | ⟨_, _, h4, _⟩
  · cases h4
    exact ⟨os', st1', h2, h5⟩
  · cases h4

/-- The same for all programs, if the expander refuses to apply a `syntax-lambda` containing an id that it may generate again
and to redefine `%quote` and `%const` (the switch): then the output of the expander as it is, from any number on, is the
same. -/
theorem c58_ids_switch_partial {n : Nat} {pre : List Sx} (hpre : ∀ x ∈ pre, Plain (fun _ => True) x) {os0 : List Out} {st : Store} {ln : Nat}
    (hr : expandTop h true n pre builtinStore 0 = some (.prog os0 st ln)) :
    ∃ st', expandTop h false n pre builtinStore 0 = some (.prog os0 st' ln) ∧
      ∀ {m : Nat} {x : Sx}, Plain (fun _ => True) x → ∀ {i j : Nat}, i ≤ j → ∀ {os : List Out} {st1 : Store} {ln1 : Nat},
        expandFrom h true m [x] st ln i = some (.prog os st1 ln1) →
        ∃ os' st1', expandFrom h false m [x] st' ln j = some (.prog os' st1' ln1) ∧ List.Forall₂ (OutRel h sameBut) os os' := by
  obtain ⟨st', q1, q2⟩ := prefix_sim (gl := true) (P := fun _ => True) (fun hf => by cases hf) hpre hr
  refine ⟨st', q1, ?_⟩
  intro m x hx i j hij os st1 ln1 h1
  have hclo : ∀ (s s' : Ident) (a : Nat) (l : Key), sameBut s s' → sameBut (s.1, .num a, l) (s'.1, .num (a + (j - i)), l) :=
    fun s s' a l hs => ⟨hs.1, rfl⟩
  have q3 : StoreRel h sameBut (j - i) true st st' := q2.up (by rintro s _ rfl; exact ⟨rfl, rfl⟩) (Nat.zero_le _) hclo
  obtain ⟨a', h2, h3⟩ := expandFrom_sim (gl := true) (P := fun _ => True) (fun hf => by cases hf) (fun s s' hs => hs.2) hclo (fun s => ⟨rfl, rfl⟩) m
    (forms := [x]) (by simpa using hx) q3 ln i _ h1
  rw [Nat.add_sub_cancel' hij] at h2
  rcases h3 with ⟨_, _, _, os', st1', h4, rfl, h5, _⟩ | ⟨_, _, h4, _⟩
  · cases h4
    exact ⟨os', st1', h2, h5⟩
  · cases h4

/-- **The names of bound variables do not matter.**  A program that mentions neither `syntax-lambda` nor `%quote` and
`%const` has been expanded, and `lambda` still has its meaning.  If the variable `x` of a `lambda` expression is renamed to a
symbol `y` that does not occur in the expression, any symbol, be it the name of a keyword or of a macro, the output is the
same but for the name.  In particular the variables bound by the program do not capture what macros insert, and
conversely. -/
theorem c58_alpha_partial {n : Nat} {pre : List Sx} (hpre : ∀ x ∈ pre, Plain Tame x) {os0 : List Out} {st : Store} {ln : Nat}
    (hr : expandTop h false n pre builtinStore 0 = some (.prog os0 st ln))
    (hlam : lookupLocation (.sym "lambda") st = some (.builtin "lambda")) {f b : Sx} (hf : Plain Tame f) (hb : Plain Tame b)
    {x y : String} (hx : Occurs x f) (hyf : ¬ Occurs y f) (hyb : ¬ Occurs y b) {m : Nat} {a : Ans}
    (h1 : expandTop h false m [listOf [.sym "lambda", f, b]] st ln = some a) :
    ∃ o o', a = .prog [o] st ln ∧
      expandTop h false m [listOf [.sym "lambda", ren x y f, ren x y b]] st ln = some (.prog [o'] st ln) ∧
      OutRel h (renamed x y) o o' := by
  obtain ⟨st', q1, q2⟩ := prefix_sim (gl := false) (fun _ _ ha => ha) hpre hr
  rw [hr] at q1
  cases q1
  have q3 : StoreRel h (renamed x y) 0 false st st := q2.up (fun _ _ => Or.inl) (Nat.le_refl _) (fun s s' a l hs => by
    rcases hs with rfl | hs
    · exact Or.inl rfl
    · exact Or.inr hs)
  match m with
  | 0 => cases h1
  | 1 => cases h1
  | 2 => cases h1
  | m + 3 =>
    change expandFrom h false (m + 3) [listOf [.sym "lambda", f, b]] st ln 0 = some a at h1
    show ∃ o o', a = .prog [o] st ln ∧ expandFrom h false (m + 3) [listOf [.sym "lambda", ren x y f, ren x y b]] st ln 0 = _ ∧ _
    rw [lambda_run hlam] at h1 ⊢
    cases h2 : expandLambda (recs h false (m + 1)).any f b 0 [] st ln with
    | none => rw [h2] at h1; cases h1
    | some o =>
      rw [h2] at h1
      cases h1
      obtain ⟨o', h3, h4⟩ := expandLambda_ren (gl := false) (P := Tame) (fun _ _ ha => ha) (recs_sim (m + 1)).1 hf hb hx hyf hyb q3 h2
      exact ⟨o, o', rfl, by rw [h3], h4⟩

/-- **`reduce-env` drops nothing that is needed** (2.sf:909-920): a macro with the environment that `compile-syntax-rules`
keeps expands every use as it would with the whole environment of its definition. -/
theorem c58_reduce_env {tail : Sx} {env : Env} {m : Macro} (hc : compileSynrules tail env = some m) (hvo : VecOk tail)
    (hv : ∀ p ∈ env, ∃ n, p.2 = Key.num n) (idn : Nat) (e : Env) (x : Sx) :
    applySynrules m idn e x = applySynrules { m with env := env } idn e x :=
  reduce_sound hc hvo hv idn e x

/-- The unrestricted claim. -/
def C58Full : Prop :=
  ∀ (h : Host) (n : Nat) (pre : List Sx), (∀ x ∈ pre, Plain (fun _ => True) x) → ∀ (os0 : List Out) (st : Store) (ln : Nat),
    expandTop h false n pre builtinStore 0 = some (.prog os0 st ln) → ∀ (m : Nat) (x : Sx), Plain (fun _ => True) x →
    ∀ (i j : Nat), i ≤ j → ∀ (os : List Out) (st1 : Store) (ln1 : Nat), expandFrom h false m [x] st ln i = some (.prog os st1 ln1) →
    ∃ os' st1', expandFrom h false m [x] st ln j = some (.prog os' st1' ln1) ∧ List.Forall₂ (OutRel h sameBut) os os'

/-- The expansion of a program is a list of top-level forms. -/
def C58Program : Prop :=
  ∀ (h : Host) (n : Nat) (forms : List Sx) (a : Ans), (∀ x ∈ forms, Plain (fun _ => True) x) →
    expandTop h false n forms builtinStore 0 = some a → ∃ os st ln, a = .prog os st ln

end

/-! ### concrete cases -/
namespace Case

/-- a symbol. -/
abbrev s (x : String) : Sx := .sym x
/-- a list. -/
abbrev l (xs : List Sx) : Sx := listOf xs
/-- literals stand for themselves. -/
def host : Host := ⟨fun n => [.sym "integer", .atom n], fun x => [.sym x], fun _ => false⟩

/-- `(define-syntax or2 (syntax-rules () [(_ a b) ((lambda (t) (if t t b)) a)]))` -/
def or2 : Sx := l [s "define-syntax", s "or2", l [s "syntax-rules", l [], l [l [s "_", s "a", s "b"],
  l [l [s "lambda", l [s "t"], l [s "if", s "t", s "t", s "b"]], s "a"]]]]
/-- `(define-syntax def-m (syntax-rules () [(_ k) (define-syntax k (syntax-lambda (a) (lambda (u) (or2 a u))))]))` -/
def defM : Sx := l [s "define-syntax", s "def-m", l [s "syntax-rules", l [], l [l [s "_", s "k"],
  l [s "define-syntax", s "k", l [s "syntax-lambda", l [s "a"], l [s "lambda", l [s "u"], l [s "or2", s "a", s "u"]]]]]]]

/-- the outputs of an answer. -/
def outs : Option Ans → Option (List Out)
  | some (.prog os _ _) => some os
  | _ => none

/-- the store of an answer. -/
def store : Option Ans → Store
  | some (.prog _ st _) => st
  | _ => []

/-- `(lambda (t) (or2 t x))` -/
def use : Sx := l [s "lambda", l [s "t"], l [s "or2", s "t", s "x"]]
/-- `(lambda (if) (or2 if x))` -/
def use' : Sx := l [s "lambda", l [s "if"], l [s "or2", s "if", s "x"]]

theorem or2_run : expandTop host false 20 [or2] builtinStore 0 = some (.prog [] (store (expandTop host false 20 [or2] builtinStore 0)) 0) := by
  rfl

/-- The output for `(lambda (t) (or2 t x))`: the inserted `t` is another variable. -/
theorem use_run : outs (expandTop host false 20 [use] (store (expandTop host false 20 [or2] builtinStore 0)) 0) =
    some [.lam [.loc 0 "t"] none (.app (.lam [.loc 1 "t"] none (.form "if" [.var (.loc 1 "t"), .var (.loc 1 "t"), .var (.glob "x")]))
      [.var (.loc 0 "t")])] := by rfl

/-- The output for `(lambda (if) (or2 if x))`: the inserted `if` is the keyword. -/
theorem use'_run : outs (expandTop host false 20 [use'] (store (expandTop host false 20 [or2] builtinStore 0)) 0) =
    some [.lam [.loc 0 "if"] none (.app (.lam [.loc 1 "t"] none (.form "if" [.var (.loc 1 "t"), .var (.loc 1 "t"), .var (.glob "x")]))
      [.var (.loc 0 "if")])] := by rfl

example : (∀ x ∈ [or2], Plain Tame x) ∧ Plain Tame use := by
  simp [or2, use, Plain, Tame, l, s, listOf, listS, Sx.sym, isList]

example : Occurs "t" (l [s "t"]) ∧ ¬ Occurs "if" (l [s "t"]) ∧ ¬ Occurs "if" (l [s "or2", s "t", s "x"]) ∧
    lookupLocation (.sym "lambda") (store (expandTop host false 20 [or2] builtinStore 0)) = some (.builtin "lambda") := by
  refine ⟨?_, ?_, ?_, rfl⟩ <;> simp [Occurs, l, s, listOf, listS, Sx.sym]

end Case

open Case in
/-- **With `syntax-lambda` the numbers matter**: `(k x)` is expanded to `(lambda (u) ((lambda (t) (x t t u)) x))`, where the
inserted `if` has become `x`; had the numbers started at `10`, it would be `(lambda (u) ((lambda (t) (if t t u)) x))`. -/
theorem c58_counterexample : ¬ C58Full := by
  intro hf
  have hp : ∀ x ∈ [or2, defM, l [s "def-m", s "k"]], Plain (fun _ => True) x := by
    simp [or2, defM, Plain, l, s, listOf, listS, Sx.sym]
  have hr : expandTop host false 20 [or2, defM, l [s "def-m", s "k"]] builtinStore 0 =
      some (.prog [] (store (expandTop host false 20 [or2, defM, l [s "def-m", s "k"]] builtinStore 0)) 0) := by rfl
  obtain ⟨os', st1', h1, h2⟩ := hf host 20 _ hp _ _ _ hr 20 (l [s "k", s "x"]) (by simp [Plain, l, s, listOf, listS, Sx.sym]) 0 10 (by decide)
    [.lam [.loc 1 "u"] none (.app (.lam [.loc 2 "t"] none (.app (.var (.glob "x")) [.var (.loc 2 "t"), .var (.loc 2 "t"), .var (.loc 1 "u")]))
      [.var (.glob "x")])]
    (store (expandTop host false 20 [or2, defM, l [s "def-m", s "k"]] builtinStore 0)) 0 (by rfl)
  have h3 : outs (expandFrom host false 20 [l [s "k", s "x"]] (store (expandTop host false 20 [or2, defM, l [s "def-m", s "k"]] builtinStore 0)) 0 10) =
      some [.lam [.loc 1 "u"] none (.app (.lam [.loc 2 "t"] none (.form "if" [.var (.loc 2 "t"), .var (.loc 2 "t"), .var (.loc 1 "u")]))
        [.var (.glob "x")])] := by rfl
  rw [h1] at h3
  cases h3
  cases h2 with
  | cons h4 _ =>
    cases h4 with
    | lam _ _ h5 =>
      cases h5 with
      | app h6 _ =>
        cases h6 with
        | lam _ _ h7 => cases h7

open Case in
/-- **A `begin` in operator position ends the expansion** (2.sf:473 returns the expression instead of passing it on): the
program `((begin f) x) (define y 1)` is expanded to `f`, the rest is lost. -/
theorem c58_counterexample_begin : ¬ C58Program := by
  intro hf
  obtain ⟨os, st, ln, h1⟩ := hf host 20 [l [l [s "begin", s "f"], s "x"], l [s "define", s "y", .atom 1]] (.out (.var (.glob "f")))
    (by simp [Plain, l, s, listOf, listS, Sx.sym]) (by rfl)
  cases h1

end Verif.Expand
