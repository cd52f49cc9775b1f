import Verif.Globals.Count
import Verif.Unbox.Props
/-
C65: properties of the analysis of globals.
-/
namespace Verif.Globals
open Verif.Core Verif.Sets
variable {W : Type}

/-- **C65** in full: analysis of globals preserves the behaviour of programs whose bound variables are local and whose private
constants are global variables assigned once. -/
def C65Full : Prop :=
  ∀ (W : Type) (M : Sem W) (Q : Op → List Exp → List Nat) (priv : Id → Bool) (e : Exp),
    FairOrder Q → Uniform Q → (∀ x, priv x = true → x.isGlobal = true) → (∀ x ∈ binders e, x.isGlobal = false) → (binders e).Nodup →
    (∀ x, priv x = true → timesAssigned x e ≤ 1) → (∀ x p, (x, .prim noEffect p []) ∈ topDefs e → Const M p) →
    ∀ (w : W) (g : Id → Option Val), (∀ x v, g x = some v → ∃ a, v = .atom a) → (∀ x d, (x, d) ∈ topDefs e → g x = none) →
    Behaves (step M Q) (step M Q) (.ev e .nil .halt ⟨g, [], w⟩) (.ev (analyze priv e) .nil .halt ⟨g, [], w⟩)

/-- **C65** for proper programs: constants are used in the order they are defined, definitions have no degenerate `let`s and are not
calls without operands, defined procedures have no free local variables, and private procedures are not recursive. -/
theorem c65_behaviour_partial (M : Sem W) (Q : Op → List Exp → List Nat) (priv : Id → Bool) (e : Exp) (hQ : FairOrder Q) (hU : Uniform Q)
    (hP : Proper M priv e) (w : W) (g : Id → Option Val) (hg : ∀ x v, g x = some v → ∃ a, v = .atom a) (hn : ∀ x d, (x, d) ∈ topDefs e → g x = none) :
    Behaves (step M Q) (step M Q) (.ev e .nil .halt ⟨g, [], w⟩) (.ev (analyze priv e) .nil .halt ⟨g, [], w⟩) := by
  obtain ⟨h1, h2⟩ := finals_ok _ (defs priv e) rfl (defs_ok hP)
  refine inline_behaves (C := ctxOf M Q (finals priv (defs priv e))) hQ hU (ctx_good h1) (analyze_rel hP) w g hg (fun x X hx => ?_)
  obtain ⟨n, hm, _, _⟩ := ctx_inv hx
  obtain ⟨d, h3, _⟩ := (finals_pure _ (defs priv e) rfl).2 n (assq_mem hm)
  rw [assq_id hm, defs_eq] at h3
  exact hn x d (List.mem_filter.mp h3).1

/-- **C65**.  The definitions the analysis works with are those of private constants, and of the global variables that are assigned
once in the program, in a place that is always reached. -/
theorem c65_constants (priv : Id → Bool) (e : Exp) (hb : ∀ x ∈ binders e, x.isGlobal = false) (x : Id) (d : Exp) :
    (x, d) ∈ defs priv e ↔ (x, d) ∈ topDefs e ∧ x.isGlobal = true ∧ (priv x = true ∨ timesAssigned x e = 1) := by
  rw [defs_eq, List.mem_filter]
  simp only [Bool.and_eq_true, Bool.or_eq_true, decide_eq_true_eq]
  constructor
  · rintro ⟨h1, h2, h3⟩
    rw [assignCount_times h2 hb] at h3
    exact ⟨h1, h2, h3⟩
  · rintro ⟨h1, h2, h3⟩
    rw [assignCount_times h2 hb]
    exact ⟨h1, h2, h3⟩

/-- **C65**.  Assignments of variables that are not private are never removed or copied. -/
theorem c65_assignments (priv : Id → Bool) (e : Exp) (ho : ∀ x, priv x = true → timesAssigned x e ≤ 1) (x : Id) (hx : priv x = false) :
    timesAssigned x (analyze priv e) = timesAssigned x e := analyze_count ho hx

/-! ### counterexamples -/

theorem closed_of {e : Exp} (h : ∀ y ∈ freeVars e, y.isGlobal = true) : Closed e := fun y hy => h y ((c47_free_vars y e).1.mpr hy)

/-- The machine gets stuck after `n` steps. -/
def stuckIn (f : State W → Option (State W)) (n : Nat) (s : State W) : Bool :=
  match iter f n s with
  | some (.ev e ρ κ σ) => (f (.ev e ρ κ σ)).isNone
  | _ => false

theorem stuckIn_fails {f : State W → Option (State W)} {n : Nat} {s : State W} (h : stuckIn f n s = true) : Fails f s := by
  unfold stuckIn at h
  split at h
  · rename_i hi
    refine ⟨_, ⟨n, hi⟩, by simpa using h, ?_⟩
    intro _ _ e; cases e
  · cases h

/-- `op 0` is a function of any two values, `op 1` of one, others are constants. -/
def sem : Sem Unit := ⟨fun n vs w =>
  match n, vs with
  | 0, [_, _] => some (7, w)
  | 1, [_] => some (8, w)
  | n + 2, [] => some (n + 2, w)
  | _, _ => none⟩

theorem sem_const (n : Nat) : Const sem (.op (n + 2)) := .inr ⟨.atom (n + 2), fun σ => rfl⟩

/-- global variables. -/
def gF : Id := ⟨-1, false⟩
def gK : Id := ⟨-2, false⟩
def gH : Id := ⟨-3, false⟩

/-- `(begin (let ([y 4]) (set! f (lambda () (op1 y)))) (f))`. -/
def inside : Exp :=
  .app (.lam [lexId 1] (.app (.var gF) [])) [.app (.lam [lexId 0] (.set gF (.lam [] (.prim noEffect (.op 1) [.var (lexId 0)])))) [.prim noEffect (.op 4) []]]

/-- A procedure assigned in the body of a `let` is inlined where the variables of the `let` are not bound: the program `inside`
returns 8, and has an unbound variable after the analysis. -/
theorem c65_counterexample : ¬ C65Full := by
  intro h
  have hb := h Unit sem leftToRight (fun _ => false) inside Beta.fair_leftToRight Fold.uniform_leftToRight (fun x hx => by cases hx)
    (by decide +kernel) (by decide +kernel) (fun x hx => by cases hx) (by
      intro x p hm
      simp [inside, topDefs, topDefsAll] at hm) () Unbox.noGlobs (fun x v hx => by cases hx) (fun x d _ => rfl)
  obtain ⟨u, h1, _⟩ := outcome_reach (f := step sem leftToRight) (s := .ev inside .nil .halt ⟨Unbox.noGlobs, [], ()⟩) (n := 33) (u := .atom 8) (w := ()) (by decide +kernel)
  have hs : stuckIn (step sem leftToRight) 29 (.ev (analyze (fun _ => false) inside) .nil .halt ⟨Unbox.noGlobs, [], ()⟩) = true := by decide +kernel
  exact Unbox.not_fails h1 (hb.fails (stuckIn_fails hs))

/-- `(begin (set! f (letrec ([g (lambda (x) (op0 x g))]) g)) (f 4))`. -/
def selfRef : Exp :=
  .app (.lam [lexId 1] (.app (.var gF) [.prim noEffect (.op 4) []]))
    [.set gF (.fix [lexId 0] [.lam [lexId 2] (.prim noEffect (.op 0) [.var (lexId 2), .var (lexId 0)])] (.var (lexId 0)))]

/-- A private procedure that uses itself is inlined and its assignment removed, though the copies use the variable: the program
`selfRef` returns 7, and has an unbound variable after the analysis. -/
theorem c65_private_counterexample : (∀ x d, (x, d) ∈ topDefs selfRef → Closed d) ∧ ¬ C65Full := by
  refine ⟨?_, ?_⟩
  · intro x d hm y hy
    simp [selfRef, topDefs, topDefsAll] at hm
    obtain ⟨_, rfl⟩ := hm
    exact closed_of (by decide +kernel) y hy
  intro h
  have hb := h Unit sem leftToRight (fun x => x == gF) selfRef Beta.fair_leftToRight Fold.uniform_leftToRight (fun x hx => by simp only [beq_iff_eq] at hx; subst hx; rfl)
    (by decide +kernel) (by decide +kernel) (fun x hx => by simp only [beq_iff_eq] at hx; subst hx; decide +kernel) (by
      intro x p hm
      simp [selfRef, topDefs, topDefsAll] at hm) () Unbox.noGlobs (fun x v hx => by cases hx) (fun x d _ => rfl)
  obtain ⟨u, h1, _⟩ := outcome_reach (f := step sem leftToRight) (s := .ev selfRef .nil .halt ⟨Unbox.noGlobs, [], ()⟩) (n := 31) (u := .atom 7) (w := ()) (by decide +kernel)
  have hs : stuckIn (step sem leftToRight) 25 (.ev (analyze (fun x => x == gF) selfRef) .nil .halt ⟨Unbox.noGlobs, [], ()⟩) = true := by decide +kernel
  exact Unbox.not_fails h1 (hb.fails (stuckIn_fails hs))

/-! ### an example -/

/-- `(begin (set! k 4) (begin (set! f (lambda (x) (op0 x k))) (begin (set! h (lambda (z) (if z (f z) k))) (h (f k)))))`. -/
def prog : Exp :=
  .app (.lam [lexId 0] (.app (.lam [lexId 1] (.app (.lam [lexId 2] (.app (.var gH) [.app (.var gF) [.var gK]]))
    [.set gH (.lam [lexId 4] (.ite (.var (lexId 4)) (.app (.var gF) [.var (lexId 4)]) (.var gK)))]))
    [.set gF (.lam [lexId 3] (.prim noEffect (.op 0) [.var (lexId 3), .var gK]))]))
    [.set gK (.prim noEffect (.op 4) [])]

/-- the private constant. -/
def privK : Id → Bool := fun x => x == gK

/-- the definitions of the program, in order. -/
theorem prog_defs : topDefs prog = [(gK, .prim noEffect (.op 4) []), (gF, .lam [lexId 3] (.prim noEffect (.op 0) [.var (lexId 3), .var gK])),
    (gH, .lam [lexId 4] (.ite (.var (lexId 4)) (.app (.var gF) [.var (lexId 4)]) (.var gK)))] := rfl

theorem prog_proper : Proper sem privK prog where
  global x hx := by simp only [privK, beq_iff_eq] at hx; subst hx; rfl
  binders := by decide +kernel
  once x hx := by simp only [privK, beq_iff_eq] at hx; subst hx; decide +kernel
  order l₁ x d l₂ h y hy hf := by
    simp only [privK, beq_iff_eq] at hy; subst hy
    rw [prog_defs] at h
    rcases l₁ with _ | ⟨a, l₁⟩
    · simp only [List.nil_append, List.cons.injEq, Prod.mk.injEq] at h
      rw [← h.1.2] at hf
      rw [← (c47_free_vars _ _).1] at hf
      exact absurd hf (by decide +kernel)
    · simp only [List.cons_append, List.cons.injEq] at h
      rw [← h.1]; simp
  tidy x d h := by
    rw [prog_defs] at h
    simp only [List.mem_cons, Prod.mk.injEq, List.not_mem_nil, or_false] at h
    rcases h with ⟨_, rfl⟩ | ⟨_, rfl⟩ | ⟨_, rfl⟩ <;> rfl
  call x f h := by rw [prog_defs] at h; simp at h
  closed x ids b h := by
    rw [prog_defs] at h
    simp only [List.mem_cons, Prod.mk.injEq, List.not_mem_nil, or_false] at h
    rcases h with ⟨_, h⟩ | ⟨_, h⟩ | ⟨_, h⟩
    · cases h
    · rw [h]; exact closed_of (by decide +kernel)
    · rw [h]; exact closed_of (by decide +kernel)
  recs x g l h := by rw [prog_defs] at h; simp at h
  const x p h := by
    rw [prog_defs] at h
    simp only [List.mem_cons, Prod.mk.injEq, List.not_mem_nil, or_false] at h
    rcases h with ⟨_, h⟩ | ⟨_, h⟩ | ⟨_, h⟩
    · injection h with _ h _; rw [h]; exact sem_const 2
    · cases h
    · cases h

/-- a program with a private constant, a procedure that is inlined and one that is not, meets the conditions of the theorems above.
The assignment of the private constant is removed, its value and the procedure are copied to the places where they are used. -/
example : Proper sem privK prog ∧ FairOrder leftToRight ∧ Uniform leftToRight ∧ (∀ x d, (x, d) ∈ topDefs prog → Unbox.noGlobs x = none) ∧ analyze privK prog =
    .app (.lam [lexId 0] (.app (.lam [lexId 1] (.app (.lam [lexId 2]
        (.app (.var gH) [.app (.lam [lexId 3] (.prim noEffect (.op 0) [.var (lexId 3), .prim noEffect (.op 4) []])) [.prim noEffect (.op 4) []]]))
      [.set gH (.lam [lexId 4] (.ite (.var (lexId 4)) (.app (.lam [lexId 3] (.prim noEffect (.op 0) [.var (lexId 3), .prim noEffect (.op 4) []])) [.var (lexId 4)])
        (.prim noEffect (.op 4) [])))]))
      [.set gF (.lam [lexId 3] (.prim noEffect (.op 0) [.var (lexId 3), .prim noEffect (.op 4) []]))]))
      [voidExp] :=
  ⟨prog_proper, Beta.fair_leftToRight, Fold.uniform_leftToRight, fun _ _ _ => rfl, by rfl⟩

end Verif.Globals
