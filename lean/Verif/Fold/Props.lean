import Verif.Fold.Main
import Verif.Beta.Props
/-
C36: constant folding preserves meaning.
-/
namespace Verif.Fold
open Verif.Core
open Verif.Beta (gstep bc bound_iff)
variable {W τ : Type} [DecidableEq τ]

/-- Programs as they are given to constant folding: every local variable is bound once; time stamps of ids are below `k`. -/
structure FoldProg (k : Nat) (e : Exp) : Prop where
  uniq : Uniq e
  loc : ∀ x ∈ binders e, x.isGlobal = false
  old : ∀ x, x ∈ binders e ∨ Free x e → x.ts < k

/-- Full statement of C36 for constant folding, for machines with a fixed order of evaluation of operands: if the types of
primitives are right, a program behaves as before. -/
def C36FoldFull : Prop :=
  ∀ (W τ : Type) (_ : DecidableEq τ) (M : Sem W) (t : Types τ) (has : τ → View → Prop) (Q : Op → List Exp → List Nat) (n k : Nat) (e : Exp),
    Honest M t has → FairOrder Q → Uniform Q → FoldProg k e →
    ∀ (w : W) (g : Id → Option Val), (∀ x v, g x = some v → ∃ a, v = .atom a) →
      Behaves (gstep M Q) (gstep M Q) (.ev e .nil .halt ⟨g, [], w⟩) (.ev (constantFold t n k e) .nil .halt ⟨g, [], w⟩)

theorem FStar.behaves {M : Sem W} {t : Types τ} {has : τ → View → Prop} {Q : Op → List Exp → List Nat} (hQ : FairOrder Q) (hU : Uniform Q) (hh : Honest M t has)
    {c : Id → Nat} {e e' : Exp} (h : FStar t [] c e e') (w : W) (g : Id → Option Val) (hg : ∀ x v, g x = some v → ∃ n, v = .atom n) :
    Behaves (gstep M Q) (gstep M Q) (.ev e .nil .halt ⟨g, [], w⟩) (.ev e' .nil .halt ⟨g, [], w⟩) := by
  induction h with
  | refl _ => exact Behaves.refl _ _
  | step _ h _ ih => exact (fold_behaves hQ hU hh h w g hg).trans ih

/-- **C36** (partial).  Constant folding preserves the result and the sequence of worlds of a program, as long as it does
not run into an error, provided that no type assertion mentions a global variable.  Without this condition the statement is
false (`c36_fold_counterexample`). -/
theorem c36_constant_fold_partial (M : Sem W) (t : Types τ) (has : τ → View → Prop) (Q : Op → List Exp → List Nat) (n k : Nat) (e : Exp)
    (hh : Honest M t has) (hQ : FairOrder Q) (hU : Uniform Q) (he : FoldProg k e) (hl : LocalAsserts t e)
    (w : W) (g : Id → Option Val) (hg : ∀ x v, g x = some v → ∃ a, v = .atom a) :
    Behaves (gstep M Q) (gstep M Q) (.ev e .nil .halt ⟨g, [], w⟩) (.ev (constantFold t n k e) .nil .halt ⟨g, [], w⟩) := by
  refine (cf_does (t := t) n [] k e ⟨fun y => ⟨List.nodup_iff_count_le_one.mp he.uniq.1 y, fun hy => ⟨he.loc y (bound_iff.mpr hy), rfl⟩⟩, fun y hy => he.old y (Or.inl (bound_iff.mpr hy)),
    fun _ _ => rfl, fun y hy => he.old y (Or.inr hy), fun y hy => he.uniq.2 y (bound_iff.mpr hy), hl⟩).2.behaves hQ hU hh w g hg

/-! ### examples -/

/-- `op 0` asserts that its operand is at least 10, `op 1` tests it, others are constants. -/
def sem : Sem Unit := ⟨fun n vs w =>
  match n, vs with
  | 0, [.atom a] => if 10 ≤ a then some (a, w) else none
  | 1, [.atom a] => if 10 ≤ a then some (2, w) else some (0, w)
  | n + 2, [] => some (n + 2, w)
  | _, _ => none⟩

/-- the types: `op 0` is a type assertion, `op 1` a type test, `op 20` has a known type. -/
def types : Types Unit where
  ret p := if p = .op 20 then some () else none
  check p := if p = .op 1 then some () else none
  assert p := if p = .op 0 then some () else none

/-- the values of the type. -/
def big : Unit → View → Prop := fun _ u => ∃ a, u = .atom a ∧ 10 ≤ a

theorem uniform_leftToRight : Uniform leftToRight := by
  intro op es es' h
  cases op <;> simp [leftToRight, h]

theorem honest_types : Honest sem types big := by
  refine ⟨?_, ?_, ?_, fun _ _ _ _ _ => rfl⟩
  · intro p T vs σ v σ' h1 h2
    simp only [types] at h1
    split at h1
    · rename_i hp; subst hp
      cases vs with
      | nil => simp only [doPrim, sem] at h2; cases h2; exact ⟨20, rfl, by decide⟩
      | cons u vs => simp [doPrim, sem] at h2
    · cases h1
  · intro p T u σ v σ' h1 h2
    simp only [types] at h1
    split at h1
    · rename_i hp; subst hp
      cases u with
      | atom a =>
        simp only [doPrim, sem, List.map_cons, List.map_nil, Val.view] at h2
        by_cases ha : 10 ≤ a
        · simp only [if_pos ha] at h2; cases h2
          exact ⟨fun _ => ⟨a, rfl, ha⟩, fun _ => rfl⟩
        · simp only [if_neg ha] at h2; cases h2
          refine ⟨fun h => by (cases h), fun ⟨b, hb, h⟩ => ?_⟩
          cases hb; exact absurd h ha
      | _ => simp [doPrim, sem, Val.view] at h2
    · cases h1
  · intro p T u σ v σ' h1 h2
    simp only [types] at h1
    split at h1
    · rename_i hp; subst hp
      cases u with
      | atom a =>
        simp only [doPrim, sem, List.map_cons, List.map_nil, Val.view] at h2
        by_cases ha : 10 ≤ a
        · exact ⟨a, rfl, ha⟩
        · simp only [if_neg ha] at h2; cases h2
      | _ => simp [doPrim, sem, Val.view] at h2
    · cases h1

/-- a global variable. -/
def glob : Id := ⟨-1, false⟩

/-- `(begin (assert g) (begin (set! g 5) (if (test g) 3 4)))`. -/
def changes : Exp :=
  .app (.lam [lexId 0] (.app (.lam [lexId 1] (.ite (.prim noEffect (.op 1) [.var glob]) (.prim noEffect (.op 3) []) (.prim noEffect (.op 4) [])))
    [.set glob (.prim noEffect (.op 5) [])])) [.prim Beta.prod (.op 0) [.var glob]]

/-- the global variable has the value 10 at first. -/
def globs : Id → Option Val := fun x => if x = glob then some (.atom 10) else none

theorem foldProg_of {k : Nat} {e : Exp} (h1 : (binders e).Nodup) (h2 : ∀ x ∈ binders e, x.isGlobal = false ∧ x ∉ freeVars e ∧ x.ts < k) (h3 : ∀ x ∈ freeVars e, x.ts < k) : FoldProg k e :=
  ⟨⟨h1, fun x hx hf => (h2 x hx).2.1 ((c47_free_vars x e).1.mpr hf)⟩, fun x hx => (h2 x hx).1, fun x hx => hx.elim (fun h => (h2 x h).2.2) (fun h => h3 x ((c47_free_vars x e).1.mpr h))⟩

/-- A type assertion about a global variable is taken to hold after the variable has been assigned to: the program
`changes` returns 4, and 3 after folding. -/
theorem c36_fold_counterexample : ¬ C36FoldFull := by
  intro h
  have hb := h Unit Unit inferInstance sem types big leftToRight 20 2 changes honest_types Beta.fair_leftToRight uniform_leftToRight
    (foldProg_of (by decide +kernel) (by decide +kernel) (by decide +kernel)) () globs (fun x v hx => by
      simp only [globs] at hx
      split at hx
      · injection hx with hx; exact ⟨10, hx.symm⟩
      · cases hx)
  obtain ⟨u, h1, e1⟩ := outcome_reach (f := gstep sem leftToRight) (s := .ev changes .nil .halt ⟨globs, [], ()⟩) (n := 35) (u := .atom 4) (w := ()) (by decide +kernel)
  obtain ⟨u', h2, e2⟩ := outcome_reach (f := gstep sem leftToRight) (s := .ev (constantFold types 20 2 changes) .nil .halt ⟨globs, [], ()⟩) (n := 41) (u := .atom 3) (w := ())
    (by decide +kernel)
  obtain ⟨v, hv, e⟩ := hb.result _ _ h1
  rw [(done_unique hv h2).1, e1, e2] at e
  cases e

/-- `(lambda (x) (let ((y 20)) (begin (assert x) (if (test x) (if (test y) x y) 4))))`. -/
def folds : Exp :=
  .lam [lexId 0] (.app (.lam [lexId 1] (.app (.lam [lexId 2] (.ite (.prim noEffect (.op 1) [.var (lexId 0)])
    (.ite (.prim noEffect (.op 1) [.var (lexId 1)]) (.var (lexId 0)) (.var (lexId 1))) (.prim noEffect (.op 4) []))) [.prim Beta.prod (.op 0) [.var (lexId 0)]]))
    [.prim noEffect (.op 20) []])

/-- a program with two tests that are decided by types meets the conditions of the theorem. -/
example : Honest sem types big ∧ FoldProg 3 folds ∧ LocalAsserts types folds ∧ constantFold types 20 3 folds =
    .lam [lexId 0] (.app (.lam [lexId 1] (.app (.lam [lexId 5] (beginExp 4 (.prim noEffect (.op 1) [.var (lexId 0)])
      (beginExp 3 (.prim noEffect (.op 1) [.var (lexId 1)]) (.var (lexId 0))))) [.prim Beta.prod (.op 0) [.var (lexId 0)]])) [.prim noEffect (.op 20) []]) := by
  refine ⟨honest_types, foldProg_of (by decide +kernel) (by decide +kernel) (by decide +kernel), ?_, by rfl⟩
  simp [folds, LocalAsserts, LocalAssertss, Beta.free_var, types, lexId, Id.isGlobal]

end Verif.Fold
