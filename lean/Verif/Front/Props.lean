import Verif.Front.Pass
/-
C74: the first two passes of the compiler, one after the other (c.sf:267-275).
-/
namespace Verif.Front
open Verif.Core Verif.Letrec Verif.Boxes
variable {W : Type}

/-- `fix-letrecs`, then `remove-assignments` (c.sf:267-272).  Both draw identifiers from the one counter of the compiler
(`reset-timestamps` is called once, c.sf:259), so that the second pass goes on counting where the first one stopped. -/
def front (n k : Nat) (e : Exp) : Exp := removeAssignments (fixLetrecs n k e) (fixL n k e).2

theorem inv_of {K : Nat → Option Nat} {k : Nat} {e : Exp} (he : FixProg k e) (hg : Good K e) : Inv ⟨fun x => decide (x ∈ recIds e), K⟩ k e :=
  ⟨he.uniq, he.loc, fun x h => he.old x (Or.inl h), fun x h => he.old x (Or.inr h), hg, marks_recIds he.uniq.1⟩

theorem ind_old {k k' : Nat} {x : Id} (h : x.ts < k) : ind k k' x = 0 := by
  rw [ind, if_neg (by omega)]

/-- **C74**.  What `fix-letrecs` returns is a program of the kind `remove-assignments` is for: the binders are distinct and not
free in it, all identifiers are older than the counter, nothing bound by `fix` is assigned, and no variable is free or assigned
that is not so in the program. -/
theorem c74_shape {K : Nat → Option Nat} (n k : Nat) (e : Exp) (he : FixProg k e) (hg : Good K e) :
    Uniq (fixLetrecs n k e) ∧ Src (fixL n k e).2 (fixLetrecs n k e) ∧ (∀ x, Free x (fixLetrecs n k e) → Free x e) ∧
      ∀ x, AssignedIn x (fixLetrecs n k e) → AssignedIn x e := by
  have h := fixL_kept n k e (inv_of he hg)
  have hcnt := fun x => h.cnt x
  have hb : ∀ x, x ∈ binders (fixLetrecs n k e) → x ∈ binders e ∨ (k : Int) ≤ x.ts ∧ x.ts < (fixL n k e).2 := by
    intro x hx
    have h1 := hcnt x
    have h2 : 0 < cb x (fixL n k e).1 := mem_of_cb.mp hx
    by_cases hi : (k : Int) ≤ x.ts ∧ x.ts < (fixL n k e).2
    · exact Or.inr hi
    · rw [ind, if_neg hi] at h1
      exact Or.inl (mem_of_cb.mpr (by omega))
  refine ⟨⟨List.nodup_iff_count_le_one.mpr fun x => ?_, fun x hx hf => ?_⟩, src_of _ (fun x hx => ?_) (fun x hx => ?_) h.ok, h.free, fun x hx => ?_⟩
  · have h1 := hcnt x
    have h2 : cb x e ≤ 1 := List.nodup_iff_count_le_one.mp he.uniq.1 x
    show cb x (fixL n k e).1 ≤ 1
    by_cases hx : x ∈ binders e
    · rw [ind_old (he.old x (Or.inl hx))] at h1
      omega
    · have h3 : cb x e = 0 := List.count_eq_zero.mpr hx
      have h4 : ind k (fixL n k e).2 x ≤ 1 := by unfold ind; split <;> omega
      omega
  · have h1 := h.free x hf
    rcases hb x hx with h2 | h2
    · exact he.uniq.2 x h2 h1
    · have := he.old x (Or.inr h1)
      omega
  · rcases hb x hx with h2 | h2
    · refine ⟨he.loc x h2, ?_⟩
      have := he.old x (Or.inl h2)
      have := h.le
      omega
    · refine ⟨?_, h2.2⟩
      have h3 := h2.1
      simp only [Id.isGlobal]
      simp
      omega
  · have := he.old x (Or.inr (h.free x hx))
    have := h.le
    omega
  · have h1 : ¬ x ∈ binders e := fun hx' => he.uniq.2 x hx' (h.free x (assigned_free hx))
    exact assigned_of _ ((h.tgt x (tgts_of hx)).resolve_right h1) h1

/-- Full statement of C74. -/
def C74Full : Prop :=
  ∀ (W : Type) (M : Sem W) (ord : Op → Nat → List Nat) (n k : Nat) (e : Exp), FairPos ord → FixProg k e → (∀ x, AssignedIn x e → x.isGlobal = true) →
    ∀ (w : W) (g : Id → Option Val), (∀ x v, g x = some v → ∃ a, v = .atom a) →
      Behaves (rstep (fun x => decide (x ∈ recIds e)) M (positional ord)) (step M (positional ord))
        (.ev e .nil .halt ⟨g, [], w⟩) (.ev (front n k e) .nil .halt ⟨g, [], w⟩)

/-- **C74** (partial).  The two passes together: run by the machine that has neither cells nor uninitialized variables, the result
has the behaviour of the source program — the same value, the same sequence of worlds, the same divergence — as long as this one does not run
into an error.  Missing: the programs that C35 leaves out (`Good`). -/
theorem c74_front_partial (M : Sem W) (K : Nat → Option Nat) (ord : Op → Nat → List Nat) (n k : Nat) (e : Exp) (hf : FairPos ord) (hK : Const M K)
    (he : FixProg k e) (hg : Good K e) (hs : ∀ x, AssignedIn x e → x.isGlobal = true)
    (w : W) (g : Id → Option Val) (ha : ∀ x v, g x = some v → ∃ a, v = .atom a) :
    Behaves (rstep (fun x => decide (x ∈ recIds e)) M (positional ord)) (step M (positional ord))
      (.ev e .nil .halt ⟨g, [], w⟩) (.ev (front n k e) .nil .halt ⟨g, [], w⟩) := by
  obtain ⟨h1, h2, _, h4⟩ := c74_shape n k e he hg
  exact (c35_fix_letrecs_partial M K ord n k e hf hK he hg w g ha).trans
    (c33_traces M ord hf _ _ ⟨g, [], w⟩ h2 h1 (fun x hx => hs x (h4 x hx)) ⟨rfl, ha⟩)

/-- **C74**.  No assignment to a local variable is left after the two passes. -/
theorem c74_no_assignments {K : Nat → Option Nat} (n k : Nat) (e : Exp) (he : FixProg k e) (hg : Good K e) (hs : ∀ x, AssignedIn x e → x.isGlobal = true) :
    NoLocalSet (front n k e) := by
  obtain ⟨h1, h2, _, h4⟩ := c74_shape n k e he hg
  exact c33_no_assignments _ _ h2 h1 (fun x hx => hs x (h4 x hx))

/-- The second pass does not make up for the order of the first (`c35_counterexample`): `(let ((x 5)) (letrec* ((a (set! x 6)) (b x)) b))`
returns 6, and 5 after both. -/
theorem c74_counterexample : ¬ C74Full := by
  intro h
  have hb := h Nat sem lr 20 5 reorders fair_lr (fixProg_of (by decide +kernel) (by decide +kernel) (by decide +kernel))
    (fun x hx => absurd ((c47_free_vars x reorders).1.mpr (assigned_free hx)) (by rw [show freeVars reorders = [] by decide +kernel]; simp)) 0 (fun _ => none) (fun x v hx => by cases hx)
  obtain ⟨u, h1, e1⟩ := outcome_reach (f := rstep (fun x => decide (x ∈ recIds reorders)) sem (positional lr)) (s := .ev reorders .nil .halt ⟨fun _ => none, [], 0⟩) (n := 54) (u := .atom 6) (w := 0)
    (by decide +kernel)
  obtain ⟨u', h2, e2⟩ := outcome_reach (f := step sem (positional lr)) (s := .ev (front 20 5 reorders) .nil .halt ⟨fun _ => none, [], 0⟩) (n := 67) (u := .atom 5) (w := 0)
    (by decide +kernel)
  obtain ⟨v, hv, e⟩ := hb.result _ _ h1
  rw [(done_unique hv h2).1, e1, e2] at e
  cases e

/-- the program of C35 meets the conditions; its variable `v` is in a box after the two passes. -/
example : FairPos lr ∧ Const sem consts ∧ FixProg 12 recs ∧ Good consts recs ∧ (∀ x, AssignedIn x recs → x.isGlobal = true) ∧ front 20 12 recs =
    letExp [lexId 1, lexId 2] [.prim noEffect (.op 7) [], voidExp]
      (letExp [lexId 14] [boxExp (.var (lexId 2))]
        (.fix [lexId 0, lexId 3]
          [.lam [lexId 6] (letExp [] [] (.ite (.prim noEffect (.op 0) []) (.app (.var (lexId 3)) [.var (lexId 6)]) (.prim noEffect (.op 3) []))),
           .lam [lexId 10] (letExp [] [] (.ite (.var (lexId 10)) (.app (.var (lexId 0)) [.var (lexId 1)]) (boxrefExp (.var (lexId 14)))))]
          (letExp [lexId 12] [boxsetExp (.var (lexId 14)) (.prim ⟨false, true, true⟩ (.op 1) [.var (lexId 1)])]
            (letExp [] [] (letExp [lexId 13] [.lam [] (letExp [] [] (.prim noEffect (.op 0) []))]
              (letExp [] [] (.app (.var (lexId 3)) [boxrefExp (.var (lexId 14))]))))))) :=
  ⟨fair_lr, const_sem, fixProg_of (by decide +kernel) (by decide +kernel) (by decide +kernel), good_of _ (by decide +kernel),
    fun x hx => absurd ((c47_free_vars x recs).1.mpr (assigned_free hx)) (by rw [show freeVars recs = [] by decide +kernel]; simp), by rfl⟩

end Verif.Front
