import Verif.Arity.Model
/-
Property theorems C46.
-/
namespace Verif.Arity

/-- Full statement of C46 for fixed arity. -/
def FixedExact : Prop := ∀ c ac : Nat, argcheck (argcAnn c) ac = .apply ↔ ac = c
/-- Full statement of C46 for rest arguments (`n` required ones). -/
def RestExact : Prop := ∀ n ac : Nat, argcheck (restAnn (n + 1)) ac = .apply ↔ n ≤ ac

theorem fx_id (z : Int) (h : -8388608 ≤ z ∧ z < 8388608) : fx z = z := by
  unfold fx; rw [Int.bmod_def]; omega

theorem argcAnn_eq (c : Nat) (h : c < 1000) : argcAnn c = c * 1000 + c := by
  unfold argcAnn; rw [fx_id ((c:Int) * 1000) (by omega), fx_id _ (by omega)]
theorem rangeAnn_eq (a b : Nat) (ha : a < 1000) (hb : b < 1000) : rangeAnn a b = a * 1000 + b := by
  unfold rangeAnn; rw [fx_id ((a:Int) * 1000) (by omega), fx_id _ (by omega)]
theorem restAnn_eq (n : Nat) (h : n < 1000) : restAnn (n + 1) = n * 1000 + 999 := by
  unfold restAnn
  rw [fx_id ((n:Int) + 1 - 1) (by omega), fx_id (((n:Int) + 1 - 1) * 1000) (by omega), fx_id _ (by omega)]; omega

theorem check_eq (a b ac : Nat) (hb : b < 1000) :
    (argcheck ((a:Int) * 1000 + b) ac = .apply ↔ a ≤ ac ∧ ac ≤ b) ∧
    (argcheck ((a:Int) * 1000 + b) ac = .badArgc ↔ ¬ (a ≤ ac ∧ ac ≤ b)) ∧
    (argcOk ((a:Int) * 1000 + b) ac = true ↔ a ≤ ac ∧ ac ≤ b) := by
  unfold argcheck argcOk
  have h1 : ((a:Int) * 1000 + b).tdiv 1000 = a := by
    rw [Int.tdiv_eq_ediv_of_nonneg (by omega)]; omega
  have h2 : ((a:Int) * 1000 + b).tmod 1000 = b := by
    rw [Int.tmod_eq_emod_of_nonneg (by omega)]; omega
  rw [if_pos (by omega), h1, h2]
  refine ⟨?_, ?_, ?_⟩
  · split <;> simp <;> omega
  · split <;> simp <;> omega
  · simp

/-- Fixed arity below 1000: exactly that many arguments are accepted, every other count is reported as an
argument count error. -/
theorem c46_fixed_partial (c ac : Nat) (hc : c < 1000) :
    (argcheck (argcAnn c) ac = .apply ↔ ac = c) ∧ (argcheck (argcAnn c) ac = .badArgc ↔ ac ≠ c) ∧
    (argcOk (argcAnn c) ac = true ↔ ac = c) := by
  rw [argcAnn_eq c hc]
  have := check_eq c c ac hc
  refine ⟨this.1.trans ?_, this.2.1.trans ?_, this.2.2.trans ?_⟩ <;> omega

/-- Range annotations with bounds below 1000. -/
theorem c46_range_partial (a b ac : Nat) (ha : a < 1000) (hb : b < 1000) :
    (argcheck (rangeAnn a b) ac = .apply ↔ a ≤ ac ∧ ac ≤ b) ∧
    (argcheck (rangeAnn a b) ac = .badArgc ↔ ¬ (a ≤ ac ∧ ac ≤ b)) := by
  rw [rangeAnn_eq a b ha hb]
  have := check_eq a b ac hb
  exact ⟨this.1, this.2.1⟩

/-- Rest-argument procedures with fewer than 1000 required parameters accept every count from the required one up to
999. -/
theorem c46_rest_partial (n ac : Nat) (hn : n < 1000) (hac : ac < 1000) :
    (argcheck (restAnn (n + 1)) ac = .apply ↔ n ≤ ac) ∧ (argcheck (restAnn (n + 1)) ac = .badArgc ↔ ac < n) := by
  rw [restAnn_eq n hn]
  have := check_eq n 999 ac (by omega)
  exact ⟨this.1.trans (by omega), this.2.1.trans (by omega)⟩

example : argcheck (argcAnn 3) 3 = .apply ∧ argcheck (restAnn 2) 0 = .badArgc ∧ (3:Nat) < 1000 := by decide

/-- The code violates the full statement: a procedure of 1000 parameters accepts nothing. -/
theorem c46_fixed_counterexample : ¬ FixedExact := by
  intro h; exact absurd ((h 1000 1000).2 rfl) (by decide)

/-- The code violates the full statement: a rest-argument procedure refuses 1000 arguments. -/
theorem c46_rest_counterexample : ¬ RestExact := by
  intro h; exact absurd ((h 0 1000).2 (by omega)) (by decide)

end Verif.Arity
