import Verif.Core.Steps
/-
Complete evaluations of expressions and of lists of operands.
-/
namespace Verif.Core
variable {W : Type} {M : Sem W} {ord : Op → List Exp → List Nat}

/-- `e` evaluates to `v`, in any continuation. -/
def Evals (M : Sem W) (ord : Op → List Exp → List Nat) (e : Exp) (ρ : Env) (σ : Store W) (v : Val) (σ' : Store W) : Prop :=
  ∀ κ, Reach1 (step M ord) (.ev e ρ κ σ) (.ret v κ σ')

/-- the evaluation of `e` fails, in any continuation. -/
def EFails (M : Sem W) (ord : Op → List Exp → List Nat) (e : Exp) (ρ : Env) (σ : Store W) : Prop :=
  ∀ κ, Fails (step M ord) (.ev e ρ κ σ)

/-- evaluation of a list from left to right. -/
inductive EvalL (M : Sem W) (ord : Op → List Exp → List Nat) (ρ : Env) : List Exp → Store W → List Val → Store W → Prop
  | nil (σ : Store W) : EvalL M ord ρ [] σ [] σ
  | cons {e : Exp} {es : List Exp} {σ σ1 σ2 : Store W} {v : Val} {vs : List Val} : Evals M ord e ρ σ v σ1 →
      EvalL M ord ρ es σ1 vs σ2 → EvalL M ord ρ (e :: es) σ (v :: vs) σ2

/-- failure of the evaluation of a list from left to right. -/
inductive FailL (M : Sem W) (ord : Op → List Exp → List Nat) (ρ : Env) : List Exp → Store W → Prop
  | here {e : Exp} {es : List Exp} {σ : Store W} : EFails M ord e ρ σ → FailL M ord ρ (e :: es) σ
  | there {e : Exp} {es : List Exp} {σ σ1 : Store W} {v : Val} : Evals M ord e ρ σ v σ1 → FailL M ord ρ es σ1 →
      FailL M ord ρ (e :: es) σ

theorem EvalL.length {ρ : Env} {es : List Exp} {σ σ' : Store W} {vs : List Val} (h : EvalL M ord ρ es σ vs σ') :
    vs.length = es.length := by
  induction h with
  | nil => rfl
  | cons _ _ ih => simp [ih]

theorem EvalL.snoc {ρ : Env} {es : List Exp} {σ σ1 σ2 : Store W} {vs : List Val} {e : Exp} {v : Val}
    (h : EvalL M ord ρ es σ vs σ1) (he : Evals M ord e ρ σ1 v σ2) : EvalL M ord ρ (es ++ [e]) σ (vs ++ [v]) σ2 := by
  induction h with
  | nil => exact .cons he (.nil _)
  | cons h1 _ ih => exact .cons h1 (ih he)

/-- one operand. -/
theorem args_step {op : Op} {es : List Exp} {d : Nat → Val} {i : Nat} {todo : List Nat} {ρ : Env} {κ : Kont} {σ σ' : Store W}
    {e : Exp} {v : Val} (he : es[i]? = some e) (h : Evals M ord e ρ σ v σ') :
    Reach1 (step M ord) (.args op es d (i :: todo) ρ κ σ) (.args op es (upd d i v) todo ρ κ σ') := by
  have h1 : step M ord (.args op es d (i :: todo) ρ κ σ) = some (.ev e ρ (.args op es d i todo ρ κ) σ) := by
    cases op <;> simp [step, he]
  exact Reach1.cons h1 ((h _).reach.trans (Reach.one rfl))

theorem args_fail {op : Op} {es : List Exp} {d : Nat → Val} {i : Nat} {todo : List Nat} {ρ : Env} {κ : Kont} {σ : Store W}
    {e : Exp} (he : es[i]? = some e) (h : EFails M ord e ρ σ) : Fails (step M ord) (.args op es d (i :: todo) ρ κ σ) := by
  have h1 : step M ord (.args op es d (i :: todo) ρ κ σ) = some (.ev e ρ (.args op es d i todo ρ κ) σ) := by
    cases op <;> simp [step, he]
  exact Fails.of_step h1 (h _)

/-- record the values of consecutive operands. -/
def setFrom (d : Nat → Val) : Nat → List Val → Nat → Val
  | _, [] => d
  | k, v :: vs => setFrom (upd d k v) (k + 1) vs

theorem setFrom_lt {d : Nat → Val} : ∀ (vs : List Val) {k : Nat} {d : Nat → Val} {j : Nat}, j < k → setFrom d k vs j = d j := by
  intro vs
  induction vs with
  | nil => intro k d j _; rfl
  | cons v vs ih =>
    intro k d j h
    simp only [setFrom]
    rw [ih (by omega), upd, if_neg (by omega)]

theorem setFrom_vals : ∀ (vs : List Val) {k : Nat} {d : Nat → Val},
    (List.range' k vs.length).map (setFrom d k vs) = vs := by
  intro vs
  induction vs with
  | nil => intro k d; rfl
  | cons v vs ih =>
    intro k d
    simp only [List.length_cons, List.range'_succ, List.map_cons, setFrom]
    rw [setFrom_lt (d := d) vs (by omega), ih]
    simp [upd]

theorem vals_setFrom {vs : List Val} {d : Nat → Val} {n : Nat} (h : n = vs.length) : vals (setFrom d 0 vs) n = vs := by
  rw [vals, h, List.range_eq_range', setFrom_vals]

theorem EvalL.args {op : Op} {ρ : Env} {as : List Exp} {σ σ' : Store W} {ws : List Val} (h : EvalL M ord ρ as σ ws σ') :
    ∀ {es : List Exp} {k : Nat} {d : Nat → Val} {κ : Kont}, (∀ j, es[k + j]? = as[j]?) ∨ as = [] →
      Reach (step M ord) (.args op es d (List.range' k as.length) ρ κ σ) (.args op es (setFrom d k ws) [] ρ κ σ') := by
  induction h with
  | nil => intro es k d κ _; exact Reach.refl _
  | cons he _ ih =>
    rename_i e as σ σ1 σ2 v vs _
    intro es k d κ hj
    simp only [List.length_cons, List.range'_succ, setFrom]
    rcases hj with hj | hj
    · have h0 : es[k]? = some e := by simpa using hj 0
      refine (args_step h0 he).reach.trans (ih (Or.inl (fun j => ?_)))
      have := hj (j + 1)
      rw [List.getElem?_cons_succ] at this
      rw [← this]
      congr 1
      omega
    · cases hj

theorem FailL.args {op : Op} {ρ : Env} {as : List Exp} {σ : Store W} (h : FailL M ord ρ as σ) :
    ∀ {es : List Exp} {k : Nat} {d : Nat → Val} {κ : Kont}, (∀ j, es[k + j]? = as[j]?) →
      Fails (step M ord) (.args op es d (List.range' k as.length) ρ κ σ) := by
  induction h with
  | here he =>
    intro es k d κ hj
    simp only [List.length_cons, List.range'_succ]
    exact args_fail (by simpa using hj 0) he
  | there he _ ih =>
    intro es k d κ hj
    simp only [List.length_cons, List.range'_succ]
    refine Fails.of_reach (args_step (by simpa using hj 0) he).reach (ih (fun j => ?_))
    have := hj (j + 1)
    rw [List.getElem?_cons_succ] at this
    rw [← this]
    congr 1
    omega

/-- a call whose operands are evaluated from left to right. -/
theorem EvalL.app {ρ : Env} {f : Exp} {as : List Exp} {σ σ' : Store W} {w : Val} {ws : List Val} {κ : Kont}
    (ho : ord .call (f :: as) = List.range (f :: as).length)
    (h : EvalL M ord ρ (f :: as) σ (w :: ws) σ') : Reach1 (step M ord) (.ev (.app f as) ρ κ σ) (.ap w ws κ σ') := by
  have h1 : step M ord (.ev (.app f as) ρ κ σ) =
      some (.args .call (f :: as) (fun _ => .trap) (List.range' 0 (f :: as).length) ρ κ σ) := by
    simp only [step, ho, List.range_eq_range']
  refine Reach1.cons h1 ((h.args (Or.inl (fun j => by rw [Nat.zero_add]))).trans (Reach.one ?_))
  simp only [step]
  rw [vals_setFrom (by simpa using h.length.symm)]

/-- a primitive whose operands are evaluated from left to right. -/
theorem EvalL.prim {ρ : Env} {eff : Effect} {p : PrimName} {as : List Exp} {σ σ' σ'' : Store W} {v : Val} {ws : List Val}
    (ho : ord (.prim eff p) as = List.range as.length)
    (h : EvalL M ord ρ as σ ws σ') (hp : doPrim M p ws σ' = some (.ok v σ'')) : Evals M ord (.prim eff p as) ρ σ v σ'' := by
  intro κ
  have h1 : step M ord (.ev (.prim eff p as) ρ κ σ) =
      some (.args (.prim eff p) as (fun _ => .trap) (List.range' 0 as.length) ρ κ σ) := by
    simp only [step, ho, List.range_eq_range']
  refine Reach1.cons h1 ((h.args (Or.inl (fun j => by rw [Nat.zero_add]))).trans (Reach.one ?_))
  simp only [step]
  rw [vals_setFrom h.length.symm, hp]

theorem Evals.lam (ids : List Id) (b : Exp) (ρ : Env) (σ : Store W) : Evals M ord (.lam ids b) ρ σ (.clos ids b ρ) σ :=
  fun _ => Reach1.one rfl

theorem Evals.local {x : Id} {ρ : Env} {v : Val} (hx : x.isGlobal = false) (h : ρ.lookup x = some v) (σ : Store W) :
    Evals M ord (.var x) ρ σ v σ := by
  intro κ
  refine Reach1.one ?_
  simp [step, hx, h]

/-- `let`, with operands evaluated from left to right. -/
theorem EvalL.letE {ρ : Env} {ids : List Id} {b : Exp} {as : List Exp} {σ σ' : Store W} {ws : List Val} {κ : Kont}
    (ho : ord .call (.lam ids b :: as) = List.range (.lam ids b :: as).length)
    (h : EvalL M ord ρ as σ ws σ') (hl : ids.length = as.length) :
    Reach1 (step M ord) (.ev (.app (.lam ids b) as) ρ κ σ) (.ev b (bindAll ids ws ρ) κ σ') := by
  refine (EvalL.app ho (.cons (Evals.lam ids b ρ σ) h)).trans (Reach.one ?_)
  simp only [step]
  rw [if_pos (by rw [hl, h.length])]

end Verif.Core
