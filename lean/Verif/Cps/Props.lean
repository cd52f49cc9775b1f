import Verif.Cps.Gen
import Verif.Cps.Sim
import Verif.Core.History
/-
C34: CPS conversion preserves meaning.
-/
namespace Verif.Cps
open Verif.Core

variable {W : Type}

/-- A store at program start: no boxes yet, predefined globals hold atoms. -/
def Start (σ : Store W) : Prop := σ.heap = [] ∧ ∀ x v, σ.glob x = some v → ∃ n, v = .atom n

theorem posFrom_perm (p : Exp → Bool) : ∀ (l : List Exp) (k : Nat),
    (posFrom (fun a => !p a) k l ++ posFrom p k l).Perm (List.range' k l.length)
  | [], _ => by simp [posFrom]
  | a :: l, k => by
    have ih := posFrom_perm p l (k + 1)
    simp only [posFrom, List.length_cons, List.range'_succ]
    by_cases hp : p a = true
    · simp only [hp, Bool.not_true, Bool.false_eq_true, if_false, if_true]
      exact (List.perm_middle).trans (ih.cons k)
    · have hp : p a = false := by simpa using hp
      simp only [hp, Bool.not_false, if_true, Bool.false_eq_true, if_false, List.cons_append]
      exact ih.cons k

/-- the order in which converted programs evaluate operands visits each operand exactly once. -/
theorem cpsOrder_fair : FairOrder cpsOrder := by
  intro op es
  rw [List.range_eq_range']
  cases op with
  | call => exact posFrom_perm simple es 0
  | prim eff p =>
    simp only [cpsOrder]
    split
    · exact ((List.reverse_perm _).append_right _).trans (posFrom_perm varLike es 0)
    · exact posFrom_perm simple es 0

mutual
/-- Programs given to CPS conversion, with time stamps below `n`: no assignments to local variables, no `halt`,
groups of procedures are lambda expressions. -/
def SrcAny (n : Nat) : Exp → Prop
  | .var x => x.ts < n
  | .set x e => x.isGlobal = true ∧ SrcAny n e
  | .ite a b c => SrcAny n a ∧ SrcAny n b ∧ SrcAny n c
  | .prim _ p es => p ≠ .halt ∧ SrcAnys n es
  | .app f es => SrcAny n f ∧ SrcAnys n es
  | .lam ids b => (∀ x ∈ ids, x.isGlobal = false ∧ x.ts < n) ∧ SrcAny n b
  | .fix ids lams b => (∀ x ∈ ids, x.isGlobal = false ∧ x.ts < n) ∧ (∀ l ∈ lams, ∃ ps b, l = .lam ps b) ∧ SrcAnys n lams ∧ SrcAny n b
  | .letcc x b => x.isGlobal = false ∧ x.ts < n ∧ SrcAny n b
  | .withcc c e => SrcAny n c ∧ SrcAny n e
/-- lists of them. -/
def SrcAnys (n : Nat) : List Exp → Prop
  | [] => True
  | e :: es => SrcAny n e ∧ SrcAnys n es
end

/-- Full statement of C34: there is an order of evaluation of operands (which Scheme leaves open) such that, for any
meaning of primitives and any program after removal of assignments, the converted program behaves like the program. -/
def C34Full : Prop :=
  ∃ ord, FairOrder ord ∧ ∀ (W : Type) (M : Sem W) (e : Exp) (n : Nat) (σ : Store W), SrcAny n e → Uniq e → Start σ →
    SameBehaviour (step M ord) (step M leftToRight) (.ev e .nil .halt σ) (.ev (cpsConvert e n) .nil .halt σ)

/-- **C34** (partial).  The converted program behaves like the program: same result, same effects on the world in the
same order, same divergence, as long as the program does not run into an error; including programs that capture and
invoke continuations.  Not covered: programs with a `withcc` whose first operand is simple but not a local variable,
a lambda expression or `ktrap()`; for these the statement is false, see `c34_counterexample`. -/
theorem c34_partial : ∃ ord, FairOrder ord ∧ ∀ (W : Type) (M : Sem W) (e : Exp) (n : Nat) (σ : Store W),
    Src n e → Uniq e → Start σ →
    SameBehaviour (step M ord) (step M leftToRight) (.ev e .nil .halt σ) (.ev (cpsConvert e n) .nil .halt σ) := by
  refine ⟨cpsOrder, cpsOrder_fair, fun W M e n σ hs hu hσ => ?_⟩
  have hok : Ok (n + 2) e := (Ok.mk hs hu : Ok n e).mono (by omega)
  have hg := (gen e (n + 2) hok).2 (fun _ => False)
    (.lam [lexId (n + 1), lexId n] (haltExp (.var (lexId n)))) (fun x hx => hx.elim)
  refine sim.same (Sync.ev hg.1 (fun x v _ hl => by simp [Env.lookup] at hl) (KRel.lam (fun ρ' _ => ?_)) ?_)
  · exact .halt (lexId_ne (by omega)) (lexId_global _)
  · refine ⟨fun x => ?_, by rw [hσ.1]; exact .nil, rfl⟩
    rcases hx : σ.glob x with _ | v
    · exact Or.inl ⟨rfl, rfl⟩
    · obtain ⟨m, rfl⟩ := hσ.2 x v hx
      exact Or.inr ⟨_, _, rfl, rfl, .atom m⟩

/-- **C34** (partial).  The whole sequence of worlds is the same, too, and the converted program runs into an error only if the
program does. -/
theorem c34_traces_partial : ∃ ord, FairOrder ord ∧ ∀ (W : Type) (M : Sem W) (e : Exp) (n : Nat) (σ : Store W),
    Src n e → Uniq e → Start σ →
    Behaves (step M ord) (step M leftToRight) (.ev e .nil .halt σ) (.ev (cpsConvert e n) .nil .halt σ) := by
  obtain ⟨ord, hf, h⟩ := c34_partial
  exact ⟨ord, hf, fun W M e n σ hs hu hσ => SameBehaviour.behaves (step_recordable ord) (step_recordable leftToRight) (M := M)
    (s := .ev e .nil .halt σ.fresh) (t := .ev (cpsConvert e n) .nil .halt σ.fresh) rfl (h _ M.recd e n σ.fresh hs hu hσ)⟩

/-- a program with an effect: `(op m)`. -/
def effExp (m : Nat) : Exp := .prim ⟨true, true, true⟩ (.op m) []

/-- a non-trivial instance: `(letcc k (begin (withcc k (f (op 1))) …))` with a procedure and a conditional. -/
example : ∃ e : Exp, Src 10 e ∧ Uniq e ∧ simple e = false := by
  refine ⟨.letcc (lexId 0) (.app (.lam [lexId 1] (.ite (.app (.var (lexId 1)) [effExp 1])
      (.withcc (.var (lexId 0)) (.app (.var (lexId 1)) [.app (.var (lexId 1)) [effExp 2]])) (effExp 3)))
      [.lam [lexId 2] (.var (lexId 2))]), ?_, ⟨?_, ?_⟩, ?_⟩
  · simp [Src, SrcAll, effExp, lexId, Id.isGlobal]
  · simp [binders, bindersAll, effExp, lexId]
  · intro x hx hf
    have : ¬ referenced x (.letcc (lexId 0) (.app (.lam [lexId 1] (.ite (.app (.var (lexId 1)) [effExp 1])
      (.withcc (.var (lexId 0)) (.app (.var (lexId 1)) [.app (.var (lexId 1)) [effExp 2]])) (effExp 3)))
      [.lam [lexId 2] (.var (lexId 2))])) = true := by
      simp only [binders, bindersAll, effExp, List.append_nil, List.nil_append, List.mem_cons, List.cons_append, List.not_mem_nil, or_false] at hx
      rcases hx with rfl | rfl | rfl <;> decide +kernel
    exact this (referenced_iff.mpr hf)
  · simp [simple]

/-! ### the failing case -/

/-- `(letcc k (withcc (begin (op 1) k) (begin (letcc j (op 3)) (op 2))))`. -/
def badWithcc : Exp :=
  .letcc (lexId 0) (.withcc (.app (.lam [lexId 1] (.var (lexId 0))) [effExp 1])
    (.app (.lam [lexId 2] (effExp 2)) [.letcc (lexId 3) (effExp 3)]))

theorem badWithcc_uniq : Uniq badWithcc := by
  refine ⟨by simp [badWithcc, binders, bindersAll, effExp, lexId], ?_⟩
  intro x hx hf
  have : ¬ referenced x badWithcc = true := by
    simp only [badWithcc, binders, bindersAll, effExp, List.append_nil, List.nil_append, List.mem_cons, List.cons_append,
      List.not_mem_nil, or_false] at hx
    rcases hx with rfl | rfl | rfl | rfl <;> decide +kernel
  exact this (referenced_iff.mpr hf)

/-- its CPS form. -/
theorem badWithcc_cps : cpsConvert badWithcc 4 =
    letExp [lexId 0] [.lam [lexId 5, lexId 4] (haltExp (.var (lexId 4)))]
      (letExp [lexId 3] [.lam [lexId 7, lexId 8]
          (.app (letExp [lexId 6] [letExp [] [] (effExp 1)] (.var (lexId 0))) [ktrapExp, letExp [] [] (effExp 2)])]
        (.app (.var (lexId 3)) [ktrapExp, letExp [] [] (effExp 3)])) := by
  have r1 : referenced (lexId 2) (effExp 2) = false := by decide +kernel
  have r2 : referenced (lexId 1) (.var (lexId 0)) = false := by decide +kernel
  have r3 : (lexId 1 = lexId 0) = False := by simp [lexId]
  simp only [effExp] at r1
  simp [r1, r2, r3, cpsConvert, badWithcc, cps, cpsOne, cpsSimple, cpsPrimArgs, simple, simpleAll, isVarOf, effExp, letExp]

/-- every operation adds its number to the log. -/
def logSem : Sem (List Nat) := ⟨fun n _ w => some (0, n :: w)⟩

/-- world at the end, if `n` steps lead to the end. -/
def outcome {W : Type} (M : Sem W) (ord : Op → List Exp → List Nat) (n : Nat) (s : State W) : Option W :=
  match iter (step M ord) n s with
  | some (.done _ w) => some w
  | _ => none

theorem outcome_reach {M : Sem W} {ord : Op → List Exp → List Nat} {n : Nat} {s : State W} {w : W}
    (h : outcome M ord n s = some w) : ∃ v, Reach (step M ord) s (.done v w) := by
  unfold outcome at h
  split at h
  · rename_i v w' hr
    injection h with h
    subst h
    exact ⟨v, n, hr⟩
  · cases h

/-- an order of evaluation has two choices for two operands. -/
theorem FairOrder.two {ord : Op → List Exp → List Nat} (h : FairOrder ord) (op : Op) (a b : Exp) :
    ord op [a, b] = [0, 1] ∨ ord op [a, b] = [1, 0] := by
  have h1 := h op [a, b]
  have hl := h1.length_eq
  rcases hx : ord op [a, b] with _ | ⟨i, _ | ⟨j, _ | ⟨_, _⟩⟩⟩ <;> rw [hx] at hl <;> simp at hl
  rw [hx] at h1
  have hi := h1.mem_iff (a := i)
  have hj := h1.mem_iff (a := j)
  have hnd := h1.nodup_iff.mpr (List.nodup_range)
  simp at hi hj hnd
  have : i = 0 ∧ j = 1 ∨ i = 1 ∧ j = 0 := by omega
  rcases this with ⟨rfl, rfl⟩ | ⟨rfl, rfl⟩ <;> simp

theorem FairOrder.zero {ord : Op → List Exp → List Nat} (h : FairOrder ord) (op : Op) : ord op [] = [] :=
  (h op []).eq_nil

/-- `begin`, in any order of evaluation. -/
theorem begin_reach {M : Sem W} {ord : Op → List Exp → List Nat} (hf : FairOrder ord) {x : Id} {b e : Exp} {ρ : Env} {κ : Kont}
    {σ σ' : Store W} {v : Val} (he : Evals M ord e ρ σ v σ') :
    Reach (step M ord) (.ev (.app (.lam [x] b) [e]) ρ κ σ) (.ev b (.bind x v ρ) κ σ') := by
  have hl := Evals.lam (M := M) (ord := ord) [x] b ρ
  rcases FairOrder.two hf .call (.lam [x] b) e with h | h
  · refine Reach.cons (b := .args .call [.lam [x] b, e] (fun _ => .trap) [0, 1] ρ κ σ) (by simp [step, h]) ?_
    refine (args_step (i := 0) (es := [.lam [x] b, e]) rfl (hl _)).reach.trans ?_
    refine (args_step (i := 1) (es := [.lam [x] b, e]) rfl he).reach.trans ?_
    exact Reach.cons (b := .ap (.clos [x] b ρ) [v] κ σ') rfl (Reach.one rfl)
  · refine Reach.cons (b := .args .call [.lam [x] b, e] (fun _ => .trap) [1, 0] ρ κ σ) (by simp [step, h]) ?_
    refine (args_step (i := 1) (es := [.lam [x] b, e]) rfl he).reach.trans ?_
    refine (args_step (i := 0) (es := [.lam [x] b, e]) rfl (hl _)).reach.trans ?_
    exact Reach.cons (b := .ap (.clos [x] b ρ) [v] κ σ') rfl (Reach.one rfl)

/-- The full statement is false: the continuation operand of a `withcc` is evaluated late when it is simple. -/
theorem c34_counterexample : ¬ C34Full := by
  rintro ⟨ord, hf, h⟩
  have hsb := h (List Nat) logSem badWithcc 4 ⟨fun _ => none, [], []⟩ (by simp [badWithcc, SrcAny, SrcAnys, effExp, lexId, Id.isGlobal])
    badWithcc_uniq ⟨rfl, by simp⟩
  have hz : ∀ op, ord op [] = [] := FairOrder.zero hf
  -- the program
  have hsrc : Reach (step logSem ord) (.ev badWithcc .nil .halt ⟨fun _ => none, [], []⟩) (.done (.atom 0) [2, 3, 1]) := by
    have he : ∀ m ρ (σ : Store (List Nat)), Evals logSem ord (effExp m) ρ σ (.atom 0) ⟨σ.glob, σ.heap, m :: σ.world⟩ := by
      intro m ρ σ
      exact EvalL.prim (ord := ord) (hz _) (.nil σ) rfl
    refine Reach.cons (b := .ev _ (.bind (lexId 0) (.cont .halt) .nil) .halt _) rfl
      (Reach.cons (b := .ev _ _ (.withcc _ _) _) rfl ?_)
    refine (begin_reach hf (he 1 _ _)).trans ?_
    refine (Evals.local (v := .cont .halt) (lexId_global _) (by simp [Env.lookup, lexId]) _ _).reach.trans ?_
    refine Reach.cons (b := .ev _ _ (.throw (.cont .halt)) _) rfl ?_
    have hl : ∀ ρ σ, Evals logSem ord (.letcc (lexId 3) (effExp 3)) ρ σ (.atom 0) ⟨σ.glob, σ.heap, 3 :: σ.world⟩ :=
      fun ρ σ κ => Reach1.cons (b := .ev (effExp 3) _ κ σ) rfl (he 3 _ _ κ).reach
    refine (begin_reach hf (hl _ _)).trans ((he 2 _ _ _).reach.trans ?_)
    exact Reach.cons (b := .ap (.cont .halt) [.atom 0] .trap _) rfl
      (Reach.cons (b := .ret (.atom 0) .halt _) rfl (Reach.one rfl))
  -- the converted program
  have htgt : ∃ v, Reach (step logSem leftToRight) (.ev (cpsConvert badWithcc 4) .nil .halt ⟨fun _ => none, [], []⟩) (.done v [2, 1, 3]) := by
    rw [badWithcc_cps]
    exact outcome_reach (n := 79) (by decide +kernel)
  obtain ⟨v', h1, _⟩ := hsb.result _ _ hsrc
  obtain ⟨_, htgt⟩ := htgt
  have := (done_unique h1 htgt).2
  simp at this

end Verif.Cps
