import Verif.Lift.Gen
/-
C52: lambda lifting preserves the meaning of programs.
-/
namespace Verif.Lift
open Verif.Core
variable {W : Type}

/-- **C52**.  For every meaning of primitives, every fair order of evaluation that depends on the number of operands only, every
program without free local variables in the form produced by the preceding passes (`Wf`), and every start state whose
globals are constants: the lifted program behaves like the program.  It has the same result, goes through the same sequence
of worlds, and fails or runs forever only if the program does (or the program fails). -/
theorem c52_lambda_lift (M : Sem W) (Q : Op → List Exp → List Nat) (hQ : FairOrder Q) (hU : Uniform Q) (n : Nat) (e : Exp) (hw : Wf n e)
    (hc : ∀ x, Free x e → x.isGlobal = true) (w : W) (glob : Id → Option Val) (hg : ∀ x v, glob x = some v → ∃ a, v = .atom a) :
    Behaves (step M Q) (step M Q) (.ev e .nil .halt ⟨glob, [], w⟩) (.ev (lambdaLift e n) .nil .halt ⟨glob, [], w⟩) := by
  obtain ⟨mono, new, e1, d1, f1, _, _⟩ := lift_ok e ⟨n, []⟩ hw
  rw [List.append_nil] at e1
  obtain ⟨T, hT⟩ : ∃ T, T = (lift e ⟨n, []⟩).2.top := ⟨_, rfl⟩
  have hnd : (labs T).Nodup := by rw [hT, e1]; exact d1
  have hfr : Fresh T n := by
    intro t ht
    rw [hT, e1] at ht
    obtain ⟨m, rfl, hm, _⟩ := f1 t ht
    exact ⟨rfl, by simp only [labelId]; exact_mod_cast hm⟩
  have hlr : LR T e (lift e ⟨n, []⟩).1 := (gen hfr e).1 ⟨n, []⟩ hw (Nat.le_refl _) (fun p hp => by rw [hT]; exact hp)
  have htop : HasTop T (.fix (labs T) (T.map Prod.snd) .nil) := by
    intro u hu
    have hul : u.isGlobal = false := by
      rw [Id.isGlobal]; exact decide_eq_false (by have := (hfr u hu).2; omega)
    rw [Env.lookup]
    cases hi : idxOf u (labs T) with
    | none => exact absurd hu (Beta.idxOf_none.mp hi)
    | some j =>
      have hj := idxOf_get hi
      simp only [labs, List.getElem?_map] at hj
      obtain ⟨p, hp, rfl⟩ := Option.map_eq_some_iff.mp hj
      exact ⟨hul, j, p.2, hp, rfl⟩
  have hs : Sync T (.ev e .nil .halt ⟨glob, [], w⟩) (.ev (lift e ⟨n, []⟩).1 (.fix (labs T) (T.map Prod.snd) .nil) .halt ⟨glob, [], w⟩) := by
    refine .ev hlr (.of htop (fun y hl hy => ?_)) .halt ⟨fun y => ?_, .nil, rfl⟩
    · have := hc y hy
      rw [hl] at this; cases this
    · cases hy : glob y with
      | none => exact Or.inl ⟨hy, hy⟩
      | some v =>
        obtain ⟨a, rfl⟩ := hg y v hy
        exact Or.inr ⟨_, _, hy, hy, .atom a⟩
  have key : SimQ (step M Q) (step M Q) (fun s t => ∃ t0, Quiet (step M Q) t t0 ∧ Sync T s t0) := by
    refine ⟨fun s t ⟨t0, hq, h⟩ => ?_, fun s t ⟨t0, hq, h⟩ => by rw [h.world, hq.world]⟩
    rcases (sim (M := M) hQ hU hnd).next s t0 h with hf | ⟨v, v', w, h1, h2, hv⟩ | ⟨s', t', h1, h2, h3⟩
    · exact Or.inl hf
    · exact Or.inr (Or.inl ⟨v, v', w, h1, hq.trans h2, hv⟩)
    · exact Or.inr (Or.inr ⟨s', t', h1, h2.before hq, t', .refl _, h3⟩)
  refine key.behaves ⟨_, ?_, hs⟩
  subst hT
  exact .one rfl rfl

/-! ### example -/

/-- `(let ([h demo]) (h (p)))`; `demo` is the procedure of the example of C37. -/
def prog : Exp := letExp [lexId 5] [demo] (.app (.var (lexId 5)) [.prim ⟨false, false, false⟩ (.op 0) []])

/-- every primitive gives `#f`. -/
def falseSem : Sem Unit := ⟨fun _ _ w => some (0, w)⟩

theorem uniform_leftToRight : Uniform leftToRight := fun _ es es' h => by simp [leftToRight, h]

example : Wf 6 prog ∧ (∀ x, Free x prog → x.isGlobal = true) ∧ FairOrder leftToRight ∧ Uniform leftToRight ∧
    (lift prog ⟨6, []⟩).2.top.length = 3 ∧
    outcome (step falseSem leftToRight) 43 (.ev prog .nil .halt ⟨fun _ => none, [], ()⟩) = some (.atom 0, ()) ∧
    outcome (step falseSem leftToRight) 130 (.ev (lambdaLift prog 6) .nil .halt ⟨fun _ => none, [], ()⟩) = some (.atom 0, ()) := by
  refine ⟨?_, ?_, fun _ _ => .refl _, uniform_leftToRight, by decide +kernel, by decide +kernel, by decide +kernel⟩
  · simp only [prog, demo, letExp, Wf, WfLams, WfAll, lexId, Id.isGlobal]
    refine ⟨⟨by simp, by simp, by simp⟩, ⟨by simp, by simp, ⟨by simp, by simp, ?_⟩, by simp, ⟨⟨by simp, by simp, by simp⟩, ⟨by simp, by simp, by simp⟩, trivial⟩, by simp⟩, trivial⟩
    intro ps c hm x hx l hl hf
    have hf' := (c47_free_lexvars x l).1.2
    simp only [List.mem_cons, List.not_mem_nil, or_false, Exp.lam.injEq] at hm hl
    rcases hm with ⟨rfl, _⟩ | ⟨rfl, _⟩ <;> rw [List.mem_singleton.mp hx] at hf hf' <;> rcases hl with rfl | rfl <;>
      exact absurd (hf' ⟨by decide, hf⟩) (by decide +kernel)
  · intro x hx
    cases hg : x.isGlobal with
    | true => rfl
    | false =>
      have := (c47_free_lexvars x prog).1.2 ⟨hg, hx⟩
      rw [show freeLexvars prog = [] from by decide +kernel] at this
      cases this

end Verif.Lift
