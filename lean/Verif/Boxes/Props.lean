import Verif.Boxes.Gen
import Verif.Boxes.Sim
import Verif.Core.History
/-
C33: assignment conversion preserves meaning.
-/
namespace Verif.Boxes
open Verif.Core
variable {W : Type}

/-- A store at program start: no boxes yet, predefined globals hold atoms. -/
def Start (σ : Store W) : Prop := σ.heap = [] ∧ ∀ x v, σ.glob x = some v → ∃ n, v = .atom n

/-- **C33**.  For every meaning of primitives, every order of evaluation of operands, and every program with
assignments (binders distinct; assigned variables are global or bound by a procedure or `letcc`): the program
without assignments (run by the machine that binds variables to values) behaves like the program (run by the machine
that binds variables to cells): same result, same effects on the world in the same order, same divergence, as long as the
program does not run into an error. -/
theorem c33_same_behaviour (M : Sem W) (ord : Op → Nat → List Nat) (hf : FairPos ord) (e : Exp) (n : Nat) (σ : Store W)
    (hw : Src n e) (hu : Uniq e) (ha : ∀ x, AssignedIn x e → x.isGlobal = true) (hσ : Start σ) :
    SameBehaviour (cstep M (positional ord)) (step M (positional ord)) (.ev e .nil .halt σ) (.ev (removeAssignments e n) .nil .halt σ) := by
  have hg := (gen n e [] n hw hu ⟨Nat.le_refl _, fun x b h => by simp [assq] at h, fun _ _ => rfl, fun x hx => Or.inl (ha x hx)⟩).1
  refine (sim M hf).same (Sync.ev (μ := []) hg (fun x v _ hl => by simp [Env.lookup] at hl) .halt ?_)
  refine ⟨fun x => ?_, ?_, rfl⟩
  · rcases hx : σ.glob x with _ | v
    · exact Or.inl ⟨rfl, rfl⟩
    · obtain ⟨m, rfl⟩ := hσ.2 x v hx
      exact Or.inr ⟨_, _, rfl, rfl, .atom m⟩
  · rw [hσ.1]
    exact ⟨rfl, fun a v w h => by simp at h, fun a v a' h => by simp at h, fun a b c h => by simp at h⟩

/-- **C33**.  The whole sequence of worlds is the same, too, and the program without assignments runs into an error only if
the program does. -/
theorem c33_traces (M : Sem W) (ord : Op → Nat → List Nat) (hf : FairPos ord) (e : Exp) (n : Nat) (σ : Store W)
    (hw : Src n e) (hu : Uniq e) (ha : ∀ x, AssignedIn x e → x.isGlobal = true) (hσ : Start σ) :
    Behaves (cstep M (positional ord)) (step M (positional ord)) (.ev e .nil .halt σ) (.ev (removeAssignments e n) .nil .halt σ) :=
  SameBehaviour.behaves (cstep_recordable (positional ord)) (step_recordable (positional ord)) (M := M) (s := .ev e .nil .halt σ.fresh)
    (t := .ev (removeAssignments e n) .nil .halt σ.fresh) rfl (c33_same_behaviour M.recd ord hf e n σ.fresh hw hu ha hσ)

mutual
/-- no assignment to a local variable anywhere. -/
def NoLocalSet : Exp → Prop
  | .var _ => True
  | .set x e => x.isGlobal = true ∧ NoLocalSet e
  | .ite a b c => NoLocalSet a ∧ NoLocalSet b ∧ NoLocalSet c
  | .prim _ _ es => NoLocalSets es
  | .app f es => NoLocalSet f ∧ NoLocalSets es
  | .lam _ b => NoLocalSet b
  | .fix _ lams b => NoLocalSets lams ∧ NoLocalSet b
  | .letcc _ b => NoLocalSet b
  | .withcc k e => NoLocalSet k ∧ NoLocalSet e
/-- for lists. -/
def NoLocalSets : List Exp → Prop
  | [] => True
  | e :: es => NoLocalSet e ∧ NoLocalSets es
end

theorem noLocalSets_boxes (ps : List (Id × Id)) : NoLocalSets (ps.map (fun p => boxExp (.var p.1))) := by
  induction ps with
  | nil => simp [NoLocalSets]
  | cons p ps ih => simp only [List.map_cons, NoLocalSets, boxExp, NoLocalSet]; exact ⟨⟨trivial, trivial⟩, ih⟩

mutual
theorem Bx.noset {s : Id → Option Id} : {e t : Exp} → Bx s e t → NoLocalSet t
  | _, _, .var _ => by simp [NoLocalSet]
  | _, _, .vbox _ _ _ => by simp [boxrefExp, NoLocalSet, NoLocalSets]
  | _, _, .gset hg h => by simp only [NoLocalSet]; exact ⟨hg, Bx.noset h⟩
  | _, _, .lset _ _ _ h => by simp only [boxsetExp, NoLocalSet, NoLocalSets]; exact ⟨trivial, Bx.noset h, trivial⟩
  | _, _, .ite h1 h2 h3 => by simp only [NoLocalSet]; exact ⟨Bx.noset h1, Bx.noset h2, Bx.noset h3⟩
  | _, _, .prim h => by simp only [NoLocalSet]; exact Bxs.noset h
  | _, _, .null h => Bx.noset h
  | _, _, .idlet _ h => Bx.noset h
  | _, _, .app h1 h2 => by simp only [NoLocalSet]; exact ⟨Bx.noset h1, Bxs.noset h2⟩
  | _, _, .fix h1 h2 _ _ => by simp only [NoLocalSet]; exact ⟨Bxs.noset h1, Bx.noset h2⟩
  | _, _, .lam h => by simp only [NoLocalSet]; exact Entry.noset h
  | _, _, .letcc0 _ _ h => by simp only [NoLocalSet]; exact Bx.noset h
  | _, _, .letcc1 h => by simp only [NoLocalSet]; exact Entry.noset h
  | _, _, .withcc h1 h2 => by simp only [NoLocalSet]; exact ⟨Bx.noset h1, Bx.noset h2⟩
theorem Bxs.noset {s : Id → Option Id} : {es ts : List Exp} → Bxs s es ts → NoLocalSets ts
  | _, _, .nil => by simp [NoLocalSets]
  | _, _, .cons h1 h2 => by simp only [NoLocalSets]; exact ⟨Bx.noset h1, Bxs.noset h2⟩
theorem Entry.noset {s : Id → Option Id} : {ids : List Id} → {b t : Exp} → Entry s ids b t → NoLocalSet t
  | _, _, _, .mk (ps := ps) _ _ _ _ _ _ h => by
    simp only [letExp, NoLocalSet]
    exact ⟨Bx.noset h, noLocalSets_boxes ps⟩
end

/-- C33: no assignment to a local variable is left. -/
theorem c33_no_assignments (e : Exp) (n : Nat) (hw : Src n e) (hu : Uniq e) (ha : ∀ x, AssignedIn x e → x.isGlobal = true) :
    NoLocalSet (removeAssignments e n) :=
  (gen n e [] n hw hu ⟨Nat.le_refl _, fun x b h => by simp [assq] at h, fun _ _ => rfl, fun x hx => Or.inl (ha x hx)⟩).1.noset

/-! ### a concrete program -/

/-- `((lambda (x) ((lambda (f) ((lambda (u) x) (f))) (lambda () (set! x (op 1))))) (op 2))`: a captured variable is assigned. -/
def sample : Exp :=
  .app (.lam [lexId 0] (.app (.lam [lexId 1] (.app (.lam [lexId 2] (.var (lexId 0))) [.app (.var (lexId 1)) []]))
    [.lam [] (.set (lexId 0) (.prim ⟨false, false, true⟩ (.op 1) []))])) [.prim ⟨false, false, true⟩ (.op 2) []]

theorem sample_src : Src 3 sample := by
  simp [Src, SrcAll, sample, lexId, Id.isGlobal]

theorem sample_uniq : Uniq sample := by
  refine ⟨by simp [sample, binders, bindersAll, lexId], ?_⟩
  intro x hx hf
  have hr := (c47_referenced x sample).1.mpr hf
  simp only [sample, binders, bindersAll, List.append_nil, List.nil_append, List.mem_cons, List.cons_append, List.not_mem_nil, or_false] at hx
  rcases hx with rfl | rfl | rfl <;> exact absurd hr (by decide +kernel)

theorem sample_assigned (x : Id) : ¬ AssignedIn x sample := by
  intro h
  have hf : Free x sample := by
    have := (vinfo_assigned x sample).mpr h
    obtain ⟨u, hu, _⟩ := this
    exact (vinfo_free x sample).mp ⟨u, hu⟩
  have : vinfo sample = [] := by decide +kernel
  have := (vinfo_free x sample).mpr hf
  obtain ⟨u, hu⟩ := this
  rw [‹vinfo sample = []›] at hu; simp at hu

/-- primitives that return and log their number. -/
def logSem : Sem (List Nat) := ⟨fun n _ w => some (n, w ++ [n])⟩

/-- the hypotheses of `c33_same_behaviour` hold for it, and its result depends on the assignment. -/
example : Src 3 sample ∧ Uniq sample ∧ (∀ x, AssignedIn x sample → x.isGlobal = true) ∧
    Start (W := List Nat) ⟨fun _ => none, [], []⟩ ∧
    (∃ v, Reach (cstep logSem (positional (fun _ n => List.range n))) (.ev sample .nil .halt ⟨fun _ => none, [], []⟩) (.done v [2, 1]) ∧
      v.view = .atom 1) ∧
    (∃ v, Reach (step logSem (positional (fun _ n => List.range n))) (.ev (removeAssignments sample 3) .nil .halt ⟨fun _ => none, [], []⟩)
      (.done v [2, 1]) ∧ v.view = .atom 1) := by
  refine ⟨sample_src, sample_uniq, fun x h => absurd h (sample_assigned x), ⟨rfl, fun x v h => by simp at h⟩, ?_, ?_⟩
  · exact outcome_reach (n := 40) (by decide +kernel)
  · exact outcome_reach (n := 79) (by decide +kernel)

end Verif.Boxes
