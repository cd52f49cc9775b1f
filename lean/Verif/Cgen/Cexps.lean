import Verif.Cgen.Rel
/-
C expressions compute the values of the expressions they are made from.
-/
namespace Verif.Core.Sys
variable {W : Type} {A : Sys W}

/-- some number of steps. -/
def Reaches (A : Sys W) (s : A.S) (ws : List W) (s' : A.S) : Prop := ∃ n, Path A n s ws s'

theorem Reaches.refl (s : A.S) : A.Reaches s [] s := ⟨0, .refl s⟩
theorem Reaches.trans {s s1 s2 : A.S} {ws ws' : List W} (h : A.Reaches s ws s1) (h' : A.Reaches s1 ws' s2) : A.Reaches s (ws ++ ws') s2 := by
  obtain ⟨n, h⟩ := h; obtain ⟨m, h'⟩ := h'; exact ⟨_, h.trans h'⟩
theorem Reaches.one {s s1 : A.S} (h : A.step s = some s1) (hw : A.world s1 = A.world s) : A.Reaches s [] s1 := ⟨1, .one h hw⟩
theorem Reaches.cons {s s1 s2 : A.S} {ws : List W} (h : A.step s = some s1) (hw : A.world s1 = A.world s) (h' : A.Reaches s1 ws s2) : A.Reaches s ws s2 := by
  obtain ⟨n, h'⟩ := h'; exact ⟨_, .same h hw h'⟩
theorem Reaches.snoc {s s1 s2 : A.S} {ws : List W} (h' : A.Reaches s ws s1) (h : A.step s1 = some s2) (hw : A.world s2 = A.world s1) : A.Reaches s ws s2 := by
  simpa using h'.trans (.one h hw)
theorem Reaches.fails {s s1 : A.S} {ws : List W} (h : A.Reaches s ws s1) (h' : A.Fails s1) : A.Fails s := by
  obtain ⟨n, h⟩ := h; exact .of_path h h'

open Classical in
/-- the worlds of one step. -/
noncomputable def change (w w' : W) : List W := if w' = w then [] else [w']

theorem Reaches.step {s s1 : A.S} (h : A.step s = some s1) : A.Reaches s (change (A.world s) (A.world s1)) s1 := by
  unfold change
  split
  · rename_i e; exact .one h e
  · rename_i e; exact ⟨1, .new h e (.refl _)⟩

end Verif.Core.Sys

namespace Verif.Cgen
open Verif.Core Sys
variable {W : Type}

/-! ### texts -/

theorem isSafe_isCexp (T : Texts) : ∀ e, isSafe T e = true → isCexp T e = true := by
  intro e
  apply isSafe.induct (motive_1 := fun e => isSafe T e = true → isCexp T e = true) (motive_2 := fun es => areSafe T es = true → areCexp T es = true)
  all_goals (intros; simp_all [isSafe, isCexp, areSafe, areCexp])

theorem areSafe_mem {T : Texts} {es : List Exp} (h : areSafe T es = true) : ∀ e ∈ es, isSafe T e = true := by
  induction es with
  | nil => simp
  | cons e es ih =>
    simp only [areSafe, Bool.and_eq_true] at h
    intro e' he'
    rcases List.mem_cons.1 he' with rfl | he'
    · exact h.1
    · exact ih h.2 e' he'

theorem areSafe_of {T : Texts} {es : List Exp} (h : ∀ e ∈ es, isSafe T e = true) : areSafe T es = true := by
  induction es with
  | nil => rfl
  | cons e es ih => simp [areSafe, h e (List.mem_cons_self ..), ih (fun e' he' => h e' (List.mem_cons_of_mem _ he'))]

theorem areCexp_mem {T : Texts} {es : List Exp} (h : areCexp T es = true) : ∀ e ∈ es, isCexp T e = true := by
  induction es with
  | nil => simp
  | cons e es ih =>
    simp only [areCexp, Bool.and_eq_true] at h
    intro e' he'
    rcases List.mem_cons.1 he' with rfl | he'
    · exact h.1
    · exact ih h.2 e' he'

theorem cgCexps_map (T : Texts) (renv : Renv) (es : List Exp) : cgCexps T renv es = es.map (cgCexp T renv) := by
  induction es with
  | nil => rfl
  | cons e es ih => simp [cgCexps, ih]

theorem isBool_code (T : Texts) (renv : Renv) : ∀ e, (cgCexp T renv e).isBool T = true → boolE T e = true := by
  intro e
  induction e using isCexp.induct (motive_2 := fun _ => True) with
  | case1 x => intro h; simp only [cgCexp, cgVar] at h; split at h <;> [skip; split at h <;> [skip; split at h]] <;> simp [CExp.isBool] at h
  | case2 a b c _ ihb ihc =>
    intro h
    simp only [cgCexp, mkIte] at h
    simp only [boolE, Bool.and_eq_true]
    split at h
    · rename_i hc; simp only [Bool.and_eq_true] at hc; exact ⟨ihb hc.1.1, ihc hc.1.2⟩
    · split at h
      · rename_i hc; simp only [Bool.and_eq_true] at hc; exact ⟨ihb hc.1.1, ihc hc.1.2⟩
      · simp only [CExp.isBool, Bool.and_eq_true] at h; exact ⟨ihb h.1, ihc h.2⟩
  | case3 eff p es _ => intro h; simpa [cgCexp, CExp.isBool, boolE] using h
  | case4 e h1 h2 h3 =>
    intro h
    cases e <;> first | (exact absurd rfl (h1 _)) | (exact absurd rfl (h2 _ _ _)) | (exact absurd rfl (h3 _ _ _)) | (simp [cgCexp, CExp.isBool] at h)
  | case5 => trivial
  | case6 => trivial

theorem isFalse_code {T : Texts} {renv : Renv} {e : Exp} (h : (cgCexp T renv e).isFalse T = true) : ∃ eff p, e = .prim eff p [] ∧ T.isFalse p = true := by
  cases e with
  | prim eff p es =>
    cases es with
    | nil => exact ⟨eff, p, rfl, by simpa [cgCexp, cgCexps, CExp.isFalse] using h⟩
    | cons => simp [cgCexp, cgCexps, CExp.isFalse] at h
  | var x => simp only [cgCexp, cgVar] at h; split at h <;> [skip; split at h <;> [skip; split at h]] <;> simp [CExp.isFalse] at h
  | ite a b c => simp only [cgCexp, mkIte] at h; split at h <;> [skip; split at h] <;> simp [CExp.isFalse] at h
  | _ => simp [cgCexp, CExp.isFalse] at h

mutual
/-- no allocation. -/
def CExp.noGc : CExp → Bool
  | .ite a b c => a.noGc && b.noGc && c.noGc
  | .both a b => a.noGc && b.noGc
  | .either a b => a.noGc && b.noGc
  | .prim gc _ _ as => !gc && CExp.noGcs as
  | _ => true
@[inherit_doc CExp.noGc]
def CExp.noGcs : List CExp → Bool
  | [] => true
  | a :: as => a.noGc && CExp.noGcs as
end

theorem same_eq : ∀ a b : CExp, a.same b = true → a.noGc = true → b.noGc = true → a = b := by
  intro a b
  apply CExp.same.induct (motive_1 := fun a b => a.same b = true → a.noGc = true → b.noGc = true → a = b)
    (motive_2 := fun a b => CExp.sames a b = true → CExp.noGcs a = true → CExp.noGcs b = true → a = b)
  all_goals (intros; simp_all [CExp.same, CExp.sames, CExp.noGc, CExp.noGcs])

theorem safe_noGc (T : Texts) (renv : Renv) : ∀ e, isSafe T e = true → (cgCexp T renv e).noGc = true := by
  intro e
  apply isSafe.induct (motive_1 := fun e => isSafe T e = true → (cgCexp T renv e).noGc = true) (motive_2 := fun es => areSafe T es = true → CExp.noGcs (cgCexps T renv es) = true)
  · intro x _; simp only [cgCexp, cgVar]; split <;> [skip; split <;> [skip; split]] <;> rfl
  · intro a b c iha ihb ihc h
    simp only [isSafe, Bool.and_eq_true] at h
    simp only [cgCexp, mkIte]
    split <;> [skip; split] <;> simp [CExp.noGc, iha h.1.1, ihb h.1.2, ihc h.2]
  all_goals (intros; simp_all [isSafe, areSafe, cgCexp, cgCexps, CExp.noGc, CExp.noGcs])

theorem noEff_safe {M : Sem W} {T : Texts} {e : Exp} (h : NoEff M e) : isCexp T e = true → isSafe T e = true := by
  induction h with
  | var => intro _; rfl
  | ite _ _ _ iha ihb ihc => intro h; simp only [isCexp, Bool.and_eq_true] at h; simp [isSafe, iha h.1.1, ihb h.1.2, ihc h.2]
  | prim ha _ _ ih =>
    intro h; simp only [isCexp, Bool.and_eq_true] at h
    simp [isSafe, ha, h.1, areSafe_of (fun e he => ih e he (areCexp_mem h.2 e he))]

end Verif.Cgen
