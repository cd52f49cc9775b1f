import Verif.Beta.Main
import Verif.Beta.Sim
/-
The removal of `(let () b)`, and sequences of reductions, preserve the behaviour of a program (C36).
-/
namespace Verif.Beta
open Verif.Core

variable {W : Type} {M : Sem W}

/-- For every order of evaluation of operands in `b` there is one in `a` such that the programs behave in the same way,
whatever atoms predefined globals hold. -/
def Eqv (M : Sem W) (a b : Exp) : Prop :=
  ∀ Q, FairOrder Q → ∃ P, FairOrder P ∧ ∀ (w : W) (g : Id → Option Val), (∀ x v, g x = some v → ∃ n, v = .atom n) →
    Behaves (gstep M P) (gstep M Q) (.ev a .nil .halt ⟨g, [], w⟩) (.ev b .nil .halt ⟨g, [], w⟩)

theorem Eqv.refl (a : Exp) : Eqv M a a := fun Q hQ => ⟨Q, hQ, fun _ _ _ => Behaves.refl _ _⟩

theorem Eqv.trans {a b c : Exp} (h1 : Eqv M a b) (h2 : Eqv M b c) : Eqv M a c := by
  intro Q hQ
  obtain ⟨P, hP, h⟩ := h2 Q hQ
  obtain ⟨P', hP', h'⟩ := h1 P hP
  exact ⟨P', hP', fun w g hg => (h' w g hg).trans (h w g hg)⟩

theorem Eqv.reduce {R : Redex} {a : Exp} (h : Ok M R false a) : Eqv M a (T R a) :=
  fun Q hQ => ⟨srcOrd R Q, srcOrd_fair hQ, fun w g hg => reduce_behaves hQ h w g hg⟩

/-- The removal of `(let () b)` where it is in the program. -/
def R0 : Redex := ⟨.null, [], none, none⟩

theorem isRedex_R0 {f : Exp} {es : List Exp} (h : isRedex R0 f es = true) : ∃ b, f = .lam [] b ∧ es = [] := by
  unfold isRedex at h
  split at h
  · simp [R0] at h
    obtain ⟨h1, h2⟩ := h
    subst h1 h2
    exact ⟨_, rfl, rfl⟩
  · cases h

theorem T_R0_var (x : Id) : T R0 (.var x) = .var x := by simp [T, R0, Redex.goneId]

theorem T_R0_app (f : Exp) (es : List Exp) : (∃ b, f = .lam [] b ∧ es = [] ∧ T R0 (.app f es) = T R0 b) ∨
    (isRedex R0 f es = false ∧ (∀ b, f = .lam [] b → es ≠ []) ∧ T R0 (.app f es) = .app (T R0 f) (es.map (T R0))) := by
  cases h : isRedex R0 f es with
  | true =>
    obtain ⟨b, rfl, rfl⟩ := isRedex_R0 h
    exact Or.inl ⟨b, rfl, rfl, by rw [T, if_pos h]; rfl⟩
  | false =>
    refine Or.inr ⟨rfl, ?_, by simp only [T, h, Bool.false_eq_true, if_false, Ts_eq]⟩
    rintro b rfl rfl
    simp [isRedex, R0] at h

theorem nf_T_R0 (e : Exp) : nf (T R0 e) = nf e := by
  induction e using ind with
  | var x => rw [T_R0_var]
  | set x e ih => simp [nf, T, ih]
  | ite a b c h1 h2 h3 => simp [nf, T, h1, h2, h3]
  | prim eff p es ih => simp only [nf, T, Ts_eq, nfs_eq, List.map_map]; exact congrArg _ (List.map_congr_left ih)
  | app f es h1 h2 =>
    rcases T_R0_app f es with ⟨b, rfl, rfl, h⟩ | ⟨_, _, h⟩
    · rw [h]
      simp only [T, nf, nfs, mkApp, Exp.lam.injEq, true_and] at h1 ⊢
      exact h1
    · rw [h]
      simp only [nf, nfs_eq, List.map_map, h1]; exact congrArg _ (List.map_congr_left h2)
  | lam ids b ih => simp [nf, T, ih]
  | fix ids lams b h1 h2 => simp only [nf, T, Ts_eq, nfs_eq, List.map_map, h2]; exact congrArg (Exp.fix ids · (nf b)) (List.map_congr_left h1)
  | letcc x b ih => simp [nf, T, ih]
  | withcc k e h1 h2 => simp [nf, T, h1, h2]

mutual
/-- the number of applications. -/
def cnt : Exp → Nat
  | .var _ => 0
  | .set _ e => cnt e
  | .ite a b c => cnt a + cnt b + cnt c
  | .prim _ _ es => cnts es
  | .app f es => 1 + cnt f + cnts es
  | .lam _ b => cnt b
  | .fix _ lams b => cnts lams + cnt b
  | .letcc _ b => cnt b
  | .withcc k e => cnt k + cnt e
/-- for lists. -/
def cnts : List Exp → Nat
  | [] => 0
  | e :: es => cnt e + cnts es
end

theorem cnts_map {es : List Exp} (h : ∀ e ∈ es, cnt (T R0 e) ≤ cnt e ∧ (Nn e ∨ cnt (T R0 e) < cnt e)) :
    cnts (es.map (T R0)) ≤ cnts es ∧ ((∀ e ∈ es, Nn e) ∨ cnts (es.map (T R0)) < cnts es) := by
  induction es with
  | nil => exact ⟨Nat.le_refl _, Or.inl (fun _ h => by cases h)⟩
  | cons a es ih =>
    obtain ⟨h1, h2⟩ := h a (by simp)
    obtain ⟨h3, h4⟩ := ih (fun e he => h e (by simp [he]))
    simp only [List.map_cons, cnts]
    refine ⟨by omega, ?_⟩
    rcases h2 with h2 | h2
    · rcases h4 with h4 | h4
      · refine Or.inl (fun e he => ?_)
        rcases List.mem_cons.mp he with rfl | he
        exacts [h2, h4 e he]
      · exact Or.inr (by omega)
    · exact Or.inr (by omega)

theorem cnt_T_R0 (e : Exp) : cnt (T R0 e) ≤ cnt e ∧ (Nn e ∨ cnt (T R0 e) < cnt e) := by
  induction e using ind with
  | var x => rw [T_R0_var]; exact ⟨Nat.le_refl _, Or.inl (.var x)⟩
  | set x e ih => simp only [T, cnt]; exact ⟨ih.1, ih.2.imp .set id⟩
  | ite a b c h1 h2 h3 =>
    simp only [T, cnt]
    refine ⟨by omega, ?_⟩
    rcases h1.2 with a1 | a1
    · rcases h2.2 with a2 | a2
      · rcases h3.2 with a3 | a3
        · exact Or.inl (.ite a1 a2 a3)
        · exact Or.inr (by omega)
      · exact Or.inr (by omega)
    · exact Or.inr (by omega)
  | prim eff p es ih => simp only [T, Ts_eq, cnt]; exact ⟨(cnts_map ih).1, (cnts_map ih).2.imp .prim id⟩
  | app f es h1 h2 =>
    have h3 := cnts_map h2
    rcases T_R0_app f es with ⟨b, rfl, rfl, h⟩ | ⟨_, hn, h⟩
    · rw [h]
      simp only [T, cnt, cnts] at h1 ⊢
      exact ⟨by omega, Or.inr (by omega)⟩
    · rw [h]
      simp only [cnt]
      refine ⟨by omega, ?_⟩
      rcases h1.2 with a1 | a1
      · rcases h3.2 with a2 | a2
        · exact Or.inl (.app hn a1 a2)
        · exact Or.inr (by omega)
      · exact Or.inr (by omega)
  | lam ids b ih => simp only [T, cnt]; exact ⟨ih.1, ih.2.imp .lam id⟩
  | fix ids lams b h1 h2 =>
    have h3 := cnts_map h1
    simp only [T, Ts_eq, cnt]
    refine ⟨by omega, ?_⟩
    rcases h3.2 with a1 | a1
    · rcases h2.2 with a2 | a2
      · exact Or.inl (.fix a1 a2)
      · exact Or.inr (by omega)
    · exact Or.inr (by omega)
  | letcc x b ih => simp only [T, cnt]; exact ⟨ih.1, ih.2.imp .letcc id⟩
  | withcc k e h1 h2 =>
    simp only [T, cnt]
    refine ⟨by omega, ?_⟩
    rcases h1.2 with a1 | a1
    · rcases h2.2 with a2 | a2
      · exact Or.inl (.withcc a1 a2)
      · exact Or.inr (by omega)
    · exact Or.inr (by omega)

theorem good_R0 {y : Id} (h : y.isGlobal = false) : Good R0 false y := ⟨h, by simp [R0, Redex.goneId], fun h => by cases h⟩

theorem ok_R0 (e : Exp) (hl : ∀ y, 0 < bc y e → y.isGlobal = false) : Ok M R0 false e := by
  induction e using ind with
  | var x => exact .var (fun h => by simp [R0, Redex.goneId] at h)
  | set x e ih => exact .set (ih hl)
  | ite a b c h1 h2 h3 =>
    exact .ite (h1 (fun y h => hl y (by rw [bc_ite]; omega))) (h2 (fun y h => hl y (by rw [bc_ite]; omega))) (h3 (fun y h => hl y (by rw [bc_ite]; omega)))
  | prim eff p es ih => exact .prim (fun e he => ih e he (fun y h => hl y (by rw [bc_prim]; have := bcs_le y he; omega)))
  | app f es h1 h2 =>
    rcases T_R0_app f es with ⟨b, rfl, rfl, _⟩ | ⟨hr, _, _⟩
    · have := h1 (fun y h => hl y (by rw [bc_app]; omega))
      cases this with | lam _ h => exact .null rfl h
    · exact .app hr (h1 (fun y h => hl y (by rw [bc_app]; omega))) (fun e he => h2 e he (fun y h => hl y (by rw [bc_app]; have := bcs_le y he; omega)))
  | lam ids b ih =>
    exact .lam (fun y hy => good_R0 (hl y (by rw [bc_lam]; have := List.count_pos_iff.mpr hy; omega))) (ih (fun y h => hl y (by rw [bc_lam]; omega)))
  | fix ids lams b h1 h2 =>
    exact .fix (fun y hy => good_R0 (hl y (by rw [bc_fix]; have := List.count_pos_iff.mpr hy; omega)))
      (fun l hl' => h1 l hl' (fun y h => hl y (by rw [bc_fix]; have := bcs_le y hl'; omega))) (h2 (fun y h => hl y (by rw [bc_fix]; omega)))
  | letcc x b ih =>
    exact .letcc (good_R0 (hl x (by rw [bc_letcc]; simp; omega))) (ih (fun y h => hl y (by rw [bc_letcc]; omega)))
  | withcc k e h1 h2 => exact .withcc (h1 (fun y h => hl y (by rw [bc_withcc]; omega))) (h2 (fun y h => hl y (by rw [bc_withcc]; omega)))

/-- removing all `(let () b)`. -/
theorem Eqv.nf : ∀ (n : Nat) (e : Exp), cnt e ≤ n → (∀ y, 0 < bc y e → y.isGlobal = false) → Eqv M e (Beta.nf e) := by
  intro n
  induction n with
  | zero =>
    intro e hn hl
    rcases (cnt_T_R0 e).2 with h | h
    · rw [h.nf]; exact .refl e
    · omega
  | succ n ih =>
    intro e hn hl
    rcases (cnt_T_R0 e).2 with h | h
    · rw [h.nf]; exact .refl e
    · refine (Eqv.reduce (ok_R0 e hl)).trans ?_
      rw [← nf_T_R0 e]
      refine ih _ (by omega) (fun y hy => hl y ?_)
      rw [← bc_nf, nf_T_R0, bc_nf] at hy
      exact hy

theorem Star.eqv {a b : Exp} (h : Star M a b) (hw : WF M a) : Eqv M a b := by
  induction h with
  | refl a => exact .refl a
  | step h _ ih =>
    refine Eqv.trans ?_ (ih (h.wf hw))
    obtain ⟨R, _, _, hok, rfl⟩ := h.ex
    refine (Eqv.reduce hok).trans (Eqv.nf _ _ (Nat.le_refl _) (fun y hy => hw.loc y ?_))
    have := h.less y
    rw [bc_nf] at this
    omega

end Verif.Beta
