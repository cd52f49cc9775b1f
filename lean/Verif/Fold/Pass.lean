import Verif.Fold.Sim
import Verif.Beta.Syntax
/-
The pass is a sequence of folding steps (C36).
-/
namespace Verif.Fold
open Verif.Core
open Verif.Beta (free_app free_lam free_var free_set free_ite free_prim free_fix free_letcc free_withcc bc bcs bc_var bc_set bc_ite bc_prim bc_app bc_lam bc_fix bc_letcc bc_withcc
  bcs_nil bcs_cons bcs_le)
variable {τ : Type} [DecidableEq τ] {t : Types τ}
set_option linter.unusedSectionVars false

/-! ### free variables -/

mutual
theorem free_FR : {Γ : TEnv τ} → {e e' : Exp} → FR t Γ e e' → ∀ y, Free y e' → Free y e
  | _, _, _, .var _ _, _, h => h
  | _, _, _, .set h1, y, h => by
    rw [free_set] at h ⊢
    exact h.imp id (free_FR h1 y)
  | _, _, _, .ite h1 h2 h3, y, h => by
    rw [free_ite] at h ⊢
    exact h.imp (free_FR h1 y) (fun h => h.imp (free_FR h2 y) (free_FR h3 y))
  | _, _, _, .fold (β := β) _ hx _ h1 h2, y, h => by
    rw [free_app] at h
    rw [free_ite]
    rcases h with h | ⟨e, he, h⟩
    · have h := free_FR h2 y (free_lam.mp h).2
      subst hx
      cases β with
      | true => exact Or.inr (Or.inl h)
      | false => exact Or.inr (Or.inr h)
    · rw [List.mem_singleton] at he; subst he
      exact Or.inl (free_FR h1 y h)
  | _, _, _, .prim h1, y, h => by
    rw [free_prim] at h ⊢
    exact free_FRs h1 y h
  | _, _, _, .app _ h1 h2, y, h => by
    rw [free_app] at h ⊢
    exact h.imp (free_FR h1 y) (free_FRs h2 y)
  | _, _, _, .letE _ _ h1 h2, y, h => by
    rw [free_app, free_lam] at h ⊢
    exact h.imp (fun h => ⟨h.1, free_FR h2 y h.2⟩) (free_FRs h1 y)
  | _, _, _, .beg _ hd _ h1 h2, y, h => by
    rw [free_app, free_lam] at h ⊢
    rcases h with ⟨_, h⟩ | ⟨e, he, h⟩
    · have h := free_FR h2 y h
      exact Or.inl ⟨fun hm => hd (List.mem_singleton.mp hm ▸ h), h⟩
    · rw [List.mem_singleton] at he; subst he
      exact Or.inr ⟨_, List.mem_singleton.mpr rfl, free_FR h1 y h⟩
  | _, _, _, .asrt _ _ hd _ _ _ h2, y, h => by
    rw [free_app, free_lam] at h ⊢
    rcases h with ⟨_, h⟩ | h
    · have h := free_FR h2 y h
      exact Or.inl ⟨fun hm => hd (List.mem_singleton.mp hm ▸ h), h⟩
    · exact Or.inr h
  | _, _, _, .null h1, y, h => by
    rw [free_app, free_lam]
    exact Or.inl ⟨by simp, free_FR h1 y h⟩
  | _, _, _, .idl _ h1, y, h => by
    rw [free_app]
    exact Or.inr ⟨_, List.mem_singleton.mpr rfl, free_FR h1 y h⟩
  | _, _, _, .lam _ h1, y, h => by
    rw [free_lam] at h ⊢
    exact ⟨h.1, free_FR h1 y h.2⟩
  | _, _, _, .fix _ h1 h2, y, h => by
    rw [free_fix] at h ⊢
    exact ⟨h.1, h.2.imp (free_FRs h1 y) (free_FR h2 y)⟩
  | _, _, _, .letcc _ h1, y, h => by
    rw [free_letcc] at h ⊢
    exact ⟨h.1, free_FR h1 y h.2⟩
  | _, _, _, .withcc h1 h2, y, h => by
    rw [free_withcc] at h ⊢
    exact h.imp (free_FR h1 y) (free_FR h2 y)
theorem free_FRs : {Γ : TEnv τ} → {es es' : List Exp} → FRs t Γ es es' → ∀ y, (∃ e ∈ es', Free y e) → ∃ e ∈ es, Free y e
  | _, _, _, .nil _, _, h => h
  | _, _, _, .cons h1 h2, y, h => by
    have k1 := free_FR h1 y
    have k2 := free_FRs h2 y
    obtain ⟨e, he, h⟩ := h
    rcases List.mem_cons.mp he with rfl | he
    · exact ⟨_, List.mem_cons_self, k1 h⟩
    · obtain ⟨e, he, h⟩ := k2 ⟨e, he, h⟩
      exact ⟨e, List.mem_cons_of_mem _ he, h⟩
end

/-! ### type assertions -/

mutual
/-- The operands of type assertions mention no global variables. -/
def LocalAsserts (t : Types τ) : Exp → Prop
  | .var _ => True
  | .set _ e => LocalAsserts t e
  | .ite a b c => LocalAsserts t a ∧ LocalAsserts t b ∧ LocalAsserts t c
  | .prim _ p es => (t.assert p ≠ none → ∀ x, (∃ e ∈ es, Free x e) → x.isGlobal = false) ∧ LocalAssertss t es
  | .app f es => LocalAsserts t f ∧ LocalAssertss t es
  | .lam _ b => LocalAsserts t b
  | .fix _ lams b => LocalAssertss t lams ∧ LocalAsserts t b
  | .letcc _ b => LocalAsserts t b
  | .withcc c e => LocalAsserts t c ∧ LocalAsserts t e
/-- for lists. -/
def LocalAssertss (t : Types τ) : List Exp → Prop
  | [] => True
  | e :: es => LocalAsserts t e ∧ LocalAssertss t es
end

mutual
theorem la_FR : {Γ : TEnv τ} → {e e' : Exp} → FR t Γ e e' → LocalAsserts t e → LocalAsserts t e'
  | _, _, _, .var _ _, h => h
  | _, _, _, .set h1, h => by have k := la_FR h1 (by simpa [LocalAsserts] using h); simpa [LocalAsserts] using k
  | _, _, _, .ite h1 h2 h3, h => ⟨la_FR h1 h.1, la_FR h2 h.2.1, la_FR h3 h.2.2⟩
  | _, _, _, .fold (β := β) _ hx _ h1 h2, h => by
    have k2 := la_FR h2
    have k1 := la_FR h1 h.1
    refine ⟨k2 ?_, k1, trivial⟩
    subst hx
    cases β with
    | true => exact h.2.1
    | false => exact h.2.2
  | _, _, _, .prim h1, h => ⟨fun ha x hx => h.1 ha x (free_FRs h1 x hx), la_FRs h1 h.2⟩
  | _, _, _, .app _ h1 h2, h => ⟨la_FR h1 h.1, la_FRs h2 h.2⟩
  | _, _, _, .letE _ _ h1 h2, h => by have k := la_FR h2 h.1; exact ⟨k, la_FRs h1 h.2⟩
  | _, _, _, .beg _ _ _ h1 h2, h => by have k := la_FR h2 h.1; exact ⟨k, la_FR h1 h.2.1, trivial⟩
  | _, _, _, .asrt _ _ _ _ _ _ h2, h => by have k := la_FR h2 h.1; exact ⟨k, h.2⟩
  | _, _, _, .null h1, h => la_FR h1 h.1
  | _, _, _, .idl _ h1, h => la_FR h1 h.2.1
  | _, _, _, .lam _ h1, h => by have k := la_FR h1 (by simpa [LocalAsserts] using h); simpa [LocalAsserts] using k
  | _, _, _, .fix _ h1 h2, h => ⟨la_FRs h1 h.1, la_FR h2 h.2⟩
  | _, _, _, .letcc _ h1, h => by have k := la_FR h1 (by simpa [LocalAsserts] using h); simpa [LocalAsserts] using k
  | _, _, _, .withcc h1 h2, h => ⟨la_FR h1 h.1, la_FR h2 h.2⟩
theorem la_FRs : {Γ : TEnv τ} → {es es' : List Exp} → FRs t Γ es es' → LocalAssertss t es → LocalAssertss t es'
  | _, _, _, .nil _, h => h
  | _, _, _, .cons h1 h2, h => ⟨la_FR h1 h.1, la_FRs h2 h.2⟩
end

/-! ### steps with another type environment -/

omit [DecidableEq τ] in
theorem tlook_exts {x : Id} {Γ : TEnv τ} : ∀ {ids : List Id} {ts : List (Option τ)}, x ∉ ids → tlook x (exts ids ts Γ) = tlook x Γ := by
  intro ids
  induction ids with
  | nil => intro ts _; cases ts <;> rfl
  | cons y ids ih =>
    intro ts hn
    simp only [List.mem_cons, not_or] at hn
    cases ts with
    | nil => rfl
    | cons u ts => simp only [exts, tlook, if_neg hn.1]; exact ih hn.2

theorem count_pos {y : Id} {ids : List Id} (h : y ∈ ids) : 0 < ids.count y := List.count_pos_iff.mpr h

theorem not_mem_of_count {y : Id} {ids : List Id} (h : ids.count y = 0) : y ∉ ids := List.count_eq_zero.mp h

mutual
theorem FR.weaken : {Γ : TEnv τ} → {e e' : Exp} → FR t Γ e e' → ∀ {Γ' : TEnv τ}, (∀ y, Le (tlook y Γ) (tlook y Γ')) → (∀ y, bc y e ≤ 1) →
    (∀ y, 0 < bc y e → tlook y Γ = none → tlook y Γ' = none) → FR t Γ' e e'
  | _, _, _, .var _ x, Γ', _, _, _ => .var Γ' x
  | _, _, _, .set h1, Γ', hl, h, hn => .set (h1.weaken hl h hn)
  | _, _, _, .ite h1 h2 h3, Γ', hl, h, hn => by
    simp only [bc_ite] at h hn
    exact .ite (h1.weaken hl (fun y => by have := h y; omega) (fun y hy => hn y (by omega)))
      (h2.weaken hl (fun y => by have := h y; omega) (fun y hy => hn y (by omega))) (h3.weaken hl (fun y => by have := h y; omega) (fun y hy => hn y (by omega)))
  | _, _, _, .fold (β := β) ht hx hd h1 h2, Γ', hl, h, hn => by
    simp only [bc_ite] at h hn
    refine .fold (foldTest_le t _ (fun y _ => hl y) _ ht) hx hd (h1.weaken hl (fun y => by have := h y; omega) (fun y hy => hn y (by omega))) (h2.weaken hl ?_ ?_)
    · intro y; have := h y; subst hx; cases β <;> simp <;> omega
    · intro y hy
      refine hn y ?_
      subst hx
      cases β <;> simp at hy <;> omega
  | _, _, _, .prim h1, Γ', hl, h, hn => .prim (h1.weaken hl h hn)
  | _, _, _, .app h0 h1 h2, Γ', hl, h, hn => by
    simp only [bc_app] at h hn
    exact .app h0 (h1.weaken hl (fun y => by have := h y; omega) (fun y hy => hn y (by omega))) (h2.weaken hl (fun y => by have := h y; omega) (fun y hy => hn y (by omega)))
  | _, _, _, .letE (ids := ids) (es := es) h0 hg h1 h2, Γ', hl, h, hn => by
    simp only [bc_app, bc_lam] at h hn
    refine .letE h0 hg (h1.weaken hl (fun y => by have := h y; omega) (fun y hy => hn y (by omega))) (h2.weaken (fun y => ?_) (fun y => by have := h y; omega) (fun y hy => ?_))
    · exact exts_le (ctypes_le t es (fun x _ => hl x)) (by rw [ctypes_length]; exact h0) (fun _ => hl y)
    · have hm : y ∉ ids := not_mem_of_count (by have := h y; omega)
      rw [tlook_exts hm, tlook_exts hm]
      exact hn y (by omega)
  | _, _, _, .beg (d := d) h0 hd hd' h1 h2, Γ', hl, h, hn => by
    simp only [bc_app, bc_lam, bcs_cons, bcs_nil] at h hn
    exact .beg (hn d (by have := count_pos (y := d) (ids := [d]) (by simp); omega) h0) hd hd'
      (h1.weaken hl (fun y => by have := h y; omega) (fun y hy => hn y (by omega))) (h2.weaken hl (fun y => by have := h y; omega) (fun y hy => hn y (by omega)))
  | _, _, _, .asrt (d := d) (x := x) h0 hdx hd hd' ht hx h2, Γ', hl, h, hn => by
    simp only [bc_app, bc_lam, bcs_cons, bcs_nil] at h hn
    refine .asrt (hn d (by have := count_pos (y := d) (ids := [d]) (by simp); omega) h0) hdx hd hd' ht hx
      (h2.weaken (fun y => ?_) (fun y => by have := h y; omega) (fun y hy => ?_))
    · simp only [tlook]
      split
      · exact fun _ h => h
      · exact hl y
    · simp only [tlook]
      split
      · exact fun h => h
      · exact hn y (by omega)
  | _, _, _, .null h1, Γ', hl, h, hn => by
    simp only [bc_app, bc_lam, bcs_nil] at h hn
    exact .null (h1.weaken hl (fun y => by have := h y; omega) (fun y hy => hn y (by omega)))
  | _, _, _, .idl hx h1, Γ', hl, h, hn => by
    simp only [bc_app, bc_lam, bcs_cons, bcs_nil] at h hn
    exact .idl hx (h1.weaken hl (fun y => by have := h y; omega) (fun y hy => hn y (by omega)))
  | _, _, _, .lam h0 h1, Γ', hl, h, hn => by
    simp only [bc_lam] at h hn
    exact .lam (fun y hy => hn y (by have := count_pos hy; omega) (h0 y hy)) (h1.weaken hl (fun y => by have := h y; omega) (fun y hy => hn y (by omega)))
  | _, _, _, .fix h0 h1 h2, Γ', hl, h, hn => by
    simp only [bc_fix] at h hn
    exact .fix (fun y hy => hn y (by have := count_pos hy; omega) (h0 y hy)) (h1.weaken hl (fun y => by have := h y; omega) (fun y hy => hn y (by omega)))
      (h2.weaken hl (fun y => by have := h y; omega) (fun y hy => hn y (by omega)))
  | _, _, _, .letcc (x := x) h0 h1, Γ', hl, h, hn => by
    simp only [bc_letcc] at h hn
    exact .letcc (hn x (by have := count_pos (y := x) (ids := [x]) (by simp); omega) h0) (h1.weaken hl (fun y => by have := h y; omega) (fun y hy => hn y (by omega)))
  | _, _, _, .withcc h1 h2, Γ', hl, h, hn => by
    simp only [bc_withcc] at h hn
    exact .withcc (h1.weaken hl (fun y => by have := h y; omega) (fun y hy => hn y (by omega))) (h2.weaken hl (fun y => by have := h y; omega) (fun y hy => hn y (by omega)))
theorem FRs.weaken : {Γ : TEnv τ} → {es es' : List Exp} → FRs t Γ es es' → ∀ {Γ' : TEnv τ}, (∀ y, Le (tlook y Γ) (tlook y Γ')) → (∀ y, bcs y es ≤ 1) →
    (∀ y, 0 < bcs y es → tlook y Γ = none → tlook y Γ' = none) → FRs t Γ' es es'
  | _, _, _, .nil _, Γ', _, _, _ => .nil Γ'
  | _, _, _, .cons h1 h2, Γ', hl, h, hn => by
    simp only [bcs_cons] at h hn
    exact .cons (h1.weaken hl (fun y => by have := h y; omega) (fun y hy => hn y (by omega))) (h2.weaken hl (fun y => by have := h y; omega) (fun y hy => hn y (by omega)))
end

/-! ### nothing folded -/

/-- The variables bound in an expression are bound once; they are local and have no type yet. -/
def Fit (Γ : TEnv τ) (c : Id → Nat) : Prop := ∀ y, c y ≤ 1 ∧ (0 < c y → y.isGlobal = false ∧ tlook y Γ = none)

omit [DecidableEq τ] in
theorem Fit.le {Γ : TEnv τ} {c c' : Id → Nat} (h : Fit Γ c) (hl : ∀ y, c' y ≤ c y) : Fit Γ c' :=
  fun y => ⟨Nat.le_trans (hl y) (h y).1, fun hy => (h y).2 (Nat.lt_of_lt_of_le hy (hl y))⟩

omit [DecidableEq τ] in
theorem Fit.exts {Γ : TEnv τ} {c c' : Id → Nat} {ids : List Id} {ts : List (Option τ)} (h : Fit Γ c) (hl : ∀ y, ids.count y + c' y ≤ c y) : Fit (exts ids ts Γ) c' := by
  intro y
  have h1 := (h y).1
  have h2 := hl y
  refine ⟨by omega, fun hy => ?_⟩
  rw [tlook_exts (not_mem_of_count (by omega))]
  exact (h y).2 (by omega)

mutual
theorem FR.refl : (e : Exp) → ∀ {Γ : TEnv τ}, Fit Γ (bc · e) → FR t Γ e e
  | .var x, Γ, _ => .var Γ x
  | .set _ e, _, h => .set (FR.refl e h)
  | .ite a b c, _, h => .ite (FR.refl a (h.le (fun y => by simp only [bc_ite]; omega))) (FR.refl b (h.le (fun y => by simp only [bc_ite]; omega)))
      (FR.refl c (h.le (fun y => by simp only [bc_ite]; omega)))
  | .prim _ _ es, _, h => .prim (FRs.refl es h)
  | .app f es, Γ, h => by
    have hs : FRs t Γ es es := FRs.refl es (h.le (fun y => by simp only [bc_app]; omega))
    cases hl : isLet (.app f es) with
    | false => exact .app hl (FR.refl f (h.le (fun y => by simp only [bc_app]; omega))) hs
    | true =>
      cases f with
      | lam ids b =>
        have hl : ids.length = es.length := by simpa [isLet] using hl
        refine .letE hl (fun y hy => ((h y).2 ?_).1) hs (FR.refl b (h.exts (fun y => by simp only [bc_app, bc_lam]; omega)))
        simp only [bc_app, bc_lam]; have := count_pos hy; omega
      | _ => simp [isLet] at hl
  | .lam ids b, _, h => .lam (fun y hy => ((h y).2 (by simp only [bc_lam]; have := count_pos hy; omega)).2) (FR.refl b (h.le (fun y => by simp only [bc_lam]; omega)))
  | .fix ids lams b, _, h => .fix (fun y hy => ((h y).2 (by simp only [bc_fix]; have := count_pos hy; omega)).2) (FRs.refl lams (h.le (fun y => by simp only [bc_fix]; omega)))
      (FR.refl b (h.le (fun y => by simp only [bc_fix]; omega)))
  | .letcc x b, _, h => .letcc ((h x).2 (by simp only [bc_letcc]; have := count_pos (y := x) (ids := [x]) (by simp); omega)).2 (FR.refl b (h.le (fun y => by simp only [bc_letcc]; omega)))
  | .withcc c e, _, h => .withcc (FR.refl c (h.le (fun y => by simp only [bc_withcc]; omega))) (FR.refl e (h.le (fun y => by simp only [bc_withcc]; omega)))
theorem FRs.refl : (es : List Exp) → ∀ {Γ : TEnv τ}, Fit Γ (bcs · es) → FRs t Γ es es
  | [], Γ, _ => .nil Γ
  | e :: es, _, h => .cons (FR.refl e (h.le (fun y => by simp only [bcs_cons]; omega))) (FRs.refl es (h.le (fun y => by simp only [bcs_cons]; omega)))
end

/-! ### sequences of steps -/

/-- Steps between expressions that bind at most the variables counted by `c`. -/
inductive FStar (t : Types τ) (Γ : TEnv τ) (c : Id → Nat) : Exp → Exp → Prop
  | refl {e : Exp} : (∀ y, bc y e ≤ c y) → FStar t Γ c e e
  | step {e e1 e2 : Exp} : (∀ y, bc y e ≤ c y) → FR t Γ e e1 → FStar t Γ c e1 e2 → FStar t Γ c e e2

/-- for lists. -/
inductive FStars (t : Types τ) (Γ : TEnv τ) (c : Id → Nat) : List Exp → List Exp → Prop
  | refl {es : List Exp} : (∀ y, bcs y es ≤ c y) → FStars t Γ c es es
  | step {es es1 es2 : List Exp} : (∀ y, bcs y es ≤ c y) → FRs t Γ es es1 → FStars t Γ c es1 es2 → FStars t Γ c es es2

variable {Γ Γ' : TEnv τ} {c c' : Id → Nat}

theorem FStar.trans {e e1 e2 : Exp} (h1 : FStar t Γ c e e1) (h2 : FStar t Γ c e1 e2) : FStar t Γ c e e2 := by
  induction h1 with
  | refl _ => exact h2
  | step h h3 _ ih => exact .step h h3 (ih h2)

theorem FStars.trans {e e1 e2 : List Exp} (h1 : FStars t Γ c e e1) (h2 : FStars t Γ c e1 e2) : FStars t Γ c e e2 := by
  induction h1 with
  | refl _ => exact h2
  | step h h3 _ ih => exact .step h h3 (ih h2)

theorem FStar.last {e e' : Exp} (h : FStar t Γ c e e') : ∀ y, bc y e' ≤ c y := by
  induction h with
  | refl h => exact h
  | step _ _ _ ih => exact ih

theorem FStars.last {e e' : List Exp} (h : FStars t Γ c e e') : ∀ y, bcs y e' ≤ c y := by
  induction h with
  | refl h => exact h
  | step _ _ _ ih => exact ih

theorem FStar.free {e e' : Exp} (h : FStar t Γ c e e') : ∀ y, Free y e' → Free y e := by
  induction h with
  | refl _ => exact fun _ h => h
  | step _ h _ ih => exact fun y hy => free_FR h y (ih y hy)

theorem FStars.free {e e' : List Exp} (h : FStars t Γ c e e') : ∀ y, (∃ x ∈ e', Free y x) → ∃ x ∈ e, Free y x := by
  induction h with
  | refl _ => exact fun _ h => h
  | step _ h _ ih => exact fun y hy => free_FRs h y (ih y hy)

theorem FStar.la {e e' : Exp} (h : FStar t Γ c e e') (hl : LocalAsserts t e) : LocalAsserts t e' := by
  induction h with
  | refl _ => exact hl
  | step _ h _ ih => exact ih (la_FR h hl)

theorem FStars.la {e e' : List Exp} (h : FStars t Γ c e e') (hl : LocalAssertss t e) : LocalAssertss t e' := by
  induction h with
  | refl _ => exact hl
  | step _ h _ ih => exact ih (la_FRs h hl)

theorem FStars.length {e e' : List Exp} (h : FStars t Γ c e e') : e.length = e'.length := by
  induction h with
  | refl _ => rfl
  | step _ h _ ih => exact h.length.trans ih

/-- steps in a context. -/
theorem FStar.map {e e' : Exp} (F : Exp → Exp) (S : Id → Prop) (h : FStar t Γ c e e') (hb : ∀ a, (∀ y, bc y a ≤ c y) → ∀ y, bc y (F a) ≤ c' y)
    (hF : ∀ a a', FR t Γ a a' → (∀ y, bc y a ≤ c y) → (∀ y, Free y a → S y) → FR t Γ' (F a) (F a')) (hS : ∀ y, Free y e → S y) : FStar t Γ' c' (F e) (F e') := by
  induction h with
  | refl h => exact .refl (hb _ h)
  | step h h1 _ ih => exact .step (hb _ h) (hF _ _ h1 h hS) (ih (fun y hy => hS y (free_FR h1 y hy)))

theorem FStars.map {e e' : List Exp} (F : List Exp → Exp) (h : FStars t Γ c e e') (hb : ∀ a, (∀ y, bcs y a ≤ c y) → ∀ y, bc y (F a) ≤ c' y)
    (hF : ∀ a a', FRs t Γ a a' → (∀ y, bcs y a ≤ c y) → e.length = a.length → FR t Γ' (F a) (F a')) : FStar t Γ' c' (F e) (F e') := by
  induction h with
  | refl h => exact .refl (hb _ h)
  | step h h1 _ ih => exact .step (hb _ h) (hF _ _ h1 h rfl) (ih (fun a a' h2 h3 h4 => hF a a' h2 h3 (h1.length.trans h4)))

theorem FStar.toList {e e' : Exp} (F : Exp → List Exp) (h : FStar t Γ c e e') (hb : ∀ a, (∀ y, bc y a ≤ c y) → ∀ y, bcs y (F a) ≤ c' y)
    (hF : ∀ a a', FR t Γ a a' → FRs t Γ' (F a) (F a')) : FStars t Γ' c' (F e) (F e') := by
  induction h with
  | refl h => exact .refl (hb _ h)
  | step h h1 _ ih => exact .step (hb _ h) (hF _ _ h1) ih

theorem FStars.toList {e e' : List Exp} (F : List Exp → List Exp) (h : FStars t Γ c e e') (hb : ∀ a, (∀ y, bcs y a ≤ c y) → ∀ y, bcs y (F a) ≤ c' y)
    (hF : ∀ a a', FRs t Γ a a' → FRs t Γ' (F a) (F a')) : FStars t Γ' c' (F e) (F e') := by
  induction h with
  | refl h => exact .refl (hb _ h)
  | step h h1 _ ih => exact .step (hb _ h) (hF _ _ h1) ih

theorem FStar.mono {e e' : Exp} (h : FStar t Γ c e e') (hl : ∀ y, c y ≤ c' y) : FStar t Γ c' e e' := by
  induction h with
  | refl h => exact .refl (fun y => Nat.le_trans (h y) (hl y))
  | step h h1 _ ih => exact .step (fun y => Nat.le_trans (h y) (hl y)) h1 ih

/-! ### the pass -/

/-- new ids with time stamps from `k` to `k' - 1`. -/
def fr (k k' : Nat) (y : Id) : Nat := if (k : Int) ≤ y.ts ∧ y.ts < k' then 1 else 0

theorem fr_add {k k1 k2 : Nat} (h1 : k ≤ k1) (h2 : k1 ≤ k2) (y : Id) : fr k k2 y = fr k k1 y + fr k1 k2 y := by
  unfold fr
  split <;> split <;> split <;> omega

theorem fr_new (k : Nat) (y : Id) : [lexId k].count y ≤ fr k (k + 1) y := by
  rw [List.count_singleton]
  split
  · rename_i h
    have h : lexId k = y := by simpa using h
    subst h
    exact Nat.le_of_eq (if_pos ⟨Int.le_refl _, by show (k : Int) < ((k + 1 : Nat) : Int); omega⟩).symm
  · exact Nat.zero_le _

/-- What the pass expects: `k` is the next time stamp. -/
structure Pre (t : Types τ) (Γ : TEnv τ) (k : Nat) (e : Exp) : Prop where
  fit : Fit Γ (bc · e)
  old : ∀ y, 0 < bc y e → y.ts < k
  new : ∀ y, (k : Int) ≤ y.ts → tlook y Γ = none
  fre : ∀ y, Free y e → y.ts < k
  sep : ∀ y, 0 < bc y e → ¬ Free y e
  la : LocalAsserts t e

/-- for lists. -/
structure Pres (t : Types τ) (Γ : TEnv τ) (k : Nat) (es : List Exp) : Prop where
  fit : Fit Γ (bcs · es)
  old : ∀ y, 0 < bcs y es → y.ts < k
  new : ∀ y, (k : Int) ≤ y.ts → tlook y Γ = none
  fre : ∀ y, (∃ e ∈ es, Free y e) → y.ts < k
  sep : ∀ y, 0 < bcs y es → ¬ ∃ e ∈ es, Free y e
  la : LocalAssertss t es

theorem fit_new {k k' : Nat} {b : Id → Nat} (hf : Fit Γ b) (ho : ∀ y, 0 < b y → y.ts < k) (hn : ∀ y, (k : Int) ≤ y.ts → tlook y Γ = none) : Fit Γ (fun y => b y + fr k k' y) := by
  intro y
  have h1 := (hf y).1
  by_cases h : 0 < b y
  · have h2 := ho y h
    have h3 : fr k k' y = 0 := by simp only [fr]; rw [if_neg (by omega)]
    simp only [h3]
    exact ⟨by omega, fun _ => (hf y).2 h⟩
  · have h4 : fr k k' y ≤ 1 := by simp only [fr]; split <;> omega
    refine ⟨by show b y + fr k k' y ≤ 1; omega, fun h5 => ?_⟩
    have h5 : 0 < b y + fr k k' y := h5
    have h6 : (k : Int) ≤ y.ts := by
      have : 0 < fr k k' y := by omega
      simp only [fr] at this
      split at this
      · rename_i h; exact h.1
      · omega
    exact ⟨by simp [Id.isGlobal]; omega, hn y h6⟩

theorem old_new {k k' : Nat} {b : Id → Nat} (hk : k ≤ k') (ho : ∀ y, 0 < b y → y.ts < k) {y : Id} (h : 0 < b y + fr k k' y) : y.ts < k' := by
  by_cases hb : 0 < b y
  · have := ho y hb; omega
  · have : 0 < fr k k' y := by omega
    simp only [fr] at this
    split at this
    · rename_i h; exact h.2
    · omega

theorem sep_new {k k' : Nat} {b : Id → Nat} {F : Id → Prop} (hf : ∀ y, F y → y.ts < k) (hs : ∀ y, 0 < b y → ¬ F y) {y : Id} (h : 0 < b y + fr k k' y) : ¬ F y := by
  intro hy
  by_cases hb : 0 < b y
  · exact hs y hb hy
  · have : 0 < fr k k' y := by omega
    have := hf y hy
    simp only [fr] at *
    split at *
    · omega
    · omega

theorem Pre.out {k k' : Nat} {e e' : Exp} (h : Pre t Γ k e) (hk : k ≤ k') (hs : FStar t Γ (fun y => bc y e + fr k k' y) e e') : Pre t Γ k' e' :=
  ⟨(fit_new h.fit h.old h.new).le hs.last, fun y hy => old_new hk h.old (Nat.lt_of_lt_of_le hy (hs.last y)), fun y hy => h.new y (by omega),
    fun y hy => by have := h.fre y (hs.free y hy); omega,
    fun y hy hf => sep_new h.fre h.sep (Nat.lt_of_lt_of_le hy (hs.last y)) (hs.free y hf), hs.la h.la⟩

theorem Pres.out {k k' : Nat} {e e' : List Exp} (h : Pres t Γ k e) (hk : k ≤ k') (hs : FStars t Γ (fun y => bcs y e + fr k k' y) e e') : Pres t Γ k' e' :=
  ⟨(fit_new h.fit h.old h.new).le hs.last, fun y hy => old_new hk h.old (Nat.lt_of_lt_of_le hy (hs.last y)), fun y hy => h.new y (by omega),
    fun y hy => by have := h.fre y (hs.free y hy); omega,
    fun y hy hf => sep_new h.fre h.sep (Nat.lt_of_lt_of_le hy (hs.last y)) (hs.free y hf), hs.la h.la⟩

theorem Pre.later {k k' : Nat} {e : Exp} (h : Pre t Γ k e) (hk : k ≤ k') : Pre t Γ k' e :=
  ⟨h.fit, fun y hy => by have := h.old y hy; omega, fun y hy => h.new y (by omega), fun y hy => by have := h.fre y hy; omega, h.sep, h.la⟩

theorem Pres.later {k k' : Nat} {e : List Exp} (h : Pres t Γ k e) (hk : k ≤ k') : Pres t Γ k' e :=
  ⟨h.fit, fun y hy => by have := h.old y hy; omega, fun y hy => h.new y (by omega), fun y hy => by have := h.fre y hy; omega, h.sep, h.la⟩

theorem Pre.sub {k : Nat} {e e' : Exp} (h : Pre t Γ k e) (hb : ∀ y, bc y e' ≤ bc y e) (hf : ∀ y, Free y e' → Free y e) (hl : LocalAsserts t e') : Pre t Γ k e' :=
  ⟨h.fit.le hb, fun y hy => h.old y (Nat.lt_of_lt_of_le hy (hb y)), h.new, fun y hy => h.fre y (hf y hy), fun y hy h1 => h.sep y (Nat.lt_of_lt_of_le hy (hb y)) (hf y h1), hl⟩

theorem Pre.subs {k : Nat} {e : Exp} {es : List Exp} (h : Pre t Γ k e) (hb : ∀ y, bcs y es ≤ bc y e) (hf : ∀ y, (∃ a ∈ es, Free y a) → Free y e) (hl : LocalAssertss t es) : Pres t Γ k es :=
  ⟨h.fit.le hb, fun y hy => h.old y (Nat.lt_of_lt_of_le hy (hb y)), h.new, fun y hy => h.fre y (hf y hy), fun y hy h1 => h.sep y (Nat.lt_of_lt_of_le hy (hb y)) (hf y h1), hl⟩

/-- variables bound around an expression have been bound before, too. -/
theorem Pre.under {k : Nat} {e b : Exp} {ids : List Id} (h : Pre t Γ k e) (hb : ∀ y, ids.count y + bc y b ≤ bc y e) (hf : ∀ y, Free y b → y ∉ ids → Free y e) (hl : LocalAsserts t b) :
    Pre t Γ k b := by
  refine ⟨h.fit.le (fun y => by have := hb y; omega), fun y hy => h.old y (by have := hb y; omega), h.new, fun y hy => ?_, fun y hy h1 => ?_, hl⟩
  · by_cases hm : y ∈ ids
    · exact h.old y (by have := hb y; have := count_pos hm; omega)
    · exact h.fre y (hf y hy hm)
  · have h2 : bc y e ≤ 1 := (h.fit y).1
    have h3 := hb y
    exact h.sep y (by omega) (hf y h1 (not_mem_of_count (by omega)))

/-- variables of a `let`. -/
theorem Pre.exts {k : Nat} {e b : Exp} {ids : List Id} {ts : List (Option τ)} (h : Pre t Γ k e) (hb : ∀ y, ids.count y + bc y b ≤ bc y e) (hf : ∀ y, Free y b → y ∉ ids → Free y e)
    (hl : LocalAsserts t b) : Pre t (exts ids ts Γ) k b := by
  have h' := h.under hb hf hl
  refine ⟨h.fit.exts hb, h'.old, fun y hy => ?_, h'.fre, h'.sep, hl⟩
  by_cases hm : y ∈ ids
  · have := h.old y (by have := hb y; have := count_pos hm; omega); omega
  · rw [tlook_exts hm]; exact h.new y hy

/-- The result of a pass from `e`, `k`. -/
def Does (t : Types τ) (Γ : TEnv τ) (k : Nat) (e : Exp) (r : Exp × Nat) : Prop := k ≤ r.2 ∧ FStar t Γ (fun y => bc y e + fr k r.2 y) e r.1

/-- for lists. -/
def Doess (t : Types τ) (Γ : TEnv τ) (k : Nat) (es : List Exp) (r : List Exp × Nat) : Prop := k ≤ r.2 ∧ FStars t Γ (fun y => bcs y es + fr k r.2 y) es r.1

theorem mapK_does {f : Nat → Exp → Exp × Nat} (hf : ∀ k e, Pre t Γ k e → Does t Γ k e (f k e)) : ∀ (es : List Exp) (k : Nat), Pres t Γ k es → Doess t Γ k es (mapK f k es) := by
  intro es
  induction es with
  | nil => intro k _; exact ⟨Nat.le_refl _, .refl (fun y => by simp [bcs_nil])⟩
  | cons e es ih =>
    intro k h
    have p1 : Pre t Γ k e := ⟨h.fit.le (fun y => by simp only [bcs_cons]; omega), fun y hy => h.old y (by simp only [bcs_cons]; omega), h.new,
      fun y hy => h.fre y ⟨e, List.mem_cons_self, hy⟩, fun y hy h1 => h.sep y (by simp only [bcs_cons]; omega) ⟨e, List.mem_cons_self, h1⟩, h.la.1⟩
    have p2 : Pres t Γ k es := ⟨h.fit.le (fun y => by simp only [bcs_cons]; omega), fun y hy => h.old y (by simp only [bcs_cons]; omega), h.new,
      fun y ⟨a, ha, hy⟩ => h.fre y ⟨a, List.mem_cons_of_mem _ ha, hy⟩,
      fun y hy ⟨a, ha, h1⟩ => h.sep y (by simp only [bcs_cons]; omega) ⟨a, List.mem_cons_of_mem _ ha, h1⟩, h.la.2⟩
    obtain ⟨k1, s1⟩ := hf k e p1
    obtain ⟨k2, s2⟩ := ih (f k e).2 (p2.later k1)
    refine ⟨Nat.le_trans k1 k2, ?_⟩
    have hfr := fr_add k1 k2
    simp only [mapK]
    refine (s1.toList (fun a => a :: es) (fun a ha y => ?_) (fun a a' h => .cons h (FRs.refl es p2.fit))).trans
      (s2.toList (fun as => (f k e).1 :: as) (fun a ha y => ?_) (fun a a' h => .cons (FR.refl _ (p1.out k1 s1).fit) h))
    · simp only [bcs_cons, hfr y]; have := ha y; omega
    · simp only [bcs_cons, hfr y]; have := ha y; have := s1.last y; omega

end Verif.Fold
