import Verif.Fold.Rel
/-
Types of expressions (C36).
-/
namespace Verif.Fold
open Verif.Core
open Verif.Beta (gstep)
variable {W τ : Type} [DecidableEq τ]

/-- more is known. -/
def Le : Option τ → Option τ → Prop := fun a b => ∀ T, a = some T → b = some T

omit [DecidableEq τ] in
theorem exts_le {x : Id} {Γ Γ' : TEnv τ} : ∀ {ids : List Id} {ts ts' : List (Option τ)}, List.Forall₂ Le ts ts' → ids.length = ts.length →
    (x ∉ ids → Le (tlook x Γ) (tlook x Γ')) → Le (tlook x (exts ids ts Γ)) (tlook x (exts ids ts' Γ')) := by
  intro ids
  induction ids with
  | nil => intro ts ts' _ _ h; exact h (by simp)
  | cons y ids ih =>
    intro ts ts' hts hl h
    cases hts with
    | nil => simp at hl
    | cons h1 h2 =>
      simp only [exts, tlook]
      split
      · exact h1
      · rename_i hn
        exact ih h2 (by simpa using hl) (fun hm => h (by simp [hn, hm]))

theorem ctypes_length (t : Types τ) (Γ : TEnv τ) : ∀ es : List Exp, (ctypes t Γ es).length = es.length := by
  intro es
  induction es with
  | nil => simp [ctypes]
  | cons e es ih => simp [ctypes, ih]

theorem ctypes_get (t : Types τ) (Γ : TEnv τ) : ∀ (es : List Exp) (i : Nat), (ctypes t Γ es)[i]? = es[i]?.map (ctype t Γ) := by
  intro es
  induction es with
  | nil => intro i; simp [ctypes]
  | cons e es ih => intro i; cases i with
    | zero => simp [ctypes]
    | succ i => simp [ctypes, ih]

mutual
/-- types depend on the types of free variables only. -/
theorem ctype_le (t : Types τ) : (e : Exp) → ∀ {Γ Γ' : TEnv τ}, (∀ x, Free x e → Le (tlook x Γ) (tlook x Γ')) → Le (ctype t Γ e) (ctype t Γ' e)
  | .var x, Γ, Γ', h => by simpa only [ctype] using h x .var
  | .ite a b c, Γ, Γ', h => by
    intro T hT
    simp only [ctype] at hT ⊢
    split at hT
    · rename_i u v hu hv
      rw [ctype_le t b (fun x hx => h x (.iteB _ _ hx)) u hu, ctype_le t c (fun x hx => h x (.iteC _ _ hx)) v hv]
      exact hT
    · cases hT
  | .prim _ p es, Γ, Γ', _ => by intro T hT; simpa only [ctype] using hT
  | .app (.lam ids b) es, Γ, Γ', h => by
    intro T hT
    simp only [ctype] at hT ⊢
    split at hT
    · rename_i hl
      rw [if_pos hl]
      refine ctype_le t b (fun x hx => ?_) T hT
      exact exts_le (ctypes_le t es (fun x hx => h x (by obtain ⟨e, he, hx⟩ := hx; exact .appA _ he hx))) (by rw [ctypes_length]; exact hl)
        (fun hm => h x (.appF _ (.lam hm hx)))
    · cases hT
  | .set _ _, Γ, Γ', _ => by intro T hT; simp [ctype] at hT
  | .lam _ _, Γ, Γ', _ => by intro T hT; simp [ctype] at hT
  | .fix _ _ _, Γ, Γ', _ => by intro T hT; simp [ctype] at hT
  | .letcc _ _, Γ, Γ', _ => by intro T hT; simp [ctype] at hT
  | .withcc _ _, Γ, Γ', _ => by intro T hT; simp [ctype] at hT
  | .app (.var _) _, Γ, Γ', _ => by intro T hT; simp [ctype] at hT
  | .app (.set _ _) _, Γ, Γ', _ => by intro T hT; simp [ctype] at hT
  | .app (.ite _ _ _) _, Γ, Γ', _ => by intro T hT; simp [ctype] at hT
  | .app (.prim _ _ _) _, Γ, Γ', _ => by intro T hT; simp [ctype] at hT
  | .app (.app _ _) _, Γ, Γ', _ => by intro T hT; simp [ctype] at hT
  | .app (.fix _ _ _) _, Γ, Γ', _ => by intro T hT; simp [ctype] at hT
  | .app (.letcc _ _) _, Γ, Γ', _ => by intro T hT; simp [ctype] at hT
  | .app (.withcc _ _) _, Γ, Γ', _ => by intro T hT; simp [ctype] at hT
theorem ctypes_le (t : Types τ) : (es : List Exp) → ∀ {Γ Γ' : TEnv τ}, (∀ x, (∃ e ∈ es, Free x e) → Le (tlook x Γ) (tlook x Γ')) →
    List.Forall₂ Le (ctypes t Γ es) (ctypes t Γ' es)
  | [], _, _, _ => by simp [ctypes]
  | e :: es, _, _, h => by
    simp only [ctypes]
    exact .cons (ctype_le t e (fun x hx => h x ⟨e, by simp, hx⟩)) (ctypes_le t es (fun x ⟨r, hr, hx⟩ => h x ⟨r, by simp [hr], hx⟩))
end

/-- so does the result of a test. -/
theorem foldTest_le (t : Types τ) : (e : Exp) → ∀ {Γ Γ' : TEnv τ}, (∀ x, Free x e → Le (tlook x Γ) (tlook x Γ')) → ∀ β, foldTest t Γ e = some β → foldTest t Γ' e = some β
  | .app (.lam ids b) es, Γ, Γ', h, β, hβ => by
    simp only [foldTest] at hβ ⊢
    split at hβ
    · rename_i hl
      rw [if_pos hl]
      refine foldTest_le t b (fun x hx => ?_) β hβ
      exact exts_le (ctypes_le t es (fun x hx => h x (by obtain ⟨e, he, hx⟩ := hx; exact .appA _ he hx))) (by rw [ctypes_length]; exact hl)
        (fun hm => h x (.appF _ (.lam hm hx)))
    · cases hβ
  | .prim _ p [r], Γ, Γ', h, β, hβ => by
    simp only [foldTest] at hβ ⊢
    split at hβ
    · rename_i c c' h1 h2
      rw [h1, ctype_le t r (fun x hx => h x (.prim _ _ (by simp) hx)) c' h2]; exact hβ
    · cases hβ
  | .prim _ _ [], _, _, _, _, hβ => by simp [foldTest] at hβ
  | .prim _ _ (_ :: _ :: _), _, _, _, _, hβ => by simp [foldTest] at hβ
  | .var _, _, _, _, _, hβ => by simp [foldTest] at hβ
  | .ite _ _ _, _, _, _, _, hβ => by simp [foldTest] at hβ
  | .set _ _, _, _, _, _, hβ => by simp [foldTest] at hβ
  | .lam _ _, _, _, _, _, hβ => by simp [foldTest] at hβ
  | .fix _ _ _, _, _, _, _, hβ => by simp [foldTest] at hβ
  | .letcc _ _, _, _, _, _, hβ => by simp [foldTest] at hβ
  | .withcc _ _, _, _, _, _, hβ => by simp [foldTest] at hβ
  | .app (.var _) _, _, _, _, _, hβ => by simp [foldTest] at hβ
  | .app (.set _ _) _, _, _, _, _, hβ => by simp [foldTest] at hβ
  | .app (.ite _ _ _) _, _, _, _, _, hβ => by simp [foldTest] at hβ
  | .app (.prim _ _ _) _, _, _, _, _, hβ => by simp [foldTest] at hβ
  | .app (.app _ _) _, _, _, _, _, hβ => by simp [foldTest] at hβ
  | .app (.fix _ _ _) _, _, _, _, _, hβ => by simp [foldTest] at hβ
  | .app (.letcc _ _) _, _, _, _, _, hβ => by simp [foldTest] at hβ
  | .app (.withcc _ _) _, _, _, _, _, hβ => by simp [foldTest] at hβ

theorem Can.le {t : Types τ} {Γ Γ' : TEnv τ} {e : Exp} {D : Dem τ} (h : Can t Γ e D) (hl : ∀ x, Free x e → Le (tlook x Γ) (tlook x Γ')) : Can t Γ' e D := by
  cases D with
  | any => trivial
  | ty T => exact ctype_le t e hl T h
  | truth β => exact foldTest_le t e hl β h

/-- nothing is known. -/
theorem can_app {t : Types τ} {Γ : TEnv τ} {f : Exp} {es : List Exp} {D : Dem τ} (hn : isLet (.app f es) = false) (h : Can t Γ (.app f es) D) : D = .any := by
  cases D with
  | any => rfl
  | ty T =>
    simp only [Can] at h
    unfold ctype at h
    split at h <;> try cases h
    · rename_i heq; cases heq
    · rename_i heq; cases heq
    · rename_i heq; injection heq with h1 h2; subst h1; subst h2
      simp only [isLet, decide_eq_false_iff_not] at hn
      rw [if_neg hn] at h; cases h
    · rename_i heq; cases heq
  | truth β =>
    simp only [Can] at h
    unfold foldTest at h
    split at h <;> try cases h
    · rename_i heq; injection heq with h1 h2; subst h1; subst h2
      simp only [isLet, decide_eq_false_iff_not] at hn
      rw [if_neg hn] at h; cases h
    · rename_i heq; cases heq

theorem can_let {t : Types τ} {Γ : TEnv τ} {ids : List Id} {b : Exp} {es : List Exp} {D : Dem τ} (hl : ids.length = es.length) (h : Can t Γ (.app (.lam ids b) es) D) :
    Can t (exts ids (ctypes t Γ es) Γ) b D := by
  cases D with
  | any => trivial
  | ty T => simp only [Can, ctype, if_pos hl] at h; exact h
  | truth β => simp only [Can, foldTest, if_pos hl] at h; exact h

theorem can_ite {t : Types τ} {Γ : TEnv τ} {a b c : Exp} {D : Dem τ} (h : Can t Γ (.ite a b c) D) : Can t Γ b D ∧ Can t Γ c D := by
  cases D with
  | any => exact ⟨trivial, trivial⟩
  | ty T =>
    simp only [Can, ctype] at h ⊢
    split at h
    · rename_i x y hx hy
      split at h
      · rename_i e; subst e; rw [hx, hy]; exact ⟨h, h⟩
      · cases h
    · cases h
  | truth β => simp [Can, foldTest] at h

theorem can_beg {t : Types τ} {Γ : TEnv τ} {d : Id} {b e : Exp} {D : Dem τ} (hd : ¬ Free d b) (h : Can t Γ (.app (.lam [d] b) [e]) D) : Can t Γ b D := by
  refine (can_let rfl h).le (fun x hx => ?_)
  simp only [ctypes, exts, tlook]
  have : x ≠ d := fun e => hd (e ▸ hx)
  rw [if_neg this]
  exact fun _ h => h

theorem can_idl {t : Types τ} {Γ : TEnv τ} {x : Id} {e : Exp} {D : Dem τ} (h : Can t Γ (.app (.lam [x] (.var x)) [e]) D) : Can t Γ e D := by
  have := can_let rfl h
  cases D with
  | any => trivial
  | ty T => simpa [Can, ctype, ctypes, exts, tlook] using this
  | truth β => simp [Can, foldTest] at this

theorem can_none {t : Types τ} {Γ : TEnv τ} {e : Exp} {D : Dem τ} (h1 : ctype t Γ e = none) (h2 : foldTest t Γ e = none) (h : Can t Γ e D) : D = .any := by
  cases D with
  | any => rfl
  | ty T => simp only [Can, h1] at h; cases h
  | truth β => simp only [Can, h2] at h; cases h

theorem can_dem (t : Types τ) (Γ : TEnv τ) (e : Exp) : Can t Γ e (dem (ctype t Γ e)) := by
  cases h : ctype t Γ e with
  | none => trivial
  | some T => exact h

/-! ### environments -/

omit [DecidableEq τ] in
theorem Good.bind {has : τ → View → Prop} {Γ : TEnv τ} {ρ : Env} {ids : List Id} {vs : List Val} (h : Good has Γ ρ) (hn : ∀ y ∈ ids, tlook y Γ = none) :
    Good has Γ (bindAll ids vs ρ) := by
  intro x T hx
  have hm : x ∉ ids := fun hm => by rw [hn x hm] at hx; cases hx
  obtain ⟨h1, h2⟩ := h x T hx
  exact ⟨h1, fun v hv => h2 v (by rwa [Beta.lookup_skip hm] at hv)⟩

omit [DecidableEq τ] in
theorem Good.fix {has : τ → View → Prop} {Γ : TEnv τ} {ρ : Env} {ids : List Id} {lams : List Exp} (h : Good has Γ ρ) (hn : ∀ y ∈ ids, tlook y Γ = none) :
    Good has Γ (.fix ids lams ρ) := by
  intro x T hx
  have hm : x ∉ ids := fun hm => by rw [hn x hm] at hx; cases hx
  obtain ⟨h1, h2⟩ := h x T hx
  exact ⟨h1, fun v hv => h2 v (by rwa [Env.lookup, Beta.idxOf_none.mpr hm] at hv)⟩

omit [DecidableEq τ] in
theorem Good.ext {has : τ → View → Prop} {Γ : TEnv τ} {ρ : Env} : ∀ {ids : List Id} {ts : List (Option τ)} {vs : List Val}, Good has Γ ρ → (∀ y ∈ ids, y.isGlobal = false) →
    ids.length = ts.length → List.Forall₂ (fun t v => ∀ T, t = some T → has T (Val.view v)) ts vs → Good has (exts ids ts Γ) (bindAll ids vs ρ) := by
  intro ids
  induction ids with
  | nil => intro ts vs h _ _ _; simpa [exts, bindAll] using h
  | cons y ids ih =>
    intro ts vs h hg hl hv
    cases hv with
    | nil => simp at hl
    | cons h1 h2 =>
      intro x T hx
      simp only [exts, tlook, bindAll, Env.lookup] at hx ⊢
      split at hx
      · rename_i e
        rw [if_pos e]
        refine ⟨e ▸ hg y (by simp), fun v hv => ?_⟩
        injection hv with hv; subst hv
        exact h1 T hx
      · rename_i e
        rw [if_neg e]
        exact ih h (fun z hz => hg z (by simp [hz])) (by simpa using hl) h2 x T hx

omit [DecidableEq τ] in
theorem Good.cons {has : τ → View → Prop} {Γ : TEnv τ} {ρ : Env} {x : Id} {T : τ} (h : Good has Γ ρ) (hx : x.isGlobal = false) (hT : ∀ v, ρ.lookup x = some v → has T v.view) :
    Good has ((x, some T) :: Γ) ρ := by
  intro y U hy
  simp only [tlook] at hy
  split at hy
  · rename_i e
    subst e
    injection hy with hy; subst hy
    exact ⟨hx, hT⟩
  · exact h y U hy

omit [DecidableEq τ] in
/-- a variable that is not used. -/
theorem Good.skip {has : τ → View → Prop} {Γ : TEnv τ} {ρ : Env} {x : Id} {v : Val} (h : Good has Γ ρ) (hx : tlook x Γ = none) : Good has Γ (.bind x v ρ) :=
  h.bind (ids := [x]) (vs := [v]) (by simpa using hx)

end Verif.Fold
