import Verif.Core.Free
/-
Programs in which every local variable is bound once (the expander makes a new id for each binding, 2.sf).
-/
namespace Verif.Core

mutual
/-- all binding occurrences of ids. -/
def binders : Exp → List Id
  | .var _ => []
  | .set _ e => binders e
  | .ite a b c => binders a ++ (binders b ++ binders c)
  | .prim _ _ es => bindersAll es
  | .app f es => binders f ++ bindersAll es
  | .lam ids b => ids ++ binders b
  | .fix ids lams b => ids ++ (bindersAll lams ++ binders b)
  | .letcc x b => x :: binders b
  | .withcc k e => binders k ++ binders e
/-- the same for lists. -/
def bindersAll : List Exp → List Id
  | [] => []
  | e :: es => binders e ++ bindersAll es
end

/-- No id is bound twice, and no id is both bound and free. -/
def Uniq (e : Exp) : Prop := (binders e).Nodup ∧ ∀ x ∈ binders e, ¬ Free x e

theorem mem_bindersAll {x : Id} : ∀ {es : List Exp}, x ∈ bindersAll es ↔ ∃ e ∈ es, x ∈ binders e := by
  intro es
  induction es with
  | nil => simp [bindersAll]
  | cons e es ih => simp [bindersAll, ih]

theorem nodup_bindersAll : ∀ {es : List Exp}, (bindersAll es).Nodup → ∀ e ∈ es, (binders e).Nodup := by
  intro es
  induction es with
  | nil => intro _ e h; cases h
  | cons a es ih =>
    intro h e he
    simp only [bindersAll, List.nodup_append] at h
    rcases List.mem_cons.mp he with rfl | he
    · exact h.1
    · exact ih h.2.1 e he

theorem Uniq.set {x : Id} {e : Exp} (h : Uniq (.set x e)) : Uniq e :=
  ⟨h.1, fun y hy hf => h.2 y hy (.set _ hf)⟩
theorem Uniq.iteA {a b c : Exp} (h : Uniq (.ite a b c)) : Uniq a := by
  have h1 := h.1
  simp only [binders, List.nodup_append] at h1
  exact ⟨h1.1, fun y hy hf => h.2 y (by simp [binders, hy]) (.iteA _ _ hf)⟩
theorem Uniq.iteB {a b c : Exp} (h : Uniq (.ite a b c)) : Uniq b := by
  have h1 := h.1
  simp only [binders, List.nodup_append] at h1
  exact ⟨h1.2.1.1, fun y hy hf => h.2 y (by simp [binders, hy]) (.iteB _ _ hf)⟩
theorem Uniq.iteC {a b c : Exp} (h : Uniq (.ite a b c)) : Uniq c := by
  have h1 := h.1
  simp only [binders, List.nodup_append] at h1
  exact ⟨h1.2.1.2.1, fun y hy hf => h.2 y (by simp [binders, hy]) (.iteC _ _ hf)⟩
theorem Uniq.prim {eff : Effect} {p : PrimName} {es : List Exp} (h : Uniq (.prim eff p es)) : ∀ e ∈ es, Uniq e := by
  intro e he
  exact ⟨nodup_bindersAll h.1 e he, fun y hy hf => h.2 y (mem_bindersAll.mpr ⟨e, he, hy⟩) (.prim _ _ he hf)⟩
theorem Uniq.appF {f : Exp} {es : List Exp} (h : Uniq (.app f es)) : Uniq f := by
  have h1 := h.1
  simp only [binders, List.nodup_append] at h1
  exact ⟨h1.1, fun y hy hf => h.2 y (by simp [binders, hy]) (.appF _ hf)⟩
theorem Uniq.appA {f : Exp} {es : List Exp} (h : Uniq (.app f es)) : ∀ e ∈ es, Uniq e := by
  intro e he
  have h1 := h.1
  simp only [binders, List.nodup_append] at h1
  exact ⟨nodup_bindersAll h1.2.1 e he, fun y hy hf => h.2 y (by
    simp only [binders, List.mem_append]
    exact Or.inr (mem_bindersAll.mpr ⟨e, he, hy⟩)) (.appA _ he hf)⟩
theorem Uniq.lam {ids : List Id} {b : Exp} (h : Uniq (.lam ids b)) : Uniq b := by
  have h1 := h.1
  simp only [binders, List.nodup_append] at h1
  exact ⟨h1.2.1, fun y hy hf => h.2 y (by simp [binders, hy]) (.lam (fun hm => h1.2.2 y hm y hy rfl) hf)⟩
theorem Uniq.fixB {ids : List Id} {lams : List Exp} {b : Exp} (h : Uniq (.fix ids lams b)) : Uniq b := by
  have h1 := h.1
  simp only [binders, List.nodup_append] at h1
  exact ⟨h1.2.1.2.1, fun y hy hf => h.2 y (by simp [binders, hy]) (.fixB _ (fun hm => h1.2.2 y hm y (by simp [hy]) rfl) hf)⟩
theorem Uniq.fixL {ids : List Id} {lams : List Exp} {b : Exp} (h : Uniq (.fix ids lams b)) : ∀ l ∈ lams, Uniq l := by
  intro l hl
  have h1 := h.1
  simp only [binders, List.nodup_append] at h1
  exact ⟨nodup_bindersAll h1.2.1.1 l hl, fun y hy hf => by
    have hm : y ∈ bindersAll lams := mem_bindersAll.mpr ⟨l, hl, hy⟩
    exact h.2 y (by simp [binders, hm]) (.fixL _ (fun hi => h1.2.2 y hi y (by simp [hm]) rfl) hl hf)⟩
theorem Uniq.letcc {x : Id} {b : Exp} (h : Uniq (.letcc x b)) : Uniq b := by
  have h1 := h.1
  simp only [binders, List.nodup_cons] at h1
  exact ⟨h1.2, fun y hy hf => h.2 y (by simp [binders, hy]) (.letcc (fun e => h1.1 (by rw [← e]; exact hy)) hf)⟩
theorem Uniq.withccK {k e : Exp} (h : Uniq (.withcc k e)) : Uniq k := by
  have h1 := h.1
  simp only [binders, List.nodup_append] at h1
  exact ⟨h1.1, fun y hy hf => h.2 y (by simp [binders, hy]) (.withccK _ hf)⟩
theorem Uniq.withccE {k e : Exp} (h : Uniq (.withcc k e)) : Uniq e := by
  have h1 := h.1
  simp only [binders, List.nodup_append] at h1
  exact ⟨h1.2.1, fun y hy hf => h.2 y (by simp [binders, hy]) (.withccE _ hf)⟩

end Verif.Core
