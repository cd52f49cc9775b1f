import Verif.Beta.Local
import Verif.Sets.Props
/-
`beta-substitute` is a sequence of reductions (C36).
-/
namespace Verif.Beta
open Verif.Core

/-! ### references -/

theorem occs_zero {x : Id} {es : List Exp} : occs x es = 0 ↔ ∀ e ∈ es, occ x e = 0 := by
  induction es with
  | nil => simp [occs]
  | cons e es ih => simp [occs, ih]

theorem occ_of_fresh {x : Id} (e : Exp) (hf : ¬ Free x e) (hb : bc x e = 0) : occ x e = 0 := by
  induction e using ind with
  | var y => rw [occ, if_neg]; rintro rfl; exact hf .var
  | set y e ih => exact ih (fun h => hf (.set _ h)) hb
  | ite a b c h1 h2 h3 =>
    rw [bc_ite] at hb; rw [free_ite] at hf
    rw [occ, h1 (fun h => hf (Or.inl h)) (by omega), h2 (fun h => hf (Or.inr (Or.inl h))) (by omega), h3 (fun h => hf (Or.inr (Or.inr h))) (by omega)]
  | prim eff p es ih =>
    rw [bc_prim] at hb; rw [occ, occs_zero]
    exact fun e he => ih e he (fun h => hf (.prim _ _ he h)) (by have := bcs_le x he; omega)
  | app f es h1 h2 =>
    rw [bc_app] at hb
    rw [occ, h1 (fun h => hf (.appF _ h)) (by omega), occs_zero.mpr (fun e he => h2 e he (fun h => hf (.appA _ he h)) (by have := bcs_le x he; omega))]
  | lam ids b ih =>
    rw [bc_lam] at hb
    have : x ∉ ids := fun h => by have := List.count_pos_iff.mpr h; omega
    exact ih (fun h => hf (.lam this h)) (by omega)
  | fix ids lams b h1 h2 =>
    rw [bc_fix] at hb
    have : x ∉ ids := fun h => by have := List.count_pos_iff.mpr h; omega
    rw [occ, h2 (fun h => hf (.fixB _ this h)) (by omega), occs_zero.mpr (fun e he => h1 e he (fun h => hf (.fixL _ this he h)) (by have := bcs_le x he; omega))]
  | letcc y b ih =>
    rw [bc_letcc] at hb
    have : x ≠ y := fun h => by subst h; simp at hb
    exact ih (fun h => hf (.letcc this h)) (by omega)
  | withcc k e h1 h2 =>
    rw [bc_withcc] at hb
    rw [occ, h1 (fun h => hf (.withccK _ h)) (by omega), h2 (fun h => hf (.withccE _ h)) (by omega)]

variable {W : Type} {M : Sem W}

theorem occ_free {x : Id} (hx : x.isGlobal = false) (e : Exp) (hh : Hon M e) (h0 : occ x e = 0) : ¬ Free x e := by
  induction e using ind with
  | var y => intro h; rw [free_var] at h; subst h; simp [occ] at h0
  | set y e ih =>
    cases hh with | set h1 h2 =>
    intro h; rw [free_set] at h
    rcases h with rfl | h
    · rw [hx] at h1; cases h1
    · exact ih h2 h0 h
  | ite a b c h1 h2 h3 =>
    cases hh with | ite k1 k2 k3 =>
    simp only [occ] at h0
    intro h; rw [free_ite] at h
    rcases h with h | h | h
    · exact h1 k1 (by omega) h
    · exact h2 k2 (by omega) h
    · exact h3 k3 (by omega) h
  | prim eff p es ih =>
    cases hh with | prim _ _ k =>
    intro h; rw [free_prim] at h
    obtain ⟨e, he, h⟩ := h
    exact ih e he (k e he) (occs_zero.mp h0 e he) h
  | app f es h1 h2 =>
    cases hh with | app k1 k2 =>
    simp only [occ] at h0
    intro h; rw [free_app] at h
    rcases h with h | ⟨e, he, h⟩
    · exact h1 k1 (by omega) h
    · exact h2 e he (k2 e he) (occs_zero.mp (by omega) e he) h
  | lam ids b ih =>
    cases hh with | lam k =>
    intro h; rw [free_lam] at h; exact ih k h0 h.2
  | fix ids lams b h1 h2 =>
    cases hh with | fix k1 k2 =>
    simp only [occ] at h0
    intro h; rw [free_fix] at h
    rcases h.2 with ⟨e, he, h⟩ | h
    · exact h1 e he (k1 e he) (occs_zero.mp (by omega) e he) h
    · exact h2 k2 (by omega) h
  | letcc y b ih =>
    cases hh with | letcc k =>
    intro h; rw [free_letcc] at h; exact ih k h0 h.2
  | withcc k e h1 h2 =>
    cases hh with | withcc k1 k2 =>
    simp only [occ] at h0
    intro h; rw [free_withcc] at h
    rcases h with h | h
    · exact h1 k1 (by omega) h
    · exact h2 k2 (by omega) h

/-! ### `var-reference-count` -/

/-- uses of `x`. -/
def uc (x : Id) (vi : List (Id × Use)) : Nat := (vi.filter (fun u => decide (x = u.1))).length

theorem uc_append (x : Id) (a b : List (Id × Use)) : uc x (a ++ b) = uc x a + uc x b := by simp [uc]

theorem uses_loop_length (x : Id) : ∀ (vi : List (Id × Use)) (us : List Use), (varUses.loop x vi us).length = uc x vi + us.length := by
  intro vi
  induction vi with
  | nil => intro us; simp [varUses.loop, uc]
  | cons u vi ih =>
    intro us
    unfold varUses.loop
    by_cases h : x = u.1
    · rw [if_pos h, ih, List.length_cons]
      have : uc x (u :: vi) = uc x vi + 1 := by unfold uc; rw [List.filter_cons_of_pos (by simpa using h), List.length_cons]
      omega
    · rw [if_neg h, ih]
      have : uc x (u :: vi) = uc x vi := by unfold uc; rw [List.filter_cons_of_neg (by simpa using h)]
      omega

theorem refCount_eq (x : Id) (e : Exp) : refCount x e = uc x (vinfo e) := by
  rw [refCount, varUses, uses_loop_length]; rfl

theorem uc_keep {x : Id} {p : Id × Use → Bool} (vi : List (Id × Use)) (h : ∀ u : Id × Use, u.1 = x → p u = true) : uc x (Verif.Sets.keep p vi) = uc x vi := by
  induction vi with
  | nil => rfl
  | cons u vi ih =>
    unfold Verif.Sets.keep
    by_cases hx : x = u.1
    · rw [if_pos (h u hx.symm)]
      unfold uc at ih ⊢
      rw [List.filter_cons_of_pos (by simpa using hx), List.filter_cons_of_pos (by simpa using hx), List.length_cons, List.length_cons, ih]
    · split
      · unfold uc at ih ⊢
        rw [List.filter_cons_of_neg (by simpa using hx), List.filter_cons_of_neg (by simpa using hx), ih]
      · rw [ih]; unfold uc; rw [List.filter_cons_of_neg (by simpa using hx)]

theorem uc_prim {x : Id} : ∀ (es : List Exp) (vi : List (Id × Use)), (∀ e ∈ es, uc x (vinfo e) = occ x e) → uc x (vinfoPrim es vi) = occs x es + uc x vi := by
  intro es
  induction es with
  | nil => intro vi _; simp [vinfoPrim, occs]
  | cons e es ih =>
    intro vi h
    rw [vinfoPrim, ih _ (fun a ha => h a (by simp [ha])), uc_append, h e (by simp), occs]
    omega

theorem uc_all {x : Id} : ∀ (es : List Exp) (vi : List (Id × Use)), (∀ e ∈ es, uc x (vinfo e) = occ x e) → uc x (vinfoAll es vi) = occs x es + uc x vi := by
  intro es
  induction es with
  | nil => intro vi _; simp [vinfoAll, occs]
  | cons e es ih =>
    intro vi h
    rw [vinfoAll, uc_append, ih _ (fun a ha => h a (by simp [ha])), h e (by simp), occs]
    omega


theorem hon_mkApp {f : Exp} {es : List Exp} (h : Hon M (mkApp f es)) : Hon M f ∧ ∀ e ∈ es, Hon M e := by
  rcases mkApp_cases f es with ⟨b, rfl, rfl, e⟩ | ⟨_, e⟩
  · rw [e] at h; exact ⟨.lam h, fun _ h => by cases h⟩
  · rw [e] at h; cases h with | app h1 h2 => exact ⟨h1, h2⟩

theorem uc_occ {x : Id} (hx : x.isGlobal = false) (s : List Entry) (e : Exp) (hh : Hon M (sb s e)) (hb : bc x e = 0) : uc x (vinfo e) = occ x e := by
  induction e using ind with
  | var y => by_cases h : x = y <;> simp [vinfo, uc, occ, h]
  | set y e ih =>
    rw [sb] at hh
    cases hh with | set h1 h2 =>
    have : x ≠ y := by rintro rfl; rw [hx] at h1; cases h1
    have h3 := ih h2 hb
    unfold uc at h3 ⊢
    rw [vinfo, List.filter_cons_of_neg (by simpa using this), h3, occ]
  | ite a b c h1 h2 h3 =>
    rw [sb] at hh
    cases hh with | ite k1 k2 k3 =>
    rw [bc_ite] at hb
    rw [vinfo, uc_append, uc_append, occ, h1 k1 (by omega), h2 k2 (by omega), h3 k3 (by omega)]
  | prim eff p es ih =>
    rw [sb, sbs_eq] at hh
    cases hh with | prim _ _ k =>
    rw [bc_prim] at hb
    rw [vinfo, uc_prim es _ (fun e he => ih e he (k _ (List.mem_map_of_mem he)) (by have := bcs_le x he; omega)), occ]; rfl
  | app f es h1 h2 =>
    rw [sb, sbs_eq] at hh
    obtain ⟨k1, k2⟩ := hon_mkApp hh
    rw [bc_app] at hb
    have hv : ∃ vf, vinfo (.app f es) = vinfoAll es vf ∧ uc x vf = uc x (vinfo f) := by
      cases f with
      | var y => refine ⟨[(y, ⟨false, true⟩)], rfl, ?_⟩; by_cases h : x = y <;> simp [uc, vinfo, h]
      | _ => exact ⟨_, rfl, rfl⟩
    obtain ⟨vf, e1, e2⟩ := hv
    rw [e1, uc_all es _ (fun e he => h2 e he (k2 _ (List.mem_map_of_mem he)) (by have := bcs_le x he; omega)), occ, e2, h1 k1 (by omega)]
    omega
  | lam ids b ih =>
    rw [sb] at hh
    cases hh with | lam k =>
    rw [bc_lam] at hb
    have hn : x ∉ ids := fun h => by have := List.count_pos_iff.mpr h; omega
    rw [vinfo, uc_keep _ (fun u hu => ?_), ih k (by omega), occ]
    rw [hu]
    cases hm : Verif.Sets.memq x ids with
    | false => rfl
    | true => exact absurd ((Verif.Sets.memq_iff x ids).mp hm) hn
  | fix ids lams b h1 h2 =>
    rw [sb, sbs_eq] at hh
    cases hh with | fix k1 k2 =>
    rw [bc_fix] at hb
    have hn : x ∉ ids := fun h => by have := List.count_pos_iff.mpr h; omega
    rw [vinfo, uc_keep _ (fun u hu => ?_), uc_all lams _ (fun e he => h1 e he (k1 _ (List.mem_map_of_mem he)) (by have := bcs_le x he; omega)), h2 k2 (by omega), occ]
    rw [hu]
    cases hm : Verif.Sets.memq x ids with
    | false => rfl
    | true => exact absurd ((Verif.Sets.memq_iff x ids).mp hm) hn
  | letcc y b ih =>
    rw [sb] at hh
    cases hh with | letcc k =>
    rw [bc_letcc] at hb
    have hn : x ≠ y := fun h => by subst h; simp at hb
    rw [vinfo, uc_keep _ (fun u hu => ?_), ih k (by omega), occ]
    rw [hu]; simp [hn]
  | withcc k e h1 h2 =>
    rw [sb] at hh
    cases hh with | withcc k1 k2 =>
    rw [bc_withcc] at hb
    rw [vinfo, uc_append, occ, h1 k1 (by omega), h2 k2 (by omega)]

/-! ### substitutions -/

theorem occ_mkApp (x : Id) (f : Exp) (es : List Exp) : occ x (mkApp f es) = occ x f + occs x es := by
  rcases mkApp_cases f es with ⟨b, rfl, rfl, e⟩ | ⟨_, e⟩
  · rw [e]; simp [occ, occs]
  · rw [e, occ]

theorem occs_map {x : Id} {f : Exp → Exp} {es : List Exp} (h : ∀ e ∈ es, occ x (f e) = occ x e) : occs x (es.map f) = occs x es := by
  induction es with
  | nil => rfl
  | cons e es ih => rw [List.map_cons, occs, occs, h e (by simp), ih (fun a ha => h a (by simp [ha]))]

theorem find_mem {x : Id} : ∀ {s : List Entry} {en : Entry}, find x s = some en → en ∈ s ∧ en.id = x := by
  intro s
  induction s with
  | nil => intro en h; cases h
  | cons n s ih =>
    intro en h
    rw [find] at h
    split at h
    · rename_i hn; cases h; exact ⟨by simp, hn⟩
    · obtain ⟨h1, h2⟩ := ih h; exact ⟨by simp [h1], h2⟩

theorem find_none {x : Id} : ∀ {s : List Entry}, find x s = none ↔ ∀ en ∈ s, en.id ≠ x := by
  intro s
  induction s with
  | nil => simp [find]
  | cons n s ih =>
    rw [find]
    split
    · rename_i hn; simp [hn]
    · rename_i hn; simp [ih, hn]

theorem occ_sb {x : Id} {s : List Entry} (hs : ∀ en ∈ s, en.id ≠ x ∧ occ x en.exp = 0) (e : Exp) : occ x (sb s e) = occ x e := by
  induction e using ind with
  | var y =>
    rw [sb]
    cases h : find y s with
    | none => rfl
    | some en =>
      obtain ⟨h1, h2⟩ := find_mem h
      have := hs en h1
      show occ x en.exp = _
      rw [this.2, occ, if_neg (fun e => this.1 (h2.trans e.symm))]
  | set y e ih => exact ih
  | ite a b c h1 h2 h3 => simp only [sb, occ, h1, h2, h3]
  | prim eff p es ih => simp only [sb, occ, sbs_eq, occs_map ih]
  | app f es h1 h2 => simp only [sb, occ, sbs_eq, occ_mkApp, h1, occs_map h2]
  | lam ids b ih => exact ih
  | fix ids lams b h1 h2 => simp only [sb, occ, sbs_eq, occs_map h1, h2]
  | letcc y b ih => exact ih
  | withcc k e h1 h2 => simp only [sb, occ, h1, h2]

theorem nf_of_occ {s : List Entry} (e : Exp) (h : ∀ en ∈ s, occ en.id e = 0) : sb s e = nf e := by
  have hl : ∀ (es : List Exp), (∀ e ∈ es, (∀ en ∈ s, occ en.id e = 0) → sb s e = nf e) → (∀ en ∈ s, occs en.id es = 0) → es.map (sb s) = es.map nf :=
    fun es h1 h2 => List.map_congr_left (fun e he => h1 e he (fun en hen => occs_zero.mp (h2 en hen) e he))
  induction e using ind with
  | var y =>
    rw [sb]
    cases hf : find y s with
    | none => rfl
    | some en =>
      obtain ⟨h1, h2⟩ := find_mem hf
      have := h en h1
      rw [h2] at this
      simp [occ] at this
  | set y e ih => rw [sb, nf, ih h]
  | ite a b c h1 h2 h3 =>
    simp only [occ] at h
    rw [sb, nf, h1 (fun en he => by have := h en he; omega), h2 (fun en he => by have := h en he; omega), h3 (fun en he => by have := h en he; omega)]
  | prim eff p es ih => simp only [sb, nf, sbs_eq, nfs_eq]; rw [hl es ih h]
  | app f es h1 h2 =>
    simp only [occ] at h
    simp only [sb, nf, sbs_eq, nfs_eq]
    rw [h1 (fun en he => by have := h en he; omega), hl es h2 (fun en he => by have := h en he; omega)]
  | lam ids b ih => rw [sb, nf, ih h]
  | fix ids lams b h1 h2 =>
    simp only [occ] at h
    simp only [sb, nf, sbs_eq, nfs_eq]
    rw [h2 (fun en he => by have := h en he; omega), hl lams h1 (fun en he => by have := h en he; omega)]
  | letcc y b ih => rw [sb, nf, ih h]
  | withcc k e h1 h2 =>
    simp only [occ] at h
    rw [sb, nf, h1 (fun en he => by have := h en he; omega), h2 (fun en he => by have := h en he; omega)]

theorem bcs_pos {y : Id} {es : List Exp} (h : 0 < bcs y es) : ∃ e ∈ es, 0 < bc y e := by
  induction es with
  | nil => simp [bcs_nil] at h
  | cons e es ih =>
    rw [bcs_cons] at h
    by_cases he : 0 < bc y e
    · exact ⟨e, by simp, he⟩
    · obtain ⟨a, ha, h'⟩ := ih (by omega); exact ⟨a, by simp [ha], h'⟩

theorem bc_sb_le {y : Id} {s : List Entry} (e : Exp) : bc y e ≤ bc y (sb s e) := by
  have hl : ∀ es : List Exp, (∀ e ∈ es, bc y e ≤ bc y (sb s e)) → bcs y es ≤ bcs y (es.map (sb s)) := by
    intro es
    induction es with
    | nil => intro _; simp
    | cons e es ih =>
      intro h
      rw [List.map_cons, bcs_cons, bcs_cons]
      have h1 := h e (by simp); have h2 := ih (fun a ha => h a (by simp [ha])); omega
  induction e using ind with
  | var z => rw [bc_var]; omega
  | set z e ih => exact ih
  | ite a b c h1 h2 h3 => simp only [sb, bc_ite]; omega
  | prim eff p es ih => simp only [sb, sbs_eq, bc_prim]; exact hl es ih
  | app f es h1 h2 => simp only [sb, sbs_eq, bc_mkApp, bc_app]; have := hl es h2; omega
  | lam ids b ih => simp only [sb, bc_lam]; omega
  | fix ids lams b h1 h2 => simp only [sb, sbs_eq, bc_fix]; have := hl lams h1; omega
  | letcc z b ih => simp only [sb, bc_letcc]; omega
  | withcc k e h1 h2 => simp only [sb, bc_withcc]; omega

theorem bc_sb_pos {y : Id} {s : List Entry} (e : Exp) (h : 0 < bc y (sb s e)) : 0 < bc y e ∨ ∃ en ∈ s, 0 < bc y en.exp := by
  by_contra hc
  simp only [not_or, not_exists, not_and, Nat.not_lt, Nat.le_zero] at hc
  obtain ⟨hc, hs⟩ := hc
  have hl : ∀ es : List Exp, (∀ e ∈ es, bc y e = 0 → bc y (sb s e) = 0) → bcs y es = 0 → bcs y (es.map (sb s)) = 0 := by
    intro es
    induction es with
    | nil => intro _ _; rfl
    | cons e es ih =>
      intro h h0
      rw [bcs_cons] at h0
      rw [List.map_cons, bcs_cons, h e (by simp) (by omega), ih (fun a ha => h a (by simp [ha])) (by omega)]
  have : bc y (sb s e) = 0 := by
    clear h
    induction e using ind with
    | var z =>
      rw [sb]
      cases hf : find z s with
      | none => rfl
      | some en => exact hs en (find_mem hf).1
    | set z e ih => exact ih hc
    | ite a b c h1 h2 h3 => rw [bc_ite] at hc; rw [sb, bc_ite, h1 (by omega), h2 (by omega), h3 (by omega)]
    | prim eff p es ih => simp only [sb, sbs_eq, bc_prim] at hc ⊢; exact hl es ih hc
    | app f es h1 h2 => rw [bc_app] at hc; simp only [sb, sbs_eq, bc_mkApp, bc_app]; rw [hl es h2 (by omega), h1 (by omega)]
    | lam ids b ih => rw [bc_lam] at hc; rw [sb, bc_lam, ih (by omega)]; omega
    | fix ids lams b h1 h2 => rw [bc_fix] at hc; simp only [sb, sbs_eq, bc_fix]; rw [hl lams h1 (by omega), h2 (by omega)]; omega
    | letcc z b ih => rw [bc_letcc] at hc; rw [sb, bc_letcc, ih (by omega)]; omega
    | withcc k e h1 h2 => rw [bc_withcc] at hc; rw [sb, bc_withcc, h1 (by omega), h2 (by omega)]
  omega

theorem free_sb {y : Id} {s : List Entry} (hy : y.isGlobal = false) (e : Exp) (hh : Hon M (sb s e)) (h : Free y (sb s e)) :
    (Free y e ∧ ∀ en ∈ s, en.id ≠ y) ∨ ∃ en ∈ s, Free y en.exp := by
  induction e using ind with
  | var z =>
    rw [sb] at h
    cases hf : find z s with
    | none =>
      rw [hf] at h
      rw [free_var] at h; subst h
      exact Or.inl ⟨.var, find_none.mp hf⟩
    | some en => rw [hf] at h; exact Or.inr ⟨en, (find_mem hf).1, h⟩
  | set z e ih =>
    rw [sb] at hh h
    cases hh with | set h1 h2 =>
    rw [free_set] at h
    rcases h with rfl | h
    · rw [hy] at h1; cases h1
    · exact (ih h2 h).imp_left (fun ⟨a, b⟩ => ⟨.set _ a, b⟩)
  | ite a b c h1 h2 h3 =>
    rw [sb] at hh h
    cases hh with | ite k1 k2 k3 =>
    rw [free_ite] at h
    rcases h with h | h | h
    · exact (h1 k1 h).imp_left (fun ⟨a, b⟩ => ⟨.iteA _ _ a, b⟩)
    · exact (h2 k2 h).imp_left (fun ⟨a, b⟩ => ⟨.iteB _ _ a, b⟩)
    · exact (h3 k3 h).imp_left (fun ⟨a, b⟩ => ⟨.iteC _ _ a, b⟩)
  | prim eff p es ih =>
    rw [sb, sbs_eq] at hh h
    cases hh with | prim _ _ k =>
    rw [free_prim] at h
    obtain ⟨e', he', h⟩ := h
    obtain ⟨e, he, rfl⟩ := List.mem_map.mp he'
    exact (ih e he (k _ he') h).imp_left (fun ⟨a, b⟩ => ⟨.prim _ _ he a, b⟩)
  | app f es h1 h2 =>
    rw [sb, sbs_eq] at hh h
    obtain ⟨k1, k2⟩ := hon_mkApp hh
    rw [free_mkApp, free_app] at h
    rcases h with h | ⟨e', he', h⟩
    · exact (h1 k1 h).imp_left (fun ⟨a, b⟩ => ⟨.appF _ a, b⟩)
    · obtain ⟨e, he, rfl⟩ := List.mem_map.mp he'
      exact (h2 e he (k2 _ he') h).imp_left (fun ⟨a, b⟩ => ⟨.appA _ he a, b⟩)
  | lam ids b ih =>
    rw [sb] at hh h
    cases hh with | lam k =>
    rw [free_lam] at h
    exact (ih k h.2).imp_left (fun ⟨a, b⟩ => ⟨.lam h.1 a, b⟩)
  | fix ids lams b h1 h2 =>
    rw [sb, sbs_eq] at hh h
    cases hh with | fix k1 k2 =>
    rw [free_fix] at h
    rcases h.2 with ⟨e', he', h'⟩ | h'
    · obtain ⟨e, he, rfl⟩ := List.mem_map.mp he'
      exact (h1 e he (k1 _ he') h').imp_left (fun ⟨a, b⟩ => ⟨.fixL _ h.1 he a, b⟩)
    · exact (h2 k2 h').imp_left (fun ⟨a, b⟩ => ⟨.fixB _ h.1 a, b⟩)
  | letcc z b ih =>
    rw [sb] at hh h
    cases hh with | letcc k =>
    rw [free_letcc] at h
    exact (ih k h.2).imp_left (fun ⟨a, b⟩ => ⟨.letcc h.1 a, b⟩)
  | withcc k e h1 h2 =>
    rw [sb] at hh h
    cases hh with | withcc k1 k2 =>
    rw [free_withcc] at h
    rcases h with h | h
    · exact (h1 k1 h).imp_left (fun ⟨a, b⟩ => ⟨.withccK _ a, b⟩)
    · exact (h2 k2 h).imp_left (fun ⟨a, b⟩ => ⟨.withccE _ a, b⟩)

theorem nn_sb {s : List Entry} (hs : ∀ en ∈ s, Nn en.exp) (e : Exp) : Nn (sb s e) := by
  induction e using ind with
  | var x =>
    rw [sb]
    cases hf : find x s with
    | none => exact .var x
    | some en => exact hs en (find_mem hf).1
  | set x e ih => exact .set ih
  | ite a b c h1 h2 h3 => exact .ite h1 h2 h3
  | prim eff p es ih => simp only [sb, sbs_eq]; exact .prim (forall_map ih)
  | app f es h1 h2 => simp only [sb, sbs_eq]; exact h1.mkApp (forall_map h2)
  | lam ids b ih => exact .lam ih
  | fix ids lams b h1 h2 => simp only [sb, sbs_eq]; exact .fix (forall_map h1) h2
  | letcc x b ih => exact .letcc ih
  | withcc k e h1 h2 => exact .withcc h1 h2

theorem T_mkApp {R : Redex} (hL : Loc R) {f : Exp} {es : List Exp} (h : Apart R f) : nf (T R (mkApp f es)) = mkApp (nf (T R f)) (es.map (fun e => nf (T R e))) := by
  rcases mkApp_cases f es with ⟨b, rfl, rfl, e⟩ | ⟨_, e⟩
  · rw [e]; simp [T, nf, mkApp]
  · rw [e, T_app hL h, nf, nfs_eq, List.map_map]; rfl

/-- one more substitution. -/
theorem T_sb {R : Redex} (hL : Loc R) {x : Id} {r : Exp} (hx : R.goneId = some x) (hr : R.sub = some r) (hn : Nn r) {s : List Entry}
    (hs : ∀ en ∈ s, en.id ≠ x ∧ ¬ Free x en.exp ∧ Nn en.exp) (h : Option Exp) (e : Exp) (ha : Apart R (sb s e)) : nf (T R (sb s e)) = sb (⟨x, r, h⟩ :: s) e := by
  have hl : ∀ es : List Exp, (∀ e ∈ es, Apart R (sb s e) → nf (T R (sb s e)) = sb (⟨x, r, h⟩ :: s) e) → (∀ e ∈ es, Apart R (sb s e)) →
      (es.map (sb s)).map (fun e => nf (T R e)) = es.map (sb (⟨x, r, h⟩ :: s)) := by
    intro es h1 h2
    rw [List.map_map]
    exact List.map_congr_left (fun e he => h1 e he (h2 e he))
  have hl' : ∀ es : List Exp, (∀ e ∈ es, Apart R (sb s e) → nf (T R (sb s e)) = sb (⟨x, r, h⟩ :: s) e) → (∀ e ∈ es.map (sb s), Apart R e) →
      ((es.map (sb s)).map (T R)).map nf = es.map (sb (⟨x, r, h⟩ :: s)) := by
    intro es h1 h2
    rw [List.map_map]
    exact hl es h1 (fun e he => h2 _ (List.mem_map_of_mem he))
  induction e using ind with
  | var y =>
    by_cases e : x = y
    · subst e
      have hf : find x s = none := find_none.mpr (fun en hen => (hs en hen).1)
      rw [sb, hf, sb, find, if_pos rfl]
      simp only [T, hx, hr, if_true, Option.getD_some]
      exact hn.nf
    · have h2 : sb (⟨x, r, h⟩ :: s) (.var y) = sb s (.var y) := by simp only [sb, find]; rw [if_neg e]
      rw [h2]
      cases hf : find y s with
      | none =>
        rw [sb, hf]
        show nf (T R (.var y)) = _
        rw [T, if_neg (by rw [hx]; exact fun h => e (Option.some.inj h))]; rfl
      | some en =>
        obtain ⟨h3, h4⟩ := hs en (find_mem hf).1 |>.2
        rw [sb, hf] at ha ⊢
        rw [show T R en.exp = en.exp from (clean_apart hL en.exp ha (fun z hz => by rw [hx] at hz; cases hz; exact h3)).T]
        exact h4.nf
  | set y e ih => rw [sb] at ha ⊢; rw [T, nf, sb, ih ha.set]
  | ite a b c h1 h2 h3 => rw [sb] at ha ⊢; rw [T, nf, sb, h1 ha.iteA, h2 ha.iteB, h3 ha.iteC]
  | prim eff p es ih =>
    rw [sb, sbs_eq] at ha ⊢
    rw [T, nf, sb, Ts_eq, nfs_eq, sbs_eq, hl' es ih ha.prim]
  | app f es h1 h2 =>
    rw [sb, sbs_eq] at ha ⊢
    have ha' : Apart R (.app (sb s f) (es.map (sb s))) := fun y hy => by have := ha y hy; rwa [bc_mkApp] at this
    rw [T_mkApp hL ha'.appF, h1 ha'.appF, hl es h2 (fun e he => ha'.appA _ (List.mem_map_of_mem he)), sb, sbs_eq]
  | lam ids b ih => rw [sb] at ha ⊢; rw [T, nf, sb, ih ha.lam]
  | fix ids lams b h1 h2 =>
    rw [sb, sbs_eq] at ha ⊢
    rw [T, nf, sb, Ts_eq, nfs_eq, sbs_eq, hl' lams h1 ha.fixL, h2 ha.fixB]
  | letcc y b ih => rw [sb] at ha ⊢; rw [T, nf, sb, ih ha.letcc]
  | withcc k e h1 h2 => rw [sb] at ha ⊢; rw [T, nf, sb, h1 ha.withccK, h2 ha.withccE]

end Verif.Beta
