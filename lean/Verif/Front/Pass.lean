import Verif.Front.Shape
/-
The programs `fix-letrecs` produces, by induction on the pass (C74).
-/
namespace Verif.Front
open Verif.Core Verif.Letrec
open Verif.Fold (beginExp mapK)
open Verif.Beta (free_app free_lam free_set free_var)
variable {P : Par}

theorem cbs_cons (x : Id) (e : Exp) (es : List Exp) : cbs x (e :: es) = cb x e + cbs x es := by
  simp only [cbs, cb, bindersAll, List.count_append]

theorem mem_of_cb {x : Id} {e : Exp} : x ∈ binders e ↔ 0 < cb x e := List.count_pos_iff.symm
theorem mem_of_cbs {x : Id} {es : List Exp} : x ∈ bindersAll es ↔ 0 < cbs x es := List.count_pos_iff.symm

theorem bnds_exps (ids0 : List Id) (vi : List (Id × Use)) : ∀ {ids : List Id} {es rs : List Exp}, es.length = ids.length → rs.length = ids.length →
    (bnds ids0 vi ids es rs).map (·.exp) = rs := by
  intro ids
  induction ids with
  | nil => intro es rs _ h; rw [List.length_eq_zero_iff.mp h]; simp [bnds]
  | cons x ids ih =>
    intro es rs h1 h2
    cases es with
    | nil => simp at h1
    | cons e es =>
      cases rs with
      | nil => simp at h2
      | cons r rs => simp [bnds, ih (by simpa using h1) (by simpa using h2)]

theorem bnds_ids (ids0 : List Id) (vi : List (Id × Use)) {ids : List Id} {es rs : List Exp} (h1 : es.length = ids.length) (h2 : rs.length = ids.length) :
    (bnds ids0 vi ids es rs).map (·.id) = ids := by
  rw [bnds_prs, List.map_map]
  exact prs_ids ids0 vi h1 h2

/-- Parts of a `letrec` or `letrec*` in the expression. -/
structure PartsOf (ids : List Id) (rands : List Exp) (body e : Exp) : Prop where
  len : rands.length = ids.length
  cnt : ∀ x, ids.count x + cbs x rands + cb x body ≤ cb x e
  free : ∀ x, x ∉ ids → occ rands body x → Free x e
  tgt : ∀ x, x ∈ tgts body ∨ x ∈ tgtsAll rands → x ∈ tgts e

theorem bs_ok {k k1 k2 : Nat} {ids : List Id} {rands rs : List Exp} {body body' e : Exp} (hp : PartsOf ids rands body e) (hu : (binders e).Nodup)
    (h1 : Kepts k k1 rands rs) (h2 : Kept k1 k2 body body') : Bs (classifyBindings ids rands body rs) body' ∧
      (classifyBindings ids rands body rs).map (·.id) = ids ∧ (classifyBindings ids rands body rs).map (·.exp) = rs := by
  have hl : rs.length = ids.length := by rw [h1.len, hp.len]
  have e1 := bnds_ids ids (vinfoAll rands (vinfo body)) hp.len hl
  have e2 := bnds_exps ids (vinfoAll rands (vinfo body)) hp.len hl
  have hmem : ∀ b ∈ classifyBindings ids rands body rs, ∃ src, classify ids (vinfoAll rands (vinfo body)) b.id src = b.kind ∧ b.id ∈ ids ∧ src ∈ rands ∧
      ∀ x, Free x b.exp → Free x src := by
    intro b hb
    rw [classifyBindings, bnds_prs] at hb
    obtain ⟨p, hp1, rfl⟩ := List.mem_map.mp hb
    obtain ⟨h3, i, h4, h5, h6⟩ := mem_prs hp1
    exact ⟨p.2.src, h3.symm, List.mem_of_getElem? h4, List.mem_of_getElem? h5, fun x hx => h1.free x i _ _ h5 h6 hx⟩
  have hone : ∀ x, ids.count x + cbs x rands + cb x body ≤ 1 := fun x => Nat.le_trans (hp.cnt x) (List.nodup_iff_count_le_one.mp hu x)
  have hout : ∀ x ∈ ids, x ∉ binders body ∧ x ∉ bindersAll rands := by
    intro x hx
    have h3 : 0 < ids.count x := List.count_pos_iff.mpr hx
    have h4 := hone x
    rw [mem_of_cb, mem_of_cbs]
    omega
  refine ⟨⟨?_, fun b hb hs b' hb' hf => ?_, fun b hb hk => ?_, fun b hb hk => ?_, h2.ok, ?_⟩, e1, e2⟩
  · rw [classifyBindings, e1]
    exact List.nodup_iff_count_le_one.mpr fun x => by have := hone x; omega
  · obtain ⟨src, h3, _, _, h6⟩ := hmem b hb
    obtain ⟨_, _, h7, _⟩ := classify_spec h3
    obtain ⟨_, _, h8, _⟩ := hmem b' hb'
    exact mentionsNone_iff.mp (h7 hs) _ h8 (h6 _ hf)
  · obtain ⟨src, h3, _, _, _⟩ := hmem b hb
    have h7 := (classify_spec h3).1.mp hk
    refine ⟨fun h => h7 (Or.inr (h2.free _ h)), fun b' hb' h => ?_⟩
    obtain ⟨src', _, _, h8, h9⟩ := hmem b' hb'
    exact h7 (Or.inl ⟨src', h8, h9 _ h⟩)
  · obtain ⟨src, h3, h4, _, _⟩ := hmem b hb
    have h7 := (classify_spec h3).2.1 (Or.inr hk)
    obtain ⟨o1, o2⟩ := hout _ h4
    refine ⟨fun h => ?_, fun h => ?_⟩
    · rcases h2.tgt _ h with h | h
      · exact h7 (Or.inr (assigned_of _ h o1))
      · exact o1 h
    · rw [classifyBindings, e2] at h
      rcases h1.tgt _ h with h | h
      · exact h7 (Or.inl (assigneds_of _ h o2))
      · exact o2 h
  · rw [classifyBindings, e2]; exact h1.ok

theorem rec_kept {k k1 k2 k3 : Nat} {ids : List Id} {rands rs : List Exp} {body body' e e' : Exp} (hp : PartsOf ids rands body e)
    (h1 : Kepts k k1 rands rs) (h2 : Kept k1 k2 body body') {bs : List Bnd} (hi : bs.map (·.id) = ids) (he : bs.map (·.exp) = rs)
    (hr : Res k2 k3 bs body' e') : Kept k k3 e e' := by
  have hb : ∀ x, x ∈ ids ∨ x ∈ bindersAll rands ∨ x ∈ binders body → x ∈ binders e := by
    intro x hx
    rw [mem_of_cb]
    have := hp.cnt x
    rw [mem_of_cb, mem_of_cbs, ← List.count_pos_iff] at hx
    omega
  refine ⟨Nat.le_trans h1.le (Nat.le_trans h2.le hr.le), fun x => ?_, fun x hx => ?_, fun x hx => ?_, hr.ok⟩
  · have e1 := hr.cnt x
    have e2 := h1.cnt x
    have e3 := h2.cnt x
    have e4 := hp.cnt x
    have e5 := ind_add h1.le h2.le x
    have e6 := ind_add (Nat.le_trans h1.le h2.le) hr.le x
    rw [cB, hi, he] at e1
    omega
  · obtain ⟨h3, h4⟩ := hr.free x hx
    rw [hi] at h3
    refine hp.free x h3 ?_
    rcases h4 with h4 | ⟨b, hb, h4⟩
    · exact Or.inr (h2.free x h4)
    · exact Or.inl (h1.free' (e' := b.exp) (by rw [← he]; exact List.mem_map.mpr ⟨b, hb, rfl⟩) h4)
  · rcases hr.tgt x hx with h | h | h
    · rw [hi] at h; exact Or.inr (hb x (Or.inl h))
    · rcases h2.tgt x h with h | h
      · exact Or.inl (hp.tgt x (Or.inl h))
      · exact Or.inr (hb x (Or.inr (Or.inr h)))
    · rw [he] at h
      rcases h1.tgt x h with h | h
      · exact Or.inl (hp.tgt x (Or.inr h))
      · exact Or.inr (hb x (Or.inr (Or.inl h)))

theorem letrec_parts {f : Exp} {es : List Exp} {ids : List Id} {rands : List Exp} {body : Exp} (hp : letrecParts (.app f es) = some (ids, rands, body)) :
    PartsOf ids rands body (.app f es) := by
  obtain ⟨d, tmps, asg, rfl, _, _, _, hd, hl, ha⟩ := letrecParts_some hp
  refine ⟨by rw [← hl, assignsOf_length ha], fun x => ?_, fun x hx ho => ?_, fun x hx => ?_⟩
  · simp only [cb, cbs, letExp, binders, bindersAll, List.count_append, List.append_nil]
    omega
  · refine .appF _ (.lam hx ?_)
    rcases ho with ⟨r, hr, ho⟩ | ho
    · exact .appA _ (List.mem_singleton.mpr rfl) (.appA _ hr ho)
    · exact .appF _ (.lam (fun hm => hd (by rw [← List.mem_singleton.mp hm]; exact ho)) ho)
  · simp only [letExp, tgts, tgtsAll, List.mem_append, List.append_nil]
    rcases hx with hx | hx
    · exact Or.inl (Or.inl hx)
    · exact Or.inl (Or.inr (Or.inr hx))

theorem inits_cnt : ∀ {ids : List Id} {e : Exp} {rands : List Exp} {body : Exp}, initsOf ids e = some (rands, body) → ∀ x,
    cbs x rands + cb x body ≤ cb x e ∧ (x ∈ tgts body ∨ x ∈ tgtsAll rands → x ∈ tgts e) := by
  intro ids
  induction ids with
  | nil =>
    intro e rands body h x
    simp only [initsOf, Option.some.injEq, Prod.mk.injEq] at h
    obtain ⟨rfl, rfl⟩ := h
    exact ⟨by simp [cbs, bindersAll], fun h => h.elim id (fun h => by simp [tgtsAll] at h)⟩
  | cons y ids ih =>
    intro e rands body h x
    obtain ⟨d, r, b, rands', rfl, _, rfl, h'⟩ := initsOf_cons h
    obtain ⟨i1, i2⟩ := ih h' x
    refine ⟨?_, fun h => ?_⟩
    · rw [cbs_cons]
      simp only [cb, cbs, letExp, binders, bindersAll, List.count_append, List.append_nil] at i1 ⊢
      omega
    · simp only [letExp, tgts, tgtsAll, List.mem_append, List.mem_cons, List.append_nil] at h ⊢
      rcases h with h | h | h
      · exact Or.inl (i2 (Or.inl h))
      · exact Or.inr (Or.inr h)
      · exact Or.inl (i2 (Or.inr h))

theorem star_parts {f : Exp} {es : List Exp} {ids : List Id} {rands : List Exp} {body : Exp} (hp : letrecStarParts (.app f es) = some (ids, rands, body)) :
    PartsOf ids rands body (.app f es) := by
  obtain ⟨chain, rfl, _, _, _, hi⟩ := letrecStarParts_some hp
  refine ⟨initsOf_length hi, fun x => ?_, fun x hx ho => ?_, fun x hx => ?_⟩
  · have := (inits_cnt hi x).1
    simp only [cb, cbs, binders, List.count_append] at this ⊢
    omega
  · exact .appF _ (.lam hx ((initsOf_free hi x).1 ho))
  · simp only [tgts, List.mem_append]
    exact Or.inl ((inits_cnt hi x).2 hx)

theorem mapK_kept {f : Nat → Exp → Exp × Nat} (hf : ∀ k e, Inv P k e → Kept k (f k e).2 e (f k e).1) : ∀ (es : List Exp) (k : Nat), (∀ e ∈ es, Inv P k e) →
    Kepts k (mapK f k es).2 es (mapK f k es).1 := by
  intro es
  induction es with
  | nil => intro k _; exact ⟨Nat.le_refl _, rfl, fun x => by simp [mapK, cbs, bindersAll], fun x i e e' h => by simp at h, fun x h => by simp [mapK, tgtsAll] at h, trivial⟩
  | cons e es ih =>
    intro k h
    have h1 := hf k e (h e List.mem_cons_self)
    have h2 := ih (f k e).2 (fun e' he' => (h e' (List.mem_cons_of_mem _ he')).mono h1.le)
    refine ⟨Nat.le_trans h1.le h2.le, by simp only [mapK, List.length_cons, h2.len], fun x => ?_, fun x i a a' ha ha' hx => ?_, fun x hx => ?_, h1.ok, h2.ok⟩
    · have e1 := h1.cnt x
      have e2 := h2.cnt x
      have e3 := ind_add h1.le h2.le x
      simp only [mapK, cbs_cons]
      omega
    · cases i with
      | zero => simp [mapK] at ha ha'; subst ha; subst ha'; exact h1.free x hx
      | succ i => simp [mapK] at ha ha'; exact h2.free x i _ _ ha ha' hx
    · simp only [mapK, tgtsAll, bindersAll, List.mem_append] at hx ⊢
      rcases hx with hx | hx
      · rcases h1.tgt x hx with h | h
        · exact Or.inl (Or.inl h)
        · exact Or.inr (Or.inl h)
      · rcases h2.tgt x hx with h | h
        · exact Or.inl (Or.inr h)
        · exact Or.inr (Or.inr h)

theorem Kept.same {k : Nat} {e : Exp} (h : FixOk e) : Kept k k e e :=
  ⟨Nat.le_refl _, fun x => Nat.le_add_right _ _, fun _ h => h, fun _ h => Or.inl h, h⟩

/-- The pass, on every part of a program. -/
theorem fixL_kept : ∀ (n k : Nat) (e : Exp), Inv P k e → Kept k (fixL n k e).2 e (fixL n k e).1 := by
  intro n
  induction n with
  | zero => intro k e h; exact Kept.same (fixOk_good e h.good)
  | succ n ih =>
    intro k e h
    have ihm := fun es k (h : ∀ e ∈ es, Inv P k e) => mapK_kept (f := fixL n) ih es k h
    cases e with
    | var x => exact Kept.same trivial
    | set x e =>
      have h1 := ih k e h.set
      refine ⟨h1.le, h1.cnt, fun y hy => ?_, fun y hy => ?_, h1.ok⟩
      · rcases free_set.mp hy with rfl | hy
        · exact free_set.mpr (Or.inl rfl)
        · exact free_set.mpr (Or.inr (h1.free y hy))
      · rcases List.mem_cons.mp hy with rfl | hy
        · exact Or.inl List.mem_cons_self
        · exact (h1.tgt y hy).imp (List.mem_cons_of_mem _) id
    | ite a b c =>
      have h1 := ih k a h.iteA
      have h2 := ih _ b (h.iteB.mono h1.le)
      have h3 := ih _ c (h.iteC.mono (Nat.le_trans h1.le h2.le))
      refine ⟨Nat.le_trans h1.le (Nat.le_trans h2.le h3.le), fun x => ?_, fun y hy => ?_, fun y hy => ?_, h1.ok, h2.ok, h3.ok⟩
      · have e1 := h1.cnt x
        have e2 := h2.cnt x
        have e3 := h3.cnt x
        have e4 := ind_add h1.le h2.le x
        have e5 := ind_add (Nat.le_trans h1.le h2.le) h3.le x
        simp only [fixL, cb, binders, List.count_append] at e1 e2 e3 e4 e5 ⊢
        omega
      · cases hy with
        | iteA _ _ hy => exact .iteA _ _ (h1.free y hy)
        | iteB _ _ hy => exact .iteB _ _ (h2.free y hy)
        | iteC _ _ hy => exact .iteC _ _ (h3.free y hy)
      · simp only [fixL, tgts, binders, List.mem_append] at hy ⊢
        have g1 := h1.tgt y
        have g2 := h2.tgt y
        have g3 := h3.tgt y
        tauto
    | prim eff p es =>
      have h1 := ihm es k h.prim
      refine ⟨h1.le, h1.cnt, fun y hy => ?_, h1.tgt, h1.ok⟩
      cases hy with
      | prim _ _ he hy =>
        obtain ⟨e', he', hy'⟩ := h1.free' he hy
        exact .prim _ _ he' hy'
    | lam ids b =>
      have h1 := ih k b h.lam
      refine ⟨h1.le, fun x => ?_, fun y hy => .lam (free_lam.mp hy).1 (h1.free y (free_lam.mp hy).2), fun y hy => ?_, h1.ok⟩
      · have e1 := h1.cnt x
        simp only [fixL, cb, binders, List.count_append] at e1 ⊢
        omega
      · exact (h1.tgt y hy).imp id (fun h => List.mem_append_right _ h)
    | fix ids lams b => exact absurd h.good (by simp [Good])
    | letcc x b =>
      have h1 := ih k b h.letcc
      refine ⟨h1.le, fun y => ?_, fun y hy => ?_, fun y hy => ?_, h1.ok⟩
      · have e1 := h1.cnt y
        simp only [fixL, cb, binders, List.count_cons] at e1 ⊢
        omega
      · cases hy with | letcc hn hy => exact .letcc hn (h1.free y hy)
      · exact (h1.tgt y hy).imp id (fun h => List.mem_cons_of_mem _ h)
    | withcc c e =>
      have h1 := ih k c h.withccK
      have h2 := ih _ e (h.withccE.mono h1.le)
      refine ⟨Nat.le_trans h1.le h2.le, fun x => ?_, fun y hy => ?_, fun y hy => ?_, h1.ok, h2.ok⟩
      · have e1 := h1.cnt x
        have e2 := h2.cnt x
        have e4 := ind_add h1.le h2.le x
        simp only [fixL, cb, binders, List.count_append] at e1 e2 e4 ⊢
        omega
      · cases hy with
        | withccK _ hy => exact .withccK _ (h1.free y hy)
        | withccE _ hy => exact .withccE _ (h2.free y hy)
      · simp only [fixL, tgts, binders, List.mem_append] at hy ⊢
        have g1 := h1.tgt y
        have g2 := h2.tgt y
        tauto
    | app f es =>
      unfold fixL
      simp only
      split
      · rename_i hdeg
        simp only [isDegLet, Bool.or_eq_true] at hdeg
        rcases hdeg with hn | hid
        · unfold isNullLet at hn
          split at hn
          · rename_i b he
            injection he with he1 he2
            subst he1; subst he2
            have h1 := ih k b h.appF.lam
            refine ⟨h1.le, fun x => ?_, fun y hy => .appF _ (.lam (by simp) (h1.free y hy)), fun y hy => ?_, h1.ok⟩
            · have e1 := h1.cnt x
              simpa [cb, binders, bindersAll] using e1
            · simpa [tgts, binders, tgtsAll, bindersAll] using h1.tgt y hy
          · cases hn
        · unfold isIdLet at hid
          split at hid
          · rename_i x z e he
            injection he with he1 he2
            subst he1; subst he2
            have h1 := ih k e (h.appA e (List.mem_singleton.mpr rfl))
            refine ⟨h1.le, fun y => ?_, fun y hy => .appA _ (List.mem_singleton.mpr rfl) (h1.free y hy), fun y hy => ?_, h1.ok⟩
            · have e1 := h1.cnt y
              simp only [cb, binders, bindersAll, List.count_append, List.append_nil] at e1 ⊢
              omega
            · simp only [tgts, binders, tgtsAll, bindersAll, List.mem_append, List.append_nil]
              have := h1.tgt y hy
              tauto
          · cases hid
      · split
        · rename_i ids rands body hp
          obtain ⟨i1, i2⟩ := letrecParts_inv hp h
          have h1 := ihm rands k i1
          have h2 := ih _ body (i2.mono h1.le)
          obtain ⟨hb, hi, he⟩ := bs_ok (letrec_parts hp) h.uniq.1 h1 h2
          exact rec_kept (letrec_parts hp) h1 h2 hi he (letrec_res hb)
        · split
          · rename_i ids rands body hp
            obtain ⟨i1, i2⟩ := letrecStarParts_inv hp h
            have h1 := ihm rands k i1
            have h2 := ih _ body (i2.mono h1.le)
            obtain ⟨hb, hi, he⟩ := bs_ok (star_parts hp) h.uniq.1 h1 h2
            exact rec_kept (star_parts hp) h1 h2 hi he (star_res hb)
          · have h1 := ih k f h.appF
            have h2 := ihm es _ (fun e he => (h.appA e he).mono h1.le)
            refine ⟨Nat.le_trans h1.le h2.le, fun x => ?_, fun y hy => ?_, fun y hy => ?_, h1.ok, h2.ok⟩
            · have e1 := h1.cnt x
              have e2 := h2.cnt x
              have e4 := ind_add h1.le h2.le x
              simp only [cb, cbs, binders, List.count_append] at e1 e2 e4 ⊢
              omega
            · rcases free_app.mp hy with hy | ⟨e0, he0, hy⟩
              · exact .appF _ (h1.free y hy)
              · obtain ⟨e', he', hy'⟩ := h2.free' he0 hy
                exact .appA _ he' hy'
            · simp only [tgts, binders, List.mem_append] at hy ⊢
              have g1 := h1.tgt y
              have g2 := h2.tgt y
              tauto

end Verif.Front
