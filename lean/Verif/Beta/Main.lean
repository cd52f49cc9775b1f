import Verif.Beta.Pass
/-
`beta-substitute` as a sequence of reductions (C36): the main induction.
-/
namespace Verif.Beta
open Verif.Core

variable {W : Type} {M : Sem W}

theorem transparentAll_iff {es : List Exp} : transparentAll es = true ↔ ∀ e ∈ es, transparent e = true := by
  induction es with
  | nil => simp [transparentAll]
  | cons e es ih => simp [transparentAll, ih]

theorem removableAll_iff {es : List Exp} : removableAll es = true ↔ ∀ e ∈ es, removable e = true := by
  induction es with
  | nil => simp [removableAll]
  | cons e es ih => simp [removableAll, ih]

theorem plainAll_iff {es : List Exp} : plainAll es = true ↔ ∀ e ∈ es, plain e = true := by
  induction es with
  | nil => simp [plainAll]
  | cons e es ih => simp [plainAll, ih]

/-- induction with two levels. -/
theorem tr_of_size : ∀ (n : Nat) (e : Exp), sizeOf e < n → transparent e = true → Hon M e → Tr M e := by
  intro n
  induction n with
  | zero => intro e h; omega
  | succ n ih =>
    intro e hn ht hh
    cases e with
    | var x =>
      refine .var (fun hg => ?_)
      simp only [transparent, hg, Bool.not_true, Bool.false_or] at ht
      exact ht
    | set x e => simp [transparent] at ht
    | ite a b c =>
      simp only [transparent, Bool.and_eq_true] at ht
      cases hh with | ite k1 k2 k3 =>
      simp only [Exp.ite.sizeOf_spec] at hn
      exact .ite (ih a (by omega) ht.1.1 k1) (ih b (by omega) ht.1.2 k2) (ih c (by omega) ht.2 k3)
    | prim eff p es =>
      simp only [transparent, Bool.and_eq_true] at ht
      cases hh with | prim k1 k2 k3 =>
      simp only [Exp.prim.sizeOf_spec] at hn
      refine .prim (k1 ht.1) (fun e he => ih e ?_ (transparentAll_iff.mp ht.2 e he) (k3 e he))
      have := List.sizeOf_lt_of_mem he; omega
    | app f es =>
      cases f with
      | lam ids b =>
        simp only [transparent, Bool.and_eq_true] at ht
        cases hh with | app k1 k2 =>
        cases k1 with | lam k1 =>
        simp only [Exp.app.sizeOf_spec, Exp.lam.sizeOf_spec] at hn
        refine .letE (fun e he => ih e ?_ (transparentAll_iff.mp ht.1.2 e he) (k2 e he)) (ih b (by omega) ht.2 k1)
        have := List.sizeOf_lt_of_mem he; omega
      | _ => simp [transparent] at ht
    | lam ids b => exact .lam ids b
    | fix ids lams b => simp [transparent] at ht
    | letcc x b => simp [transparent] at ht
    | withcc k e => simp [transparent] at ht

theorem tr_of {e : Exp} (h : transparent e = true) (hh : Hon M e) : Tr M e := tr_of_size _ e (Nat.lt_succ_self _) h hh

theorem rem_of_size : ∀ (n : Nat) (e : Exp), sizeOf e < n → removable e = true → plain e = true → Hon M e → Rem M e := by
  intro n
  induction n with
  | zero => intro e h; omega
  | succ n ih =>
    intro e hn ht hp hh
    cases e with
    | var x => exact .var x
    | set x e => simp [removable] at ht
    | ite a b c =>
      simp only [removable, plain, Bool.and_eq_true] at ht hp
      cases hh with | ite k1 k2 k3 =>
      simp only [Exp.ite.sizeOf_spec] at hn
      exact .ite (ih a (by omega) ht.1.1 hp.1.1 k1) (ih b (by omega) ht.1.2 hp.1.2 k2) (ih c (by omega) ht.2 hp.2 k3)
    | prim eff p es =>
      simp only [removable, plain, Bool.and_eq_true] at ht hp
      cases hh with | prim k1 k2 k3 =>
      simp only [Exp.prim.sizeOf_spec] at hn
      refine .prim (k2 ht.1) (fun e he => ih e ?_ (removableAll_iff.mp ht.2 e he) (plainAll_iff.mp hp e he) (k3 e he))
      have := List.sizeOf_lt_of_mem he; omega
    | app f es =>
      cases f with
      | lam ids b =>
        simp only [removable, plain, Bool.and_eq_true] at ht hp
        cases hh with | app k1 k2 =>
        cases k1 with | lam k1 =>
        simp only [Exp.app.sizeOf_spec, Exp.lam.sizeOf_spec] at hn
        refine .letE (fun e he => ih e ?_ (removableAll_iff.mp ht.1.2 e he) (plainAll_iff.mp hp.1 e he) (k2 e he)) (ih b (by omega) ht.2 hp.2 k1)
        have := List.sizeOf_lt_of_mem he; omega
      | _ => simp [removable] at ht
    | lam ids b => exact .lam ids b
    | fix ids lams b => simp [removable] at ht
    | letcc x b =>
      simp only [removable, plain] at ht hp
      cases hh with | letcc k =>
      simp only [Exp.letcc.sizeOf_spec] at hn
      exact .letcc (ih b (by omega) ht hp k)
    | withcc k e => simp [plain] at hp

theorem rem_of {e : Exp} (h : removable e = true) (hp : plain e = true) (hh : Hon M e) : Rem M e := rem_of_size _ e (Nat.lt_succ_self _) h hp hh

theorem zeroCost_transparent {c : PrimName → Bool} {e : Exp} (h : zeroCost c e = true) : transparent e = true ∧ ∀ y, bc y e = 0 := by
  cases e with
  | var x => exact ⟨by simpa [zeroCost, transparent] using h, fun y => rfl⟩
  | prim eff p es =>
    simp only [zeroCost, Bool.and_eq_true, List.isEmpty_iff] at h
    obtain ⟨⟨h1, rfl⟩, _⟩ := h
    exact ⟨by simp [transparent, h1, transparentAll], fun y => rfl⟩
  | _ => simp [zeroCost] at h

theorem cheap_transparent {c : PrimName → Bool} {e : Exp} (h : cheapTransparent c e = true) : transparent e = true ∧ ∀ y, bc y e = 0 := by
  cases e with
  | prim eff p es =>
    simp only [cheapTransparent, Bool.and_eq_true, List.all_eq_true] at h
    refine ⟨?_, fun y => ?_⟩
    · simp only [transparent, Bool.and_eq_true]
      exact ⟨h.1.1, transparentAll_iff.mpr (fun e he => (zeroCost_transparent (h.2 e he)).1)⟩
    · rw [bc_prim]
      by_contra hc
      obtain ⟨e, he, h'⟩ := bcs_pos (Nat.pos_of_ne_zero hc)
      rw [(zeroCost_transparent (h.2 e he)).2 y] at h'
      omega
  | _ => simp [cheapTransparent] at h

/-! ### conditions on substitutions -/

/-- `z` is neither free nor bound in `e`. -/
def Fresh (z : Id) (e : Exp) : Prop := ¬ Free z e ∧ bc z e = 0

theorem Star.less {a b : Exp} (h : Star M a b) (y : Id) : bc y b ≤ bc y a := by
  induction h with
  | refl a => exact Nat.le_refl _
  | step h _ ih => exact ih.trans (h.less y)

theorem Star.free {a b : Exp} (h : Star M a b) {y : Id} : Free y b → Free y a := by
  induction h with
  | refl a => exact id
  | step h _ ih => exact fun hf => h.free y (ih hf)

theorem Star.fresh {a b : Exp} (h : Star M a b) {z : Id} (hz : Fresh z a) : Fresh z b :=
  ⟨fun hf => hz.1 (h.free hf), by have := h.less z; have := hz.2; omega⟩

/-- Conditions on the replacements. -/
structure SubsOk (s : List Entry) : Prop where
  full : Full s
  nn : ∀ en ∈ s, Nn en.exp
  loc : ∀ en ∈ s, en.id.isGlobal = false
  fresh : ∀ en ∈ s, ∀ en' ∈ s, Fresh en.id en'.exp

/-- `y` has nothing to do with the replacements. -/
def Away (s : List Entry) (y : Id) : Prop := ∀ en ∈ s, Fresh y en.exp ∧ y ≠ en.id

/-- The variables bound in the expression have nothing to do with the replacements. -/
def RawOk (s : List Entry) (e : Exp) : Prop := ∀ y, 0 < bc y e → Away s y

theorem RawOk.le {s : List Entry} {e e' : Exp} (h : RawOk s e) (hle : ∀ y, bc y e' ≤ bc y e) : RawOk s e' :=
  fun y hy => h y (lt_of_lt_of_le hy (hle y))

theorem fresh_sb {s : List Entry} (hs : SubsOk s) {e : Exp} (hr : RawOk s e) (hh : Hon M (sb s e)) : ∀ en ∈ s, Fresh en.id (sb s e) := by
  intro en hen
  constructor
  · intro hf
    rcases free_sb (hs.loc en hen) e hh hf with ⟨_, h⟩ | ⟨en', h1, h2⟩
    · exact h en hen rfl
    · exact (hs.fresh en hen en' h1).1 h2
  · by_contra hc
    rcases bc_sb_pos e (Nat.pos_of_ne_zero hc) with h | ⟨en', h1, h2⟩
    · exact (hr _ h en hen).2 rfl
    · rw [(hs.fresh en hen en' h1).2] at h2; omega

/-! ### lists -/

/-- parts in a list. -/
theorem star_list {K : List Exp → Exp} (hK : ∀ es fs : List Exp, ∃ F : Fr, ∀ a, F.plug a = K (es ++ a :: fs)) {f g : Exp → Exp} :
    ∀ (rs pre : List Exp), (∀ r ∈ rs, WF M (f r) → Star M (f r) (g r)) → WF M (K (pre ++ rs.map f)) → Star M (K (pre ++ rs.map f)) (K (pre ++ rs.map g)) := by
  intro rs
  induction rs with
  | nil => intro pre _ _; exact .refl _
  | cons r rs ih =>
    intro pre h hw
    obtain ⟨F, hF⟩ := hK pre (rs.map f)
    rw [List.map_cons, List.map_cons, ← hF] at *
    have h1 := (h r (by simp) hw.part).lift hw
    have hw1 := h1.wf hw
    rw [hF (g r)] at h1 hw1
    have e : ∀ (l : List Exp), pre ++ g r :: l = (pre ++ [g r]) ++ l := fun l => by simp
    rw [e] at h1 hw1 ⊢
    exact h1.trans (ih (pre ++ [g r]) (fun a ha => h a (by simp [ha])) hw1)

theorem star_list' {K : List Exp → Exp} (hK : ∀ es fs : List Exp, ∃ F : Fr, ∀ a, F.plug a = K (es ++ a :: fs)) {f g : Exp → Exp} (rs : List Exp)
    (h : ∀ r ∈ rs, WF M (f r) → Star M (f r) (g r)) (hw : WF M (K (rs.map f))) : Star M (K (rs.map f)) (K (rs.map g)) :=
  star_list hK rs [] h hw

/-! ### the loop over the bindings -/

/-- the `let` in the loop. -/
def letTerm (body : Exp) (ids : List Id) (rands : List Exp) (l : LetLoop) : Exp :=
  mkApp (.lam (l.outIds.reverse ++ ids) (sb l.substs body)) (l.outRands.reverse ++ rands)

theorem letTerm_app {body : Exp} {x : Id} {ids : List Id} {rands : List Exp} {l : LetLoop} :
    letTerm body (x :: ids) rands l = .app (.lam (l.outIds.reverse ++ x :: ids) (sb l.substs body)) (l.outRands.reverse ++ rands) := by
  refine mkApp_app ?_
  intro b hb
  simp at hb

theorem loop_star (o : Opts) (body : Exp) : ∀ (ids : List Id) (rands : List Exp) (l : LetLoop), ids.length = rands.length → l.outIds.length = l.outRands.length →
    SubsOk l.substs → RawOk l.substs body → (∀ y ∈ ids, Away l.substs y) → (∀ en ∈ l.substs, ∀ r ∈ rands, Fresh en.id r) → WF M (letTerm body ids rands l) →
    AllGood (letLoop o body ids rands l).acts →
    Star M (letTerm body ids rands l) (letTerm body [] [] (letLoop o body ids rands l)) ∧ SubsOk (letLoop o body ids rands l).substs ∧ RawOk (letLoop o body ids rands l).substs body ∧
      (letLoop o body ids rands l).outIds.length = (letLoop o body ids rands l).outRands.length := by
  intro ids
  induction ids with
  | nil =>
    intro rands l hl hlo hs hr _ _ _ _
    cases rands with
    | nil => simp only [letLoop]; exact ⟨.refl _, hs, hr, hlo⟩
    | cons => simp at hl
  | cons x ids ih =>
    intro rands l hl hlo hs hr ha hf hw hg
    cases rands with
    | nil => simp at hl
    | cons r rands =>
      have hl' : ids.length = rands.length := by simpa using hl
      have ha' : ∀ y ∈ ids, Away l.substs y := fun y hy => ha y (by simp [hy])
      have hf' : ∀ en ∈ l.substs, ∀ a ∈ rands, Fresh en.id a := fun en hen a h => hf en hen a (by simp [h])
      have hlr : l.outIds.reverse.length = l.outRands.reverse.length := by simp [hlo]
      have hw2 := hw
      rw [letTerm_app] at hw2
      obtain ⟨hnd, hids⟩ := hw2.ids
      have hnn := nn_let hw2.nn
      have hhon := hon_let hw2.hon
      have hxm : x ∈ l.outIds.reverse ++ x :: ids := by simp
      have hrm : r ∈ l.outRands.reverse ++ r :: rands := by simp
      have hxl := (hids x hxm).2.2.2
      have hax := ha x (by simp)
      -- references to `x`
      have hbx : bc x body = 0 := by have h1 := (hids x hxm).1; have h2 := bc_sb_le (y := x) (s := l.substs) body; omega
      have hrc : refCount x body = occ x (sb l.substs body) := by
        rw [refCount_eq, uc_occ hxl l.substs body hhon.1 hbx, occ_sb]
        intro en hen
        exact ⟨fun e => (hax en hen).2 e.symm, occ_of_fresh _ (hax en hen).1.1 (hax en hen).1.2⟩
      rcases letLoop_cons hg with e | ⟨e, h1, h2, h3⟩ | ⟨a, e, hd⟩
      · -- the binding is kept
        rw [e] at hg ⊢
        have he : letTerm body ids rands { l with outIds := x :: l.outIds, outRands := r :: l.outRands } = letTerm body (x :: ids) (r :: rands) l := by
          simp [letTerm]
        have := ih rands { l with outIds := x :: l.outIds, outRands := r :: l.outRands } hl' (by simp [hlo]) hs hr ha' hf' (by rw [he]; exact hw) hg
        rw [he] at this
        exact this
      · -- the binding is removed
        rw [e] at hg ⊢
        have hst : Step M (letTerm body (x :: ids) (r :: rands) l) (letTerm body ids rands { l with acts := .drop r :: l.acts }) := by
          rw [letTerm_app]
          exact Step.drop hw2 hlr hl' (rem_of h2 h3 (hhon.2 r hrm)) (occ_free hxl _ hhon.1 (by rw [← hrc]; exact h1))
        obtain ⟨k1, k2⟩ := ih rands { l with acts := .drop r :: l.acts } hl' hlo hs hr ha' hf' (hst.wf hw) hg
        exact ⟨.step hst k1, k2⟩
      · -- the binding is substituted
        rw [e] at hg ⊢
        have htr : transparent r = true ∧ (occ x (sb l.substs body) ≤ 1 ∨ ∀ y, bc y r = 0) := by
          rcases hd with ⟨h1, h2⟩ | h | h
          · exact ⟨h2, Or.inl (by omega)⟩
          · exact ⟨(cheap_transparent h).1, Or.inr (cheap_transparent h).2⟩
          · exact ⟨(zeroCost_transparent h).1, Or.inr (zeroCost_transparent h).2⟩
        have hst : Step M (letTerm body (x :: ids) (r :: rands) l) (letTerm body ids rands { l with substs := ⟨x, r, none⟩ :: l.substs, acts := a :: l.acts }) := by
          rw [letTerm_app]
          have h := Step.subst hw2 hlr hl' (tr_of htr.1 (hhon.2 r hrm)) htr.2 rfl
          rw [T_sb (x := x) (r := r) ⟨by simp, by simp⟩ (by simp [Redex.goneId]) rfl (hnn.2 r hrm) (fun en hen => ⟨fun e => (hax en hen).2 e.symm, (hax en hen).1.1, hs.nn en hen⟩)
            none body (fun y hy => (hids y hy).1)] at h
          exact h
        have hxr : Fresh x r := ⟨(hids x hxm).2.2.1 r hrm, (hids x hxm).2.1 r hrm⟩
        have hs' : SubsOk (⟨x, r, none⟩ :: l.substs) := by
          refine ⟨?_, ?_, ?_, ?_⟩
          · intro en hen
            rcases List.mem_cons.mp hen with rfl | hen
            · rfl
            · exact hs.full en hen
          · intro en hen
            rcases List.mem_cons.mp hen with rfl | hen
            · exact hnn.2 r hrm
            · exact hs.nn en hen
          · intro en hen
            rcases List.mem_cons.mp hen with rfl | hen
            · exact hxl
            · exact hs.loc en hen
          · intro en hen en' hen'
            rcases List.mem_cons.mp hen with rfl | hen <;> rcases List.mem_cons.mp hen' with rfl | hen'
            · exact hxr
            · exact (hax en' hen').1
            · exact hf en hen r (by simp)
            · exact hs.fresh en hen en' hen'
        have hr' : RawOk (⟨x, r, none⟩ :: l.substs) body := by
          intro y hy en hen
          rcases List.mem_cons.mp hen with rfl | hen
          · have h1 := hw2.once y
            have h2 := bc_sb_le (y := y) (s := l.substs) body
            have h3 : 0 < bc y (.app (.lam (l.outIds.reverse ++ x :: ids) (sb l.substs body)) (l.outRands.reverse ++ r :: rands)) := by rw [bc_app, bc_lam]; omega
            rw [bc_app, bc_lam] at h1
            have h4 := bcs_le y hrm
            refine ⟨⟨fun hfr => hw2.apart y h3 (.appA _ hrm hfr), show bc y r = 0 by omega⟩, ?_⟩
            intro hyx
            have h5 : 0 < (l.outIds.reverse ++ x :: ids).count y := List.count_pos_iff.mpr (by rw [hyx]; exact hxm)
            omega
          · exact hr y hy en hen
        have ha'' : ∀ y ∈ ids, Away (⟨x, r, none⟩ :: l.substs) y := by
          intro y hy en hen
          rcases List.mem_cons.mp hen with rfl | hen
          · have hym : y ∈ l.outIds.reverse ++ x :: ids := by simp [hy]
            refine ⟨⟨(hids y hym).2.2.1 r hrm, (hids y hym).2.1 r hrm⟩, ?_⟩
            rintro rfl
            have := (List.nodup_append.mp hnd).2.1
            simp only [List.nodup_cons] at this
            exact this.1 hy
          · exact ha' y hy en hen
        have hf'' : ∀ en ∈ (⟨x, r, none⟩ :: l.substs : List Entry), ∀ a ∈ rands, Fresh en.id a := by
          intro en hen a ha
          rcases List.mem_cons.mp hen with rfl | hen
          · have : a ∈ l.outRands.reverse ++ r :: rands := by simp [ha]
            exact ⟨(hids x hxm).2.2.1 a this, (hids x hxm).2.1 a this⟩
          · exact hf' en hen a ha
        obtain ⟨k1, k2⟩ := ih rands { l with substs := ⟨x, r, none⟩ :: l.substs, acts := a :: l.acts } hl' hlo hs' hr' ha'' hf'' (hst.wf hw) hg
        exact ⟨.step hst k1, k2⟩

/-! ### the pass -/

theorem frames_app (f : Exp) : ∀ es fs : List Exp, ∃ F : Fr, ∀ a, F.plug a = mkApp f (es ++ a :: fs) :=
  fun es fs => ⟨.appA f es fs, fun a => (mkApp_app (by intros; simp)).symm⟩

/-- The pass is a sequence of reductions. -/
theorem bs_star (o : Opts) : ∀ (n : Nat) (s : List Entry) (e : Exp), SubsOk s → RawOk s e → WF M (sb s e) → AllGood (bs o n s e).2 → Star M (sb s e) (bs o n s e).1 := by
  intro n
  induction n with
  | zero => intro s e _ _ _ hg; exact absurd (hg .fuel (by simp [bs])) (by simp [Act.good])
  | succ n ih =>
    intro s e hs hr hw hg
    have lists : ∀ (K : List Exp → Exp), (∀ es fs : List Exp, ∃ F : Fr, ∀ a, F.plug a = K (es ++ a :: fs)) → ∀ es : List Exp, (∀ e ∈ es, RawOk s e) →
        AllGood (snds (es.map (bs o n s))) → WF M (K (es.map (sb s))) → Star M (K (es.map (sb s))) (K (fsts (es.map (bs o n s)))) := by
      intro K hK es h1 h2 h3
      rw [fsts_map]
      exact star_list' hK es (fun r hr hwr => ih s r hs (h1 r hr) hwr (h2.snds r hr)) h3
    cases e with
    | var x => rw [bs, sb]; exact .refl _
    | set x e =>
      rw [sb] at hw ⊢; rw [bs] at hg ⊢
      exact (ih s e hs hr (WF.part (F := .set x) hw) hg).lift (F := .set x) hw
    | ite a b c =>
      rw [sb] at hw ⊢; rw [bs] at hg ⊢
      have h1 := (ih s a hs (hr.le (fun y => by rw [bc_ite]; omega)) (WF.part (F := .iteA (sb s b) (sb s c)) hw) hg.left.left).lift (F := .iteA (sb s b) (sb s c)) hw
      have hw1 := h1.wf hw
      have h2 := (ih s b hs (hr.le (fun y => by rw [bc_ite]; omega)) (WF.part (F := .iteB (bs o n s a).1 (sb s c)) hw1) hg.left.right).lift (F := .iteB (bs o n s a).1 (sb s c)) hw1
      have hw2 := h2.wf hw1
      have h3 := (ih s c hs (hr.le (fun y => by rw [bc_ite]; omega)) (WF.part (F := .iteC (bs o n s a).1 (bs o n s b).1) hw2) hg.right).lift (F := .iteC (bs o n s a).1 (bs o n s b).1) hw2
      exact h1.trans (h2.trans h3)
    | prim eff p es =>
      rw [sb, sbs_eq] at hw ⊢; rw [bs] at hg ⊢
      exact lists (fun es => .prim eff p es) (fun es fs => ⟨.prim eff p es fs, fun a => rfl⟩) es (fun e he => hr.le (fun y => by rw [bc_prim]; exact bcs_le y he)) hg hw
    | lam ids b =>
      rw [sb] at hw ⊢; rw [bs] at hg ⊢
      exact (ih s b hs (hr.le (fun y => by rw [bc_lam]; omega)) (WF.part (F := .lam ids) hw) hg).lift (F := .lam ids) hw
    | fix ids lams b =>
      rw [sb, sbs_eq] at hw ⊢; rw [bs] at hg ⊢
      have h1 := lists (fun es => .fix ids es (sb s b)) (fun es fs => ⟨.fixL ids es fs (sb s b), fun a => rfl⟩) lams
        (fun e he => hr.le (fun y => by rw [bc_fix]; have := bcs_le y he; omega)) hg.left hw
      have hw1 := h1.wf hw
      exact h1.trans ((ih s b hs (hr.le (fun y => by rw [bc_fix]; omega)) (WF.part (F := .fixB ids _) hw1) hg.right).lift (F := .fixB ids _) hw1)
    | letcc x b =>
      rw [sb] at hw ⊢; rw [bs] at hg ⊢
      exact (ih s b hs (hr.le (fun y => by rw [bc_letcc]; omega)) (WF.part (F := .letcc x) hw) hg).lift (F := .letcc x) hw
    | withcc k e =>
      rw [sb] at hw ⊢; rw [bs] at hg ⊢
      have h1 := (ih s k hs (hr.le (fun y => by rw [bc_withcc]; omega)) (WF.part (F := .withccK (sb s e)) hw) hg.left).lift (F := .withccK (sb s e)) hw
      have hw1 := h1.wf hw
      exact h1.trans ((ih s e hs (hr.le (fun y => by rw [bc_withcc]; omega)) (WF.part (F := .withccE (bs o n s k).1) hw1) hg.right).lift (F := .withccE (bs o n s k).1) hw1)
    | app f es =>
      have hrf : RawOk s f := hr.le (fun y => by rw [bc_app]; omega)
      have hre : ∀ e ∈ es, RawOk s e := fun e he => hr.le (fun y => by rw [bc_app]; have := bcs_le y he; omega)
      rcases bs_app o n s f es with ⟨b, rfl, rfl, e⟩ | ⟨x, r, rfl, rfl, e⟩ | ⟨ids, body, rfl, hne, hlen, e⟩ | h
      · rw [e] at hg ⊢
        have he : sb s (.app (.lam [] b) []) = sb s b := by simp [sb, sbs, mkApp]
        rw [he] at hw ⊢
        exact ih s b hs (hrf.le (fun y => by rw [bc_lam]; omega)) hw hg
      · rw [e] at hg ⊢
        have hx : find x s = none := find_none.mpr (fun en hen h => (hrf x (by rw [bc_lam]; simp; omega) en hen).2 h.symm)
        have he : sb s (.app (.lam [x] (.var x)) [r]) = .app (.lam [x] (.var x)) [sb s r] := by simp [sb, sbs, mkApp, hx]
        rw [he] at hw ⊢
        have h1 := Step.idl hw
        exact .step h1 (ih s r hs (hre r (by simp)) (h1.wf hw) hg)
      · rw [e] at hg ⊢
        rw [sb, sbs_eq, sb] at hw ⊢
        have h1 := lists (mkApp (.lam ids (sb s body))) (frames_app _) es hre hg.left hw
        have hw1 := h1.wf hw
        have hin : ∀ y ∈ ids, Away s y := fun y hy => hrf y (by rw [bc_lam]; have := List.count_pos_iff.mpr hy; omega)
        have hfr : ∀ en ∈ s, ∀ r ∈ fsts (es.map (bs o n s)), Fresh en.id r := by
          intro en hen r hr'
          rw [fsts_map] at hr'
          obtain ⟨e, he, rfl⟩ := List.mem_map.mp hr'
          have hwe : WF M (sb s e) := by
            obtain ⟨l1, l2, rfl⟩ := List.append_of_mem he
            obtain ⟨F, hF⟩ := frames_app (.lam ids (sb s body)) (l1.map (sb s)) (l2.map (sb s))
            rw [List.map_append, List.map_cons, ← hF] at hw
            exact hw.part
          exact (ih s e hs (hre e he) hwe (hg.left.snds e he)).fresh (fresh_sb hs (hre e he) hwe.hon en hen)
        set l := letLoop o body ids (fsts (es.map (bs o n s))) ⟨[], [], s, []⟩ with hl
        obtain ⟨h2, hs2, hr2, hlo⟩ := loop_star (M := M) o body ids (fsts (es.map (bs o n s))) ⟨[], [], s, []⟩ (by simp [fsts_map, hlen]) rfl hs (hrf.le (fun y => by rw [bc_lam]; omega)) hin hfr
          hw1 hg.right.left
        rw [← hl] at h2 hs2 hr2 hlo
        have hw2 := h2.wf hw1
        have hrev : Star M (letTerm body [] [] l) (mkApp (.lam l.outIds (sb l.substs body)) l.outRands) := by
          cases hi : l.outIds with
          | nil =>
            have : l.outRands = [] := by rw [hi] at hlo; exact List.length_eq_zero_iff.mp hlo.symm
            simp only [letTerm, hi, this]
            exact .refl _
          | cons x xs =>
            have hne' : l.outIds.reverse ≠ [] := by rw [hi]; simp
            have e1 : letTerm body [] [] l = .app (.lam l.outIds.reverse (sb l.substs body)) l.outRands.reverse := by
              simp only [letTerm, List.append_nil]
              refine mkApp_app ?_
              intro b hb; cases hb' : l.outIds.reverse with
              | nil => exact absurd hb' hne'
              | cons => rw [hb'] at hb; cases hb
            rw [e1] at hw2 ⊢
            have h := Step.rev hw2 (by simp [hlo]) hne'
            rw [List.reverse_reverse, List.reverse_reverse, hi] at h
            rw [hi] at *
            rw [mkApp_app (by intro b hb; cases hb)]
            exact .one h
        have hw3 := hrev.wf hw2
        have hw4 : WF M (.lam l.outIds (sb l.substs body)) := WF.part (F := .appF l.outRands) hw3
        have hb := ih l.substs body hs2 hr2 (WF.part (F := .lam l.outIds) hw4) hg.right.right
        have h3 := (hb.lift (F := .lam l.outIds) hw4).lift (F := .appF l.outRands) hw3
        have hfin : (if l.outIds.isEmpty = true then (bs o n l.substs body).1 else letExp l.outIds l.outRands (bs o n l.substs body).1) =
            mkApp (.lam l.outIds (bs o n l.substs body).1) l.outRands := by
          cases hi : l.outIds with
          | nil =>
            have : l.outRands = [] := by rw [hi] at hlo; exact List.length_eq_zero_iff.mp hlo.symm
            rw [this]; rfl
          | cons x xs => rw [mkApp_app (by intro b hb; cases hb)]; rfl
        simp only
        rw [hfin]
        exact h1.trans (h2.trans (hrev.trans h3))
      · have hgh : AllGood (headOf o n s f).2 := by rcases h with ⟨_, _, e⟩ | ⟨_, _, e⟩ <;> (rw [e] at hg; exact hg.left)
        have hgs : AllGood (snds (es.map (bs o n s))) := by
          rcases h with ⟨_, _, e⟩ | ⟨_, _, e⟩
          · rw [e] at hg; exact hg.right.left
          · rw [e] at hg; exact hg.right
        rw [sb, sbs_eq] at hw ⊢
        have hfs : Star M (sb s f) (headOf o n s f).1 := by
          rcases headOf_eq o n hs.full f with ⟨x, rfl, e1⟩ | e1
          · rw [e1]; exact .refl _
          · rw [e1] at hgh ⊢; exact ih s f hs hrf (WF.part (F := .appF (es.map (sb s))) hw) hgh
        have h1 := hfs.lift (F := .appF (es.map (sb s))) hw
        have hw1 := h1.wf hw
        have h2 := lists (mkApp (headOf o n s f).1) (frames_app _) es hre hgs hw1
        have hw2 := h2.wf hw1
        have h12 := h1.trans h2
        rcases h with ⟨_, hlet, e⟩ | ⟨_, hlet, e⟩
        · rw [e] at hg ⊢
          -- the new redex
          set e' : Exp := .app (headOf o n s f).1 (fsts (es.map (bs o n s))) with he'
          have hnf : sb [] e' = mkApp (headOf o n s f).1 (fsts (es.map (bs o n s))) := by
            have hnn : Nn (headOf o n s f).1 ∧ ∀ e ∈ fsts (es.map (bs o n s)), Nn e := by
              have h := hw2.nn
              rcases mkApp_cases (headOf o n s f).1 (fsts (es.map (bs o n s))) with ⟨b, h3, h4, h5⟩ | ⟨_, h5⟩
              · rw [h3, h4]; rw [h5] at h; exact ⟨.lam h, fun _ h => by cases h⟩
              · rw [h5] at h; cases h with | app _ h3 h4 => exact ⟨h3, h4⟩
            rw [sb_nil, he', nf, nfs_eq, hnn.1.nf, map_id_of (fun e he => (hnn.2 e he).nf)]
          have hfe : ∀ en ∈ s, occ en.id e' = 0 := by
            intro en hen
            have h3 := h12.fresh (fresh_sb (e := .app f es) hs hr (by rw [sb, sbs_eq]; exact hw.hon) en hen |> fun h => by rw [sb, sbs_eq] at h; exact h)
            refine occ_of_fresh _ ?_ ?_
            · intro hf; exact h3.1 (by rw [free_mkApp]; exact hf)
            · have := h3.2; rw [bc_mkApp] at this; exact this
          have hind : bs o n s e' = bs o n [] e' :=
            bs_append o s hs.full n [] e' (fun _ h => by cases h) (fun en hen => ⟨fun _ h => by (cases h), hfe en hen⟩) hg.right.right
          rw [hind] at hg ⊢
          refine h12.trans ?_
          have := ih [] e' ⟨fun _ h => by (cases h), fun _ h => by (cases h), fun _ h => by (cases h), fun _ h => by (cases h)⟩ (fun _ _ _ h => by cases h) (by rw [hnf]; exact hw2) hg.right.right
          rw [hnf] at this
          exact this
        · rw [e]
          have : mkApp (headOf o n s f).1 (fsts (es.map (bs o n s))) = .app (headOf o n s f).1 (fsts (es.map (bs o n s))) := by
            refine mkApp_app ?_
            intro b hb he
            rw [hb, he] at hlet
            simp [isLet] at hlet
          rw [← this]
          exact h12

end Verif.Beta
