import Verif.Beta.Steps
/-
The reductions of one `let` (C36).
-/
namespace Verif.Beta
open Verif.Core

/-! ### choosing elements of a list -/

theorem pick_cons {α : Type} (a : α) (l : List α) : ∀ kp : List Nat, pick (a :: l) (kp.map (· + 1)) = pick l kp := by
  intro kp
  induction kp with
  | nil => rfl
  | cons k kp ih => simp only [pick, List.map_cons, List.filterMap_cons, List.getElem?_cons_succ] at ih ⊢; rw [ih]

theorem pick_range {α : Type} (l : List α) : pick l (List.range l.length) = l := by
  induction l with
  | nil => rfl
  | cons a l ih =>
    rw [List.length_cons, List.range_succ_eq_map]
    show pick (a :: l) ([0] ++ (List.range l.length).map (· + 1)) = _
    have : pick (a :: l) ([0] ++ (List.range l.length).map (· + 1)) = pick (a :: l) [0] ++ pick (a :: l) ((List.range l.length).map (· + 1)) := by
      simp [pick, List.filterMap_append]
    rw [this, pick_cons, ih]; rfl

/-- the positions except one. -/
def others (n i : Nat) : List Nat := List.range i ++ (List.range (n - (i + 1))).map (· + (i + 1))

theorem pick_append {α : Type} (l : List α) (k1 k2 : List Nat) : pick l (k1 ++ k2) = pick l k1 ++ pick l k2 := by
  simp [pick, List.filterMap_append]

theorem pick_left {α : Type} (l m : List α) : pick (l ++ m) (List.range l.length) = l := by
  have h : pick (l ++ m) (List.range l.length) = pick l (List.range l.length) := by
    refine List.filterMap_congr fun i hi => ?_
    rw [List.mem_range] at hi
    rw [List.getElem?_append_left hi]
  rw [h, pick_range]

theorem pick_right {α : Type} (l m : List α) : ∀ kp : List Nat, pick (l ++ m) (kp.map (· + l.length)) = pick m kp := by
  induction l with
  | nil => intro kp; simp
  | cons a l ih =>
    intro kp
    have : kp.map (· + (a :: l).length) = (kp.map (· + l.length)).map (· + 1) := by
      rw [List.map_map]; exact List.map_congr_left (fun i _ => by simp; omega)
    rw [this, List.cons_append, pick_cons, ih]

theorem pick_others {α : Type} (l m : List α) (a : α) : pick (l ++ a :: m) (others (l ++ a :: m).length l.length) = l ++ m := by
  unfold others
  rw [pick_append, pick_left]
  have h1 : (l ++ a :: m).length - (l.length + 1) = m.length := by simp; omega
  have h2 : l.length + 1 = (l ++ [a]).length := by simp
  rw [h1, h2, show l ++ a :: m = (l ++ [a]) ++ m by simp, pick_right, pick_range]

theorem others_perm {n i : Nat} (h : i < n) : (i :: others n i).Perm (List.range n) := by
  unfold others
  have h1 : List.range n = List.range i ++ i :: (List.range (n - (i + 1))).map (· + (i + 1)) := by
    have : n = i + (n - (i + 1) + 1) := by omega
    conv_lhs => rw [this, List.range_add, List.range_succ_eq_map]
    simp only [List.map_cons, List.map_map, Nat.add_zero]
    congr 2
    exact List.map_congr_left (fun j _ => by simp; omega)
  rw [h1]
  exact List.perm_middle.symm

theorem pick_reverse {α : Type} (l : List α) : pick l (List.range l.length).reverse = l.reverse := by
  rw [pick, List.filterMap_reverse]
  have := pick_range l
  rw [pick] at this
  rw [this]

variable {W : Type} {M : Sem W}

/-! ### the reductions -/

theorem WF.ids {ids : List Id} {B : Exp} {es : List Exp} (h : WF M (.app (.lam ids B) es)) : ids.Nodup ∧ (∀ y ∈ ids, bc y B = 0 ∧ (∀ e ∈ es, bc y e = 0) ∧
    (∀ e ∈ es, ¬ Free y e) ∧ y.isGlobal = false) := by
  refine ⟨List.nodup_iff_count_le_one.mpr fun y => ?_, fun y hy => ?_⟩
  · have := h.once y; rw [bc_app, bc_lam] at this; omega
  · have h0 := List.count_pos_iff.mpr hy
    have h1 := h.once y
    have h2 : 0 < bc y (.app (.lam ids B) es) := by rw [bc_app, bc_lam]; omega
    rw [bc_app, bc_lam] at h1
    refine ⟨by omega, fun e he => ?_, fun e he hf => h.apart y h2 (.appA _ he hf), h.loc y h2⟩
    have := bcs_le y he; omega

theorem hon_let {ids : List Id} {B : Exp} {es : List Exp} (h : Hon M (.app (.lam ids B) es)) : Hon M B ∧ ∀ e ∈ es, Hon M e := by
  cases h with | app h1 h2 => cases h1 with | lam h => exact ⟨h, h2⟩

theorem nn_let {ids : List Id} {B : Exp} {es : List Exp} (h : Nn (.app (.lam ids B) es)) : Nn B ∧ ∀ e ∈ es, Nn e := by
  cases h with | app _ h1 h2 => cases h1 with | lam h => exact ⟨h, h2⟩

/-- A dead binding is removed. -/
theorem Step.drop {i1 i2 : List Id} {e1 e2 : List Exp} {x : Id} {r B : Exp} (hw : WF M (.app (.lam (i1 ++ x :: i2) B) (e1 ++ r :: e2)))
    (hl1 : i1.length = e1.length) (hl2 : i2.length = e2.length) (hr : Rem M r) (hx : ¬ Free x B) :
    Step M (.app (.lam (i1 ++ x :: i2) B) (e1 ++ r :: e2)) (mkApp (.lam (i1 ++ i2) B) (e1 ++ e2)) := by
  obtain ⟨hnd, hids⟩ := hw.ids
  have hnn := nn_let hw.nn
  have hhon := hon_let hw.hon
  set R : Redex := ⟨.lets (others (i1 ++ x :: i2).length i1.length), i1 ++ x :: i2, some i1.length, none⟩ with hR
  have hL : Loc R := ⟨by simp [hR], by simp [hR]⟩
  have hg : R.goneId = some x := by simp [Redex.goneId, hR]
  have hcB : Clean R B := clean_apart hL B (fun y hy => (hids y hy).1) (fun z hz => by rw [hg] at hz; cases hz; exact hx)
  have hce : ∀ e ∈ e1 ++ r :: e2, Clean R e := fun e he => clean_apart hL e (fun y hy => (hids y hy).2.1 e he)
    (fun z hz => (hids z (goneId_mem hz)).2.2.1 e he)
  have hgood : ∀ (fl : Bool) (y : Id), 0 < bc y (.app (.lam (i1 ++ x :: i2) B) (e1 ++ r :: e2)) → y ∉ i1 ++ x :: i2 → Good R fl y := fun fl y hy hn =>
    ⟨hw.loc y hy, fun h => hn (goneId_mem h), fun _ r' hr' => by cases hr'⟩
  have hT : T R (.app (.lam (i1 ++ x :: i2) B) (e1 ++ r :: e2)) = .app (.lam (i1 ++ i2) B) (e1 ++ e2) := by
    have hred : isRedex R (.lam (i1 ++ x :: i2) B) (e1 ++ r :: e2) = true := by simp [isRedex, hR]
    rw [T, if_pos hred, Ts_eq, map_id_of (fun e he => (hce e he).T)]
    have hm : R.mode = .lets (others (i1 ++ x :: i2).length i1.length) := rfl
    have hid : R.ids = i1 ++ x :: i2 := rfl
    simp only [T, hcB.T, image, hm, hid, lamBody]
    rw [pick_others]
    have : (i1 ++ x :: i2).length = (e1 ++ r :: e2).length := by simp [hl1, hl2]
    rw [this, hl1, pick_others]
  have hbc : ∀ y, bc y (mkApp (.lam (i1 ++ i2) B) (e1 ++ e2)) ≤ bc y (.app (.lam (i1 ++ x :: i2) B) (e1 ++ r :: e2)) := by
    intro y
    simp only [bc_mkApp, bc_app, bc_lam, bcs_append, bcs_cons, List.count_append, List.count_cons]
    omega
  refine ⟨⟨R, hL, .here B _, ?_, ?_⟩, hbc, ?_, ?_⟩
  · refine .lets rfl rfl rfl ⟨by simp [hR, hl1, hl2], hnd, fun y hy => (hids y hy).2.2.2, ?_, by simp [hR], by simp [hR], ?_, by simp [hR]⟩ ?_ ?_
    · simp only [hR, Option.toList_some, List.singleton_append]
      have : (i1 ++ x :: i2).length = (e1 ++ r :: e2).length := by simp [hl1, hl2]
      rw [this]
      exact others_perm (by simp [hl1])
    · intro i r' h1 h2 _
      simp only [hR, Option.some.injEq] at h1
      subst h1
      rw [hl1] at h2
      simp at h2
      rw [← h2]; exact hr
    · intro e he
      refine ok_apart hL e (fun y hy => (hids y hy).2.1 e he) (fun y hy => hgood _ y ?_ (fun hm => ?_)) (fun z hz hf => absurd hf ((hids z (goneId_mem hz)).2.2.1 e he))
      · rw [bc_app]; have := bcs_le y he; omega
      · have := (hids y hm).2.1 e he; omega
    · refine ok_apart hL B (fun y hy => (hids y hy).1) (fun y hy => hgood _ y ?_ (fun hm => ?_)) (fun z hz hf => ?_)
      · rw [bc_app, bc_lam]; omega
      · have := (hids y hm).1; omega
      · rw [hg] at hz; cases hz; exact absurd hf hx
  · rw [hT, nf, nf, nfs_eq, hnn.1.nf, map_id_of (fun e he => (hnn.2 e ?_).nf)]
    rcases List.mem_append.mp he with h | h <;> simp [h]
  · intro y hf
    simp only [free_mkApp, free_app, free_lam] at hf ⊢
    rcases hf with ⟨h1, h2⟩ | ⟨e, h1, h2⟩
    · refine Or.inl ⟨?_, h2⟩
      simp only [List.mem_append, List.mem_cons, not_or] at h1 ⊢
      exact ⟨h1.1, fun e => hx (e ▸ h2), h1.2⟩
    · refine Or.inr ⟨e, ?_, h2⟩
      rcases List.mem_append.mp h1 with h | h <;> simp [h]
  · refine Hon.mkApp (.lam hhon.1) (fun e he => hhon.2 e ?_)
    rcases List.mem_append.mp he with h | h <;> simp [h]

/-- A binding is substituted. -/
theorem Step.subst {i1 i2 : List Id} {e1 e2 : List Exp} {x : Id} {r B : Exp} (hw : WF M (.app (.lam (i1 ++ x :: i2) B) (e1 ++ r :: e2)))
    (hl1 : i1.length = e1.length) (hl2 : i2.length = e2.length) (hr : Tr M r) (hx : occ x B ≤ 1 ∨ ∀ y, bc y r = 0)
    {R : Redex} (hR : R = ⟨.lets (others (i1 ++ x :: i2).length i1.length), i1 ++ x :: i2, some i1.length, some r⟩) :
    Step M (.app (.lam (i1 ++ x :: i2) B) (e1 ++ r :: e2)) (mkApp (.lam (i1 ++ i2) (nf (T R B))) (e1 ++ e2)) := by
  obtain ⟨hnd, hids⟩ := hw.ids
  have hnn := nn_let hw.nn
  have hhon := hon_let hw.hon
  have hL : Loc R := ⟨by simp [hR], by simp [hR]⟩
  have hg : R.goneId = some x := by simp [Redex.goneId, hR]
  have hsub : R.sub = some r := by simp [hR]
  have hid : R.ids = i1 ++ x :: i2 := by simp [hR]
  have hmem : r ∈ e1 ++ r :: e2 := by simp
  have haB : Apart R B := fun y hy => (hids y (hid ▸ hy)).1
  have hae : ∀ e ∈ e1 ++ r :: e2, Apart R e := fun e he y hy => (hids y (hid ▸ hy)).2.1 e he
  have hce : ∀ e ∈ e1 ++ r :: e2, Clean R e := fun e he => clean_apart hL e (hae e he)
    (fun z hz => (hids z (hid ▸ goneId_mem hz)).2.2.1 e he)
  have hxm : x ∈ i1 ++ x :: i2 := by simp
  have hgood : ∀ (fl : Bool) (y : Id), 0 < bc y (.app (.lam (i1 ++ x :: i2) B) (e1 ++ r :: e2)) → y ∉ i1 ++ x :: i2 → Good R fl y := fun fl y hy hn =>
    ⟨hw.loc y hy, fun h => hn (hid ▸ goneId_mem h), fun _ r' hr' hf => by
      rw [hsub] at hr'; cases hr'
      exact hw.apart y hy (.appA _ hmem hf)⟩
  have hT : T R (.app (.lam (i1 ++ x :: i2) B) (e1 ++ r :: e2)) = .app (.lam (i1 ++ i2) (T R B)) (e1 ++ e2) := by
    have hred : isRedex R (.lam (i1 ++ x :: i2) B) (e1 ++ r :: e2) = true := by simp [isRedex, hR]
    rw [T, if_pos hred, Ts_eq, map_id_of (fun e he => (hce e he).T)]
    have hm : R.mode = .lets (others (i1 ++ x :: i2).length i1.length) := by simp [hR]
    simp only [T, image, hm, hid, lamBody]
    rw [pick_others]
    have : (i1 ++ x :: i2).length = (e1 ++ r :: e2).length := by simp [hl1, hl2]
    rw [this, hl1, pick_others]
  have hbcT := fun y => bc_T hL hg hsub y B haB
  have hbc : ∀ y, bc y (mkApp (.lam (i1 ++ i2) (nf (T R B))) (e1 ++ e2)) ≤ bc y (.app (.lam (i1 ++ x :: i2) B) (e1 ++ r :: e2)) := by
    intro y
    simp only [bc_mkApp, bc_app, bc_lam, bcs_append, bcs_cons, List.count_append, List.count_cons, bc_nf, hbcT]
    have : occ x B * bc y r ≤ bc y r := by
      rcases hx with h | h
      · calc occ x B * bc y r ≤ 1 * bc y r := Nat.mul_le_mul_right _ h
          _ = bc y r := Nat.one_mul _
      · rw [h y]; simp
    omega
  have hsubB : ∀ {y : Id}, Free y (T R B) → (Free y B ∧ y ≠ x) ∨ (Free x B ∧ Free y r) := fun h => free_T hL hg hsub (hids x hxm).2.2.2 B haB hhon.1 h
  refine ⟨⟨R, hL, ?_, ?_, ?_⟩, hbc, ?_, ?_⟩
  · have := Has.here (R := R) B (e1 ++ r :: e2); rw [hid] at this; exact this
  · refine .lets (by rw [hR]) hid.symm rfl ⟨by simp [hid, hl1, hl2], by rw [hid]; exact hnd, fun y hy => (hids y (hid ▸ hy)).2.2.2, ?_, ?_, by simp [hR], ?_, ?_⟩ ?_ ?_
    · simp only [hR, Option.toList_some, List.singleton_append]
      have : (i1 ++ x :: i2).length = (e1 ++ r :: e2).length := by simp [hl1, hl2]
      rw [this]
      exact others_perm (by simp [hl1])
    · intro r' hr' y hy
      rw [hsub] at hr'; cases hr'
      exact (hids y (hid ▸ hy)).2.2.1 r hmem
    · intro i r' h1 h2 h3; rw [hsub] at h3; cases h3
    · intro i r' r'' h1 h2 h3
      rw [hsub] at h3; cases h3
      simp only [hR, Option.some.injEq] at h1
      subst h1
      rw [hl1] at h2
      simp at h2
      subst h2
      exact ⟨rfl, hr, hce _ hmem⟩
    · intro e he
      refine ok_apart hL e (hae e he) (fun y hy => hgood _ y ?_ (fun hm => ?_)) (fun z hz hf => absurd hf ((hids z (hid ▸ goneId_mem hz)).2.2.1 e he))
      · rw [bc_app]; have := bcs_le y he; omega
      · have := (hids y hm).2.1 e he; omega
    · refine ok_apart hL B haB (fun y hy => hgood _ y ?_ (fun hm => ?_)) (fun z hz hf => ⟨rfl, by rw [hsub]; rfl⟩)
      · rw [bc_app, bc_lam]; omega
      · have := (hids y hm).1; omega
  · rw [hT]
    simp only [nf, nfs_eq]
    rw [map_id_of (fun e he => (hnn.2 e ?_).nf)]
    rcases List.mem_append.mp he with h | h <;> simp [h]
  · intro y hf
    simp only [free_mkApp, free_app, free_lam, free_nf] at hf ⊢
    rcases hf with ⟨h1, h2⟩ | ⟨e, h1, h2⟩
    · rcases hsubB h2 with ⟨h3, h4⟩ | ⟨_, h3⟩
      · refine Or.inl ⟨?_, h3⟩
        simp only [List.mem_append, List.mem_cons, not_or] at h1 ⊢
        exact ⟨h1.1, h4, h1.2⟩
      · exact Or.inr ⟨r, hmem, h3⟩
    · refine Or.inr ⟨e, ?_, h2⟩
      rcases List.mem_append.mp h1 with h | h <;> simp [h]
  · refine Hon.mkApp (.lam (hon_T hL (fun r' h => ?_) B haB hhon.1).nf) (fun e he => hhon.2 e ?_)
    · rw [hsub] at h; cases h; exact hhon.2 r hmem
    · rcases List.mem_append.mp he with h | h <;> simp [h]

theorem count_reverse_ids (l : List Id) (y : Id) : l.reverse.count y = l.count y := List.count_reverse

theorem bcs_reverse (y : Id) (es : List Exp) : bcs y es.reverse = bcs y es := by
  induction es with
  | nil => rfl
  | cons e es ih => rw [List.reverse_cons, bcs_append, bcs_cons, bcs_cons, bcs_nil, ih]; omega

/-- The bindings are reversed. -/
theorem Step.rev {ids : List Id} {es : List Exp} {B : Exp} (hw : WF M (.app (.lam ids B) es)) (hl : ids.length = es.length) (hne : ids ≠ []) :
    Step M (.app (.lam ids B) es) (.app (.lam ids.reverse B) es.reverse) := by
  obtain ⟨hnd, hids⟩ := hw.ids
  have hnn := nn_let hw.nn
  have hhon := hon_let hw.hon
  set R : Redex := ⟨.lets (List.range ids.length).reverse, ids, none, none⟩ with hR
  have hL : Loc R := ⟨by simp [hR], by simp [hR, hne]⟩
  have hg : R.goneId = none := by simp [Redex.goneId, hR]
  have hcB : Clean R B := clean_apart hL B (fun y hy => (hids y hy).1) (fun z hz => by rw [hg] at hz; cases hz)
  have hce : ∀ e ∈ es, Clean R e := fun e he => clean_apart hL e (fun y hy => (hids y hy).2.1 e he) (fun z hz => by rw [hg] at hz; cases hz)
  have hgood : ∀ (fl : Bool) (y : Id), 0 < bc y (.app (.lam ids B) es) → Good R fl y := fun fl y hy =>
    ⟨hw.loc y hy, fun h => by (rw [hg] at h; cases h), fun _ r' hr' => by cases hr'⟩
  have hT : T R (.app (.lam ids B) es) = .app (.lam ids.reverse B) es.reverse := by
    have hred : isRedex R (.lam ids B) es = true := by simp [isRedex, hR]
    rw [T, if_pos hred, Ts_eq, map_id_of (fun e he => (hce e he).T)]
    have hm : R.mode = .lets (List.range ids.length).reverse := rfl
    have hid : R.ids = ids := rfl
    simp only [T, hcB.T, image, hm, hid, lamBody]
    rw [pick_reverse, hl, pick_reverse]
  refine ⟨⟨R, hL, .here B _, ?_, ?_⟩, ?_, ?_, ?_⟩
  · refine .lets rfl rfl rfl ⟨hl, hnd, fun y hy => (hids y hy).2.2.2, ?_, by simp [hR], by simp [hR], by simp [hR], by simp [hR]⟩ ?_ ?_
    · simp only [hR, Option.toList_none, List.nil_append, hl]; exact List.reverse_perm _
    · intro e he
      refine ok_apart hL e (fun y hy => (hids y hy).2.1 e he) (fun y hy => hgood _ y ?_) (fun z hz _ => by rw [hg] at hz; cases hz)
      rw [bc_app]; have := bcs_le y he; omega
    · refine ok_apart hL B (fun y hy => (hids y hy).1) (fun y hy => hgood _ y ?_) (fun z hz _ => by rw [hg] at hz; cases hz)
      rw [bc_app, bc_lam]; omega
  · rw [hT]
    simp only [nf, nfs_eq]
    rw [map_id_of (fun e he => (hnn.2 e (List.mem_reverse.mp he)).nf), hnn.1.nf, mkApp_app]
    intro b hb
    cases hb' : ids.reverse with
    | nil => exact absurd (List.reverse_eq_nil_iff.mp hb') hne
    | cons a l => rw [hb'] at hb; cases hb
  · intro y; rw [bc_app, bc_lam, bc_app, bc_lam, bcs_reverse, count_reverse_ids]
  · intro y hf; simpa [free_app, free_lam] using hf
  · exact .app (.lam hhon.1) (fun e he => hhon.2 e (List.mem_reverse.mp he))

/-- `(let ((x e)) x)`. -/
theorem Step.idl {x : Id} {e : Exp} (hw : WF M (.app (.lam [x] (.var x)) [e])) : Step M (.app (.lam [x] (.var x)) [e]) e := by
  obtain ⟨hnd, hids⟩ := hw.ids
  have hnn := nn_let hw.nn
  have hhon := hon_let hw.hon
  set R : Redex := ⟨.idl, [x], none, none⟩ with hR
  have hL : Loc R := ⟨by simp [hR], by simp [hR]⟩
  have hg : R.goneId = none := by simp [Redex.goneId, hR]
  have hap : Apart R e := fun y hy => (hids y hy).2.1 e (by simp)
  have hce : Clean R e := clean_apart hL e hap (fun z hz => by rw [hg] at hz; cases hz)
  refine ⟨⟨R, hL, .here _ _, ?_, ?_⟩, ?_, ?_, hhon.2 e (by simp)⟩
  · refine .idl rfl rfl (hids x (by simp)).2.2.2 (ok_apart hL e hap (fun y hy => ⟨hw.loc y ?_, fun h => by (rw [hg] at h; cases h), fun _ r' hr' => by cases hr'⟩) (fun z hz _ => by rw [hg] at hz; cases hz))
    rw [bc_app, bcs_cons]; omega
  · have hred : isRedex R (.lam [x] (.var x)) [e] = true := by simp [isRedex, hR]
    rw [T, if_pos hred]
    simp only [Ts, image, hR, List.headD_cons]
    rw [hce.T, (hnn.2 e (by simp)).nf]
  · intro y; rw [bc_app, bcs_cons]; omega
  · intro y hf; exact .appA _ (by simp) hf

end Verif.Beta
