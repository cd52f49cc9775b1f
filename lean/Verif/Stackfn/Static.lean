import Verif.Stackfn.Exprs
/-
Static facts: counters grow, labels are ids bound in the expression, the check looks only at free variables.
-/
namespace Verif.Stackfn
open Verif.Core

/-! ### the counter -/

theorem appCode_mono (T : Texts) (f g : Id) (es : List Exp) (t : Tgt) (Γ : Labels) (n : Nat) (r : List Stmt × Nat) (h : n ≤ r.2) : n ≤ (appCode T f g es t Γ n r).2 := by
  unfold appCode
  split
  · exact Nat.le_refl _
  · split
    · exact Nat.le_refl _
    · exact h

theorem cg_mono (T : Texts) (f : Id) : (∀ e t Γ n, n ≤ (cgBody T f e t Γ n).2) ∧
    (∀ u d ids lams t Γ n, n ≤ (cgLams T f u d ids lams t Γ n).2) ∧ (∀ ids es Γ n, n ≤ (cgInits T f ids es Γ n).2) ∧
    (∀ es t Γ n, n ≤ (cgOne T f es t Γ n).2) ∧ (∀ es k Γ n, n ≤ (cgRevApp T f es k Γ n).2) ∧ (∀ es k Γ n, n ≤ (cgRev T f es k Γ n).2) := by
  apply cgBody.mutual_induct T f (motive_1 := fun e t Γ n => n ≤ (cgBody T f e t Γ n).2) (motive_2 := fun u d ids lams t Γ n => n ≤ (cgLams T f u d ids lams t Γ n).2)
    (motive_3 := fun ids es Γ n => n ≤ (cgInits T f ids es Γ n).2) (motive_4 := fun es t Γ n => n ≤ (cgOne T f es t Γ n).2)
    (motive_5 := fun es k Γ n => n ≤ (cgRevApp T f es k Γ n).2) (motive_6 := fun es k Γ n => n ≤ (cgRev T f es k Γ n).2)
  all_goals intros
  case case8 => simp only [cgBody]; exact appCode_mono _ _ _ _ _ _ _ _ (by omega)
  case case14 =>
    rename_i ps b y es t Γ n Γ' cb ih2 ih1
    simp only [cgBody, if_true]
    exact Nat.le_trans (Nat.le_trans (Nat.le_succ n) (appCode_mono T f y es t Γ' (n + 1) _ (by omega))) ih1
  all_goals simp +zetaDelta only [cgBody, cgLams, cgInits, cgOne, cgRevApp, cgRev, *, Bool.false_eq_true, if_false, if_true, Nat.le_refl] at *
  all_goals omega

/-! ### labels -/

theorem findLabel_append (l : Lab) (a b : List Stmt) : findLabel l (a ++ b) = match findLabel l a with
    | some c => some (c ++ b)
    | none => findLabel l b := by
  induction a with
  | nil => simp [findLabel]
  | cons s a ih =>
    simp only [List.cons_append, findLabel, ih]
    cases findStmt l s with
    | some c => simp
    | none => rfl

theorem findLabel_right {l : Lab} {a b : List Stmt} (h : findLabel l a = none) : findLabel l (a ++ b) = findLabel l b := by rw [findLabel_append, h]

theorem findLabel_left {l : Lab} {a b : List Stmt} (h : findLabel l b = none) : findLabel l (a ++ b) = (findLabel l a).map (· ++ b) := by
  rw [findLabel_append]
  cases findLabel l a with
  | some c => rfl
  | none => exact h

theorem findLabel_none {l : Lab} {a b : List Stmt} (ha : findLabel l a = none) (hb : findLabel l b = none) : findLabel l (a ++ b) = none := by
  rw [findLabel_right ha, hb]

theorem findLabel_map {l : Lab} (xs : List Id) : findLabel l (xs.map (Stmt.decl · none)) = none := by
  induction xs with
  | nil => rfl
  | cons x xs ih => simp [findLabel, findStmt, ih]

theorem findLabel_decls {l : Lab} (T : Texts) (f : Id) : ∀ (xs : List Id) (es : List Exp), findLabel l (decls T f xs es) = none
  | [], _ => by simp [decls, findLabel]
  | _ :: _, [] => by simp [decls, findLabel]
  | x :: xs, e :: es => by simp [decls, findLabel, findStmt, findLabel_decls T f xs es]

theorem findLabel_assigns {l : Lab} : ∀ (ps : List Id) (es : List CExp), findLabel l (assigns ps es) = none
  | [], _ => by simp [assigns, findLabel]
  | _ :: _, [] => by simp [assigns, findLabel]
  | p :: ps, e :: es => by simp [assigns, findLabel, findStmt, findLabel_assigns ps es]

theorem findLabel_jumpTo {l : Lab} (f g : Id) (ps : List Id) (args : List CExp) (t : Tgt) : findLabel l (jumpTo f g ps args t) = none := by
  cases t with
  | ret => exact findLabel_none (findLabel_assigns _ _) rfl
  | var x => simp only [jumpTo]; split <;> rfl
  | void => simp only [jumpTo]; split <;> rfl

theorem findLabel_gotoDone {l : Lab} (d : Option Nat) : findLabel l (gotoDone d) = none := by cases d <;> rfl
theorem findLabel_labelDone {x : Id} (d : Option Nat) : findLabel (.id x) (labelDone d) = none := by cases d <;> simp [labelDone, findLabel, findStmt]

theorem findLabel_block {l : Lab} (ss : List Stmt) : findLabel l [.block ss] = findLabel l ss := by
  simp only [findLabel, findStmt]; cases findLabel l ss <;> simp

theorem findLabel_ite {l : Lab} (e : CExp) (a b : List Stmt) : findLabel l [.ite e a b] = match findLabel l a with
    | some c => some c
    | none => findLabel l b := by
  simp only [findLabel, findStmt]
  cases findLabel l a with
  | some c => simp
  | none => cases findLabel l b <;> simp

theorem findLabel_appCode {l : Lab} {T : Texts} {f g : Id} {es : List Exp} {t : Tgt} {Γ : Labels} {n : Nat} {r : List Stmt × Nat} (h : findLabel l r.1 = none) :
    findLabel l (appCode T f g es t Γ n r).1 = none := by
  unfold appCode
  split
  · rfl
  · split
    · exact findLabel_jumpTo _ _ _ _ _
    · rw [findLabel_block]
      exact findLabel_none (findLabel_decls _ _ _ _) (findLabel_none h (findLabel_jumpTo _ _ _ _ _))

/-- labels of the code are bound in the expression. -/
theorem cg_labels (T : Texts) (f x : Id) : (∀ e t Γ n, x ∉ binders e → findLabel (.id x) (cgBody T f e t Γ n).1 = none) ∧
    (∀ u d ids lams t Γ n, x ∉ ids → x ∉ bindersAll lams → findLabel (.id x) (cgLams T f u d ids lams t Γ n).1 = none) ∧
    (∀ ids es Γ n, x ∉ bindersAll es → findLabel (.id x) (cgInits T f ids es Γ n).1 = none) ∧
    (∀ es t Γ n, x ∉ bindersAll es → findLabel (.id x) (cgOne T f es t Γ n).1 = none) ∧
    (∀ es k Γ n, x ∉ bindersAll es → findLabel (.id x) (cgRevApp T f es k Γ n).1 = none) ∧
    (∀ es k Γ n, x ∉ bindersAll es → findLabel (.id x) (cgRev T f es k Γ n).1 = none) := by
  apply cgBody.mutual_induct T f (motive_1 := fun e t Γ n => x ∉ binders e → findLabel (.id x) (cgBody T f e t Γ n).1 = none)
    (motive_2 := fun u d ids lams t Γ n => x ∉ ids → x ∉ bindersAll lams → findLabel (.id x) (cgLams T f u d ids lams t Γ n).1 = none)
    (motive_3 := fun ids es Γ n => x ∉ bindersAll es → findLabel (.id x) (cgInits T f ids es Γ n).1 = none)
    (motive_4 := fun es t Γ n => x ∉ bindersAll es → findLabel (.id x) (cgOne T f es t Γ n).1 = none)
    (motive_5 := fun es k Γ n => x ∉ bindersAll es → findLabel (.id x) (cgRevApp T f es k Γ n).1 = none)
    (motive_6 := fun es k Γ n => x ∉ bindersAll es → findLabel (.id x) (cgRev T f es k Γ n).1 = none)
  all_goals intros
  all_goals simp +zetaDelta only [binders, bindersAll, List.mem_append, List.mem_cons, not_or, cgBody, cgLams, cgInits, cgOne, cgRevApp, cgRev, *, Bool.false_eq_true, if_false, if_true, not_false_eq_true, forall_const] at *
  all_goals first
    | rfl
    | (simp only [findLabel, findStmt]; done)
    | skip
  case case14 =>
    rename_i ps b y es t Γ n Γ' cb ih2 ih1 h
    rw [findLabel_block]
    refine findLabel_none (findLabel_map _) (findLabel_none (findLabel_none (findLabel_none (findLabel_appCode (ih2 h.2)) (findLabel_gotoDone _)) ?_) (findLabel_labelDone _))
    rw [findLabel, findStmt, if_neg (by intro e; injection e with e; exact h.1.1.1 e.symm)]
    exact findLabel_none (ih1 h.1.2.1.1.2) (findLabel_gotoDone _)
  case case18 =>
    rename_i h1 h2
    refine findLabel_none ?_ (by simp_all)
    rw [findLabel, findStmt, if_neg (by intro e; injection e with e; exact h1.1 e.symm)]
    exact findLabel_none (by simp_all) (findLabel_gotoDone _)
  case case7 =>
    rename_i h
    rw [findLabel_block]
    exact findLabel_none (findLabel_map _) (findLabel_none (by simp_all) rfl)
  case case16 =>
    rename_i ih2 ih1 h
    rw [findLabel_block]
    exact findLabel_none (findLabel_map _) (findLabel_none (findLabel_none (findLabel_none (ih2 h.2.2) (findLabel_gotoDone _)) (ih1 h.1 h.2.1)) (findLabel_labelDone _))
  all_goals simp_all [findLabel_append, findLabel_map, findLabel_decls, findLabel_gotoDone, findLabel_labelDone, findLabel_appCode, findLabel, findStmt]

/-! ### the check looks only at free variables -/

/-- `y` is free or bound in `e`. -/
def Occ (y : Id) (e : Exp) : Prop := Free y e ∨ y ∈ binders e

theorem Occ.body {y : Id} {ids : List Id} {b : Exp} (h : Occ y b) : Occ y (.lam ids b) := by
  by_cases hy : y ∈ ids
  · exact .inr (by simp [binders, hy])
  · rcases h with h | h
    · exact .inl (.lam hy h)
    · exact .inr (by simp [binders, h])

theorem Occ.appF {y : Id} {e : Exp} {es : List Exp} (h : Occ y e) : Occ y (.app e es) := by
  rcases h with h | h
  · exact .inl (.appF _ h)
  · exact .inr (by simp [binders, h])

theorem Occ.appA {y : Id} {a e : Exp} {es : List Exp} (he : e ∈ es) (h : Occ y e) : Occ y (.app a es) := by
  rcases h with h | h
  · exact .inl (.appA _ he h)
  · exact .inr (by simp only [binders, List.mem_append]; exact Or.inr (mem_bindersAll.2 ⟨e, he, h⟩))

theorem Occ.prim {y : Id} {eff : Effect} {p : PrimName} {e : Exp} {es : List Exp} (he : e ∈ es) (h : Occ y e) : Occ y (.prim eff p es) := by
  rcases h with h | h
  · exact .inl (.prim _ _ he h)
  · exact .inr (mem_bindersAll.2 ⟨e, he, h⟩)

theorem Occ.fixB {y : Id} {ids : List Id} {lams : List Exp} {b : Exp} (h : Occ y b) : Occ y (.fix ids lams b) := by
  by_cases hy : y ∈ ids
  · exact .inr (by simp [binders, hy])
  · rcases h with h | h
    · exact .inl (.fixB _ hy h)
    · exact .inr (by simp [binders, h])

theorem Occ.fixL {y : Id} {ids : List Id} {lams : List Exp} {b e : Exp} (he : e ∈ lams) (h : Occ y e) : Occ y (.fix ids lams b) := by
  by_cases hy : y ∈ ids
  · exact .inr (by simp [binders, hy])
  · rcases h with h | h
    · exact .inl (.fixL _ hy he h)
    · exact .inr (by simp only [binders, List.mem_append]; exact Or.inr (Or.inl (mem_bindersAll.2 ⟨e, he, h⟩)))

theorem ag_free (f : Id) (known : Id → Bool) : (∀ e xs ls t, ∀ ys, (∀ y, Occ y e → y ∈ xs → y ∈ ys) → agStack f known e xs ls t = true → agStack f known e ys ls t = true) ∧
    (∀ lams xs ls, ∀ ys, (∀ e ∈ lams, ∀ y, Occ y e → y ∈ xs → y ∈ ys) → agLams f known lams xs ls = true → agLams f known lams ys ls = true) ∧
    (∀ es xs ls, ∀ ys, (∀ e ∈ es, ∀ y, Occ y e → y ∈ xs → y ∈ ys) → agStacks f known es xs ls = true → agStacks f known es ys ls = true) := by
  apply agStack.mutual_induct (motive_1 := fun e xs ls t => ∀ ys, (∀ y, Occ y e → y ∈ xs → y ∈ ys) → agStack f known e xs ls t = true → agStack f known e ys ls t = true)
    (motive_2 := fun lams xs ls => ∀ ys, (∀ e ∈ lams, ∀ y, Occ y e → y ∈ xs → y ∈ ys) → agLams f known lams xs ls = true → agLams f known lams ys ls = true)
    (motive_3 := fun es xs ls => ∀ ys, (∀ e ∈ es, ∀ y, Occ y e → y ∈ xs → y ∈ ys) → agStacks f known es xs ls = true → agStacks f known es ys ls = true)
  case case1 =>
    intro x xs ls t ys h h1
    simp only [agStack, Bool.or_eq_true, List.contains_iff_mem] at h1 ⊢
    exact h1.imp (h x (.inl .var)) id
  case case2 =>
    intro a b c xs ls t i1 i2 i3 ys h h1
    simp only [agStack, Bool.and_eq_true] at h1 ⊢
    exact ⟨⟨i1 ys (fun y hy => h y (hy.imp (.iteA _ _) (by simp +contextual [binders]))) h1.1.1,
      i2 ys (fun y hy => h y (hy.imp (.iteB _ _) (by simp +contextual [binders]))) h1.1.2⟩,
      i3 ys (fun y hy => h y (hy.imp (.iteC _ _) (by simp +contextual [binders]))) h1.2⟩
  case case3 =>
    intro eff p es xs ls t i1 ys h h1
    simp only [agStack, Bool.and_eq_true] at h1 ⊢
    exact ⟨h1.1, i1 ys (fun e he y hy => h y (hy.prim he)) h1.2⟩
  case case4 =>
    intro ids b es xs ls t i1 i2 ys h h1
    simp only [agStack, Bool.and_eq_true] at h1 ⊢
    exact ⟨⟨h1.1.1, i1 ys (fun e he y hy => h y (hy.appA he)) h1.1.2⟩,
      i2 (ids ++ ys) (fun y hy hm => by
        rw [List.mem_append] at hm ⊢
        exact hm.imp id (h y hy.body.appF)) h1.2⟩
  case case5 =>
    intro x ps b y es xs ls t i1 i2 ys h h1
    simp only [agStack, Bool.and_eq_true] at h1 ⊢
    exact ⟨⟨h1.1.1, i1 ys (fun e he y hy => h y (hy.appA he)) h1.1.2⟩,
      i2 (ps ++ ys) (fun z hy hm => by
        rw [List.mem_append] at hm ⊢
        exact hm.imp id (h z (Occ.appF (Occ.fixL (by simp) (hy.body (ids := ps)))))) h1.2⟩
  case case6 =>
    intro g es xs ls t i1 ys h h1
    simp only [agStack, Bool.and_eq_true] at h1 ⊢
    exact ⟨h1.1, i1 ys (fun e he y hy => h y (hy.appA he)) h1.2⟩
  case case7 =>
    intro ids lams b xs ls t i1 i2 ys h h1
    simp only [agStack, Bool.and_eq_true] at h1 ⊢
    exact ⟨i1 ys (fun y hy => h y hy.fixB) h1.1, i2 ys (fun e he y hy => h y (hy.fixL he)) h1.2⟩
  case case8 =>
    intros
    simp_all [agStack]
  case case9 => intros; rfl
  case case10 =>
    intro ps b es xs ls i1 i2 ys h h1
    simp only [agLams, Bool.and_eq_true] at h1 ⊢
    exact ⟨i1 (ps ++ ys) (fun y hy hm => by
        rw [List.mem_append] at hm ⊢
        exact hm.imp id (h _ (by simp) y (hy.body (ids := ps)))) h1.1, i2 ys (fun e he => h e (by simp [he])) h1.2⟩
  case case11 =>
    intros
    simp_all [agLams]
  case case12 => intros; rfl
  case case13 =>
    intro e es xs ls i1 i2 ys h h1
    simp only [agStacks, Bool.and_eq_true] at h1 ⊢
    exact ⟨i1 ys (h e (by simp)) h1.1, i2 ys (fun e he => h e (by simp [he])) h1.2⟩

end Verif.Stackfn
