import Verif.Core.Ast
import Verif.Sets.Props
/-
Free variables: the specification and the exactness of the computed information.
-/
namespace Verif.Core
open Verif.Sets

/-! ### specification -/

/-- `x` occurs free in the expression (as a reference or as the target of an assignment). -/
inductive Free (x : Id) : Exp → Prop
  | var : Free x (.var x)
  | setTarget (e : Exp) : Free x (.set x e)
  | set (y : Id) {e : Exp} : Free x e → Free x (.set y e)
  | iteA {a : Exp} (b c : Exp) : Free x a → Free x (.ite a b c)
  | iteB (a : Exp) {b : Exp} (c : Exp) : Free x b → Free x (.ite a b c)
  | iteC (a b : Exp) {c : Exp} : Free x c → Free x (.ite a b c)
  | prim (eff : Effect) (p : PrimName) {rands : List Exp} {e : Exp} : e ∈ rands → Free x e → Free x (.prim eff p rands)
  | appF {f : Exp} (rands : List Exp) : Free x f → Free x (.app f rands)
  | appA (f : Exp) {rands : List Exp} {e : Exp} : e ∈ rands → Free x e → Free x (.app f rands)
  | lam {ids : List Id} {body : Exp} : x ∉ ids → Free x body → Free x (.lam ids body)
  | fixL {ids : List Id} {lams : List Exp} (body : Exp) {l : Exp} : x ∉ ids → l ∈ lams → Free x l → Free x (.fix ids lams body)
  | fixB {ids : List Id} (lams : List Exp) {body : Exp} : x ∉ ids → Free x body → Free x (.fix ids lams body)
  | letcc {y : Id} {body : Exp} : x ≠ y → Free x body → Free x (.letcc y body)
  | withccK {k : Exp} (e : Exp) : Free x k → Free x (.withcc k e)
  | withccE (k : Exp) {e : Exp} : Free x e → Free x (.withcc k e)

/-- `x` is assigned freely in the expression. -/
inductive AssignedIn (x : Id) : Exp → Prop
  | setTarget (e : Exp) : AssignedIn x (.set x e)
  | set (y : Id) {e : Exp} : AssignedIn x e → AssignedIn x (.set y e)
  | iteA {a : Exp} (b c : Exp) : AssignedIn x a → AssignedIn x (.ite a b c)
  | iteB (a : Exp) {b : Exp} (c : Exp) : AssignedIn x b → AssignedIn x (.ite a b c)
  | iteC (a b : Exp) {c : Exp} : AssignedIn x c → AssignedIn x (.ite a b c)
  | prim (eff : Effect) (p : PrimName) {rands : List Exp} {e : Exp} : e ∈ rands → AssignedIn x e →
      AssignedIn x (.prim eff p rands)
  | appF {f : Exp} (rands : List Exp) : AssignedIn x f → AssignedIn x (.app f rands)
  | appA (f : Exp) {rands : List Exp} {e : Exp} : e ∈ rands → AssignedIn x e → AssignedIn x (.app f rands)
  | lam {ids : List Id} {body : Exp} : x ∉ ids → AssignedIn x body → AssignedIn x (.lam ids body)
  | fixL {ids : List Id} {lams : List Exp} (body : Exp) {l : Exp} : x ∉ ids → l ∈ lams → AssignedIn x l →
      AssignedIn x (.fix ids lams body)
  | fixB {ids : List Id} (lams : List Exp) {body : Exp} : x ∉ ids → AssignedIn x body →
      AssignedIn x (.fix ids lams body)
  | letcc {y : Id} {body : Exp} : x ≠ y → AssignedIn x body → AssignedIn x (.letcc y body)
  | withccK {k : Exp} (e : Exp) : AssignedIn x k → AssignedIn x (.withcc k e)
  | withccE (k : Exp) {e : Exp} : AssignedIn x e → AssignedIn x (.withcc k e)

/-! ### the computed information is exact -/

theorem mem_keep {α : Type} [DecidableEq α] (f : α → Bool) (l : List α) (a : α) : a ∈ keep f l ↔ a ∈ l ∧ f a = true := by
  rw [c48_keep]; exact List.mem_filter

/-- membership in the list of uses of a group of operands. -/
theorem mem_vinfoAll (u : Id × Use) (es : List Exp) (base : List (Id × Use)) :
    u ∈ vinfoAll es base ↔ (∃ e ∈ es, u ∈ vinfo e) ∨ u ∈ base := by
  induction es with
  | nil => simp [vinfoAll]
  | cons e es ih => simp only [vinfoAll, List.mem_append, ih, List.mem_cons, exists_eq_or_imp, or_assoc]

theorem mem_vinfoPrim (u : Id × Use) (es : List Exp) (base : List (Id × Use)) :
    u ∈ vinfoPrim es base ↔ (∃ e ∈ es, u ∈ vinfo e) ∨ u ∈ base := by
  induction es generalizing base with
  | nil => simp [vinfoPrim]
  | cons e es ih =>
    simp only [vinfoPrim, ih, List.mem_append, List.mem_cons, exists_eq_or_imp]
    constructor
    · rintro (h | h | h)
      · exact Or.inl (Or.inr h)
      · exact Or.inl (Or.inl h)
      · exact Or.inr h
    · rintro ((h | h) | h)
      · exact Or.inr (Or.inl h)
      · exact Or.inl h
      · exact Or.inr (Or.inr h)

/-- the uses of the operator. -/
theorem mem_vinfo_app (u : Id × Use) (f : Exp) (es : List Exp) : u ∈ vinfo (.app f es) ↔
    (∃ e ∈ es, u ∈ vinfo e) ∨
    (match f with | .var x => u = (x, ⟨false, true⟩) | f => u ∈ vinfo f) := by
  cases f with
  | var x => rw [vinfo, mem_vinfoAll, List.mem_singleton]
  | _ => rw [vinfo, mem_vinfoAll]; intro x h; cases h

mutual
theorem vinfo_free (x : Id) : (e : Exp) → ((∃ u, (x, u) ∈ vinfo e) ↔ Free x e)
  | .var y => by
    simp only [vinfo, List.mem_singleton]
    constructor
    · rintro ⟨u, h⟩; injection h with h _; subst h; exact .var
    · rintro ⟨⟩; exact ⟨_, rfl⟩
  | .set y e => by
    have ih := vinfo_free x e
    simp only [vinfo, List.mem_cons]
    constructor
    · rintro ⟨u, h | h⟩
      · injection h with h _; subst h; exact .setTarget e
      · exact .set y (ih.1 ⟨u, h⟩)
    · intro h
      cases h with
      | setTarget => exact ⟨_, Or.inl rfl⟩
      | set _ h => obtain ⟨u, h⟩ := ih.2 h; exact ⟨u, Or.inr h⟩
  | .ite a b c => by
    have iha := vinfo_free x a
    have ihb := vinfo_free x b
    have ihc := vinfo_free x c
    simp only [vinfo, List.mem_append]
    constructor
    · rintro ⟨u, h | h | h⟩
      · exact .iteA b c (iha.1 ⟨u, h⟩)
      · exact .iteB a c (ihb.1 ⟨u, h⟩)
      · exact .iteC a b (ihc.1 ⟨u, h⟩)
    · intro h
      cases h with
      | iteA _ _ h => obtain ⟨u, h⟩ := iha.2 h; exact ⟨u, Or.inl h⟩
      | iteB _ _ h => obtain ⟨u, h⟩ := ihb.2 h; exact ⟨u, Or.inr (Or.inl h)⟩
      | iteC _ _ h => obtain ⟨u, h⟩ := ihc.2 h; exact ⟨u, Or.inr (Or.inr h)⟩
  | .prim eff p es => by
    have ih := vinfo_freeAll x es
    rw [vinfo]
    simp only [mem_vinfoPrim, List.not_mem_nil, or_false]
    constructor
    · rintro ⟨u, e, he, h⟩; exact .prim eff p he ((ih e he).1 ⟨u, h⟩)
    · intro h
      cases h with
      | prim _ _ he h => obtain ⟨u, h⟩ := (ih _ he).2 h; exact ⟨u, _, he, h⟩
  | .app f es => by
    have ih := vinfo_freeAll x es
    have ihf := vinfo_free x f
    simp only [mem_vinfo_app]
    constructor
    · rintro ⟨u, ⟨e, he, h⟩ | h⟩
      · exact .appA f he ((ih e he).1 ⟨u, h⟩)
      · refine .appF es ?_
        cases f with
        | var y => simp only at h; injection h with h _; subst h; exact .var
        | _ => exact ihf.1 ⟨u, h⟩
    · intro h
      cases h with
      | appF _ h =>
        cases f with
        | var y => cases h; exact ⟨_, Or.inr rfl⟩
        | _ => obtain ⟨u, h⟩ := ihf.2 h; exact ⟨u, Or.inr h⟩
      | appA _ he h => obtain ⟨u, h⟩ := (ih _ he).2 h; exact ⟨u, Or.inl ⟨_, he, h⟩⟩
  | .lam ids b => by
    have ih := vinfo_free x b
    simp only [vinfo, mem_keep, Bool.not_eq_true']
    constructor
    · rintro ⟨u, h, hn⟩
      refine .lam (fun hm => ?_) (ih.1 ⟨u, h⟩)
      rw [(memq_iff x ids).2 hm] at hn; cases hn
    · intro h
      cases h with
      | lam hn h =>
        obtain ⟨u, h⟩ := ih.2 h
        refine ⟨u, h, ?_⟩
        rw [← Bool.not_eq_true, memq_iff]; exact hn
  | .fix ids ls b => by
    have ih := vinfo_free x b
    have ihl := vinfo_freeAll x ls
    simp only [vinfo, mem_keep, mem_vinfoAll, Bool.not_eq_true']
    have key : ∀ l : List Id, memq x l = false ↔ x ∉ l := fun l => by rw [← Bool.not_eq_true, memq_iff]
    constructor
    · rintro ⟨u, ⟨l, hl, h⟩ | h, hn⟩
      · exact .fixL b ((key ids).1 hn) hl ((ihl l hl).1 ⟨u, h⟩)
      · exact .fixB ls ((key ids).1 hn) (ih.1 ⟨u, h⟩)
    · intro h
      cases h with
      | fixL _ hn hl h => obtain ⟨u, h⟩ := (ihl _ hl).2 h; exact ⟨u, Or.inl ⟨_, hl, h⟩, (key ids).2 hn⟩
      | fixB _ hn h => obtain ⟨u, h⟩ := ih.2 h; exact ⟨u, Or.inr h, (key ids).2 hn⟩
  | .letcc y b => by
    have ih := vinfo_free x b
    simp only [vinfo, mem_keep, Bool.not_eq_true', decide_eq_false_iff_not]
    constructor
    · rintro ⟨u, h, hn⟩; exact .letcc hn (ih.1 ⟨u, h⟩)
    · intro h
      cases h with
      | letcc hn h => obtain ⟨u, h⟩ := ih.2 h; exact ⟨u, h, hn⟩
  | .withcc k e => by
    have ihk := vinfo_free x k
    have ihe := vinfo_free x e
    simp only [vinfo, List.mem_append]
    constructor
    · rintro ⟨u, h | h⟩
      · exact .withccK e (ihk.1 ⟨u, h⟩)
      · exact .withccE k (ihe.1 ⟨u, h⟩)
    · intro h
      cases h with
      | withccK _ h => obtain ⟨u, h⟩ := ihk.2 h; exact ⟨u, Or.inl h⟩
      | withccE _ h => obtain ⟨u, h⟩ := ihe.2 h; exact ⟨u, Or.inr h⟩
theorem vinfo_freeAll (x : Id) : (es : List Exp) → (∀ e ∈ es, ((∃ u, (x, u) ∈ vinfo e) ↔ Free x e))
  | [] => by intro e he; cases he
  | e :: es => by
    intro e' he'
    rcases List.mem_cons.mp he' with h | h
    · rw [h]; exact vinfo_free x e
    · exact vinfo_freeAll x es e' h
end

mutual
theorem vinfo_assigned (x : Id) : (e : Exp) → ((∃ u, (x, u) ∈ vinfo e ∧ u.assign = true) ↔ AssignedIn x e)
  | .var y => by
    simp only [vinfo, List.mem_singleton]
    constructor
    · rintro ⟨u, h, ha⟩; injection h with _ h; subst h; cases ha
    · intro h; cases h
  | .set y e => by
    have ih := vinfo_assigned x e
    simp only [vinfo, List.mem_cons]
    constructor
    · rintro ⟨u, h | h, ha⟩
      · injection h with h _; subst h; exact .setTarget e
      · exact .set y (ih.1 ⟨u, h, ha⟩)
    · intro h
      cases h with
      | setTarget => exact ⟨_, Or.inl rfl, rfl⟩
      | set _ h => obtain ⟨u, h, ha⟩ := ih.2 h; exact ⟨u, Or.inr h, ha⟩
  | .ite a b c => by
    have iha := vinfo_assigned x a
    have ihb := vinfo_assigned x b
    have ihc := vinfo_assigned x c
    simp only [vinfo, List.mem_append]
    constructor
    · rintro ⟨u, h | h | h, ha⟩
      · exact .iteA b c (iha.1 ⟨u, h, ha⟩)
      · exact .iteB a c (ihb.1 ⟨u, h, ha⟩)
      · exact .iteC a b (ihc.1 ⟨u, h, ha⟩)
    · intro h
      cases h with
      | iteA _ _ h => obtain ⟨u, h, ha⟩ := iha.2 h; exact ⟨u, Or.inl h, ha⟩
      | iteB _ _ h => obtain ⟨u, h, ha⟩ := ihb.2 h; exact ⟨u, Or.inr (Or.inl h), ha⟩
      | iteC _ _ h => obtain ⟨u, h, ha⟩ := ihc.2 h; exact ⟨u, Or.inr (Or.inr h), ha⟩
  | .prim eff p es => by
    have ih := vinfo_assignedAll x es
    rw [vinfo]
    simp only [mem_vinfoPrim, List.not_mem_nil, or_false]
    constructor
    · rintro ⟨u, ⟨e, he, h⟩, ha⟩; exact .prim eff p he ((ih e he).1 ⟨u, h, ha⟩)
    · intro h
      cases h with
      | prim _ _ he h => obtain ⟨u, h, ha⟩ := (ih _ he).2 h; exact ⟨u, ⟨_, he, h⟩, ha⟩
  | .app f es => by
    have ih := vinfo_assignedAll x es
    have ihf := vinfo_assigned x f
    simp only [mem_vinfo_app]
    constructor
    · rintro ⟨u, ⟨e, he, h⟩ | h, ha⟩
      · exact .appA f he ((ih e he).1 ⟨u, h, ha⟩)
      · refine .appF es ?_
        cases f with
        | var y => simp only at h; injection h with _ h; subst h; cases ha
        | _ => exact ihf.1 ⟨u, h, ha⟩
    · intro h
      cases h with
      | appF _ h =>
        cases f with
        | var y => cases h
        | _ => obtain ⟨u, h, ha⟩ := ihf.2 h; exact ⟨u, Or.inr h, ha⟩
      | appA _ he h => obtain ⟨u, h, ha⟩ := (ih _ he).2 h; exact ⟨u, Or.inl ⟨_, he, h⟩, ha⟩
  | .lam ids b => by
    have ih := vinfo_assigned x b
    simp only [vinfo, mem_keep, Bool.not_eq_true']
    constructor
    · rintro ⟨u, ⟨h, hn⟩, ha⟩
      refine .lam (fun hm => ?_) (ih.1 ⟨u, h, ha⟩)
      rw [(memq_iff x ids).2 hm] at hn; cases hn
    · intro h
      cases h with
      | lam hn h =>
        obtain ⟨u, h, ha⟩ := ih.2 h
        refine ⟨u, ⟨h, ?_⟩, ha⟩
        rw [← Bool.not_eq_true, memq_iff]; exact hn
  | .fix ids ls b => by
    have ih := vinfo_assigned x b
    have ihl := vinfo_assignedAll x ls
    simp only [vinfo, mem_keep, mem_vinfoAll, Bool.not_eq_true']
    have key : ∀ l : List Id, memq x l = false ↔ x ∉ l := fun l => by rw [← Bool.not_eq_true, memq_iff]
    constructor
    · rintro ⟨u, ⟨⟨l, hl, h⟩ | h, hn⟩, ha⟩
      · exact .fixL b ((key ids).1 hn) hl ((ihl l hl).1 ⟨u, h, ha⟩)
      · exact .fixB ls ((key ids).1 hn) (ih.1 ⟨u, h, ha⟩)
    · intro h
      cases h with
      | fixL _ hn hl h => obtain ⟨u, h, ha⟩ := (ihl _ hl).2 h; exact ⟨u, ⟨Or.inl ⟨_, hl, h⟩, (key ids).2 hn⟩, ha⟩
      | fixB _ hn h => obtain ⟨u, h, ha⟩ := ih.2 h; exact ⟨u, ⟨Or.inr h, (key ids).2 hn⟩, ha⟩
  | .letcc y b => by
    have ih := vinfo_assigned x b
    simp only [vinfo, mem_keep, Bool.not_eq_true', decide_eq_false_iff_not]
    constructor
    · rintro ⟨u, ⟨h, hn⟩, ha⟩; exact .letcc hn (ih.1 ⟨u, h, ha⟩)
    · intro h
      cases h with
      | letcc hn h => obtain ⟨u, h, ha⟩ := ih.2 h; exact ⟨u, ⟨h, hn⟩, ha⟩
  | .withcc k e => by
    have ihk := vinfo_assigned x k
    have ihe := vinfo_assigned x e
    simp only [vinfo, List.mem_append]
    constructor
    · rintro ⟨u, h | h, ha⟩
      · exact .withccK e (ihk.1 ⟨u, h, ha⟩)
      · exact .withccE k (ihe.1 ⟨u, h, ha⟩)
    · intro h
      cases h with
      | withccK _ h => obtain ⟨u, h, ha⟩ := ihk.2 h; exact ⟨u, Or.inl h, ha⟩
      | withccE _ h => obtain ⟨u, h, ha⟩ := ihe.2 h; exact ⟨u, Or.inr h, ha⟩
theorem vinfo_assignedAll (x : Id) : (es : List Exp) →
    (∀ e ∈ es, ((∃ u, (x, u) ∈ vinfo e ∧ u.assign = true) ↔ AssignedIn x e))
  | [] => by intro e he; cases he
  | e :: es => by
    intro e' he'
    rcases List.mem_cons.mp he' with h | h
    · rw [h]; exact vinfo_assigned x e
    · exact vinfo_assignedAll x es e' h
end

theorem mem_adjoin_fold (x : Id) (vi : List (Id × Use)) (acc : List Id) :
    x ∈ reduceLeft (fun (u : Id × Use) res => adjoinq u.1 res) acc vi ↔ (∃ u, (x, u) ∈ vi) ∨ x ∈ acc := by
  induction vi generalizing acc with
  | nil => simp [reduceLeft]
  | cons u vi ih =>
    rw [reduceLeft, ih, (c48_members u.1 x acc []).1]
    constructor
    · rintro (⟨v, h⟩ | h | h)
      · exact Or.inl ⟨v, List.mem_cons_of_mem _ h⟩
      · exact Or.inl ⟨u.2, by rw [h]; exact List.mem_cons_self⟩
      · exact Or.inr h
    · rintro (⟨v, h⟩ | h)
      · rcases List.mem_cons.mp h with h | h
        · right; left; rw [← h]
        · exact Or.inl ⟨v, h⟩
      · exact Or.inr (Or.inr h)

theorem nodup_adjoin_fold (vi : List (Id × Use)) (acc : List Id) (h : acc.Nodup) :
    (reduceLeft (fun (u : Id × Use) res => adjoinq u.1 res) acc vi).Nodup := by
  induction vi generalizing acc with
  | nil => exact h
  | cons u vi ih => exact ih _ (c48_nodup u.1 acc [] h).1

/-- C47: the computed free variables are exactly the variables that occur free, each listed once. -/
theorem c47_free_vars (x : Id) (e : Exp) : (x ∈ freeVars e ↔ Free x e) ∧ (freeVars e).Nodup := by
  refine ⟨?_, nodup_adjoin_fold _ _ List.nodup_nil⟩
  rw [freeVars, mem_adjoin_fold, vinfo_free]
  simp

/-- C47: the free lexical variables are exactly the non-global variables that occur free, each listed
once. -/
theorem c47_free_lexvars (x : Id) (e : Exp) :
    (x ∈ freeLexvars e ↔ x.isGlobal = false ∧ Free x e) ∧ (freeLexvars e).Nodup := by
  have key : ∀ (vi : List (Id × Use)) (acc : List Id),
      (x ∈ reduceLeft (fun (u : Id × Use) res => if u.1.isGlobal then res else adjoinq u.1 res) acc vi ↔
        (x.isGlobal = false ∧ ∃ u, (x, u) ∈ vi) ∨ x ∈ acc) ∧
      (acc.Nodup → (reduceLeft (fun (u : Id × Use) res => if u.1.isGlobal then res else adjoinq u.1 res) acc vi).Nodup) := by
    intro vi
    induction vi with
    | nil => intro acc; simp [reduceLeft]
    | cons u vi ih =>
      intro acc
      rw [reduceLeft]
      by_cases hg : u.1.isGlobal = true
      · rw [if_pos hg]
        refine ⟨?_, (ih acc).2⟩
        rw [(ih acc).1]
        constructor
        · rintro (⟨h, v, hv⟩ | h)
          · exact Or.inl ⟨h, v, List.mem_cons_of_mem _ hv⟩
          · exact Or.inr h
        · rintro (⟨h, v, hv⟩ | h)
          · rcases List.mem_cons.mp hv with e | hv
            · rw [← e] at hg; rw [h] at hg; cases hg
            · exact Or.inl ⟨h, v, hv⟩
          · exact Or.inr h
      · rw [if_neg hg]
        refine ⟨?_, fun hn => (ih _).2 (c48_nodup u.1 acc [] hn).1⟩
        rw [(ih _).1, (c48_members u.1 x acc []).1]
        constructor
        · rintro (⟨h, v, hv⟩ | h | h)
          · exact Or.inl ⟨h, v, List.mem_cons_of_mem _ hv⟩
          · refine Or.inl ⟨?_, u.2, ?_⟩
            · rw [h]; simpa using hg
            · rw [h]; exact List.mem_cons_self
          · exact Or.inr h
        · rintro (⟨h, v, hv⟩ | h)
          · rcases List.mem_cons.mp hv with e | hv
            · right; left; rw [← e]
            · exact Or.inl ⟨h, v, hv⟩
          · exact Or.inr (Or.inr h)
  refine ⟨?_, (key _ _).2 List.nodup_nil⟩
  rw [freeLexvars, (key _ _).1, vinfo_free]
  simp

theorem mem_uses_loop (x : Id) (v : Use) (vi : List (Id × Use)) (acc : List Use) :
    v ∈ varUses.loop x vi acc ↔ (x, v) ∈ vi ∨ v ∈ acc := by
  induction vi generalizing acc with
  | nil => simp [varUses.loop]
  | cons u vi ih =>
    obtain ⟨y, w⟩ := u
    rw [varUses.loop]
    by_cases h : x = y
    · subst h
      simp only [if_true, ih, List.mem_cons, Prod.mk.injEq, true_and]
      exact ⟨fun h => by rcases h with h | h | h <;> simp [h], fun h => by rcases h with (h | h) | h <;> simp [h]⟩
    · rw [if_neg h]
      simp only [ih, List.mem_cons, Prod.mk.injEq, h, false_and, false_or]

/-- C47: `var-referenced-in-exp?` and `var-assigned-in-exp?` decide free occurrence and free assignment. -/
theorem c47_referenced (x : Id) (e : Exp) :
    (referenced x e = true ↔ Free x e) ∧ (assigned x e = true ↔ AssignedIn x e) := by
  constructor
  · rw [← vinfo_free, referenced]
    cases h : varUses x e with
    | nil =>
      simp only [List.isEmpty_nil, Bool.not_true, Bool.false_eq_true, false_iff]
      rintro ⟨u, hu⟩
      have := (mem_uses_loop x u (vinfo e) []).2 (Or.inl hu)
      rw [← varUses, h] at this
      cases this
    | cons v l =>
      simp only [List.isEmpty_cons, Bool.not_false, true_iff]
      have := (mem_uses_loop x v (vinfo e) []).1 (by rw [← varUses, h]; exact List.mem_cons_self)
      rcases this with h | h
      · exact ⟨v, h⟩
      · cases h
  · rw [← vinfo_assigned, assigned, List.any_eq_true]
    constructor
    · rintro ⟨u, hu, ha⟩
      rcases (mem_uses_loop x u (vinfo e) []).1 hu with h | h
      · exact ⟨u, h, ha⟩
      · cases h
    · rintro ⟨u, hu, ha⟩
      exact ⟨u, (mem_uses_loop x u (vinfo e) []).2 (Or.inl hu), ha⟩

/-- `(set! g (letcc k (k x y x)))` with `g` global. -/
example : freeVars (.set ⟨-1, false⟩ (.letcc (lexId 0) (.app (.var (lexId 0)) [.var (lexId 1), .var (lexId 2), .var (lexId 1)]))) =
      [lexId 2, lexId 1, ⟨-1, false⟩] ∧
    freeLexvars (.set ⟨-1, false⟩ (.letcc (lexId 0) (.app (.var (lexId 0)) [.var (lexId 1), .var (lexId 2), .var (lexId 1)]))) =
      [lexId 2, lexId 1] ∧
    referenced (lexId 0) (.letcc (lexId 0) (.var (lexId 0))) = false ∧
    assigned (lexId 0) (.lam [lexId 1] (.set (lexId 0) (.var (lexId 1)))) = true := by decide +kernel

end Verif.Core
