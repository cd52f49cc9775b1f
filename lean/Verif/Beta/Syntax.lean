import Verif.Beta.Redex
import Verif.Core.Uniq
import Mathlib.Data.List.Count
/-
Substitution in programs without `(let () b)`, and what a reduction does to variables (C36).
-/
namespace Verif.Beta
open Verif.Core

/-- induction on expressions. -/
theorem ind {P : Exp → Prop} (var : ∀ x, P (.var x)) (set : ∀ x e, P e → P (.set x e)) (ite : ∀ a b c, P a → P b → P c → P (.ite a b c))
    (prim : ∀ eff p es, (∀ e ∈ es, P e) → P (.prim eff p es)) (app : ∀ f es, P f → (∀ e ∈ es, P e) → P (.app f es))
    (lam : ∀ ids b, P b → P (.lam ids b)) (fix : ∀ ids lams b, (∀ l ∈ lams, P l) → P b → P (.fix ids lams b))
    (letcc : ∀ x b, P b → P (.letcc x b)) (withcc : ∀ k e, P k → P e → P (.withcc k e)) (e : Exp) : P e :=
  Exp.rec (motive_1 := P) (motive_2 := fun es => ∀ e ∈ es, P e) var set ite prim app lam fix letcc withcc
    (fun _ h => by cases h) (fun _ _ h1 h2 e he => by rcases List.mem_cons.mp he with rfl | he; exacts [h1, h2 e he]) e

/-- an application, unless it is `(let () b)`. -/
def mkApp (f : Exp) (es : List Exp) : Exp :=
  match f, es with
  | .lam [] b, [] => b
  | f, es => .app f es

mutual
/-- the expression without `(let () b)`. -/
def nf : Exp → Exp
  | .var x => .var x
  | .set x e => .set x (nf e)
  | .ite a b c => .ite (nf a) (nf b) (nf c)
  | .prim eff p es => .prim eff p (nfs es)
  | .app f es => mkApp (nf f) (nfs es)
  | .lam ids b => .lam ids (nf b)
  | .fix ids lams b => .fix ids (nfs lams) (nf b)
  | .letcc x b => .letcc x (nf b)
  | .withcc k e => .withcc (nf k) (nf e)
/-- for lists. -/
def nfs : List Exp → List Exp
  | [] => []
  | e :: es => nf e :: nfs es
end

mutual
/-- substitution. -/
def sb (s : List Entry) : Exp → Exp
  | .var x => match find x s with | some en => en.exp | none => .var x
  | .set x e => .set x (sb s e)
  | .ite a b c => .ite (sb s a) (sb s b) (sb s c)
  | .prim eff p es => .prim eff p (sbs s es)
  | .app f es => mkApp (sb s f) (sbs s es)
  | .lam ids b => .lam ids (sb s b)
  | .fix ids lams b => .fix ids (sbs s lams) (sb s b)
  | .letcc x b => .letcc x (sb s b)
  | .withcc k e => .withcc (sb s k) (sb s e)
/-- for lists. -/
def sbs (s : List Entry) : List Exp → List Exp
  | [] => []
  | e :: es => sb s e :: sbs s es
end

theorem nfs_eq (es : List Exp) : nfs es = es.map nf := by
  induction es with
  | nil => rfl
  | cons e es ih => simp [nfs, ih]

theorem sbs_eq (s : List Entry) (es : List Exp) : sbs s es = es.map (sb s) := by
  induction es with
  | nil => rfl
  | cons e es ih => simp [sbs, ih]

theorem mkApp_cases (f : Exp) (es : List Exp) : (∃ b, f = .lam [] b ∧ es = [] ∧ mkApp f es = b) ∨
    ((∀ b, f = .lam [] b → es ≠ []) ∧ mkApp f es = .app f es) := by
  unfold mkApp
  split
  · exact Or.inl ⟨_, rfl, rfl, rfl⟩
  · rename_i h
    exact Or.inr ⟨fun b hb he => h b hb he, rfl⟩

theorem mkApp_app {f : Exp} {es : List Exp} (h : ∀ b, f = .lam [] b → es ≠ []) : mkApp f es = .app f es := by
  rcases mkApp_cases f es with ⟨b, h1, h2, _⟩ | ⟨_, h2⟩
  · exact absurd h2 (h b h1)
  · exact h2

theorem sb_nil (e : Exp) : sb [] e = nf e := by
  induction e using ind with
  | var x => rfl
  | set x e ih => simp [sb, nf, ih]
  | ite a b c h1 h2 h3 => simp [sb, nf, h1, h2, h3]
  | prim eff p es ih => simp only [sb, nf, sbs_eq, nfs_eq]; rw [List.map_congr_left ih]
  | app f es h1 h2 => simp only [sb, nf, sbs_eq, nfs_eq, h1]; rw [List.map_congr_left h2]
  | lam ids b ih => simp [sb, nf, ih]
  | fix ids lams b h1 h2 => simp only [sb, nf, sbs_eq, nfs_eq, h2]; rw [List.map_congr_left h1]
  | letcc x b ih => simp [sb, nf, ih]
  | withcc k e h1 h2 => simp [sb, nf, h1, h2]

theorem nf_mkApp {f : Exp} {es : List Exp} : nf (mkApp f es) = mkApp (nf f) (es.map nf) := by
  rcases mkApp_cases f es with ⟨b, rfl, rfl, h⟩ | ⟨_, h⟩
  · rw [h]; simp [nf, mkApp]
  · rw [h, nf, nfs_eq]

theorem map_nf_nf {es : List Exp} (h : ∀ e ∈ es, nf (nf e) = nf e) : (es.map nf).map nf = es.map nf := by
  rw [List.map_map]; exact List.map_congr_left h

theorem nf_nf (e : Exp) : nf (nf e) = nf e := by
  induction e using ind with
  | var x => rfl
  | set x e ih => simp [nf, ih]
  | ite a b c h1 h2 h3 => simp [nf, h1, h2, h3]
  | prim eff p es ih => simp only [nf, nfs_eq, map_nf_nf ih]
  | app f es h1 h2 => rw [nf, nfs_eq, nf_mkApp, h1, map_nf_nf h2]
  | lam ids b ih => simp [nf, ih]
  | fix ids lams b h1 h2 => simp only [nf, nfs_eq, h2, map_nf_nf h1]
  | letcc x b ih => simp [nf, ih]
  | withcc k e h1 h2 => simp [nf, h1, h2]

/-! ### free variables -/

theorem free_app {x : Id} {f : Exp} {es : List Exp} : Free x (.app f es) ↔ Free x f ∨ ∃ e ∈ es, Free x e := by
  constructor
  · intro h; cases h with
    | appF _ h => exact Or.inl h
    | appA _ h1 h2 => exact Or.inr ⟨_, h1, h2⟩
  · rintro (h | ⟨e, h1, h2⟩)
    · exact .appF _ h
    · exact .appA _ h1 h2
theorem free_lam {x : Id} {ids : List Id} {b : Exp} : Free x (.lam ids b) ↔ x ∉ ids ∧ Free x b := by
  constructor
  · intro h; cases h with | lam h1 h2 => exact ⟨h1, h2⟩
  · rintro ⟨h1, h2⟩; exact .lam h1 h2
theorem free_var {x y : Id} : Free x (.var y) ↔ x = y := by
  constructor
  · intro h; cases h; rfl
  · rintro rfl; exact .var
theorem free_set {x y : Id} {e : Exp} : Free x (.set y e) ↔ x = y ∨ Free x e := by
  constructor
  · intro h; cases h with
    | setTarget => exact Or.inl rfl
    | set _ h => exact Or.inr h
  · rintro (rfl | h)
    · exact .setTarget _
    · exact .set _ h
theorem free_ite {x : Id} {a b c : Exp} : Free x (.ite a b c) ↔ Free x a ∨ Free x b ∨ Free x c := by
  constructor
  · intro h; cases h with
    | iteA _ _ h => exact Or.inl h
    | iteB _ _ h => exact Or.inr (Or.inl h)
    | iteC _ _ h => exact Or.inr (Or.inr h)
  · rintro (h | h | h)
    · exact .iteA _ _ h
    · exact .iteB _ _ h
    · exact .iteC _ _ h
theorem free_prim {x : Id} {eff : Effect} {p : PrimName} {es : List Exp} : Free x (.prim eff p es) ↔ ∃ e ∈ es, Free x e := by
  constructor
  · intro h; cases h with | prim _ _ h1 h2 => exact ⟨_, h1, h2⟩
  · rintro ⟨e, h1, h2⟩; exact .prim _ _ h1 h2
theorem free_fix {x : Id} {ids : List Id} {lams : List Exp} {b : Exp} : Free x (.fix ids lams b) ↔ x ∉ ids ∧ ((∃ l ∈ lams, Free x l) ∨ Free x b) := by
  constructor
  · intro h; cases h with
    | fixL _ h1 h2 h3 => exact ⟨h1, Or.inl ⟨_, h2, h3⟩⟩
    | fixB _ h1 h2 => exact ⟨h1, Or.inr h2⟩
  · rintro ⟨h1, ⟨l, h2, h3⟩ | h2⟩
    · exact .fixL _ h1 h2 h3
    · exact .fixB _ h1 h2
theorem free_letcc {x y : Id} {b : Exp} : Free x (.letcc y b) ↔ x ≠ y ∧ Free x b := by
  constructor
  · intro h; cases h with | letcc h1 h2 => exact ⟨h1, h2⟩
  · rintro ⟨h1, h2⟩; exact .letcc h1 h2
theorem free_withcc {x : Id} {k e : Exp} : Free x (.withcc k e) ↔ Free x k ∨ Free x e := by
  constructor
  · intro h; cases h with
    | withccK _ h => exact Or.inl h
    | withccE _ h => exact Or.inr h
  · rintro (h | h)
    · exact .withccK _ h
    · exact .withccE _ h

theorem free_mkApp {x : Id} {f : Exp} {es : List Exp} : Free x (mkApp f es) ↔ Free x (.app f es) := by
  rcases mkApp_cases f es with ⟨b, rfl, rfl, h⟩ | ⟨_, h⟩
  · rw [h]; simp [free_app, free_lam]
  · rw [h]

theorem free_nf {x : Id} (e : Exp) : Free x (nf e) ↔ Free x e := by
  induction e using ind with
  | var y => rfl
  | set y e ih => simp [nf, free_set, ih]
  | ite a b c h1 h2 h3 => simp [nf, free_ite, h1, h2, h3]
  | prim eff p es ih =>
    simp only [nf, nfs_eq, free_prim, List.mem_map, exists_exists_and_eq_and]
    exact exists_congr fun e => and_congr_right (ih e)
  | app f es h1 h2 =>
    simp only [nf, nfs_eq, free_mkApp, free_app, h1, List.mem_map, exists_exists_and_eq_and]
    exact or_congr_right (exists_congr fun e => and_congr_right (h2 e))
  | lam ids b ih => simp [nf, free_lam, ih]
  | fix ids lams b h1 h2 =>
    simp only [nf, nfs_eq, free_fix, h2, List.mem_map, exists_exists_and_eq_and]
    exact and_congr_right fun _ => or_congr_left (exists_congr fun e => and_congr_right (h1 e))
  | letcc x b ih => simp [nf, free_letcc, ih]
  | withcc k e h1 h2 => simp [nf, free_withcc, h1, h2]

/-! ### binding occurrences -/

/-- the number of times `y` is bound. -/
def bc (y : Id) (e : Exp) : Nat := (binders e).count y
/-- for lists. -/
def bcs (y : Id) (es : List Exp) : Nat := (bindersAll es).count y

theorem bc_var (y x : Id) : bc y (.var x) = 0 := rfl
theorem bc_set (y x : Id) (e : Exp) : bc y (.set x e) = bc y e := rfl
theorem bc_ite (y : Id) (a b c : Exp) : bc y (.ite a b c) = bc y a + (bc y b + bc y c) := by simp [bc, binders]
theorem bc_prim (y : Id) (eff : Effect) (p : PrimName) (es : List Exp) : bc y (.prim eff p es) = bcs y es := rfl
theorem bc_app (y : Id) (f : Exp) (es : List Exp) : bc y (.app f es) = bc y f + bcs y es := by simp [bc, bcs, binders]
theorem bc_lam (y : Id) (ids : List Id) (b : Exp) : bc y (.lam ids b) = ids.count y + bc y b := by simp [bc, binders]
theorem bc_fix (y : Id) (ids : List Id) (lams : List Exp) (b : Exp) : bc y (.fix ids lams b) = ids.count y + (bcs y lams + bc y b) := by simp [bc, bcs, binders]
theorem bc_letcc (y x : Id) (b : Exp) : bc y (.letcc x b) = [x].count y + bc y b := by
  simp only [bc, binders, List.count_cons, List.count_nil]; omega
theorem bc_withcc (y : Id) (k e : Exp) : bc y (.withcc k e) = bc y k + bc y e := by simp [bc, binders]
theorem bcs_nil (y : Id) : bcs y [] = 0 := rfl
theorem bcs_cons (y : Id) (e : Exp) (es : List Exp) : bcs y (e :: es) = bc y e + bcs y es := by simp [bc, bcs, bindersAll]
theorem bcs_append (y : Id) (es fs : List Exp) : bcs y (es ++ fs) = bcs y es + bcs y fs := by
  induction es with
  | nil => simp [bcs_nil]
  | cons e es ih => simp only [List.cons_append, bcs_cons, ih]; omega
theorem bcs_map (y : Id) {f : Exp → Exp} {es : List Exp} (h : ∀ e ∈ es, bc y (f e) = bc y e) : bcs y (es.map f) = bcs y es := by
  induction es with
  | nil => rfl
  | cons e es ih => rw [List.map_cons, bcs_cons, bcs_cons, h e (by simp), ih (fun a ha => h a (by simp [ha]))]
theorem bcs_le (y : Id) {es : List Exp} {e : Exp} (h : e ∈ es) : bc y e ≤ bcs y es := by
  induction es with
  | nil => cases h
  | cons a es ih =>
    rw [bcs_cons]
    rcases List.mem_cons.mp h with rfl | h
    · omega
    · have := ih h; omega
theorem bc_mkApp (y : Id) (f : Exp) (es : List Exp) : bc y (mkApp f es) = bc y (.app f es) := by
  rcases mkApp_cases f es with ⟨b, rfl, rfl, h⟩ | ⟨_, h⟩
  · rw [h]; simp [bc_app, bc_lam, bcs_nil]
  · rw [h]

theorem bc_nf (y : Id) (e : Exp) : bc y (nf e) = bc y e := by
  induction e using ind with
  | var x => rfl
  | set x e ih => simp [nf, bc_set, ih]
  | ite a b c h1 h2 h3 => simp [nf, bc_ite, h1, h2, h3]
  | prim eff p es ih => simp only [nf, nfs_eq, bc_prim]; exact bcs_map y ih
  | app f es h1 h2 => simp only [nf, nfs_eq, bc_mkApp, bc_app, h1, bcs_map y h2]
  | lam ids b ih => simp [nf, bc_lam, ih]
  | fix ids lams b h1 h2 => simp only [nf, nfs_eq, bc_fix, h2, bcs_map y h1]
  | letcc x b ih => simp [nf, bc_letcc, ih]
  | withcc k e h1 h2 => simp [nf, bc_withcc, h1, h2]

theorem bound_iff {y : Id} {e : Exp} : y ∈ binders e ↔ 0 < bc y e := by rw [bc, List.count_pos_iff]

/-! ### occurrences -/

mutual
/-- the number of references to `x`. -/
def occ (x : Id) : Exp → Nat
  | .var y => if x = y then 1 else 0
  | .set _ e => occ x e
  | .ite a b c => occ x a + (occ x b + occ x c)
  | .prim _ _ es => occs x es
  | .app f es => occ x f + occs x es
  | .lam _ b => occ x b
  | .fix _ lams b => occs x lams + occ x b
  | .letcc _ b => occ x b
  | .withcc k e => occ x k + occ x e
/-- for lists. -/
def occs (x : Id) : List Exp → Nat
  | [] => 0
  | e :: es => occ x e + occs x es
end

/-! ### honest labels -/

/-- The effects given for primitives are right: those without effect are functions of their arguments, those that may
be removed only allocate.  Assignments are to globals. -/
inductive Hon {W : Type} (M : Sem W) : Exp → Prop
  | var (x : Id) : Hon M (.var x)
  | set {x : Id} {e : Exp} : x.isGlobal = true → Hon M e → Hon M (.set x e)
  | ite {a b c : Exp} : Hon M a → Hon M b → Hon M c → Hon M (.ite a b c)
  | prim {eff : Effect} {p : PrimName} {es : List Exp} : (eff.refTransparent = true → Pure M p) → (eff.removable = true → Harmless M p) →
      (∀ e ∈ es, Hon M e) → Hon M (.prim eff p es)
  | app {f : Exp} {es : List Exp} : Hon M f → (∀ e ∈ es, Hon M e) → Hon M (.app f es)
  | lam {ids : List Id} {b : Exp} : Hon M b → Hon M (.lam ids b)
  | fix {ids : List Id} {lams : List Exp} {b : Exp} : (∀ l ∈ lams, Hon M l) → Hon M b → Hon M (.fix ids lams b)
  | letcc {x : Id} {b : Exp} : Hon M b → Hon M (.letcc x b)
  | withcc {k e : Exp} : Hon M k → Hon M e → Hon M (.withcc k e)

variable {W : Type} {M : Sem W}

theorem Hon.mkApp {f : Exp} {es : List Exp} (h1 : Hon M f) (h2 : ∀ e ∈ es, Hon M e) : Hon M (mkApp f es) := by
  rcases mkApp_cases f es with ⟨b, rfl, rfl, h⟩ | ⟨_, h⟩
  · rw [h]; cases h1 with | lam h => exact h
  · rw [h]; exact .app h1 h2

theorem forall_map {P : Exp → Prop} {f : Exp → Exp} {es : List Exp} (h : ∀ e ∈ es, P (f e)) : ∀ e ∈ es.map f, P e := by
  intro e he
  obtain ⟨a, ha, rfl⟩ := List.mem_map.mp he
  exact h a ha

theorem Hon.nf {e : Exp} (h : Hon M e) : Hon M (Beta.nf e) := by
  induction h with
  | var x => exact .var x
  | set h _ ih => exact .set h ih
  | ite _ _ _ h1 h2 h3 => exact .ite h1 h2 h3
  | prim h1 h2 _ ih => simp only [Beta.nf, nfs_eq]; exact .prim h1 h2 (forall_map ih)
  | app _ _ h1 h2 => simp only [Beta.nf, nfs_eq]; exact h1.mkApp (forall_map h2)
  | lam _ ih => exact .lam ih
  | fix _ _ h1 h2 => simp only [Beta.nf, nfs_eq]; exact .fix (forall_map h1) h2
  | letcc _ ih => exact .letcc ih
  | withcc _ _ h1 h2 => exact .withcc h1 h2

/-! ### what a reduction does away from the redex -/

/-- `R` is not a collapse of `(let () b)`, and has variables. -/
structure Loc (R : Redex) : Prop where
  mode : R.mode ≠ .null
  ids : R.ids ≠ []

theorem goneId_mem {R : Redex} {x : Id} (h : R.goneId = some x) : x ∈ R.ids := by
  cases hg : R.gone with
  | none => simp [Redex.goneId, hg] at h
  | some i => simp only [Redex.goneId, hg, Option.bind_some] at h; exact List.mem_of_getElem? h

/-- the variables of the redex are not bound in `e`. -/
def Apart (R : Redex) (e : Exp) : Prop := ∀ y ∈ R.ids, bc y e = 0

theorem Apart.notRedex {R : Redex} (hL : Loc R) {f : Exp} {es : List Exp} (h : Apart R f) : isRedex R f es = false := by
  unfold isRedex
  split
  · rename_i ids b
    have hne : ids ≠ R.ids := by
      rintro rfl
      obtain ⟨y, hy⟩ := List.exists_mem_of_ne_nil _ hL.ids
      have := h y hy
      rw [bc_lam] at this
      have := List.count_pos_iff.mpr hy
      omega
    split
    · rename_i hm; exact absurd hm hL.mode
    · simp [hne]
  · rfl

theorem Apart.sub {R : Redex} {e e' : Exp} (h : Apart R e) (hle : ∀ y, bc y e' ≤ bc y e) : Apart R e' := by
  intro y hy
  have := h y hy
  have := hle y
  omega

theorem Apart.set {R : Redex} {x : Id} {e : Exp} (h : Apart R (.set x e)) : Apart R e := h
theorem Apart.iteA {R : Redex} {a b c : Exp} (h : Apart R (.ite a b c)) : Apart R a := h.sub (fun y => by rw [bc_ite]; omega)
theorem Apart.iteB {R : Redex} {a b c : Exp} (h : Apart R (.ite a b c)) : Apart R b := h.sub (fun y => by rw [bc_ite]; omega)
theorem Apart.iteC {R : Redex} {a b c : Exp} (h : Apart R (.ite a b c)) : Apart R c := h.sub (fun y => by rw [bc_ite]; omega)
theorem Apart.prim {R : Redex} {eff : Effect} {p : PrimName} {es : List Exp} (h : Apart R (.prim eff p es)) : ∀ e ∈ es, Apart R e :=
  fun e he => h.sub (fun y => by rw [bc_prim]; exact bcs_le y he)
theorem Apart.appF {R : Redex} {f : Exp} {es : List Exp} (h : Apart R (.app f es)) : Apart R f := h.sub (fun y => by rw [bc_app]; omega)
theorem Apart.appA {R : Redex} {f : Exp} {es : List Exp} (h : Apart R (.app f es)) : ∀ e ∈ es, Apart R e :=
  fun e he => h.sub (fun y => by rw [bc_app]; have := bcs_le y he; omega)
theorem Apart.lam {R : Redex} {ids : List Id} {b : Exp} (h : Apart R (.lam ids b)) : Apart R b := h.sub (fun y => by rw [bc_lam]; omega)
theorem Apart.fixL {R : Redex} {ids : List Id} {lams : List Exp} {b : Exp} (h : Apart R (.fix ids lams b)) : ∀ l ∈ lams, Apart R l :=
  fun e he => h.sub (fun y => by rw [bc_fix]; have := bcs_le y he; omega)
theorem Apart.fixB {R : Redex} {ids : List Id} {lams : List Exp} {b : Exp} (h : Apart R (.fix ids lams b)) : Apart R b := h.sub (fun y => by rw [bc_fix]; omega)
theorem Apart.letcc {R : Redex} {x : Id} {b : Exp} (h : Apart R (.letcc x b)) : Apart R b := h.sub (fun y => by rw [bc_letcc]; omega)
theorem Apart.withccK {R : Redex} {k e : Exp} (h : Apart R (.withcc k e)) : Apart R k := h.sub (fun y => by rw [bc_withcc]; omega)
theorem Apart.withccE {R : Redex} {k e : Exp} (h : Apart R (.withcc k e)) : Apart R e := h.sub (fun y => by rw [bc_withcc]; omega)

theorem T_app {R : Redex} (hL : Loc R) {f : Exp} {es : List Exp} (h : Apart R f) : T R (.app f es) = .app (T R f) (es.map (T R)) := by
  simp only [T, Ts_eq, h.notRedex hL, Bool.false_eq_true, if_false]

/-- away from the redex, the reduction can be made. -/
theorem ok_apart {R : Redex} (hL : Loc R) {fl : Bool} (e : Exp) (ha : Apart R e) (hg : ∀ y, 0 < bc y e → Good R fl y)
    (hx : ∀ x, R.goneId = some x → Free x e → fl = true ∧ R.sub.isSome = true) : Ok M R fl e := by
  induction e using ind with
  | var y => exact .var (fun h => hx y h .var)
  | set y e ih => exact .set (ih ha hg (fun x h1 h2 => hx x h1 (.set y h2)))
  | ite a b c h1 h2 h3 =>
    exact .ite (h1 ha.iteA (fun y h => hg y (by rw [bc_ite]; omega)) (fun x a1 a2 => hx x a1 (.iteA _ _ a2)))
      (h2 ha.iteB (fun y h => hg y (by rw [bc_ite]; omega)) (fun x a1 a2 => hx x a1 (.iteB _ _ a2)))
      (h3 ha.iteC (fun y h => hg y (by rw [bc_ite]; omega)) (fun x a1 a2 => hx x a1 (.iteC _ _ a2)))
  | prim eff p es ih =>
    exact .prim (fun e he => ih e he (ha.prim e he) (fun y h => hg y (by rw [bc_prim]; have := bcs_le y he; omega)) (fun x a1 a2 => hx x a1 (.prim _ _ he a2)))
  | app f es h1 h2 =>
    exact .app (ha.appF.notRedex hL) (h1 ha.appF (fun y h => hg y (by rw [bc_app]; omega)) (fun x a1 a2 => hx x a1 (.appF _ a2)))
      (fun e he => h2 e he (ha.appA e he) (fun y h => hg y (by rw [bc_app]; have := bcs_le y he; omega)) (fun x a1 a2 => hx x a1 (.appA _ he a2)))
  | lam ids b ih =>
    have hi : ∀ y ∈ ids, Good R fl y := fun y hy => hg y (by rw [bc_lam]; have := List.count_pos_iff.mpr hy; omega)
    exact .lam hi (ih ha.lam (fun y h => hg y (by rw [bc_lam]; omega)) (fun x a1 a2 => hx x a1 (.lam (fun hm => (hi x hm).2.1 a1) a2)))
  | fix ids lams b h1 h2 =>
    have hi : ∀ y ∈ ids, Good R fl y := fun y hy => hg y (by rw [bc_fix]; have := List.count_pos_iff.mpr hy; omega)
    exact .fix hi (fun l hl => h1 l hl (ha.fixL l hl) (fun y h => hg y (by rw [bc_fix]; have := bcs_le y hl; omega))
        (fun x a1 a2 => hx x a1 (.fixL _ (fun hm => (hi x hm).2.1 a1) hl a2)))
      (h2 ha.fixB (fun y h => hg y (by rw [bc_fix]; omega)) (fun x a1 a2 => hx x a1 (.fixB _ (fun hm => (hi x hm).2.1 a1) a2)))
  | letcc x b ih =>
    have hi : Good R fl x := hg x (by rw [bc_letcc]; simp; omega)
    exact .letcc hi (ih ha.letcc (fun y h => hg y (by rw [bc_letcc]; omega)) (fun z a1 a2 => hx z a1 (.letcc (fun hm => hi.2.1 (hm ▸ a1)) a2)))
  | withcc k e h1 h2 =>
    exact .withcc (h1 ha.withccK (fun y h => hg y (by rw [bc_withcc]; omega)) (fun x a1 a2 => hx x a1 (.withccK _ a2)))
      (h2 ha.withccE (fun y h => hg y (by rw [bc_withcc]; omega)) (fun x a1 a2 => hx x a1 (.withccE _ a2)))

/-- an expression that is not concerned. -/
theorem clean_apart {R : Redex} (hL : Loc R) (e : Exp) (ha : Apart R e) (hx : ∀ x, R.goneId = some x → ¬ Free x e) : Clean R e := by
  have hid : ∀ x, R.goneId = some x → x ∈ R.ids := fun x h => goneId_mem h
  induction e using ind with
  | var y => exact .var (fun h => hx y h .var)
  | set y e ih => exact .set (ih ha (fun x h1 h2 => hx x h1 (.set y h2)))
  | ite a b c h1 h2 h3 =>
    exact .ite (h1 ha.iteA (fun x a1 a2 => hx x a1 (.iteA _ _ a2))) (h2 ha.iteB (fun x a1 a2 => hx x a1 (.iteB _ _ a2))) (h3 ha.iteC (fun x a1 a2 => hx x a1 (.iteC _ _ a2)))
  | prim eff p es ih => exact .prim (fun e he => ih e he (ha.prim e he) (fun x a1 a2 => hx x a1 (.prim _ _ he a2)))
  | app f es h1 h2 =>
    exact .app (ha.appF.notRedex hL) (h1 ha.appF (fun x a1 a2 => hx x a1 (.appF _ a2))) (fun e he => h2 e he (ha.appA e he) (fun x a1 a2 => hx x a1 (.appA _ he a2)))
  | lam ids b ih =>
    exact .lam (ih ha.lam (fun x a1 a2 => hx x a1 (.lam (fun hm => by
      have := ha x (hid x a1); rw [bc_lam] at this; have := List.count_pos_iff.mpr hm; omega) a2)))
  | fix ids lams b h1 h2 =>
    have hni : ∀ x, R.goneId = some x → x ∉ ids := fun x a1 hm => by
      have := ha x (hid x a1); rw [bc_fix] at this; have := List.count_pos_iff.mpr hm; omega
    exact .fix (fun l hl => h1 l hl (ha.fixL l hl) (fun x a1 a2 => hx x a1 (.fixL _ (hni x a1) hl a2))) (h2 ha.fixB (fun x a1 a2 => hx x a1 (.fixB _ (hni x a1) a2)))
  | letcc x b ih =>
    exact .letcc (ih ha.letcc (fun z a1 a2 => hx z a1 (.letcc (fun hm => by
      have := ha z (hid z a1); rw [bc_letcc] at this; subst hm; simp at this) a2)))
  | withcc k e h1 h2 => exact .withcc (h1 ha.withccK (fun x a1 a2 => hx x a1 (.withccK _ a2))) (h2 ha.withccE (fun x a1 a2 => hx x a1 (.withccE _ a2)))

/-! ### substitution away from the redex -/

/-- free variables after the substitution of `r` for `x`. -/
theorem free_T {R : Redex} (hL : Loc R) {x : Id} {r : Exp} (hx : R.goneId = some x) (hr : R.sub = some r) (hxl : x.isGlobal = false) (e : Exp) (ha : Apart R e) (hh : Hon M e)
    {y : Id} : Free y (T R e) → (Free y e ∧ y ≠ x) ∨ (Free x e ∧ Free y r) := by
  have hxi := goneId_mem hx
  induction e using ind with
  | var z =>
    intro h
    by_cases e : x = z
    · subst e
      simp only [T, hx, hr, if_true, Option.getD_some] at h
      exact Or.inr ⟨.var, h⟩
    · rw [T, if_neg (by rw [hx]; exact fun h => e (Option.some.inj h))] at h
      refine Or.inl ⟨h, ?_⟩
      rw [free_var] at h; exact fun h' => e (h'.symm.trans h)
  | set z e ih =>
    cases hh with | set hz hh =>
    intro h
    rw [T, free_set] at h
    rcases h with rfl | h
    · exact Or.inl ⟨.setTarget _, fun e => by rw [e, hxl] at hz; cases hz⟩
    · rcases ih ha hh h with ⟨h1, h2⟩ | ⟨h1, h2⟩
      · exact Or.inl ⟨.set _ h1, h2⟩
      · exact Or.inr ⟨.set _ h1, h2⟩
  | ite a b c h1 h2 h3 =>
    cases hh with | ite k1 k2 k3 =>
    intro h
    rw [T, free_ite] at h
    simp only [free_ite]
    rcases h with h | h | h
    · rcases h1 ha.iteA k1 h with ⟨a1, a2⟩ | ⟨a1, a2⟩ <;> simp [a1, a2]
    · rcases h2 ha.iteB k2 h with ⟨a1, a2⟩ | ⟨a1, a2⟩ <;> simp [a1, a2]
    · rcases h3 ha.iteC k3 h with ⟨a1, a2⟩ | ⟨a1, a2⟩ <;> simp [a1, a2]
  | prim eff p es ih =>
    cases hh with | prim _ _ hh =>
    intro h
    simp only [T, Ts_eq, free_prim, List.mem_map, exists_exists_and_eq_and] at h
    obtain ⟨e, he, h⟩ := h
    simp only [free_prim]
    rcases ih e he (ha.prim e he) (hh e he) h with ⟨a1, a2⟩ | ⟨a1, a2⟩
    · exact Or.inl ⟨⟨e, he, a1⟩, a2⟩
    · exact Or.inr ⟨⟨e, he, a1⟩, a2⟩
  | app f es h1 h2 =>
    cases hh with | app k1 k2 =>
    intro h
    rw [T_app hL ha.appF] at h
    simp only [free_app, List.mem_map, exists_exists_and_eq_and] at h
    simp only [free_app]
    rcases h with h | ⟨e, he, h⟩
    · rcases h1 ha.appF k1 h with ⟨a1, a2⟩ | ⟨a1, a2⟩ <;> simp [a1, a2]
    · rcases h2 e he (ha.appA e he) (k2 e he) h with ⟨a1, a2⟩ | ⟨a1, a2⟩
      · exact Or.inl ⟨Or.inr ⟨e, he, a1⟩, a2⟩
      · exact Or.inr ⟨Or.inr ⟨e, he, a1⟩, a2⟩
  | lam ids b ih =>
    cases hh with | lam hh =>
    have hni : x ∉ ids := fun hm => by have := ha x hxi; rw [bc_lam] at this; have := List.count_pos_iff.mpr hm; omega
    intro h
    rw [T, free_lam] at h
    simp only [free_lam]
    rcases ih ha.lam hh h.2 with ⟨a1, a2⟩ | ⟨a1, a2⟩
    · exact Or.inl ⟨⟨h.1, a1⟩, a2⟩
    · exact Or.inr ⟨⟨hni, a1⟩, a2⟩
  | fix ids lams b h1 h2 =>
    cases hh with | fix k1 k2 =>
    have hni : x ∉ ids := fun hm => by have := ha x hxi; rw [bc_fix] at this; have := List.count_pos_iff.mpr hm; omega
    intro h
    simp only [T, Ts_eq, free_fix, List.mem_map, exists_exists_and_eq_and] at h
    simp only [free_fix]
    rcases h with ⟨hn, ⟨l, hl, h⟩ | h⟩
    · rcases h1 l hl (ha.fixL l hl) (k1 l hl) h with ⟨a1, a2⟩ | ⟨a1, a2⟩
      · exact Or.inl ⟨⟨hn, Or.inl ⟨l, hl, a1⟩⟩, a2⟩
      · exact Or.inr ⟨⟨hni, Or.inl ⟨l, hl, a1⟩⟩, a2⟩
    · rcases h2 ha.fixB k2 h with ⟨a1, a2⟩ | ⟨a1, a2⟩
      · exact Or.inl ⟨⟨hn, Or.inr a1⟩, a2⟩
      · exact Or.inr ⟨⟨hni, Or.inr a1⟩, a2⟩
  | letcc z b ih =>
    cases hh with | letcc hh =>
    have hni : x ≠ z := fun hm => by have := ha x hxi; rw [bc_letcc] at this; subst hm; simp at this
    intro h
    rw [T, free_letcc] at h
    simp only [free_letcc]
    rcases ih ha.letcc hh h.2 with ⟨a1, a2⟩ | ⟨a1, a2⟩
    · exact Or.inl ⟨⟨h.1, a1⟩, a2⟩
    · exact Or.inr ⟨⟨hni, a1⟩, a2⟩
  | withcc k e h1 h2 =>
    cases hh with | withcc k1 k2 =>
    intro h
    rw [T, free_withcc] at h
    simp only [free_withcc]
    rcases h with h | h
    · rcases h1 ha.withccK k1 h with ⟨a1, a2⟩ | ⟨a1, a2⟩ <;> simp [a1, a2]
    · rcases h2 ha.withccE k2 h with ⟨a1, a2⟩ | ⟨a1, a2⟩ <;> simp [a1, a2]

theorem sum_map {f : Exp → Exp} {g h : Exp → Nat} {G H : List Exp → Nat} {K : List Exp → Nat} {c : Nat}
    (hG : G [] = 0) (hG' : ∀ e es, G (e :: es) = g e + G es) (hH : H [] = 0) (hH' : ∀ e es, H (e :: es) = h e + H es)
    (hK : K [] = 0) (k : Exp → Nat) (hK' : ∀ e es, K (e :: es) = k e + K es) {es : List Exp} (hh : ∀ e ∈ es, g (f e) = h e + k e * c) :
    G (es.map f) = H es + K es * c := by
  induction es with
  | nil => simp [hG, hH, hK]
  | cons e es ih =>
    rw [List.map_cons, hG', hH', hK', hh e (by simp), ih (fun a ha => hh a (by simp [ha])), Nat.add_mul]
    omega

/-- binding occurrences after the substitution of `r` for `x`. -/
theorem bc_T {R : Redex} (hL : Loc R) {x : Id} {r : Exp} (hx : R.goneId = some x) (hr : R.sub = some r) (y : Id) (e : Exp) (ha : Apart R e) :
    bc y (T R e) = bc y e + occ x e * bc y r := by
  have lists : ∀ es : List Exp, (∀ e ∈ es, bc y (T R e) = bc y e + occ x e * bc y r) → bcs y (es.map (T R)) = bcs y es + occs x es * bc y r :=
    fun es h => sum_map (bcs_nil y) (bcs_cons y) (bcs_nil y) (bcs_cons y) (by rfl) (occ x) (fun _ _ => by rfl) h
  induction e using ind with
  | var z =>
    by_cases e : x = z
    · subst e; simp [T, hx, hr, bc_var, occ]
    · have : ¬ R.goneId = some z := by rw [hx]; exact fun h => e (Option.some.inj h)
      simp [T, this, bc_var, occ, e]
  | set z e ih => simp only [T, bc_set, occ]; exact ih ha
  | ite a b c h1 h2 h3 => simp only [T, bc_ite, occ, h1 ha.iteA, h2 ha.iteB, h3 ha.iteC, Nat.add_mul]; omega
  | prim eff p es ih => simp only [T, Ts_eq, bc_prim, occ]; exact lists es (fun e he => ih e he (ha.prim e he))
  | app f es h1 h2 =>
    rw [T_app hL ha.appF]
    simp only [bc_app, occ, h1 ha.appF, lists es (fun e he => h2 e he (ha.appA e he)), Nat.add_mul]; omega
  | lam ids b ih => simp only [T, bc_lam, occ, ih ha.lam]; omega
  | fix ids lams b h1 h2 => simp only [T, Ts_eq, bc_fix, occ, h2 ha.fixB, lists lams (fun e he => h1 e he (ha.fixL e he)), Nat.add_mul]; omega
  | letcc z b ih => simp only [T, bc_letcc, occ, ih ha.letcc]; omega
  | withcc k e h1 h2 => simp only [T, bc_withcc, occ, h1 ha.withccK, h2 ha.withccE, Nat.add_mul]; omega

theorem hon_T {R : Redex} (hL : Loc R) (hr : ∀ r, R.sub = some r → Hon M r) (e : Exp) (ha : Apart R e) (hh : Hon M e) : Hon M (T R e) := by
  induction e using ind with
  | var z =>
    rw [T]; split
    · cases h : R.sub with
      | none => exact .var z
      | some r => exact hr r h
    · exact .var z
  | set z e ih => cases hh with | set h1 h2 => exact .set h1 (ih ha h2)
  | ite a b c h1 h2 h3 => cases hh with | ite k1 k2 k3 => exact .ite (h1 ha.iteA k1) (h2 ha.iteB k2) (h3 ha.iteC k3)
  | prim eff p es ih =>
    cases hh with | prim k1 k2 k3 =>
    simp only [T, Ts_eq]; exact .prim k1 k2 (forall_map (fun e he => ih e he (ha.prim e he) (k3 e he)))
  | app f es h1 h2 =>
    cases hh with | app k1 k2 =>
    rw [T_app hL ha.appF]; exact .app (h1 ha.appF k1) (forall_map (fun e he => h2 e he (ha.appA e he) (k2 e he)))
  | lam ids b ih => cases hh with | lam h1 => exact .lam (ih ha.lam h1)
  | fix ids lams b h1 h2 =>
    cases hh with | fix k1 k2 =>
    simp only [T, Ts_eq]; exact .fix (forall_map (fun e he => h1 e he (ha.fixL e he) (k1 e he))) (h2 ha.fixB k2)
  | letcc z b ih => cases hh with | letcc h1 => exact .letcc (ih ha.letcc h1)
  | withcc k e h1 h2 => cases hh with | withcc k1 k2 => exact .withcc (h1 ha.withccK k1) (h2 ha.withccE k2)

end Verif.Beta
