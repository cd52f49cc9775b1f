import Verif.Beta.Syntax
/-
Sequences of reductions of a program without `(let () b)`, and reductions of a part of a program (C36).
-/
namespace Verif.Beta
open Verif.Core

/-- no `(let () b)`. -/
inductive Nn : Exp → Prop
  | var (x : Id) : Nn (.var x)
  | set {x : Id} {e : Exp} : Nn e → Nn (.set x e)
  | ite {a b c : Exp} : Nn a → Nn b → Nn c → Nn (.ite a b c)
  | prim {eff : Effect} {p : PrimName} {es : List Exp} : (∀ e ∈ es, Nn e) → Nn (.prim eff p es)
  | app {f : Exp} {es : List Exp} : (∀ b, f = .lam [] b → es ≠ []) → Nn f → (∀ e ∈ es, Nn e) → Nn (.app f es)
  | lam {ids : List Id} {b : Exp} : Nn b → Nn (.lam ids b)
  | fix {ids : List Id} {lams : List Exp} {b : Exp} : (∀ l ∈ lams, Nn l) → Nn b → Nn (.fix ids lams b)
  | letcc {x : Id} {b : Exp} : Nn b → Nn (.letcc x b)
  | withcc {k e : Exp} : Nn k → Nn e → Nn (.withcc k e)

theorem Nn.mkApp {f : Exp} {es : List Exp} (h1 : Nn f) (h2 : ∀ e ∈ es, Nn e) : Nn (mkApp f es) := by
  rcases mkApp_cases f es with ⟨b, rfl, rfl, h⟩ | ⟨hn, h⟩
  · rw [h]; cases h1 with | lam h => exact h
  · rw [h]; exact .app hn h1 h2

theorem Nn.nf {e : Exp} (h : Nn e) : nf e = e := by
  induction h with
  | var x => rfl
  | set _ ih => simp [Beta.nf, ih]
  | ite _ _ _ h1 h2 h3 => simp [Beta.nf, h1, h2, h3]
  | prim _ ih => simp only [Beta.nf, nfs_eq, map_id_of ih]
  | app hn _ _ h1 h2 => simp only [Beta.nf, nfs_eq, map_id_of h2, h1]; exact mkApp_app hn
  | lam _ ih => simp [Beta.nf, ih]
  | fix _ _ h1 h2 => simp only [Beta.nf, nfs_eq, map_id_of h1, h2]
  | letcc _ ih => simp [Beta.nf, ih]
  | withcc _ _ h1 h2 => simp [Beta.nf, h1, h2]

theorem nn_nf (e : Exp) : Nn (nf e) := by
  induction e using ind with
  | var x => exact .var x
  | set x e ih => exact .set ih
  | ite a b c h1 h2 h3 => exact .ite h1 h2 h3
  | prim eff p es ih => simp only [nf, nfs_eq]; exact .prim (forall_map ih)
  | app f es h1 h2 => simp only [nf, nfs_eq]; exact h1.mkApp (forall_map h2)
  | lam ids b ih => exact .lam ih
  | fix ids lams b h1 h2 => simp only [nf, nfs_eq]; exact .fix (forall_map h1) h2
  | letcc x b ih => exact .letcc ih
  | withcc k e h1 h2 => exact .withcc h1 h2

variable {W : Type} {M : Sem W}

/-- Well-formed programs. -/
structure WF (M : Sem W) (e : Exp) : Prop where
  once : ∀ y, bc y e ≤ 1
  apart : ∀ y, 0 < bc y e → ¬ Free y e
  loc : ∀ y, 0 < bc y e → y.isGlobal = false
  nn : Nn e
  hon : Hon M e

/-! ### parts -/

/-- Places for a part of an expression. -/
inductive Fr where
  | set (x : Id)
  | iteA (b c : Exp)
  | iteB (a c : Exp)
  | iteC (a b : Exp)
  | prim (eff : Effect) (p : PrimName) (es fs : List Exp)
  | appF (es : List Exp)
  | appA (f : Exp) (es fs : List Exp)
  | lam (ids : List Id)
  | fixL (ids : List Id) (es fs : List Exp) (b : Exp)
  | fixB (ids : List Id) (es : List Exp)
  | letcc (x : Id)
  | withccK (e : Exp)
  | withccE (k : Exp)

/-- the whole expression. -/
def Fr.put : Fr → Exp → Exp
  | .set x, a => .set x a
  | .iteA b c, a => .ite a b c
  | .iteB b c, a => .ite b a c
  | .iteC b c, a => .ite b c a
  | .prim eff p es fs, a => .prim eff p (es ++ a :: fs)
  | .appF es, a => .app a es
  | .appA f es fs, a => .app f (es ++ a :: fs)
  | .lam ids, a => .lam ids a
  | .fixL ids es fs b, a => .fix ids (es ++ a :: fs) b
  | .fixB ids es, a => .fix ids es a
  | .letcc x, a => .letcc x a
  | .withccK e, a => .withcc a e
  | .withccE k, a => .withcc k a

/-- the whole expression, without `(let () b)`. -/
def Fr.plug : Fr → Exp → Exp
  | .appF es, a => mkApp a es
  | F, a => F.put a

/-- the other parts. -/
def Fr.sibs : Fr → List Exp
  | .set _ => []
  | .iteA b c => [b, c]
  | .iteB a c => [a, c]
  | .iteC a b => [a, b]
  | .prim _ _ es fs => es ++ fs
  | .appF es => es
  | .appA f es fs => f :: (es ++ fs)
  | .lam _ => []
  | .fixL _ es fs b => b :: (es ++ fs)
  | .fixB _ es => es
  | .letcc _ => []
  | .withccK e => [e]
  | .withccE k => [k]

/-- the variables bound. -/
def Fr.bnd : Fr → List Id
  | .lam ids => ids
  | .fixL ids _ _ _ => ids
  | .fixB ids _ => ids
  | .letcc x => [x]
  | _ => []

/-- the variable assigned. -/
def Fr.tgt : Fr → Option Id
  | .set x => some x
  | _ => none

/-- The redex is in the expression. -/
inductive Has (R : Redex) : Exp → Prop
  | here (b : Exp) (es : List Exp) : Has R (.app (.lam R.ids b) es)
  | put (F : Fr) {a : Exp} : Has R a → Has R (F.put a)

/-- One reduction, and the removal of `(let () b)`. -/
structure Step (M : Sem W) (a b : Exp) : Prop where
  ex : ∃ R, Loc R ∧ Has R a ∧ Ok M R false a ∧ b = nf (T R a)
  less : ∀ y, bc y b ≤ bc y a
  free : ∀ y, Free y b → Free y a
  hon : Hon M b

/-- Reductions. -/
inductive Star (M : Sem W) : Exp → Exp → Prop
  | refl (a : Exp) : Star M a a
  | step {a b c : Exp} : Step M a b → Star M b c → Star M a c

theorem Star.trans {a b c : Exp} (h1 : Star M a b) (h2 : Star M b c) : Star M a c := by
  induction h1 with
  | refl a => exact h2
  | step h _ ih => exact .step h (ih h2)

theorem Star.one {a b : Exp} (h : Step M a b) : Star M a b := .step h (.refl b)

theorem Step.wf {a b : Exp} (h : Step M a b) (hw : WF M a) : WF M b := by
  obtain ⟨R, _, _, _, rfl⟩ := h.ex
  refine ⟨fun y => ?_, fun y hy hf => ?_, fun y hy => ?_, nn_nf _, h.hon⟩
  · have := h.less y; have := hw.once y; omega
  · have := h.less y; exact hw.apart y (by omega) (h.free y hf)
  · have := h.less y; exact hw.loc y (by omega)

theorem Star.wf {a b : Exp} (h : Star M a b) (hw : WF M a) : WF M b := by
  induction h with
  | refl a => exact hw
  | step h _ ih => exact ih (h.wf hw)

theorem plug_put (F : Fr) (a : Exp) : (∃ b, F = .appF [] ∧ a = .lam [] b ∧ F.plug a = b) ∨ (F.plug a = F.put a ∧ ∀ es, F = .appF es → ∀ b, a = .lam [] b → es ≠ []) := by
  cases F with
  | appF es =>
    rcases mkApp_cases a es with ⟨b, rfl, rfl, h⟩ | ⟨h1, h2⟩
    · exact Or.inl ⟨b, rfl, rfl, h⟩
    · exact Or.inr ⟨h2, fun es' e b hb => by cases e; exact h1 b hb⟩
  | _ => exact Or.inr ⟨rfl, fun es' e => by cases e⟩

theorem bc_put (F : Fr) (y : Id) (a : Exp) : bc y (F.put a) = F.bnd.count y + bcs y F.sibs + bc y a := by
  cases F <;> simp only [Fr.put, Fr.bnd, Fr.sibs, bc_set, bc_ite, bc_prim, bc_app, bc_lam, bc_fix, bc_letcc, bc_withcc, bcs_append, bcs_cons, bcs_nil, List.count_nil] <;> omega

theorem bc_plug (F : Fr) (y : Id) (a : Exp) : bc y (F.plug a) = F.bnd.count y + bcs y F.sibs + bc y a := by
  rcases plug_put F a with ⟨b, rfl, rfl, h⟩ | ⟨h, _⟩
  · rw [h]; simp [Fr.bnd, Fr.sibs, bcs_nil, bc_lam]
  · rw [h, bc_put]

theorem free_put (F : Fr) (x : Id) (a : Exp) : Free x (F.put a) ↔ F.tgt = some x ∨ (x ∉ F.bnd ∧ ((∃ e ∈ F.sibs, Free x e) ∨ Free x a)) := by
  have ex : ∀ es fs : List Exp, (∃ e ∈ es ++ a :: fs, Free x e) ↔ (∃ e ∈ es ++ fs, Free x e) ∨ Free x a := by
    intro es fs
    constructor
    · rintro ⟨e, he, h⟩
      simp only [List.mem_append, List.mem_cons] at he
      rcases he with he | rfl | he
      · exact Or.inl ⟨e, by simp [he], h⟩
      · exact Or.inr h
      · exact Or.inl ⟨e, by simp [he], h⟩
    · rintro (⟨e, he, h⟩ | h)
      · refine ⟨e, ?_, h⟩
        simp only [List.mem_append, List.mem_cons] at he ⊢
        rcases he with he | he <;> simp [he]
      · exact ⟨a, by simp, h⟩
  have cn : ∀ (b : Exp) (es : List Exp), (∃ e ∈ b :: es, Free x e) ↔ Free x b ∨ ∃ e ∈ es, Free x e := by
    intro b es; simp
  cases F <;> simp only [Fr.put, Fr.tgt, Fr.bnd, Fr.sibs, free_set, free_ite, free_prim, free_app, free_lam, free_fix, free_letcc, free_withcc, ex, cn, List.not_mem_nil, List.mem_singleton, reduceCtorEq, false_and, exists_false, false_or, or_false, not_false_eq_true, true_and, Option.some.injEq, Ne]
  case set => exact ⟨fun h => h.imp_left Eq.symm, fun h => h.imp_left Eq.symm⟩
  all_goals try simp only [exists_eq_left]
  all_goals (generalize (∃ e, _ ∧ Free x e) = P at *; tauto)

theorem free_plug (F : Fr) (x : Id) (a : Exp) : Free x (F.plug a) ↔ F.tgt = some x ∨ (x ∉ F.bnd ∧ ((∃ e ∈ F.sibs, Free x e) ∨ Free x a)) := by
  rcases plug_put F a with ⟨b, rfl, rfl, h⟩ | ⟨h, _⟩
  · rw [h]; simp [Fr.bnd, Fr.sibs, Fr.tgt, free_lam]
  · rw [h, free_put]

theorem nf_put (F : Fr) (hs : ∀ e ∈ F.sibs, Nn e) (a : Exp) : nf (F.put a) = F.plug (nf a) := by
  have hm : ∀ es : List Exp, (∀ e ∈ es, Nn e) → es.map nf = es := fun es h => map_id_of (fun e he => (h e he).nf)
  cases F with
  | set x => rfl
  | iteA b c => simp only [Fr.put, Fr.plug, nf, (hs b (by simp [Fr.sibs])).nf, (hs c (by simp [Fr.sibs])).nf]
  | iteB b c => simp only [Fr.put, Fr.plug, nf, (hs b (by simp [Fr.sibs])).nf, (hs c (by simp [Fr.sibs])).nf]
  | iteC b c => simp only [Fr.put, Fr.plug, nf, (hs b (by simp [Fr.sibs])).nf, (hs c (by simp [Fr.sibs])).nf]
  | prim eff p es fs =>
    simp only [Fr.put, Fr.plug, nf, nfs_eq, List.map_append, List.map_cons]
    rw [hm es (fun e he => hs e (by simp [Fr.sibs, he])), hm fs (fun e he => hs e (by simp [Fr.sibs, he]))]
  | appF es => simp only [Fr.put, Fr.plug, nf, nfs_eq]; rw [hm es hs]
  | appA f es fs =>
    simp only [Fr.put, Fr.plug, nf, nfs_eq, List.map_append, List.map_cons]
    rw [hm es (fun e he => hs e (by simp [Fr.sibs, he])), hm fs (fun e he => hs e (by simp [Fr.sibs, he])), (hs f (by simp [Fr.sibs])).nf]
    exact mkApp_app (by intros; simp)
  | lam ids => rfl
  | fixL ids es fs b =>
    simp only [Fr.put, Fr.plug, nf, nfs_eq, List.map_append, List.map_cons]
    rw [hm es (fun e he => hs e (by simp [Fr.sibs, he])), hm fs (fun e he => hs e (by simp [Fr.sibs, he])), (hs b (by simp [Fr.sibs])).nf]
  | fixB ids es => simp only [Fr.put, Fr.plug, nf, nfs_eq]; rw [hm es hs]
  | letcc x => rfl
  | withccK e => simp only [Fr.put, Fr.plug, nf, (hs e (by simp [Fr.sibs])).nf]
  | withccE e => simp only [Fr.put, Fr.plug, nf, (hs e (by simp [Fr.sibs])).nf]

theorem mem_mid {es fs : List Exp} {a e : Exp} : e ∈ es ++ a :: fs ↔ e = a ∨ e ∈ es ++ fs := by
  simp only [List.mem_append, List.mem_cons]; tauto

theorem nn_plug {F : Fr} {a : Exp} (h : Nn (F.plug a)) : (∀ e ∈ F.sibs, Nn e) ∧ Nn a := by
  rcases plug_put F a with ⟨b, rfl, rfl, e⟩ | ⟨e, _⟩
  · rw [e] at h; exact ⟨fun _ h => by (cases h), .lam h⟩
  rw [e] at h
  cases F with
  | set x => cases h with | set h => exact ⟨fun _ h => by (cases h), h⟩
  | iteA b c => cases h with | ite h1 h2 h3 => simp [Fr.sibs, h1, h2, h3]
  | iteB b c => cases h with | ite h1 h2 h3 => simp [Fr.sibs, h1, h2, h3]
  | iteC b c => cases h with | ite h1 h2 h3 => simp [Fr.sibs, h1, h2, h3]
  | prim eff p es fs => cases h with | prim h => exact ⟨fun e he => h e (mem_mid.mpr (Or.inr he)), h a (by simp)⟩
  | appF es => cases h with | app _ h1 h2 => exact ⟨h2, h1⟩
  | appA f es fs =>
    cases h with | app _ h1 h2 =>
    refine ⟨fun e he => ?_, h2 a (by simp)⟩
    rcases List.mem_cons.mp he with rfl | he
    · exact h1
    · exact h2 e (mem_mid.mpr (Or.inr he))
  | lam ids => cases h with | lam h => exact ⟨fun _ h => by (cases h), h⟩
  | fixL ids es fs b =>
    cases h with | fix h1 h2 =>
    refine ⟨fun e he => ?_, h1 a (by simp)⟩
    rcases List.mem_cons.mp he with rfl | he
    · exact h2
    · exact h1 e (mem_mid.mpr (Or.inr he))
  | fixB ids es => cases h with | fix h1 h2 => exact ⟨h1, h2⟩
  | letcc x => cases h with | letcc h => exact ⟨fun _ h => by (cases h), h⟩
  | withccK e => cases h with | withcc h1 h2 => simp [Fr.sibs, h1, h2]
  | withccE e => cases h with | withcc h1 h2 => simp [Fr.sibs, h1, h2]

theorem hon_plug {F : Fr} {a : Exp} (h : Hon M (F.plug a)) : Hon M a ∧ ∀ b, Hon M b → Hon M (F.plug b) := by
  have mid : ∀ {es fs : List Exp}, (∀ e ∈ es ++ a :: fs, Hon M e) → ∀ b, Hon M b → ∀ e ∈ es ++ b :: fs, Hon M e := by
    intro es fs h b hb e he
    rcases mem_mid.mp he with rfl | he
    · exact hb
    · exact h e (mem_mid.mpr (Or.inr he))
  rcases plug_put F a with ⟨b, rfl, rfl, e⟩ | ⟨e, _⟩
  · rw [e] at h; exact ⟨.lam h, fun b hb => hb.mkApp (fun _ h => by cases h)⟩
  rw [e] at h
  cases F with
  | set x => cases h with | set h1 h => exact ⟨h, fun b hb => .set h1 hb⟩
  | iteA b c => cases h with | ite h1 h2 h3 => exact ⟨h1, fun b hb => .ite hb h2 h3⟩
  | iteB b c => cases h with | ite h1 h2 h3 => exact ⟨h2, fun b hb => .ite h1 hb h3⟩
  | iteC b c => cases h with | ite h1 h2 h3 => exact ⟨h3, fun b hb => .ite h1 h2 hb⟩
  | prim eff p es fs => cases h with | prim h1 h2 h => exact ⟨h a (by simp), fun b hb => .prim h1 h2 (mid h b hb)⟩
  | appF es => cases h with | app h1 h2 => exact ⟨h1, fun b hb => hb.mkApp h2⟩
  | appA f es fs => cases h with | app h1 h2 => exact ⟨h2 a (by simp), fun b hb => .app h1 (mid h2 b hb)⟩
  | lam ids => cases h with | lam h => exact ⟨h, fun b hb => .lam hb⟩
  | fixL ids es fs b => cases h with | fix h1 h2 => exact ⟨h1 a (by simp), fun b hb => .fix (mid h1 b hb) h2⟩
  | fixB ids es => cases h with | fix h1 h2 => exact ⟨h2, fun b hb => .fix h1 hb⟩
  | letcc x => cases h with | letcc h => exact ⟨h, fun b hb => .letcc hb⟩
  | withccK e => cases h with | withcc h1 h2 => exact ⟨h1, fun b hb => .withcc hb h2⟩
  | withccE e => cases h with | withcc h1 h2 => exact ⟨h2, fun b hb => .withcc h1 hb⟩

theorem WF.part {F : Fr} {a : Exp} (h : WF M (F.plug a)) : WF M a := by
  have hb : ∀ y, bc y a ≤ bc y (F.plug a) := fun y => by rw [bc_plug]; omega
  refine ⟨fun y => (hb y).trans (h.once y), fun y hy hf => ?_, fun y hy => h.loc y (lt_of_lt_of_le hy (hb y)), (nn_plug h.nn).2, (hon_plug h.hon).1⟩
  have h1 := h.once y
  refine h.apart y (lt_of_lt_of_le hy (hb y)) ((free_plug F y a).mpr (Or.inr ⟨fun hm => ?_, Or.inr hf⟩))
  rw [bc_plug] at h1
  have := List.count_pos_iff.mpr hm
  omega

theorem T_put {R : Redex} {F : Fr} {a : Exp} (hr : ∀ es, F = .appF es → isRedex R a es = false) (hr' : ∀ f es fs, F = .appA f es fs → isRedex R f (es ++ a :: fs) = false)
    (hs : ∀ e ∈ F.sibs, T R e = e) : T R (F.put a) = F.put (T R a) := by
  have hm : ∀ es : List Exp, (∀ e ∈ es, T R e = e) → es.map (T R) = es := fun es h => map_id_of h
  have hmid : ∀ es fs : List Exp, (∀ e ∈ es ++ fs, T R e = e) → (es ++ a :: fs).map (T R) = es ++ T R a :: fs := by
    intro es fs h
    rw [List.map_append, List.map_cons, hm es (fun e he => h e (by simp [he])), hm fs (fun e he => h e (by simp [he]))]
  cases F with
  | set x => rfl
  | iteA b c => simp only [Fr.put, T, hs b (by simp [Fr.sibs]), hs c (by simp [Fr.sibs])]
  | iteB b c => simp only [Fr.put, T, hs b (by simp [Fr.sibs]), hs c (by simp [Fr.sibs])]
  | iteC b c => simp only [Fr.put, T, hs b (by simp [Fr.sibs]), hs c (by simp [Fr.sibs])]
  | prim eff p es fs => simp only [Fr.put, T, Ts_eq, hmid es fs hs]
  | appF es => simp only [Fr.put, T, Ts_eq, hr es rfl, Bool.false_eq_true, if_false, hm es hs]
  | appA f es fs =>
    simp only [Fr.put, T, Ts_eq, hr' f es fs rfl, Bool.false_eq_true, if_false, hs f (by simp [Fr.sibs]), hmid es fs (fun e he => hs e (by simp only [Fr.sibs, List.mem_cons]; exact Or.inr he))]
  | lam ids => rfl
  | fixL ids es fs b => simp only [Fr.put, T, Ts_eq, hs b (by simp [Fr.sibs]), hmid es fs (fun e he => hs e (by simp only [Fr.sibs, List.mem_cons]; exact Or.inr he))]
  | fixB ids es => simp only [Fr.put, T, Ts_eq, hm es hs]
  | letcc x => rfl
  | withccK e => simp only [Fr.put, T, hs e (by simp [Fr.sibs])]
  | withccE e => simp only [Fr.put, T, hs e (by simp [Fr.sibs])]

theorem ok_put {R : Redex} {F : Fr} {a : Exp} (hr : ∀ es, F = .appF es → isRedex R a es = false) (hr' : ∀ f es fs, F = .appA f es fs → isRedex R f (es ++ a :: fs) = false)
    (hb : ∀ y ∈ F.bnd, Good R false y) (hs : ∀ e ∈ F.sibs, Ok M R false e) (ha : Ok M R false a) : Ok M R false (F.put a) := by
  have hmid : ∀ es fs : List Exp, (∀ e ∈ es ++ fs, Ok M R false e) → ∀ e ∈ es ++ a :: fs, Ok M R false e := by
    intro es fs h e he
    rcases mem_mid.mp he with rfl | he
    · exact ha
    · exact h e he
  cases F with
  | set x => exact .set ha
  | iteA b c => exact .ite ha (hs b (by simp [Fr.sibs])) (hs c (by simp [Fr.sibs]))
  | iteB b c => exact .ite (hs b (by simp [Fr.sibs])) ha (hs c (by simp [Fr.sibs]))
  | iteC b c => exact .ite (hs b (by simp [Fr.sibs])) (hs c (by simp [Fr.sibs])) ha
  | prim eff p es fs => exact .prim (hmid es fs hs)
  | appF es => exact .app (hr es rfl) ha hs
  | appA f es fs => exact .app (hr' f es fs rfl) (hs f (by simp [Fr.sibs])) (hmid es fs (fun e he => hs e (by simp only [Fr.sibs, List.mem_cons]; exact Or.inr he)))
  | lam ids => exact .lam hb ha
  | fixL ids es fs b => exact .fix hb (hmid es fs (fun e he => hs e (by simp only [Fr.sibs, List.mem_cons]; exact Or.inr he))) (hs b (by simp [Fr.sibs]))
  | fixB ids es => exact .fix hb hs ha
  | letcc x => exact .letcc (hb x (by simp [Fr.bnd])) ha
  | withccK e => exact .withcc ha (hs e (by simp [Fr.sibs]))
  | withccE e => exact .withcc (hs e (by simp [Fr.sibs])) ha

theorem Has.bnd {R : Redex} {a : Exp} (h : Has R a) : ∀ y ∈ R.ids, 0 < bc y a := by
  induction h with
  | here b es => intro y hy; rw [bc_app, bc_lam]; have := List.count_pos_iff.mpr hy; omega
  | put F _ ih => intro y hy; rw [bc_put]; have := ih y hy; omega

theorem Has.lam {R : Redex} {ids : List Id} {a : Exp} (h : Has R (.lam ids a)) : Has R a := by
  generalize he : Exp.lam ids a = e at h
  cases h with
  | here b es => cases he
  | put F h =>
    cases F <;> simp only [Fr.put, reduceCtorEq, Exp.lam.injEq] at he
    rw [he.2]; exact h

/-- the body of a procedure without parameters is reduced. -/
theorem Step.thunk {a' b : Exp} (h : Step M (.lam [] a') b) : ∃ b', b = .lam [] b' ∧ Step M a' b' := by
  obtain ⟨R, hL, hi, ho, rfl⟩ := h.ex
  refine ⟨nf (T R a'), by simp [T, nf], ⟨R, hL, hi.lam, ?_, rfl⟩, ?_, ?_, ?_⟩
  · cases ho with | lam _ ho => exact ho
  · intro y; have := h.less y; simpa [T, nf, bc_lam] using this
  · intro y hf; have := h.free y (by simp only [T, nf, free_lam]; simpa using hf); simpa [free_lam] using this
  · have := h.hon; simp only [T, nf] at this; cases this with | lam h => exact h

theorem isRedex_lam {R : Redex} (hL : Loc R) {f : Exp} {es : List Exp} (h : ∀ c, f ≠ .lam R.ids c) : isRedex R f es = false := by
  unfold isRedex
  split
  · split
    · rename_i hm; exact absurd hm hL.mode
    · rename_i ids b _ _
      have : ids ≠ R.ids := by rintro rfl; exact h b rfl
      simp [this]
  · rfl

/-- a part of a program is reduced. -/
theorem Step.lift {F : Fr} {a b : Exp} (h : Step M a b) (hw : WF M (F.plug a)) : Step M (F.plug a) (F.plug b) := by
  rcases plug_put F a with ⟨a', rfl, rfl, e⟩ | ⟨e, hne⟩
  · obtain ⟨b', rfl, h'⟩ := h.thunk
    exact h'
  obtain ⟨R, hL, hi, ho, rfl⟩ := h.ex
  have hbc := hi.bnd
  have hs1 : ∀ y ∈ R.ids, F.bnd.count y = 0 ∧ bcs y F.sibs = 0 := by
    intro y hy
    have h1 := hw.once y
    have h2 := hbc y hy
    rw [bc_plug] at h1
    omega
  have hap : ∀ e ∈ F.sibs, Apart R e := fun e he y hy => by
    have := (hs1 y hy).2; have := bcs_le y he; omega
  have hgf : ∀ x, R.goneId = some x → ∀ e ∈ F.sibs, ¬ Free x e := by
    intro x hx e he hf
    have hm := goneId_mem hx
    refine hw.apart x (by rw [bc_plug]; have := hbc x hm; omega) ((free_plug F x a).mpr (Or.inr ⟨fun hb => ?_, Or.inl ⟨e, he, hf⟩⟩))
    have := (hs1 x hm).1
    have := List.count_pos_iff.mpr hb
    omega
  have hr : ∀ es, F = .appF es → isRedex R a es = false := by
    intro es _
    refine isRedex_lam hL (fun c hc => ?_)
    subst hc
    obtain ⟨y, hy⟩ := List.exists_mem_of_ne_nil _ hL.ids
    have h1 := hi.lam.bnd y hy
    have h2 := hw.part.once y
    rw [bc_lam] at h2
    have := List.count_pos_iff.mpr hy
    omega
  have hr' : ∀ f es fs, F = .appA f es fs → isRedex R f (es ++ a :: fs) = false := by
    rintro f es fs rfl
    exact (hap f (by simp [Fr.sibs])).notRedex hL
  have hgood : ∀ y : Id, 0 < bc y (F.plug a) → y ∉ R.ids → Good R false y := fun y hy hn =>
    ⟨hw.loc y hy, fun hg => hn (goneId_mem hg), fun h => by cases h⟩
  have hclean : ∀ e ∈ F.sibs, Clean R e := fun e he => clean_apart hL e (hap e he) (fun x hx => hgf x hx e he)
  have hok : ∀ e ∈ F.sibs, Ok M R false e := by
    intro e he
    refine ok_apart hL e (hap e he) (fun y hy => hgood y ?_ (fun hm => ?_)) (fun x hx hf => absurd hf (hgf x hx e he))
    · rw [bc_plug]; have := bcs_le y he; omega
    · have := hap e he y hm; omega
  have hTp : T R (F.put a) = F.put (T R a) := T_put hr hr' (fun e he => (hclean e he).T)
  have hnn := nn_plug hw.nn
  refine ⟨⟨R, hL, by rw [e]; exact .put F hi, ?_, ?_⟩, ?_, ?_, ?_⟩
  · rw [e]
    refine ok_put hr hr' (fun y hy => hgood y ?_ (fun hm => ?_)) hok ho
    · rw [bc_plug]; have := List.count_pos_iff.mpr hy; omega
    · have := (hs1 y hm).1; have := List.count_pos_iff.mpr hy; omega
  · rw [e, hTp, nf_put F hnn.1]
  · intro y; rw [bc_plug, bc_plug]; have := h.less y; omega
  · intro y hf
    rw [free_plug] at hf ⊢
    rcases hf with hf | ⟨h1, h2 | h2⟩
    · exact Or.inl hf
    · exact Or.inr ⟨h1, Or.inl h2⟩
    · exact Or.inr ⟨h1, Or.inr (h.free y h2)⟩
  · exact (hon_plug hw.hon).2 _ h.hon

theorem Star.lift {F : Fr} {a b : Exp} (h : Star M a b) : WF M (F.plug a) → Star M (F.plug a) (F.plug b) := by
  induction h with
  | refl a => intro _; exact .refl _
  | step h _ ih => intro hw; exact .step (h.lift hw) (ih ((h.lift hw).wf hw))

end Verif.Beta
