import Verif.Expand.Complete
/-
C60: the local variables of the output are bound.
-/
namespace Verif.Expand.Direct
open Verif.Macros Verif.Expand

/-- Every local variable of the output `o` is in `S` or bound inside `o`: by the formals of a `lambda` around it, by a
`letcc` around it, or by a `letrec`. -/
inductive Closed : (Var → Prop) → Out → Prop where
  | glob {S s} : Closed S (.var (.glob s))
  | loc {S v} : S v → Closed S (.var v)
  | lam {S fs r b} : Closed (fun v => S v ∨ v ∈ fs ∨ r = some v) b → Closed S (.lam fs r b)
  | letcc {S v b} : Closed (fun w => S w ∨ w = v) b → Closed S (.letcc v b)
  | set {S v e} : Closed S (.var v) → Closed S e → Closed S (.set v e)
  | form {S kw es} : (∀ e ∈ es, Closed S e) → Closed S (.form kw es)
  | raw {S kw t} : Closed S (.raw kw t)
  | prim {S kw sf es} : (∀ e ∈ es, Closed S e) → Closed S (.prim kw sf es)
  | letrec {S vs es b} : (∀ e ∈ es, Closed (fun v => S v ∨ v ∈ vs) e) → Closed (fun v => S v ∨ v ∈ vs) b → Closed S (.letrec vs es b)
  | app {S f es} : Closed S f → (∀ e ∈ es, Closed S e) → Closed S (.app f es)
  | define {S v e} : Closed S e → Closed S (.define v e)

theorem Closed.mono {S o} (H : Closed S o) : ∀ {S'}, (∀ v, S v → S' v) → Closed S' o := by
  induction H with
  | glob => intro S' hs; exact .glob
  | loc h => intro S' hs; exact .loc (hs _ h)
  | lam _ ih => intro S' hs; exact .lam (ih fun v hv => hv.imp_left (hs v))
  | letcc _ ih => intro S' hs; exact .letcc (ih fun v hv => hv.imp_left (hs v))
  | set _ _ i1 i2 => intro S' hs; exact .set (i1 hs) (i2 hs)
  | form _ ih => intro S' hs; exact .form fun e he => ih e he hs
  | raw => intro S' hs; exact .raw
  | prim _ ih => intro S' hs; exact .prim fun e he => ih e he hs
  | letrec _ _ i1 i2 =>
    intro S' hs; exact .letrec (fun e he => i1 e he fun v hv => hv.imp_left (hs v)) (i2 fun v hv => hv.imp_left (hs v))
  | app _ _ i1 i2 => intro S' hs; exact .app (i1 hs) fun e he => i2 e he hs
  | define _ ih => intro S' hs; exact .define (ih hs)

theorem Closed.begin {S os} (h : ∀ o ∈ os, Closed S o) : Closed S (makeBegin os) := by
  unfold makeBegin
  split
  · exact h _ (by simp)
  · exact .form h

/-- the values of a store. -/
def ValOk (S : Var → Prop) : Val → Prop
  | .var v => Closed S (.var v)
  | .code o => Closed S o
  | _ => True

theorem ValOk.mono {S S' v} (H : ValOk S v) (hs : ∀ v, S v → S' v) : ValOk S' v := by
  cases v <;> first | exact Closed.mono H hs | trivial

@[inherit_doc ValOk] def StoreOk (S : Var → Prop) (st : Store) : Prop := ∀ p ∈ st, ValOk S p.2

theorem StoreOk.mono {S S' st} (H : StoreOk S st) (hs : ∀ v, S v → S' v) : StoreOk S' st := fun p hp => (H p hp).mono hs

theorem StoreOk.cons {S st l v} (hv : ValOk S v) (H : StoreOk S st) : StoreOk S ((l, v) :: st) := by
  intro p hp
  rcases List.mem_cons.mp hp with rfl | hp
  · exact hv
  · exact H p hp

theorem assv_mem' {β : Type} {k : Key} {v : β} : ∀ {l : List (Key × β)}, assv k l = some v → (k, v) ∈ l
  | [], e => by cases e
  | (k', v') :: l, e => by
    unfold assv at e
    split at e
    · rename_i hk; cases e; subst hk; exact List.mem_cons_self
    · exact List.mem_cons_of_mem _ (assv_mem' e)

theorem StoreOk.lookup {S st l v} (H : StoreOk S st) (e : lookupLocation l st = some v) : ValOk S v := by
  unfold lookupLocation at e
  split at e
  · rename_i e1; cases e; exact H _ (assv_mem' e1)
  · split at e
    · cases e; exact Closed.glob
    · cases e

theorem storeVals_ok {S ienv} : ∀ {bs vs st}, (∀ v ∈ vs, ValOk S v) → StoreOk S st → StoreOk S (storeVals ienv bs vs st)
  | [], _, _, _, H => by unfold storeVals; exact H
  | _ :: _, [], _, _, H => by unfold storeVals; split <;> first | exact H | (rename_i h; cases h)
  | (s, e) :: bs, v :: vs, st, hv, H => by
    cases s with
    | sid name id loc =>
      unfold storeVals
      exact storeVals_ok (fun w hw => hv w (by simp [hw])) (.cons (hv v (by simp)) H)
    | _ => unfold storeVals; exact H

/-- locations below `ln` are not changed. -/
def Ext (ln : Nat) (st st' : Store) : Prop := ∀ m < ln, assv (.num m) st' = assv (.num m) st

theorem Ext.refl {ln st} : Ext ln st st := fun _ _ => rfl
theorem Ext.trans {ln ln' st st' st''} (a : Ext ln st st') (b : Ext ln' st' st'') (hl : ln ≤ ln') : Ext ln st st'' :=
  fun m hm => (b m (by omega)).trans (a m hm)

/-- what is shown of a form in a scope `S`; `e` is the environment in which its definitions are to be expanded. -/
def ResOk (S : Var → Prop) (ln : Nat) (st : Store) (e : Option Env) : Res → Prop
  | .expr o => Closed S o
  | .syn v _ st' ln' => ValOk S v ∧ StoreOk S st' ∧ ln ≤ ln' ∧ Ext ln st st'
  | .defn _ _ _ _ env st' ln' => StoreOk S st' ∧ ln ≤ ln' ∧ Ext ln st st' ∧ ∀ e', e = some e' → env = e'
  | .beg _ _ _ env st' ln' => StoreOk S st' ∧ ln ≤ ln' ∧ Ext ln st st' ∧ ∀ e', e = some e' → env = e'
  | .stop _ => False

theorem ResOk.trans {S ln st e ln' st' r} (H : ResOk S ln' st' e r) (hl : ln ≤ ln') (he : Ext ln st st') : ResOk S ln st e r := by
  cases r with
  | expr o => exact H
  | syn => exact ⟨H.1, H.2.1, Nat.le_trans hl H.2.2.1, he.trans H.2.2.2 hl⟩
  | defn => exact ⟨H.1, Nat.le_trans hl H.2.1, he.trans H.2.2.1 hl, H.2.2.2⟩
  | beg => exact ⟨H.1, Nat.le_trans hl H.2.1, he.trans H.2.2.1 hl, H.2.2.2⟩
  | stop => exact H

theorem ResOk.none {S ln st e r} (H : ResOk S ln st e r) : ResOk S ln st none r := by
  cases r with
  | expr o => exact H
  | syn => exact H
  | defn => exact ⟨H.1, H.2.1, H.2.2.1, nofun⟩
  | beg => exact ⟨H.1, H.2.1, H.2.2.1, nofun⟩
  | stop => exact H

/-- the same for keyword arguments. -/
def VResOk (S : Var → Prop) (ln : Nat) (st : Store) : VRes → Prop
  | .vals vs st' ln' => (∀ v ∈ vs, ValOk S v) ∧ StoreOk S st' ∧ ln ≤ ln' ∧ Ext ln st st'
  | .stop _ => False

/-- The state of a body whose definitions are `vds` (of the variables `vs`) and `sds`, and which began at `ln0`, `st0`. -/
structure Inv (S : Var → Prop) (ln0 : Nat) (st0 : Store) (vds sds : List (Sx × Sx)) (vs : List Var) (env : Env) (st : Store)
    (ln : Nat) : Prop where
  le : ln0 ≤ ln
  ext : Ext ln0 st0 st
  ok : StoreOk (fun v => S v ∨ v ∈ vs) st
  vars : List.Forall₂ (fun d v => ∃ name id loc n, d.1 = .sid name id loc ∧ v = .loc n name ∧ assv id env = some (.num n) ∧
    ln0 ≤ n ∧ n < ln ∧ assv (.num n) st = some (.var v)) vds vs
  syns : ∀ d ∈ sds, ∃ name id loc n, d.1 = .sid name id loc ∧ assv id env = some (.num n) ∧ ln0 ≤ n ∧ n < ln ∧
    ∀ name', Var.loc n name' ∉ vs

/-- the same for a form of a body. -/
def DResOk (S : Var → Prop) (ln0 : Nat) (st0 : Store) (vs : List Var) : DRes → Prop
  | .next vds' sds' _ _ env' st' ln' => ∃ vs', Inv S ln0 st0 vds' sds' vs' env' st' ln'
  | .expr o => Closed (fun v => S v ∨ v ∈ vs) o
  | .stop _ => False

theorem Inv.state {S ln0 st0 vds sds vs env st ln st' ln'} (H : Inv S ln0 st0 vds sds vs env st ln)
    (ok : StoreOk (fun v => S v ∨ v ∈ vs) st') (hl : ln ≤ ln') (he : Ext ln st st') : Inv S ln0 st0 vds sds vs env st' ln' where
  le := Nat.le_trans H.le hl
  ext := H.ext.trans he H.le
  ok := ok
  vars := H.vars.imp fun _ _ ⟨name, id, loc, n, h1, h2, h3, h4, h5, h6⟩ =>
    ⟨name, id, loc, n, h1, h2, h3, h4, by omega, (he n h5).trans h6⟩
  syns := fun d hd => by
    obtain ⟨name, id, loc, n, h1, h2, h3, h4, h5⟩ := H.syns d hd
    exact ⟨name, id, loc, n, h1, h2, h3, by omega, h5⟩

theorem forall₂_imp_mem {α β : Type} {R R' : α → β → Prop} {l : List α} {l' : List β} (H : List.Forall₂ R l l') :
    (∀ a ∈ l, ∀ b ∈ l', R a b → R' a b) → List.Forall₂ R' l l' := by
  induction H with
  | nil => intro _; exact .nil
  | cons h _ ih =>
    intro hi
    exact .cons (hi _ (by simp) _ (by simp) h) (ih fun a ha b hb => hi a (by simp [ha]) b (by simp [hb]))

theorem forall₂_right {α β : Type} {R : α → β → Prop} {l : List α} {l' : List β} (H : List.Forall₂ R l l') :
    ∀ b ∈ l', ∃ a ∈ l, R a b := by
  induction H with
  | nil => simp
  | cons h _ ih =>
    intro b hb
    rcases List.mem_cons.mp hb with rfl | hb
    · exact ⟨_, by simp, h⟩
    · obtain ⟨a, ha, hr⟩ := ih b hb
      exact ⟨a, by simp [ha], hr⟩

theorem Inv.fresh {S ln0 st0 vds sds vs env st ln} (H : Inv S ln0 st0 vds sds vs env st ln) {n name} (hv : Var.loc n name ∈ vs) :
    n < ln := by
  obtain ⟨_, _, _, _, _, m, _, h2, _, _, h5, _⟩ := forall₂_right H.vars _ hv
  cases h2
  exact h5

/-- the new definitions of a body. -/
theorem AddDef.scoped {S ln0 st0 vds sds vs exprs b t idn env st ln r} (A : AddDef vds sds exprs b t idn env st ln r)
    (H : Inv S ln0 st0 vds sds vs env st ln) : DResOk S ln0 st0 vs r := by
  have keep : ∀ {id id' : Key} {n : Nat} {l : Key}, id ≠ id' → assv id' env = some (.num n) →
      assv id' ((id, l) :: env) = some (.num n) := by
    intro id id' n l hne e
    unfold assv
    rw [if_neg (fun h => hne h.symm)]
    exact e
  have self : ∀ {α : Type} {id : Key} {l : α} {e : List (Key × α)}, assv id ((id, l) :: e) = some l := by
    intro α id l e
    unfold assv
    rw [if_pos rfl]
  have le := H.le
  cases A with
  | anon => exact ⟨vs, H⟩
  | stx h1 h2 =>
    refine ⟨vs, by omega, H.ext, H.ok, ?_, ?_⟩
    · refine forall₂_imp_mem H.vars ?_
      rintro ⟨s, e⟩ hd v _ ⟨name, id, loc, n, rfl, hv, h3, h4, h5, h6⟩
      exact ⟨name, id, loc, n, rfl, hv, keep (h2 _ hd) h3, h4, by omega, h6⟩
    · intro d hd
      rcases List.mem_cons.mp hd with rfl | hd
      · exact ⟨_, _, _, ln, rfl, self, le, by omega, fun name' hn => absurd (H.fresh hn) (by omega)⟩
      · have hne := h1 _ hd
        obtain ⟨s, e⟩ := d
        obtain ⟨name, id, loc, n, rfl, h2, h3, h4, h5⟩ := H.syns _ hd
        exact ⟨name, id, loc, n, rfl, keep hne h2, h3, by omega, h5⟩
  | var h1 h2 h3 =>
    rename_i name id loc e
    have st_ne : ∀ {n : Nat} {w : Val}, n < ln → assv (.num n) ((.num ln, w) :: st) = assv (.num n) st := by
      intro n w hn
      rw [assv, if_neg (by intro h; cases h; omega)]
    refine ⟨.loc ln name :: vs, by omega, ?_, ?_, .cons ⟨name, id, loc, ln, rfl, rfl, self, le, by omega, self⟩ ?_, ?_⟩
    · intro m hm
      rw [st_ne (by omega)]
      exact H.ext m hm
    · exact .cons (Closed.loc (.inr (by simp))) (H.ok.mono fun v hv => hv.imp_right fun h => by simp [h])
    · refine forall₂_imp_mem H.vars ?_
      rintro ⟨s, e⟩ hd v _ ⟨name, id, loc, n, rfl, hv, h3, h4, h5, h6⟩
      exact ⟨name, id, loc, n, rfl, hv, keep (h2 _ hd) h3, h4, by omega, by rw [st_ne h5]; exact h6⟩
    · intro d hd
      have hne := h1 _ hd
      obtain ⟨s, e⟩ := d
      obtain ⟨name', id, loc, n, rfl, h2, h3, h4, h5⟩ := H.syns _ hd
      refine ⟨name', id, loc, n, rfl, keep hne h2, h3, by omega, fun name' hn => ?_⟩
      rcases List.mem_cons.mp hn with hn | hn
      · cases hn; omega
      · exact h5 _ hn

/-- a body after the values of its keywords are stored. -/
theorem Inv.store {S ln0 st0 vds vs env} : ∀ {sds st ln ws}, Inv S ln0 st0 vds sds vs env st ln →
    (∀ w ∈ ws, ValOk (fun v => S v ∨ v ∈ vs) w) → Inv S ln0 st0 vds [] vs env (storeVals env sds ws st) ln
  | [], st, ln, ws, H, hw => by
    unfold storeVals
    exact ⟨H.le, H.ext, H.ok, H.vars, nofun⟩
  | (s, e) :: sds, st, ln, [], H, hw => by
    obtain ⟨name, id, loc, n, hs, _⟩ := H.syns (s, e) (by simp)
    cases hs
    unfold storeVals
    exact ⟨H.le, H.ext, H.ok, H.vars, nofun⟩
  | (s, e) :: sds, st, ln, w :: ws, H, hw => by
    obtain ⟨name, id, loc, n, hs, h2, h3, h4, h5⟩ := H.syns (s, e) (by simp)
    cases hs
    unfold storeVals
    have hk : lookupSid id loc env = .num n := by unfold lookupSid; rw [h2]; rfl
    rw [hk]
    refine Inv.store ⟨H.le, ?_, .cons (hw w (by simp)) H.ok, ?_, fun d hd => H.syns d (by simp [hd])⟩ fun w hw' => hw w (by simp [hw'])
    · intro m hm
      rw [assv, if_neg (by intro h; cases h; omega)]
      exact H.ext m hm
    · refine forall₂_imp_mem H.vars ?_
      rintro ⟨s, e⟩ hd v hv ⟨name, id, loc, n', rfl, rfl, h3', h4', h5', h6'⟩
      refine ⟨name, id, loc, n', rfl, rfl, h3', h4', h5', ?_⟩
      rw [assv, if_neg (by intro h; cases h; exact h5 _ hv)]
      exact h6'

/-- the arguments of a `syntax-lambda` are stored at new locations. -/
theorem bindKeywords_assv : ∀ {fs : List Sx} {ln : Nat} {denv : Env} {f : Sx}, f ∈ fs →
    ∃ n, assv (sidId f) (bindKeywords fs ln denv) = some (.num n) ∧ ln ≤ n
  | f' :: fs, ln, denv, f, hf => by
    unfold bindKeywords
    by_cases hm : ∃ g ∈ fs, sidId g = sidId f
    · obtain ⟨g, hg, e⟩ := hm
      obtain ⟨n, h1, h2⟩ := bindKeywords_assv (ln := ln + 1) (denv := (sidId f', .num ln) :: denv) hg
      exact ⟨n, e ▸ h1, by omega⟩
    · have hff : f = f' := by
        rcases List.mem_cons.mp hf with h | h
        · exact h
        · exact absurd ⟨f, h, rfl⟩ hm
      subst hff
      have : ∀ {fs : List Sx} {ln : Nat} {denv : Env}, (¬ ∃ g ∈ fs, sidId g = sidId f) →
          assv (sidId f) (bindKeywords fs ln denv) = assv (sidId f) denv := by
        intro fs
        induction fs with
        | nil => intro ln denv _; rfl
        | cons g gs ih =>
          intro ln denv hg
          unfold bindKeywords
          rw [ih (fun ⟨x, hx, e⟩ => hg ⟨x, by simp [hx], e⟩), assv, if_neg (fun e => hg ⟨g, by simp, e.symm⟩)]
      exact ⟨ln, by rw [this hm, assv, if_pos rfl], by omega⟩

theorem storeVals_ext {ln : Nat} {ienv : Env} : ∀ {bs : List (Sx × Sx)} {vs : List Val} {st : Store},
    (∀ b ∈ bs, ∃ n, assv (sidId b.1) ienv = some (.num n) ∧ ln ≤ n) → Ext ln st (storeVals ienv bs vs st)
  | [], _, _, _ => by unfold storeVals; exact .refl
  | (s, e) :: bs, [], st, _ => by unfold storeVals; split <;> first | exact .refl | (rename_i h; cases h)
  | (s, e) :: bs, v :: vs, st, hb => by
    cases s with
    | sid name id loc =>
      unfold storeVals
      obtain ⟨n, hn, hl⟩ := hb (.sid name id loc, e) (by simp)
      have hk : lookupSid id loc ienv = .num n := by
        unfold lookupSid; rw [show assv id ienv = some (.num n) from hn]; rfl
      rw [hk]
      intro m hm
      rw [storeVals_ext (fun b hb' => hb b (by simp [hb'])) m hm, assv, if_neg (by intro h; cases h; omega)]
    | _ => unfold storeVals; exact .refl

theorem bindFormals_ok {S : Var → Prop} : ∀ {fs : List Sx} {env : Env} {st : Store} {ln : Nat}, StoreOk S st →
    StoreOk (fun v => S v ∨ v ∈ (bindFormals fs env st ln).1) (bindFormals fs env st ln).2.2.1
  | [], env, st, ln, H => by unfold bindFormals; exact H.mono fun v hv => .inl hv
  | f :: fs, env, st, ln, H => by
    cases f with
    | sid name id loc =>
      unfold bindFormals
      have := bindFormals_ok (S := fun v => S v ∨ v = .loc ln name) (fs := fs) (env := (id, .num ln) :: env)
        (st := (.num ln, .var (.loc ln name)) :: st) (ln := ln + 1)
        (.cons (Closed.loc (.inr rfl)) (H.mono fun v hv => .inl hv))
      refine this.mono fun v hv => ?_
      rcases hv with (h | h) | h
      · exact .inl h
      · exact .inr (by simp [h])
      · exact .inr (by simp [h])
    | _ => unfold bindFormals; exact bindFormals_ok H

theorem lamOf_closed {S : Var → Prop} {f vs b} (H : Closed (fun v => S v ∨ v ∈ vs) b) : Closed S (lamOf f vs b) := by
  unfold lamOf
  split
  · exact .lam (H.mono fun v hv => hv.imp_right .inl)
  · refine .lam (H.mono fun v hv => hv.imp_right fun h => ?_)
    cases hl : vs.getLast? with
    | none => rw [List.getLast?_eq_none_iff] at hl; subst hl; cases h
    | some w =>
      rw [← List.dropLast_append_getLast? w hl] at h
      rcases List.mem_append.mp h with h | h
      · exact .inl h
      · exact .inr (by rw [List.mem_singleton] at h; rw [h])

/-- the location of the identifier of a definition holds the variable. -/
def VarAt (env : Env) (st : Store) (d : Sx × Sx) (v : Var) : Prop :=
  ∃ name id loc n, d.1 = .sid name id loc ∧ v = .loc n name ∧ assv id env = some (.num n) ∧ assv (.num n) st = some (.var v)

theorem Inv.varAt {S ln0 st0 vds sds vs env st ln} (H : Inv S ln0 st0 vds sds vs env st ln) :
    List.Forall₂ (VarAt env st) vds.reverse vs.reverse :=
  List.forall₂_reverse_iff.mpr (H.vars.imp fun _ _ ⟨name, id, loc, n, h1, h2, h3, _, _, h6⟩ => ⟨name, id, loc, n, h1, h2, h3, h6⟩)

theorem letrec_closed {S : Var → Prop} {vs : List Var} {is : List Out} {b : Out} (hi : ∀ o ∈ is, Closed (fun v => S v ∨ v ∈ vs) o)
    (hb : Closed (fun v => S v ∨ v ∈ vs) b) : Closed S (makeLetrec (vs.reverse, is) b) := by
  unfold makeLetrec
  split
  · rename_i he
    simp only [List.isEmpty_iff, List.reverse_eq_nil_iff] at he
    subst he
    exact hb.mono fun v hv => by simpa using hv
  · exact .letrec (fun e he => (hi e he).mono fun v hv => by simpa using hv) (hb.mono fun v hv => by simpa using hv)

theorem synlambda_ok {S d env v} (e : compileSynlambda d env = some v) : ValOk S v := by
  unfold compileSynlambda at e
  split at e
  · split at e
    · cases e; trivial
    · cases e
  · cases e

section
variable {h : Host}

mutual
theorem Form.scoped {ex sy lsd : Bool} {idn : Nat} {env : Env} {st : Store} {ln : Nat} {x : Sx} {r : Res} :
    Form h false ex sy lsd idn env st ln x r → ∀ S, StoreOk S st → ResOk S ln st (if lsd then none else some env) r
  | .var e => fun S H => H.lookup e
  | .code e => fun S H => H.lookup e
  | .keyword e _ _ => fun S H => ⟨H.lookup e, H, Nat.le_refl _, .refl⟩
  | .idMacro e _ _ _ ha hr => fun S H => by
      have := ha.scoped S H
      obtain ⟨o, rfl | rfl⟩ := hr
      · exact this
      · exact this
  | .idBegin _ _ _ _ _ _ _ hq => by cases hq
  | .lit hf hr => fun S H => by
      have := hf.scoped S H
      rcases hr with hr | ⟨o, rfl⟩
      · cases hr
      · exact this
  | .app hl hf ho hno => fun S H => .app (hf.scoped S H) (ho.scoped S H)
  | .thunk hl hd hf => fun S H => by
      have : Closed S (.lam [] none _) := hf.scoped S H
      cases this with
      | lam hb => exact hb.mono fun v hv => by simpa using hv
  | .expand hl hf hv hp => fun S H => by
      have h1 := hf.scoped S H
      exact (hp.scoped S h1.2.1).trans h1.2.2.1 h1.2.2.2
  | .use hl hf hu => fun S H => by
      have h1 := hf.scoped S H
      exact (hu.scoped S h1.2.1 _).trans h1.2.2.1 h1.2.2.2
  | .opStop hl hf => fun S H => hf.scoped S H
  | .opBegin _ _ _ _ hq => by cases hq

theorem Expr.scoped {idn : Nat} {env : Env} {st : Store} {ln : Nat} {x : Sx} {o : Out} :
    Expr h false idn env st ln x o → ∀ S, StoreOk S st → Closed S o
  | .expr hf => fun S H => hf.scoped S H
  | .stop hf => fun S H => (hf.scoped S H).elim
  | .beg hf ho _ => fun S H => .begin (ho.scoped S (hf.scoped S H).1)

theorem Exprs.scoped {idn : Nat} {env : Env} {st : Store} {ln : Nat} {xs : List Sx} {os : List Out} :
    Exprs h false idn env st ln xs os → ∀ S, StoreOk S st → ∀ o ∈ os, Closed S o
  | .nil => fun S H => by simp
  | .cons hx hxs => fun S H o ho => by
      rcases List.mem_cons.mp ho with ho | ho
      · rw [ho]; exact hx.scoped S H
      · exact hxs.scoped S H o ho

theorem Use.scoped {ex sy : Bool} {idn : Nat} {env : Env} {st : Store} {ln : Nat} {b : String} {hd d : Sx} {r : Res} :
    Use h false ex sy idn env st ln b hd d r → ∀ S, StoreOk S st → ∀ lsd : Bool,
      ResOk S ln st (if lsd then none else some env) r
  | .synrules _ => fun S H _ => ⟨trivial, H, Nat.le_refl _, .refl⟩
  | .synlambda _ e => fun S H _ => ⟨synlambda_ok e, H, Nat.le_refl _, .refl⟩
  | .beg => fun S H lsd => ⟨H, Nat.le_refl _, .refl, fun e he => by cases lsd <;> cases he; rfl⟩
  | .define _ _ => fun S H lsd => ⟨H, Nat.le_refl _, .refl, fun e he => by cases lsd <;> cases he; rfl⟩
  | .lambda _ _ _ hx => fun S H _ => lamOf_closed (hx.scoped _ (bindFormals_ok H))
  | .quote _ hx => fun S H _ => hx.scoped S H
  | .set _ e hx => fun S H _ => .set (H.lookup e) (hx.scoped S H)
  | .iff _ hx => fun S H _ => .form (hx.scoped S H)
  | .letcc _ hx => fun S H _ =>
      .letcc (hx.scoped _ (.cons (Closed.loc (.inr rfl)) (H.mono fun v hv => .inl hv)))
  | .withcc _ hx => fun S H _ => .form (hx.scoped S H)
  | .quote' _ hx => fun S H _ => .form (by
      intro e he
      rw [List.mem_singleton] at he
      rw [he]
      exact hx.scoped S H)
  | .const _ => fun S H _ => .raw
  | .text _ _ _ => fun S H _ => .raw
  | .prim _ _ _ hx => fun S H _ => .prim (hx.scoped S H)

theorem Apply.scoped {ex sy lsd : Bool} {idn : Nat} {env : Env} {st : Store} {ln : Nat} {v : Val} {x : Sx} {r : Res} :
    Apply h false ex sy lsd idn env st ln v x r → ∀ S, StoreOk S st → ResOk S ln st (if lsd then none else some env) r
  | .rules _ hf => fun S H => hf.scoped S H
  | .argStop _ hv => fun S H => (hv.scoped S H).elim
  | .slam (fs := fs) (denv := denv) (args := args) (vs := ws) (st' := st') hlen hv hb hr => fun S H => by
      obtain ⟨h1, h2, h3, h4⟩ := hv.scoped S H
      have he : Ext ln st (storeVals (bindKeywords fs ln denv) (fs.zip (items args)) ws st') :=
        Ext.trans (fun m hm => h4 m (by omega)) (storeVals_ext fun b hb => bindKeywords_assv (List.of_mem_zip hb).1)
          (Nat.le_refl ln)
      have := hb.scoped S _ _ [] ⟨Nat.le_refl _, .refl, (storeVals_ok h1 h2).mono fun v hv => .inl hv, .nil, nofun⟩
      have := this.trans (Nat.le_trans (Nat.le_add_right _ _) h3) he
      cases lsd with
      | true => exact this
      | false =>
        rcases hr with hr | ⟨_, rfl⟩ | ⟨_, _, _, _, rfl⟩ | ⟨_, rfl⟩
        · cases hr
        · exact this
        · exact this
        · exact this
  | .slamBegin _ _ _ _ _ hq => by cases hq

theorem Vals.scoped {idn : Nat} {env : Env} {xs : List Sx} {st : Store} {ln : Nat} {r : VRes} :
    Vals h false idn env xs st ln r → ∀ S, StoreOk S st → VResOk S ln st r
  | .nil => fun S H => ⟨nofun, H, Nat.le_refl _, .refl⟩
  | .code hf hv => fun S H => by
      have h1 : Closed S _ := hf.scoped S H
      obtain ⟨h2, h3, h4, h5⟩ := hv.scoped S H
      refine ⟨fun v hv => ?_, h3, h4, h5⟩
      rcases List.mem_cons.mp hv with hv | hv
      · rw [hv]; exact h1
      · exact h2 v hv
  | .codeStop _ hv => fun S H => (hv.scoped S H).elim
  | .syn hf hv => fun S H => by
      obtain ⟨h0, h1, h1', h1''⟩ := hf.scoped S H
      obtain ⟨h2, h3, h4, h5⟩ := hv.scoped S h1
      refine ⟨fun v hv => ?_, h3, Nat.le_trans h1' h4, h1''.trans h5 h1'⟩
      rcases List.mem_cons.mp hv with hv | hv
      · rw [hv]; exact h0
      · exact h2 v hv
  | .synStop hf hv => fun S H => (hv.scoped S (hf.scoped S H).2.1).elim
  | .stop hf => fun S H => (hf.scoped S H).elim
  | .beg _ _ _ hq => by cases hq

theorem Def.scoped {ex : Bool} {idn : Nat} {env : Env} {st : Store} {ln : Nat} {vds sds : List (Sx × Sx)}
    {exprs : Option (List Sx)} {x : Sx} {r : DRes} :
    Def h false ex idn env st ln vds sds exprs x r → ∀ S ln0 st0 vs, Inv S ln0 st0 vds sds vs env st ln → DResOk S ln0 st0 vs r
  | .expr hf => fun S _ _ vs I => hf.scoped _ I.ok
  | .stop hf => fun S _ _ vs I => (hf.scoped _ I.ok).elim
  | .defn hf hd => fun S ln0 st0 vs I => by
      obtain ⟨h1, h2, h3, h4⟩ := hf.scoped _ I.ok
      obtain rfl := h4 _ rfl
      exact hd.scoped (I.state h1 h2 h3)
  | .beg hf hd => fun S ln0 st0 vs I => by
      obtain ⟨h1, h2, h3, h4⟩ := hf.scoped _ I.ok
      obtain rfl := h4 _ rfl
      exact hd.scoped S ln0 st0 vs (I.state h1 h2 h3)

theorem Defs.scoped {ex : Bool} {idn : Nat} {env : Env} {st : Store} {ln : Nat} {vds sds : List (Sx × Sx)}
    {exprs : Option (List Sx)} {xs : List Sx} {r : DRes} :
    Defs h false ex idn env st ln vds sds exprs xs r → ∀ S ln0 st0 vs, Inv S ln0 st0 vds sds vs env st ln → DResOk S ln0 st0 vs r
  | .nil => fun S ln0 st0 vs I => ⟨vs, I⟩
  | .cons (r := r) hd hds => fun S ln0 st0 vs I => by
      obtain ⟨vs', I'⟩ := hd.scoped S ln0 st0 vs I
      have := hds.scoped S ln0 st0 vs' I'
      cases r with
      | next => exact this
      | stop => exact this
      | expr o => exact absurd rfl (hds.noExpr rfl o)
  | .expr hd ho => fun S ln0 st0 vs I => .begin (by
      intro e he
      rcases List.mem_cons.mp he with he | he
      · rw [he]; exact hd.scoped S ln0 st0 vs I
      · exact ho.scoped _ I.ok e he)
  | .stop hd => fun S ln0 st0 vs I => (hd.scoped S ln0 st0 vs I).elim

theorem Body.scoped {ex sy lsd : Bool} {first : Sx} {rest : List Sx} {vds sds : List (Sx × Sx)}
    {exprs : Option (List Sx)} {idn : Nat} {env : Env} {st : Store} {ln : Nat} {r : Res} :
    Body h false ex sy lsd first rest vds sds exprs idn env st ln r → ∀ S ln0 st0 vs, Inv S ln0 st0 vds sds vs env st ln →
      ResOk S ln0 st0 none r
  | .last hv hf => fun S ln0 st0 vs I => by
      obtain ⟨h1, h2, h3, h4⟩ := hv.scoped _ I.ok
      exact hf.scoped S ln0 st0 vs ((I.state h2 h3 h4).store h1) nofun
  | .lastStop hv => fun S ln0 st0 vs I => (hv.scoped _ I.ok).elim
  | .next hd hb => fun S ln0 st0 vs I => by
      obtain ⟨vs', I'⟩ := hd.scoped S ln0 st0 vs I
      exact hb.scoped S ln0 st0 vs' I'
  | .expr hd hv hf => fun S ln0 st0 vs I => by
      have ho := hd.scoped S ln0 st0 vs I
      obtain ⟨h1, h2, h3, h4⟩ := hv.scoped _ I.ok
      exact hf.scoped S ln0 st0 vs ((I.state h2 h3 h4).store h1) fun o' e => by cases e; exact ho
  | .exprStop _ hv => fun S ln0 st0 vs I => (hv.scoped _ I.ok).elim
  | .stop hd => fun S ln0 st0 vs I => (hd.scoped S ln0 st0 vs I).elim

theorem Finish.scoped {ex sy lsd : Bool} {first : Sx} {rest : List Sx} {vds : List (Sx × Sx)}
    {exprs : Option (List Sx)} {idn : Nat} {env : Env} {bd : Option Out} {st : Store} {ln : Nat} {r : Res} :
    Finish h false ex sy lsd first rest vds exprs idn env bd st ln r → ∀ S ln0 st0 vs, Inv S ln0 st0 vds [] vs env st ln →
      (∀ o, bd = some o → Closed (fun v => S v ∨ v ∈ vs) o) → ResOk S ln0 st0 none r
  | .only hc hf => fun S ln0 st0 vs I _ => by
      have hvs : vs = [] := by have := I.vars; cases this; rfl
      subst hvs
      have := hf.scoped S (I.ok.mono fun v hv => by simpa using hv)
      exact this.none.trans I.le I.ext
  | .last hc hv ho hx => fun S ln0 st0 vs I _ => by
      obtain ⟨rfl, h1⟩ := hv.scoped S vs I.ok _ I.varAt
      exact letrec_closed h1 (.begin (by
        intro e he
        rcases List.mem_append.mp he with he | he
        · exact ho.scoped _ I.ok e he
        · rw [List.mem_singleton] at he
          rw [he]
          exact hx.scoped _ I.ok))
  | .more hv ho hx => fun S ln0 st0 vs I hb => by
      obtain ⟨rfl, h1⟩ := hv.scoped S vs I.ok _ I.varAt
      exact letrec_closed h1 (.begin (by
        intro e he
        rcases List.mem_append.mp he with he | he
        · exact ho.scoped _ I.ok e he
        · rcases List.mem_cons.mp he with he | he
          · rw [he]; exact hb _ rfl
          · exact hx.scoped _ I.ok e he))

theorem Vds.scoped {idn : Nat} {env : Env} {st : Store} {ln : Nat} {ds : List (Sx × Sx)} {ws : List Var} {os : List Out} :
    Vds h false idn env st ln ds ws os → ∀ (S : Var → Prop) (vs : List Var), StoreOk (fun v => S v ∨ v ∈ vs) st →
      ∀ vs', List.Forall₂ (VarAt env st) ds vs' → ws = vs' ∧ ∀ o ∈ os, Closed (fun v => S v ∨ v ∈ vs) o
  | .nil => fun S vs I vs' hv => by cases hv; exact ⟨rfl, nofun⟩
  | .cons (id := id) (loc := loc) e hx hd => fun S vs I vs' hv => by
      cases hv with
      | cons hv hvs =>
        obtain ⟨name', id', loc', n, h1, h2, h3, h4⟩ := hv
        obtain ⟨hw, ho⟩ := hd.scoped S vs I _ hvs
        simp only [Sx.sid.injEq] at h1
        have hk : lookupSid id loc env = .num n := by unfold lookupSid; rw [h1.2.1, h3]; rfl
        rw [hk, lookupLocation, h4] at e
        refine ⟨by rw [hw]; cases e; rfl, fun o ho' => ?_⟩
        rcases List.mem_cons.mp ho' with ho' | ho'
        · rw [ho']; exact hx.scoped _ I
        · exact ho o ho'
end

/-- the variable that a form defines. -/
def Defines : Out → Var → Prop
  | .define v _, w => w = v
  | _, _ => False

/-- Every local variable of each form is bound inside the form or defined by an earlier form. -/
def ClosedProg : (Var → Prop) → List Out → Prop
  | _, [] => True
  | S, o :: os => Closed S o ∧ ClosedProg (fun v => S v ∨ Defines o v) os

/-- the variables in scope after some forms. -/
def After (S : Var → Prop) (os : List Out) (v : Var) : Prop := S v ∨ ∃ o ∈ os, Defines o v

theorem ClosedProg.append {S os os'} : ClosedProg S os → ClosedProg (After S os) os' → ClosedProg S (os ++ os') := by
  induction os generalizing S with
  | nil =>
    intro _ H
    have : After S [] = S := by funext v; simp [After]
    rwa [this] at H
  | cons o os ih =>
    intro ⟨h1, h2⟩ H
    refine ⟨h1, ih h2 ?_⟩
    have : After S (o :: os) = After (fun v => S v ∨ Defines o v) os := by funext v; simp [After, or_assoc]
    rwa [this] at H

theorem dropLoc_ok {S l} : ∀ {st}, StoreOk S st → StoreOk S (dropLoc l st)
  | [], H => H
  | (k, v) :: st, H => by
    unfold dropLoc
    split
    · exact fun p hp => H p (by simp [hp])
    · exact .cons (H (k, v) (by simp)) (dropLoc_ok fun p hp => H p (by simp [hp]))

theorem substStore_ok {S l v st} (hv : ValOk S v) (H : StoreOk S st) : StoreOk S (substStore st l v) := by
  unfold substStore
  split
  · exact dropLoc_ok H
  · exact .cons hv (dropLoc_ok H)

/-- what is shown of the top level. -/
def TResOk (S : Var → Prop) (acc : List Out) : TRes → Prop
  | .done st' _ acc' => ∃ new, acc' = new.reverse ++ acc ∧ ClosedProg S new ∧ StoreOk (After S new) st'
  | .stop _ => False

theorem TResOk.step {S : Var → Prop} {o : Out} {acc : List Out} {r : TRes} (hc : Closed S o)
    (hr : TResOk (fun v => S v ∨ Defines o v) (o :: acc) r) : TResOk S acc r := by
  cases r with
  | stop => exact hr
  | done =>
    obtain ⟨new, rfl, h1, h2⟩ := hr
    refine ⟨o :: new, by simp, ⟨hc, h1⟩, ?_⟩
    exact h2.mono fun v hv => by simpa [After, or_assoc] using hv

theorem Top.scoped {idn env st ln acc xs r} (H : Top h false idn env st ln acc xs r) : ∀ S, StoreOk S st → TResOk S acc r := by
  induction H with
  | nil => exact fun S H => ⟨[], rfl, trivial, H.mono fun v hv => .inl hv⟩
  | expr hf _ ih => exact fun S H => .step (hf.scoped S H) (ih _ (H.mono fun v hv => .inl hv))
  | stop hf => exact fun S H => (hf.scoped S H).elim
  | anon hf hx _ ih =>
    exact fun S H => .step (hx.scoped S (hf.scoped S H).1) (ih _ (H.mono fun v hv => .inl hv))
  | var hf hx _ ih =>
    intro S H
    have h1 := (hf.scoped S H).1
    exact .step (.define (hx.scoped S h1)) (ih _ (substStore_ok (Closed.loc (.inr rfl)) (h1.mono fun v hv => .inl hv)))
  | stx hf hv _ ih =>
    intro S H
    have h1 := (hf.scoped S H).1
    have h2 := hv.scoped S h1
    exact ih S (substStore_ok (h2.1 _ (by simp)) h2.2.1)
  | stxStop hf hv => exact fun S H => (hv.scoped S (hf.scoped S H).1).elim
  | beg hf _ _ ih1 ih2 =>
    intro S H
    obtain ⟨new, rfl, h1, h2⟩ := ih1 S (hf.scoped S H).1
    have := ih2 _ h2
    rename_i r _ _
    cases r with
    | stop => exact this
    | done =>
      obtain ⟨new', rfl, h3, h4⟩ := this
      refine ⟨new ++ new', by simp, h1.append h3, h4.mono fun v hv => ?_⟩
      rcases hv with (h | ⟨o, ho, h⟩) | ⟨o, ho, h⟩
      · exact .inl h
      · exact .inr ⟨o, by simp [ho], h⟩
      · exact .inr ⟨o, by simp [ho], h⟩
  | begStop hf _ ih1 => exact fun S H => (ih1 S (hf.scoped S H).1).elim
end

end Verif.Expand.Direct
