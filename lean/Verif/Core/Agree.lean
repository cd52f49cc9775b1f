import Verif.Core.Free
import Verif.Core.Cells
/-
Evaluation depends on the free variables of an expression only (C47).
-/
namespace Verif.Core

mutual
/-- values that differ in parts of environments that are not used. -/
inductive Val.Eqv : Val → Val → Prop
  | atom (n : Nat) : Val.Eqv (.atom n) (.atom n)
  | pair {a d a' d' : Val} : Val.Eqv a a' → Val.Eqv d d' → Val.Eqv (.pair a d) (.pair a' d')
  | box (a : Nat) : Val.Eqv (.box a) (.box a)
  | trap : Val.Eqv .trap .trap
  | clos {ids : List Id} {b : Exp} {ρ ρ' : Env} :
      (∀ x, x.isGlobal = false → Free x (.lam ids b) → ((ρ.lookup x).isSome = (ρ'.lookup x).isSome)) →
      (∀ x v w, x.isGlobal = false → Free x (.lam ids b) → ρ.lookup x = some v → ρ'.lookup x = some w → Val.Eqv v w) →
      Val.Eqv (.clos ids b ρ) (.clos ids b ρ')
  | rclos {ids : List Id} {lams : List Exp} {i : Nat} {ρ ρ' : Env} :
      (∀ x, x.isGlobal = false → (∃ l ∈ lams, Free x l) → x ∉ ids → ((ρ.lookup x).isSome = (ρ'.lookup x).isSome)) →
      (∀ x v w, x.isGlobal = false → (∃ l ∈ lams, Free x l) → x ∉ ids → ρ.lookup x = some v → ρ'.lookup x = some w → Val.Eqv v w) →
      Val.Eqv (.rclos ids lams i ρ) (.rclos ids lams i ρ')
  | cont {κ κ' : Kont} : Kont.Eqv κ κ' → Val.Eqv (.cont κ) (.cont κ')
/-- continuations. -/
inductive Kont.Eqv : Kont → Kont → Prop
  | halt : Kont.Eqv .halt .halt
  | trap : Kont.Eqv .trap .trap
  | throw {v w : Val} : Val.Eqv v w → Kont.Eqv (.throw v) (.throw w)
  | set {x : Id} {κ κ' : Kont} : Kont.Eqv κ κ' → Kont.Eqv (.set x κ) (.set x κ')
  | ite {b c : Exp} {ρ ρ' : Env} {κ κ' : Kont} :
      (∀ x, x.isGlobal = false → Free x b ∨ Free x c → ((ρ.lookup x).isSome = (ρ'.lookup x).isSome)) →
      (∀ x v w, x.isGlobal = false → Free x b ∨ Free x c → ρ.lookup x = some v → ρ'.lookup x = some w → Val.Eqv v w) →
      Kont.Eqv κ κ' → Kont.Eqv (.ite b c ρ κ) (.ite b c ρ' κ')
  | args {op : Op} {es : List Exp} {d d' : Nat → Val} {i : Nat} {todo : List Nat} {ρ ρ' : Env} {κ κ' : Kont} :
      (∀ x, x.isGlobal = false → (∃ e ∈ es, Free x e) → ((ρ.lookup x).isSome = (ρ'.lookup x).isSome)) →
      (∀ x v w, x.isGlobal = false → (∃ e ∈ es, Free x e) → ρ.lookup x = some v → ρ'.lookup x = some w → Val.Eqv v w) →
      (∀ j, Val.Eqv (d j) (d' j)) → Kont.Eqv κ κ' → Kont.Eqv (.args op es d i todo ρ κ) (.args op es d' i todo ρ' κ')
  | lset {eff : Effect} {e1 e2 e1' e2' : Exp} {d d' : Nat → Val} {ρ ρ' : Env} {κ κ' : Kont} : d 0 = d' 0 → Kont.Eqv κ κ' →
      Kont.Eqv (.args (.prim eff .boxset) [e1, e2] d 1 [] ρ κ) (.args (.prim eff .boxset) [e1', e2'] d' 1 [] ρ' κ')
  | withcc {e : Exp} {ρ ρ' : Env} :
      (∀ x, x.isGlobal = false → Free x e → ((ρ.lookup x).isSome = (ρ'.lookup x).isSome)) →
      (∀ x v w, x.isGlobal = false → Free x e → ρ.lookup x = some v → ρ'.lookup x = some w → Val.Eqv v w) →
      Kont.Eqv (.withcc e ρ) (.withcc e ρ')
end

/-- environments that agree on the local variables in `S`. -/
def Env.Eqv (S : Id → Prop) (ρ ρ' : Env) : Prop :=
  (∀ x, x.isGlobal = false → S x → ((ρ.lookup x).isSome = (ρ'.lookup x).isSome)) ∧
  (∀ x v w, x.isGlobal = false → S x → ρ.lookup x = some v → ρ'.lookup x = some w → Val.Eqv v w)

mutual
theorem Val.Eqv.refl : (v : Val) → Val.Eqv v v
  | .atom n => .atom n
  | .pair a d => .pair (Val.Eqv.refl a) (Val.Eqv.refl d)
  | .box a => .box a
  | .trap => .trap
  | .clos ids b ρ => .clos (fun _ _ _ => rfl) (fun x v w _ _ h1 h2 => Env.refl_lookup ρ x v w h1 h2)
  | .rclos ids lams i ρ => .rclos (fun _ _ _ _ => rfl) (fun x v w _ _ _ h1 h2 => Env.refl_lookup ρ x v w h1 h2)
  | .cont κ => .cont (Kont.Eqv.refl κ)
theorem Env.refl_lookup : (ρ : Env) → ∀ (x : Id) (v w : Val), ρ.lookup x = some v → ρ.lookup x = some w → Val.Eqv v w
  | .nil, x, v, w, h1, _ => by simp [Env.lookup] at h1
  | .bind y u ρ, x, v, w, h1, h2 => by
    rw [Env.lookup] at h1 h2
    split at h1
    · rename_i e
      rw [if_pos e] at h2
      injection h1 with h1; injection h2 with h2
      rw [← h1, ← h2]; exact Val.Eqv.refl u
    · rename_i e
      rw [if_neg e] at h2
      exact Env.refl_lookup ρ x v w h1 h2
  | .fix ids lams ρ, x, v, w, h1, h2 => by
    rw [Env.lookup] at h1 h2
    cases hi : idxOf x ids with
    | some i =>
      rw [hi] at h1 h2
      injection h1 with h1; injection h2 with h2
      rw [← h1, ← h2]
      exact .rclos (fun _ _ _ _ => rfl) (fun x v w _ _ _ h1 h2 => Env.refl_lookup ρ x v w h1 h2)
    | none =>
      rw [hi] at h1 h2
      exact Env.refl_lookup ρ x v w h1 h2
theorem Kont.Eqv.refl : (κ : Kont) → Kont.Eqv κ κ
  | .halt => .halt
  | .trap => .trap
  | .throw v => .throw (Val.Eqv.refl v)
  | .set x κ => .set (Kont.Eqv.refl κ)
  | .ite b c ρ κ => .ite (fun _ _ _ => rfl) (fun x v w _ _ h1 h2 => Env.refl_lookup ρ x v w h1 h2) (Kont.Eqv.refl κ)
  | .args op es d i todo ρ κ => .args (fun _ _ _ => rfl) (fun x v w _ _ h1 h2 => Env.refl_lookup ρ x v w h1 h2)
      (fun j => Val.Eqv.refl (d j)) (Kont.Eqv.refl κ)
  | .withcc e ρ => .withcc (fun _ _ _ => rfl) (fun x v w _ _ h1 h2 => Env.refl_lookup ρ x v w h1 h2)
end

theorem Val.Eqv.view : {v w : Val} → Val.Eqv v w → v.view = w.view
  | _, _, .atom _ => rfl
  | _, _, .pair h1 h2 => by simp only [Val.view, Val.Eqv.view h1, Val.Eqv.view h2]
  | _, _, .box _ => rfl
  | _, _, .trap => rfl
  | _, _, .clos .. => rfl
  | _, _, .rclos .. => rfl
  | _, _, .cont _ => rfl

theorem Val.Eqv.false {v w : Val} (h : Val.Eqv v w) : v.isFalse = w.isFalse := by cases h <;> rfl

theorem Env.Eqv.sub {S S' : Id → Prop} {ρ ρ' : Env} (h : Env.Eqv S ρ ρ') (hs : ∀ x, S' x → S x) : Env.Eqv S' ρ ρ' :=
  ⟨fun x hx hS => h.1 x hx (hs x hS), fun x v w hx hS => h.2 x v w hx (hs x hS)⟩

/-- related stores. -/
structure Store.Eqv {W : Type} (σ σ' : Store W) : Prop where
  glob : ∀ x, (σ.glob x = none ∧ σ'.glob x = none) ∨ ∃ v w, σ.glob x = some v ∧ σ'.glob x = some w ∧ Val.Eqv v w
  heap : List.Forall₂ Val.Eqv σ.heap σ'.heap
  world : σ.world = σ'.world

theorem forall₂_refl : (l : List Val) → List.Forall₂ Val.Eqv l l
  | [] => .nil
  | v :: l => .cons (Val.Eqv.refl v) (forall₂_refl l)

theorem Store.Eqv.refl {W : Type} (σ : Store W) : Store.Eqv σ σ := by
  refine ⟨fun x => ?_, forall₂_refl _, rfl⟩
  cases σ.glob x with
  | none => exact Or.inl ⟨rfl, rfl⟩
  | some v => exact Or.inr ⟨v, v, rfl, rfl, Val.Eqv.refl v⟩

variable {W : Type} {M : Sem W} {ord : Op → List Exp → List Nat}

/-- related states. -/
inductive State.Eqv : State W → State W → Prop
  | ev {e : Exp} {ρ ρ' : Env} {κ κ' : Kont} {σ σ' : Store W} : Env.Eqv (fun x => Free x e) ρ ρ' → Kont.Eqv κ κ' → Store.Eqv σ σ' →
      State.Eqv (.ev e ρ κ σ) (.ev e ρ' κ' σ')
  | args {op : Op} {es : List Exp} {d d' : Nat → Val} {todo : List Nat} {ρ ρ' : Env} {κ κ' : Kont} {σ σ' : Store W} :
      Env.Eqv (fun x => ∃ e ∈ es, Free x e) ρ ρ' → (∀ j, Val.Eqv (d j) (d' j)) → Kont.Eqv κ κ' → Store.Eqv σ σ' →
      State.Eqv (.args op es d todo ρ κ σ) (.args op es d' todo ρ' κ' σ')
  | lset {eff : Effect} {e1 e2 e1' e2' : Exp} {d d' : Nat → Val} {ρ ρ' : Env} {κ κ' : Kont} {σ σ' : Store W} : d 0 = d' 0 →
      Val.Eqv (d 1) (d' 1) → Kont.Eqv κ κ' → Store.Eqv σ σ' →
      State.Eqv (.args (.prim eff .boxset) [e1, e2] d [] ρ κ σ) (.args (.prim eff .boxset) [e1', e2'] d' [] ρ' κ' σ')
  | ap {f g : Val} {vs ws : List Val} {κ κ' : Kont} {σ σ' : Store W} : Val.Eqv f g → List.Forall₂ Val.Eqv vs ws → Kont.Eqv κ κ' →
      Store.Eqv σ σ' → State.Eqv (.ap f vs κ σ) (.ap g ws κ' σ')
  | ret {v w : Val} {κ κ' : Kont} {σ σ' : Store W} : Val.Eqv v w → Kont.Eqv κ κ' → Store.Eqv σ σ' → State.Eqv (.ret v κ σ) (.ret w κ' σ')
  | done {v v' : Val} {w : W} : Val.Eqv v v' → State.Eqv (.done v w) (.done v' w)

/-- both stop, or both go on to related states. -/
inductive Both : Option (State W) → Option (State W) → Prop
  | none : Both none none
  | some {s t : State W} : State.Eqv s t → Both (some s) (some t)

/-! ### environments -/

theorem Env.Eqv.get {S : Id → Prop} {ρ ρ' : Env} {x : Id} (h : Env.Eqv S ρ ρ') (hx : x.isGlobal = false) (hs : S x) :
    (ρ.lookup x = none ∧ ρ'.lookup x = none) ∨ ∃ v w, ρ.lookup x = some v ∧ ρ'.lookup x = some w ∧ Val.Eqv v w := by
  have h1 := h.1 x hx hs
  cases ha : ρ.lookup x with
  | none => rw [ha] at h1; cases hb : ρ'.lookup x with
    | none => exact Or.inl ⟨rfl, rfl⟩
    | some w => rw [hb] at h1; cases h1
  | some v => rw [ha] at h1; cases hb : ρ'.lookup x with
    | none => rw [hb] at h1; cases h1
    | some w => exact Or.inr ⟨v, w, rfl, rfl, h.2 x v w hx hs ha hb⟩

theorem Env.Eqv.of {S : Id → Prop} {ρ ρ' : Env} (h : ∀ x, x.isGlobal = false → S x →
    (ρ.lookup x = none ∧ ρ'.lookup x = none) ∨ ∃ v w, ρ.lookup x = some v ∧ ρ'.lookup x = some w ∧ Val.Eqv v w) : Env.Eqv S ρ ρ' := by
  refine ⟨fun x hx hs => ?_, fun x v w hx hs hv hw => ?_⟩
  · rcases h x hx hs with ⟨h1, h2⟩ | ⟨v, w, h1, h2, _⟩ <;> rw [h1, h2] <;> rfl
  · rcases h x hx hs with ⟨h1, h2⟩ | ⟨v', w', h1, h2, h3⟩
    · rw [hv] at h1; cases h1
    · rw [hv] at h1; rw [hw] at h2
      injection h1 with h1; injection h2 with h2; subst h1; subst h2; exact h3

theorem Env.Eqv.bind {S : Id → Prop} {ρ ρ' : Env} {x : Id} {v w : Val} (h : Env.Eqv (fun y => y ≠ x ∧ S y) ρ ρ') (hv : Val.Eqv v w) :
    Env.Eqv S (.bind x v ρ) (.bind x w ρ') := by
  refine .of (fun y hy hs => ?_)
  by_cases e : y = x
  · right; exact ⟨v, w, by simp [Env.lookup, e], by simp [Env.lookup, e], hv⟩
  · simp only [Env.lookup, if_neg e]; exact h.get hy ⟨e, hs⟩

theorem Env.Eqv.bindAll {S : Id → Prop} : ∀ {ids : List Id} {vs ws : List Val} {ρ ρ' : Env}, Env.Eqv (fun y => y ∉ ids ∧ S y) ρ ρ' →
    List.Forall₂ Val.Eqv vs ws → ids.length = vs.length → Env.Eqv S (Core.bindAll ids vs ρ) (Core.bindAll ids ws ρ') := by
  intro ids
  induction ids generalizing S with
  | nil => intro vs ws ρ ρ' h hv hl; cases hv with
    | nil => exact h.sub (fun y hy => ⟨by simp, hy⟩)
    | cons => simp at hl
  | cons x ids ih =>
    intro vs ws ρ ρ' h hv hl
    cases hv with
    | nil => simp at hl
    | cons h1 h2 =>
      refine .bind (ih (h.sub ?_) h2 (by simpa using hl)) h1
      rintro y ⟨hy, hne, hS⟩
      exact ⟨by simp [hy, hne], hS⟩

theorem Env.Eqv.bindCells {S : Id → Prop} : ∀ {ids : List Id} {a : Nat} {ρ ρ' : Env}, Env.Eqv (fun y => y ∉ ids ∧ S y) ρ ρ' →
    Env.Eqv S (Core.bindCells ids a ρ) (Core.bindCells ids a ρ') := by
  intro ids
  induction ids generalizing S with
  | nil => intro a ρ ρ' h; exact h.sub (fun y hy => ⟨by simp, hy⟩)
  | cons x ids ih =>
    intro a ρ ρ' h
    refine .bind (ih (h.sub ?_)) (.box a)
    rintro y ⟨hy, hne, hS⟩
    exact ⟨by simp [hy, hne], hS⟩

theorem idxOf_not {x : Id} : ∀ {ids : List Id}, idxOf x ids = none → x ∉ ids := by
  intro ids
  induction ids with
  | nil => simp
  | cons y ys ih =>
    intro h
    rw [idxOf] at h
    split at h
    · cases h
    · rename_i hne
      simp only [Option.map_eq_none_iff] at h
      simp [hne, ih h]

theorem Env.Eqv.fix {S : Id → Prop} {ids : List Id} {lams : List Exp} {ρ ρ' : Env}
    (h : Env.Eqv (fun y => y ∉ ids ∧ ((∃ l ∈ lams, Free y l) ∨ S y)) ρ ρ') : Env.Eqv S (.fix ids lams ρ) (.fix ids lams ρ') := by
  refine .of (fun y hy hs => ?_)
  simp only [Env.lookup]
  cases hi : idxOf y ids with
  | some i =>
    right
    refine ⟨_, _, rfl, rfl, .rclos (fun x hx hl hn => h.1 x hx ⟨hn, Or.inl hl⟩) (fun x v w hx hl hn => h.2 x v w hx ⟨hn, Or.inl hl⟩)⟩
  | none => exact h.get hy ⟨idxOf_not hi, Or.inr hs⟩

/-! ### primitives -/

theorem forall₂_len {α β : Type} {R : α → β → Prop} {l : List α} {l' : List β} (h : List.Forall₂ R l l') : l.length = l'.length := h.length_eq

theorem forall₂_getq {l l' : List Val} (h : List.Forall₂ Val.Eqv l l') (a : Nat) :
    (l[a]? = none ∧ l'[a]? = none) ∨ ∃ v w, l[a]? = some v ∧ l'[a]? = some w ∧ Val.Eqv v w := by
  induction h generalizing a with
  | nil => simp
  | cons h1 _ ih =>
    cases a with
    | zero => simp [h1]
    | succ a => simpa using ih a

theorem forall₂_set {l l' : List Val} (h : List.Forall₂ Val.Eqv l l') {v w : Val} (hv : Val.Eqv v w) (a : Nat) :
    List.Forall₂ Val.Eqv (l.set a v) (l'.set a w) := by
  induction h generalizing a with
  | nil => simp
  | cons h1 h2 ih =>
    cases a with
    | zero => exact .cons hv h2
    | succ a => exact .cons h1 (ih a)

theorem forall₂_app {l1 l1' l2 l2' : List Val} (h1 : List.Forall₂ Val.Eqv l1 l1') (h2 : List.Forall₂ Val.Eqv l2 l2') :
    List.Forall₂ Val.Eqv (l1 ++ l2) (l1' ++ l2') := by
  induction h1 with
  | nil => exact h2
  | cons h _ ih => exact .cons h ih

theorem forall₂_views {vs ws : List Val} (h : List.Forall₂ Val.Eqv vs ws) : vs.map Val.view = ws.map Val.view := by
  induction h with
  | nil => rfl
  | cons h1 _ ih => simp [h1.view, ih]

/-- related results of primitives. -/
inductive PEqv : Option (PrimRes W) → Option (PrimRes W) → Prop
  | none : PEqv none none
  | ok {v w : Val} {σ σ' : Store W} : Val.Eqv v w → Store.Eqv σ σ' → PEqv (some (.ok v σ)) (some (.ok w σ'))
  | stop {v w : Val} : Val.Eqv v w → PEqv (some (.stop v)) (some (.stop w))

theorem boxset_eqv {a : Nat} {v w : Val} {σ σ' : Store W} (hv : Val.Eqv v w) (hs : Store.Eqv σ σ') :
    PEqv (doPrim M .boxset [.box a, v] σ) (doPrim M .boxset [.box a, w] σ') := by
  simp only [doPrim, ← forall₂_len hs.heap]
  split
  · exact .ok hv ⟨hs.glob, forall₂_set hs.heap hv a, hs.world⟩
  · exact .none

theorem doPrim_eqv (p : PrimName) {vs ws : List Val} {σ σ' : Store W} (hv : List.Forall₂ Val.Eqv vs ws) (hs : Store.Eqv σ σ') :
    PEqv (doPrim M p vs σ) (doPrim M p ws σ') := by
  cases p with
  | void => cases hv <;> first | exact .ok (.atom 1) hs | exact .none
  | halt =>
    cases hv with
    | nil => exact .none
    | cons h1 h2 => cases h2 with
      | nil => exact .stop h1
      | cons => exact .none
  | ktrap => cases hv <;> first | exact .ok .trap hs | exact .none
  | box =>
    cases hv with
    | nil => exact .none
    | cons h1 h2 => cases h2 with
      | nil =>
        simp only [doPrim, forall₂_len hs.heap]
        exact .ok (.box _) ⟨hs.glob, forall₂_app hs.heap (.cons h1 .nil), hs.world⟩
      | cons => exact .none
  | boxref =>
    cases hv with
    | nil => exact .none
    | cons h1 h2 => cases h2 with
      | nil =>
        cases h1 <;> try exact .none
        rename_i a
        simp only [doPrim]
        rcases forall₂_getq hs.heap a with ⟨e1, e2⟩ | ⟨v, w, e1, e2, hvw⟩
        · rw [e1, e2]; exact .none
        · rw [e1, e2]; exact .ok hvw hs
      | cons => cases h1 <;> exact .none
  | boxset =>
    cases hv with
    | nil => exact .none
    | cons h1 h2 => cases h2 with
      | nil => cases h1 <;> exact .none
      | cons h2 h3 => cases h3 with
        | nil =>
          cases h1 <;> try exact .none
          exact boxset_eqv h2 hs
        | cons => cases h1 <;> exact .none
  | cons =>
    cases hv with
    | nil => exact .none
    | cons h1 h2 => cases h2 with
      | nil => exact .none
      | cons h2 h3 => cases h3 with
        | nil => exact .ok (.pair h1 h2) hs
        | cons => exact .none
  | car =>
    cases hv with
    | nil => exact .none
    | cons h1 h2 => cases h2 with
      | nil => cases h1 <;> first | exact .none | (rename_i ha hd; exact .ok ha hs)
      | cons => cases h1 <;> exact .none
  | cdr =>
    cases hv with
    | nil => exact .none
    | cons h1 h2 => cases h2 with
      | nil => cases h1 <;> first | exact .none | (rename_i ha hd; exact .ok hd hs)
      | cons => cases h1 <;> exact .none
  | op n =>
    simp only [doPrim, forall₂_views hv, hs.world]
    cases M.op n (ws.map Val.view) σ'.world with
    | none => exact .none
    | some r => exact .ok (.atom _) ⟨hs.glob, hs.heap, rfl⟩

theorem vals_eqv {d d' : Nat → Val} (h : ∀ j, Val.Eqv (d j) (d' j)) (n : Nat) : List.Forall₂ Val.Eqv (vals d n) (vals d' n) := by
  simp only [vals]
  induction List.range n with
  | nil => exact .nil
  | cons i l ih => exact .cons (h i) ih

/-! ### the machines run in lock step -/

theorem prim_both {eff : Effect} {p : PrimName} {es es' : List Exp} {d d' : Nat → Val} {ρ ρ' : Env} {κ κ' : Kont} {σ σ' : Store W}
    (h : PEqv (doPrim M p (vals d es.length) σ) (doPrim M p (vals d' es'.length) σ')) (hk : Kont.Eqv κ κ') (hs : Store.Eqv σ σ') :
    Both (step M ord (.args (.prim eff p) es d [] ρ κ σ)) (step M ord (.args (.prim eff p) es' d' [] ρ' κ' σ')) := by
  simp only [step]
  generalize doPrim M p (vals d es.length) σ = r at h
  generalize doPrim M p (vals d' es'.length) σ' = r' at h
  cases h with
  | none => exact .none
  | ok hv hs => exact .some (.ret hv hk hs)
  | stop hv => rw [hs.world]; exact .some (.done hv)

theorem step_both {s t : State W} (h : State.Eqv s t) : Both (step M ord s) (step M ord t) := by
  cases h with
  | ev he hk hs =>
    rename_i e ρ ρ' κ κ' σ σ'
    cases e with
    | var x =>
      cases hg : x.isGlobal with
      | true =>
        simp only [step, hg, if_true]
        rcases hs.glob x with ⟨h1, h2⟩ | ⟨v, w, h1, h2, h3⟩
        · rw [h1, h2]; exact .none
        · rw [h1, h2]; exact .some (.ret h3 hk hs)
      | false =>
        simp only [step, hg, Bool.false_eq_true, if_false]
        rcases he.get hg .var with ⟨h1, h2⟩ | ⟨v, w, h1, h2, h3⟩
        · rw [h1, h2]; exact .none
        · rw [h1, h2]; exact .some (.ret h3 hk hs)
    | set x e =>
      simp only [step]
      split
      · exact .some (.ev (he.sub (fun y hy => .set x hy)) (.set hk) hs)
      · exact .none
    | ite a b c =>
      have h' := he.sub (S' := fun x => Free x b ∨ Free x c) (fun y hy => by
        rcases hy with h | h
        · exact .iteB a c h
        · exact .iteC a b h)
      exact .some (.ev (he.sub (fun y hy => .iteA b c hy)) (.ite h'.1 h'.2 hk) hs)
    | prim eff p es =>
      exact .some (.args (he.sub (fun y ⟨e, h1, h2⟩ => .prim eff p h1 h2)) (fun _ => .trap) hk hs)
    | app f es =>
      refine .some (.args (he.sub (fun y ⟨e, h1, h2⟩ => ?_)) (fun _ => .trap) hk hs)
      simp only [List.mem_cons] at h1
      rcases h1 with rfl | h1
      · exact .appF es h2
      · exact .appA f h1 h2
    | lam ids b => exact .some (.ret (.clos he.1 he.2) hk hs)
    | fix ids lams b =>
      refine .some (.ev (.fix (he.sub ?_)) hk hs)
      rintro y ⟨hn, ⟨l, hl, hy⟩ | hy⟩
      · exact .fixL b hn hl hy
      · exact .fixB lams hn hy
    | letcc x b => exact .some (.ev (.bind (he.sub (fun y ⟨hn, hy⟩ => .letcc hn hy)) (.cont hk)) hk hs)
    | withcc k e =>
      have h' := he.sub (S' := fun x => Free x e) (fun y hy => .withccE k hy)
      exact .some (.ev (he.sub (fun y hy => .withccK e hy)) (.withcc h'.1 h'.2) hs)
  | args he hd hk hs =>
    rename_i op es d d' todo ρ ρ' κ κ' σ σ'
    cases todo with
    | cons i todo =>
      cases hi : es[i]? with
      | none =>
        have : ∀ (d : Nat → Val) (ρ : Env) (κ : Kont) (σ : Store W), step M ord (.args op es d (i :: todo) ρ κ σ) = none := by
          intro d ρ κ σ; cases op <;> simp [step, hi]
        rw [this, this]; exact .none
      | some e =>
        have : ∀ (d : Nat → Val) (ρ : Env) (κ : Kont) (σ : Store W), step M ord (.args op es d (i :: todo) ρ κ σ) =
            some (.ev e ρ (.args op es d i todo ρ κ) σ) := by
          intro d ρ κ σ; cases op <;> simp [step, hi]
        rw [this, this]
        exact .some (.ev (he.sub (fun y hy => ⟨e, List.mem_of_getElem? hi, hy⟩)) (.args he.1 he.2 hd hk) hs)
    | nil =>
      cases op with
      | prim eff p => exact prim_both (doPrim_eqv p (vals_eqv hd _) hs) hk hs
      | call =>
        have h := vals_eqv hd es.length
        simp only [step]
        generalize vals d es.length = l at h
        generalize vals d' es.length = l' at h
        cases h with
        | nil => exact .none
        | cons h1 h2 => exact .some (.ap h1 h2 hk hs)
  | lset h0 h1 hk hs =>
    rename_i eff e1 e2 e1' e2' d d' ρ ρ' κ κ' σ σ'
    refine prim_both ?_ hk hs
    have e1 : vals d 2 = [d 0, d 1] := by simp [vals, List.range_succ]
    have e2 : vals d' 2 = [d 0, d' 1] := by simp [vals, List.range_succ, h0]
    simp only [List.length_cons, List.length_nil]
    rw [e1, e2]
    exact doPrim_eqv .boxset (.cons (Val.Eqv.refl _) (.cons h1 .nil)) hs
  | ap hf hv hk hs =>
    rename_i f g vs ws κ κ' σ σ'
    cases hf with
    | atom => simp only [step]; exact .none
    | pair => simp only [step]; exact .none
    | box => simp only [step]; exact .none
    | trap => simp only [step]; exact .none
    | clos h1 h2 =>
      simp only [step, ← forall₂_len hv]
      split
      · rename_i hl
        refine .some (.ev (.bindAll ?_ hv hl) hk hs)
        exact ⟨fun x hx ⟨hn, hy⟩ => h1 x hx (.lam hn hy), fun x v w hx ⟨hn, hy⟩ => h2 x v w hx (.lam hn hy)⟩
      · exact .none
    | rclos h1 h2 =>
      rename_i ids lams i ρ ρ'
      simp only [step, ← forall₂_len hv]
      cases hi : lams[i]? with
      | none => exact .none
      | some l =>
        cases l with
        | lam ps b =>
          simp only
          split
          · rename_i hl
            refine .some (.ev (.bindAll (.fix ?_) hv hl) hk hs)
            refine ⟨fun x hx ⟨hn, hy⟩ => h1 x hx ?_ hn, fun x v w hx ⟨hn, hy⟩ => h2 x v w hx ?_ hn⟩ <;>
            · rcases hy with hy | ⟨hp, hy⟩
              · exact hy
              · exact ⟨_, List.mem_of_getElem? hi, .lam hp hy⟩
          · exact .none
        | _ => exact .none
    | cont h =>
      cases hv with
      | nil => simp only [step]; exact .none
      | cons h1 h2 => cases h2 with
        | nil => exact .some (.ret h1 h hs)
        | cons => simp only [step]; exact .none
  | ret hv hk hs =>
    rename_i v w κ κ' σ σ'
    cases hk with
    | halt => simp only [step]; rw [hs.world]; exact .some (.done hv)
    | trap => exact .none
    | throw h => exact .some (.ap h (.cons hv .nil) .trap hs)
    | set hk =>
      rename_i x κ κ'
      refine .some (.ret (.atom 1) hk ⟨fun y => ?_, hs.heap, hs.world⟩)
      by_cases hy : y = x
      · right; exact ⟨v, w, by simp [hy], by simp [hy], hv⟩
      · simp only [hy, if_false]; exact hs.glob y
    | ite h1 h2 hk =>
      simp only [step, ← hv.false]
      cases v.isFalse with
      | true => exact .some (.ev ⟨fun x hx hy => h1 x hx (Or.inr hy), fun x v w hx hy => h2 x v w hx (Or.inr hy)⟩ hk hs)
      | false => exact .some (.ev ⟨fun x hx hy => h1 x hx (Or.inl hy), fun x v w hx hy => h2 x v w hx (Or.inl hy)⟩ hk hs)
    | args h1 h2 hd hk =>
      refine .some (.args ⟨h1, h2⟩ (fun j => ?_) hk hs)
      simp only [upd]
      split
      · exact hv
      · exact hd j
    | lset h0 hk => exact .some (.lset (by simp [upd, h0]) (by simpa [upd] using hv) hk hs)
    | withcc h1 h2 =>
      simp only [step, ← hv.view]
      split
      · exact .some (.ev ⟨h1, h2⟩ (.throw hv) hs)
      · exact .none
  | done hv => exact .none

theorem cstep_both {s t : State W} (h : State.Eqv s t) : Both (cstep M ord s) (cstep M ord t) := by
  have hst := step_both (M := M) (ord := ord) h
  cases h with
  | ev he hk hs =>
    rename_i e ρ ρ' κ κ' σ σ'
    cases e with
    | var x =>
      cases hg : x.isGlobal with
      | true =>
        simp only [cstep, hg, if_true]
        rcases hs.glob x with ⟨h1, h2⟩ | ⟨v, w, h1, h2, h3⟩
        · rw [h1, h2]; exact .none
        · rw [h1, h2]; exact .some (.ret h3 hk hs)
      | false =>
        simp only [cstep, hg, Bool.false_eq_true, if_false, fetch]
        rcases he.get hg .var with ⟨h1, h2⟩ | ⟨v, w, h1, h2, h3⟩
        · rw [h1, h2]; exact .none
        · rw [h1, h2]
          cases h3 with
          | box a =>
            simp only
            rcases forall₂_getq hs.heap a with ⟨e1, e2⟩ | ⟨v, w, e1, e2, hvw⟩
            · rw [e1, e2]; exact .none
            · rw [e1, e2]; exact .some (.ret hvw hk hs)
          | atom n => exact .some (.ret (.atom n) hk hs)
          | pair a d => exact .some (.ret (.pair a d) hk hs)
          | trap => exact .some (.ret .trap hk hs)
          | clos a b => exact .some (.ret (.clos a b) hk hs)
          | rclos a b => exact .some (.ret (.rclos a b) hk hs)
          | cont a => exact .some (.ret (.cont a) hk hs)
    | set x e =>
      simp only [cstep]
      cases hg : x.isGlobal with
      | true => exact .some (.ev (he.sub (fun y hy => .set x hy)) (.set hk) hs)
      | false =>
        simp only [Bool.false_eq_true, if_false]
        rcases he.get hg (.setTarget e) with ⟨h1, h2⟩ | ⟨v, w, h1, h2, h3⟩
        · rw [h1, h2]; exact .none
        · rw [h1, h2]
          cases h3 with
          | box a => exact .some (.ev (he.sub (fun y hy => .set x hy)) (.lset rfl hk) hs)
          | _ => exact .none
    | letcc x b =>
      simp only [cstep, forall₂_len hs.heap]
      exact .some (.ev (.bind (he.sub (fun y ⟨hn, hy⟩ => .letcc hn hy)) (.box _)) hk ⟨hs.glob, forall₂_app hs.heap (.cons (.cont hk) .nil), hs.world⟩)
    | _ => exact hst
  | ap hf hv hk hs =>
    rename_i f g vs ws κ κ' σ σ'
    cases hf with
    | clos h1 h2 =>
      simp only [cstep, ← forall₂_len hv, forall₂_len hs.heap]
      split
      · rename_i hl
        refine .some (.ev (.bindCells ?_) hk ⟨hs.glob, forall₂_app hs.heap hv, hs.world⟩)
        exact ⟨fun x hx ⟨hn, hy⟩ => h1 x hx (.lam hn hy), fun x v w hx ⟨hn, hy⟩ => h2 x v w hx (.lam hn hy)⟩
      · exact .none
    | rclos h1 h2 =>
      rename_i ids lams i ρ ρ'
      simp only [cstep, ← forall₂_len hv, forall₂_len hs.heap]
      cases hi : lams[i]? with
      | none => exact .none
      | some l =>
        cases l with
        | lam ps b =>
          simp only
          split
          · rename_i hl
            refine .some (.ev (.bindCells (.fix ?_)) hk ⟨hs.glob, forall₂_app hs.heap hv, hs.world⟩)
            refine ⟨fun x hx ⟨hn, hy⟩ => h1 x hx ?_ hn, fun x v w hx ⟨hn, hy⟩ => h2 x v w hx ?_ hn⟩ <;>
            · rcases hy with hy | ⟨hp, hy⟩
              · exact hy
              · exact ⟨_, List.mem_of_getElem? hi, .lam hp hy⟩
          · exact .none
        | _ => exact .none
    | atom => exact hst
    | pair => exact hst
    | box => exact hst
    | trap => exact hst
    | cont => exact hst
  | args => exact hst
  | lset => exact hst
  | ret => exact hst
  | done => exact hst

/-- What can be observed of a state: the world, and the result if the program has finished. -/
def State.obs : State W → W × Option View
  | .done v w => (w, some v.view)
  | s => (s.world, none)

theorem State.Eqv.obs {s t : State W} (h : State.Eqv s t) : s.obs = t.obs := by
  cases h with
  | ev _ _ hs => simp [State.obs, State.world, hs.world]
  | args _ _ _ hs => simp [State.obs, State.world, hs.world]
  | lset _ _ _ hs => simp [State.obs, State.world, hs.world]
  | ap _ _ _ hs => simp [State.obs, State.world, hs.world]
  | ret _ _ hs => simp [State.obs, State.world, hs.world]
  | done h => simp [State.obs, h.view]

theorem iter_both {f : State W → Option (State W)} (hf : ∀ s t, State.Eqv s t → Both (f s) (f t)) :
    ∀ (n : Nat) (s t : State W), State.Eqv s t → (iter f n s).map State.obs = (iter f n t).map State.obs := by
  intro n
  induction n with
  | zero => intro s t h; simp [iter, h.obs]
  | succ n ih =>
    intro s t h
    have := hf s t h
    simp only [iter]
    generalize f s = a at this
    generalize f t = b at this
    cases this with
    | none => rfl
    | some h => exact ih _ _ h

/-- C47: evaluating an expression under two environments that agree on its computed free local variables gives the
same result: after any number of steps both evaluations have done the same to the world, both or none have run into an
error, and both or none have finished, with the same outcome.  This holds for programs with assignments (`cstep`) and
after their removal (`step`), whatever the meaning of primitives, the order of evaluation, the continuation and the
store. -/
theorem c47_agreement (M : Sem W) (ord : Op → List Exp → List Nat) (e : Exp) (ρ ρ' : Env) (κ : Kont) (σ : Store W)
    (h : ∀ x ∈ freeLexvars e, ρ.lookup x = ρ'.lookup x) (n : Nat) :
    (iter (cstep M ord) n (.ev e ρ κ σ)).map State.obs = (iter (cstep M ord) n (.ev e ρ' κ σ)).map State.obs ∧
    (iter (step M ord) n (.ev e ρ κ σ)).map State.obs = (iter (step M ord) n (.ev e ρ' κ σ)).map State.obs := by
  have hs : State.Eqv (.ev e ρ κ σ) (.ev e ρ' κ σ) := by
    refine .ev ⟨fun x hx hf => ?_, fun x v w hx hf hv hw => ?_⟩ (Kont.Eqv.refl κ) (Store.Eqv.refl σ)
    · rw [h x ((c47_free_lexvars x e).1.mpr ⟨hx, hf⟩)]
    · rw [h x ((c47_free_lexvars x e).1.mpr ⟨hx, hf⟩)] at hv
      exact Env.refl_lookup ρ' x v w hv hw
  exact ⟨iter_both (fun _ _ => cstep_both) n _ _ hs, iter_both (fun _ _ => step_both) n _ _ hs⟩

/-- two environments that agree on the free variables of `(lambda (y) (x y))` but not on `z`. -/
example : (∀ x ∈ freeLexvars (.lam [lexId 1] (.app (.var (lexId 0)) [.var (lexId 1)])),
    (Env.bind (lexId 0) (.box 3) (.bind (lexId 2) (.atom 5) .nil)).lookup x = (Env.bind (lexId 0) (.box 3) (.bind (lexId 2) .trap .nil)).lookup x) ∧
    (Env.bind (lexId 0) (.box 3) (.bind (lexId 2) (.atom 5) .nil)).lookup (lexId 2) ≠
      (Env.bind (lexId 0) (.box 3) (.bind (lexId 2) .trap .nil)).lookup (lexId 2) := by
  refine ⟨fun x hx => ?_, by simp [Env.lookup, lexId]⟩
  have : freeLexvars (.lam [lexId 1] (.app (.var (lexId 0)) [.var (lexId 1)])) = [lexId 0] := by decide +kernel
  rw [this] at hx
  simp only [List.mem_singleton] at hx
  subst hx
  simp [Env.lookup]

end Verif.Core
