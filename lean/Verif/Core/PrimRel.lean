import Verif.Core.Trace
import Verif.Beta.Envs
/-
Primitives respect every relation between values that follows the structure of pairs and boxes.  Shared part of the
simulations between programs.
-/
namespace Verif.Core
variable {W : Type} {R : Val → Val → Prop}

/-- Relations between values that primitives respect. -/
structure PrimRel (R : Val → Val → Prop) : Prop where
  atom : ∀ n, R (.atom n) (.atom n)
  trap : R .trap .trap
  box : ∀ a, R (.box a) (.box a)
  pair : ∀ {a d a' d'}, R a a' → R d d' → R (.pair a d) (.pair a' d')
  view : ∀ {v w}, R v w → v.view = w.view
  ofPair : ∀ {a d w}, R (.pair a d) w → ∃ a' d', w = .pair a' d' ∧ R a a' ∧ R d d'
  ofBox : ∀ {a w}, R (.box a) w → w = .box a

/-- Stores with related contents. -/
structure StoreRel (R : Val → Val → Prop) (σ σt : Store W) : Prop where
  glob : ∀ y, (σ.glob y = none ∧ σt.glob y = none) ∨ ∃ v w, σ.glob y = some v ∧ σt.glob y = some w ∧ R v w
  heap : List.Forall₂ R σ.heap σt.heap
  world : σ.world = σt.world

/-- The order of evaluation depends on the operator and the number of operands only. -/
def Uniform (Q : Op → List Exp → List Nat) : Prop := ∀ op es es', es.length = es'.length → Q op es = Q op es'

theorem PrimRel.false (P : PrimRel R) {v w : Val} (h : R v w) : v.isFalse = w.isFalse := by
  have := P.view h
  cases v <;> cases w <;> simp_all [Val.view, Val.isFalse]

theorem forall₂_view (P : PrimRel R) {vs ws : List Val} (h : List.Forall₂ (R) vs ws) : vs.map Val.view = ws.map Val.view := by
  induction h with
  | nil => rfl
  | cons h1 _ ih => simp [P.view h1, ih]

theorem forall₂_get {h h' : List Val} (hh : List.Forall₂ (R) h h') : ∀ {a : Nat} {v : Val}, h[a]? = some v → ∃ w, h'[a]? = some w ∧ R v w := by
  induction hh with
  | nil => intro a v h; simp at h
  | cons h1 _ ih =>
    intro a v h
    cases a with
    | zero => simp only [List.getElem?_cons_zero, Option.some.injEq] at h; subst h; exact ⟨_, rfl, h1⟩
    | succ a => simpa using ih (by simpa using h)

theorem forall₂_put {h h' : List Val} (hh : List.Forall₂ (R) h h') {v w : Val} (hv : R v w) : ∀ a : Nat, List.Forall₂ (R) (h.set a v) (h'.set a w) := by
  induction hh with
  | nil => intro a; exact .nil
  | cons h1 h2 ih =>
    intro a
    cases a with
    | zero => exact .cons hv h2
    | succ a => exact .cons h1 (ih a)

theorem forall₂_snoc {h h' : List Val} (hh : List.Forall₂ (R) h h') {v w : Val} (hv : R v w) : List.Forall₂ (R) (h ++ [v]) (h' ++ [w]) := by
  induction hh with
  | nil => exact .cons hv .nil
  | cons h1 _ ih => exact .cons h1 ih

theorem StoreRel.set_glob {σ σt : Store W} {v w : Val} (h : StoreRel R σ σt) (x : Id) (hv : R v w) :
    StoreRel R { σ with glob := fun y => if y = x then some v else σ.glob y } { σt with glob := fun y => if y = x then some w else σt.glob y } := by
  refine ⟨fun y => ?_, h.heap, h.world⟩
  by_cases e : y = x
  · right; exact ⟨v, w, by simp [e], by simp [e], hv⟩
  · simp only [e, if_false]; exact h.glob y

theorem boxref_two {M : Sem W} (v u : Val) (vs : List Val) (σ : Store W) : doPrim M .boxref (v :: u :: vs) σ = none := by cases v <;> simp [doPrim]
theorem boxset_one {M : Sem W} (v : Val) (σ : Store W) : doPrim M .boxset [v] σ = none := by cases v <;> simp [doPrim]
theorem boxset_three {M : Sem W} (v u u' : Val) (vs : List Val) (σ : Store W) : doPrim M .boxset (v :: u :: u' :: vs) σ = none := by
  cases v <;> simp [doPrim]
theorem car_two {M : Sem W} (v u : Val) (vs : List Val) (σ : Store W) : doPrim M .car (v :: u :: vs) σ = none := by cases v <;> simp [doPrim]
theorem cdr_two {M : Sem W} (v u : Val) (vs : List Val) (σ : Store W) : doPrim M .cdr (v :: u :: vs) σ = none := by cases v <;> simp [doPrim]

/-- primitives. -/
theorem doPrim_rel (P : PrimRel R) {M : Sem W} {p : PrimName} {vs ws : List Val} {σ σt : Store W} (hv : List.Forall₂ (R) vs ws) (hs : StoreRel R σ σt) :
    doPrim M p vs σ = none ∨
    (∃ v w, doPrim M p vs σ = some (.stop v) ∧ doPrim M p ws σt = some (.stop w) ∧ R v w) ∨
    (∃ v w σ' σt', doPrim M p vs σ = some (.ok v σ') ∧ doPrim M p ws σt = some (.ok w σt') ∧ R v w ∧ StoreRel R σ' σt') := by
  cases p with
  | void =>
    cases hv with
    | nil => exact Or.inr (Or.inr ⟨_, _, σ, σt, rfl, rfl, P.atom 1, hs⟩)
    | cons => exact Or.inl rfl
  | halt =>
    cases hv with
    | nil => exact Or.inl rfl
    | cons h1 h2 =>
      cases h2 with
      | nil => exact Or.inr (Or.inl ⟨_, _, rfl, rfl, h1⟩)
      | cons => exact Or.inl rfl
  | ktrap =>
    cases hv with
    | nil => exact Or.inr (Or.inr ⟨_, _, σ, σt, rfl, rfl, P.trap, hs⟩)
    | cons => exact Or.inl rfl
  | box =>
    cases hv with
    | nil => exact Or.inl rfl
    | cons h1 h2 =>
      cases h2 with
      | nil =>
        rename_i v w
        refine Or.inr (Or.inr ⟨_, _, _, _, rfl, rfl, ?_, ⟨hs.glob, forall₂_snoc hs.heap h1, hs.world⟩⟩)
        rw [hs.heap.length_eq]; exact P.box _
      | cons => exact Or.inl (by simp [doPrim])
  | boxref =>
    cases hv with
    | nil => exact Or.inl rfl
    | cons h1 h2 =>
      cases h2 with
      | cons => exact Or.inl (boxref_two _ _ _ _)
      | nil =>
        rename_i u u'
        cases u with
        | box a =>
          rw [P.ofBox h1]
          cases hg : σ.heap[a]? with
          | none => exact Or.inl (by simp [doPrim, hg])
          | some v =>
            obtain ⟨w, hw, hr⟩ := forall₂_get hs.heap hg
            exact Or.inr (Or.inr ⟨v, w, σ, σt, by simp [doPrim, hg], by simp [doPrim, hw], hr, hs⟩)
        | _ => exact Or.inl rfl
  | boxset =>
    cases hv with
    | nil => exact Or.inl rfl
    | cons h1 h2 =>
      cases h2 with
      | nil => exact Or.inl (boxset_one _ _)
      | cons h2 h3 =>
        cases h3 with
        | cons => exact Or.inl (boxset_three _ _ _ _ _)
        | nil =>
          rename_i u u' v w
          cases u with
          | box a =>
            rw [P.ofBox h1]
            by_cases hl : a < σ.heap.length
            · exact Or.inr (Or.inr ⟨v, w, { σ with heap := σ.heap.set a v }, { σt with heap := σt.heap.set a w }, by simp only [doPrim, if_pos hl],
                by simp only [doPrim, if_pos (hs.heap.length_eq ▸ hl)], h2,
                ⟨hs.glob, forall₂_put hs.heap h2 a, hs.world⟩⟩)
            · exact Or.inl (by simp only [doPrim, if_neg hl])
          | _ => exact Or.inl rfl
  | cons =>
    cases hv with
    | nil => exact Or.inl rfl
    | cons h1 h2 =>
      cases h2 with
      | nil => exact Or.inl rfl
      | cons h2 h3 =>
        cases h3 with
        | nil => exact Or.inr (Or.inr ⟨_, _, σ, σt, rfl, rfl, P.pair h1 h2, hs⟩)
        | cons => exact Or.inl rfl
  | car =>
    cases hv with
    | nil => exact Or.inl rfl
    | cons h1 h2 =>
      cases h2 with
      | cons => exact Or.inl (car_two _ _ _ _)
      | nil =>
        rename_i u u'
        cases u with
        | pair a d =>
          obtain ⟨a', d', rfl, ha, hd⟩ := P.ofPair h1
          exact Or.inr (Or.inr ⟨_, _, σ, σt, rfl, rfl, ha, hs⟩)
        | _ => exact Or.inl rfl
  | cdr =>
    cases hv with
    | nil => exact Or.inl rfl
    | cons h1 h2 =>
      cases h2 with
      | cons => exact Or.inl (cdr_two _ _ _ _)
      | nil =>
        rename_i u u'
        cases u with
        | pair a d =>
          obtain ⟨a', d', rfl, ha, hd⟩ := P.ofPair h1
          exact Or.inr (Or.inr ⟨_, _, σ, σt, rfl, rfl, hd, hs⟩)
        | _ => exact Or.inl rfl
  | op n =>
    cases ho : M.op n (vs.map Val.view) σ.world with
    | none => exact Or.inl (by simp [doPrim, ho])
    | some r =>
      have ho' : M.op n (ws.map Val.view) σt.world = some r := by rw [← forall₂_view P hv, ← hs.world]; exact ho
      exact Or.inr (Or.inr ⟨.atom r.1, .atom r.1, { σ with world := r.2 }, { σt with world := r.2 }, by simp only [doPrim, ho]; rfl,
        by simp only [doPrim, ho']; rfl, P.atom _, ⟨hs.glob, hs.heap, rfl⟩⟩)

theorem forall₂_vals {d d' : Nat → Val} (h : ∀ j, R (d j) (d' j)) (n : Nat) :
    List.Forall₂ (R) (vals d n) (vals d' n) := by
  simp only [vals]
  induction List.range n with
  | nil => exact .nil
  | cons i l ih => exact .cons (h i) ih


end Verif.Core
