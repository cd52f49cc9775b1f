import Verif.Cgen.Spec
import Verif.Core.PrimRel
/-
Values, stores and environments of a program and of its generated code.
-/
namespace Verif.Cgen
open Verif.Core
variable {W : Type}

/-- the program: labels, procedures, closure entries, procedures of constant global variables. -/
structure Glob where
  labs : List Id
  lams : List Exp
  cases : List Curry
  cl : Id → Option Id

/-- an environment in which the labels have their meaning. -/
def Top (G : Glob) (ρ : Env) : Prop := ∀ l i, idxOf l G.labs = some i → ρ.lookup l = some (.rclos G.labs G.lams i .nil)

/-- Related values. -/
inductive VR (G : Glob) : Val → CVal → Prop
  | atom (n : Nat) : VR G (.atom n) (.atom n)
  | pair {a d : Val} {a' d' : CVal} : VR G a a' → VR G d d' → VR G (.pair a d) (.pair a' d')
  | box (a : Nat) : VR G (.box a) (.box a)
  | trap : VR G .trap .trap
  | clos {l : Id} {ps xs : List Id} {ρ : Env} {ws : List CVal} {n : Nat} (fv : Nat → Val) (fw : Nat → CVal) :
      G.cases[n]? = some ⟨l, ps.length, xs.length⟩ → l ∈ G.labs → ps.Nodup → (∀ x ∈ ps, plain x) → (∀ x ∈ xs, plain x) → (∀ x ∈ xs, x ∉ ps) → Top G ρ →
      ws.length = xs.length → (∀ i x, xs[i]? = some x → ρ.lookup x = some (fv i)) → (∀ i, i < xs.length → ws[i]? = some (fw i)) →
      (∀ i, i < xs.length → VR G (fv i) (fw i)) → VR G (.clos ps (curryBody l ps xs) ρ) (.blk (n + 1) ws)

/-- Related stores. -/
structure SR (G : Glob) (σ : Store W) (σt : CStore W) : Prop where
  glob : ∀ y, (σ.glob y = none ∧ σt.glob y = none) ∨ ∃ v w, σ.glob y = some v ∧ σt.glob y = some w ∧ VR G v w
  heap : List.Forall₂ (VR G) σ.heap σt.heap
  world : σ.world = σt.world
  const : ∀ x l v, G.cl x = some l → σ.glob x = some v → ∃ ps ρ, v = .clos ps (curryBody l ps []) ρ ∧ l ∈ G.labs ∧ ps.Nodup ∧ (∀ x ∈ ps, plain x) ∧ Top G ρ

/-- The variables in `S` are in the registers. -/
structure ER (G : Glob) (renv : Renv) (ρ : Env) (r : Regs) (S : Id → Prop) : Prop where
  top : Top G ρ
  reg : ∀ x, S x → plain x → ∃ p v w, pos (some x) renv = some p ∧ ρ.lookup x = some v ∧ r (renv.length - p - 1) = some w ∧ VR G v w

theorem VR.view {G : Glob} {v : Val} {w : CVal} (h : VR G v w) : v.view = w.view := by
  induction h with
  | pair _ _ ih1 ih2 => simp [Val.view, CVal.view, ih1, ih2]
  | _ => rfl

theorem VR.isFalse {G : Glob} {v : Val} {w : CVal} (h : VR G v w) : v.isFalse = w.isFalse := by cases h <;> rfl

theorem VR.views {G : Glob} {vs : List Val} {ws : List CVal} (h : List.Forall₂ (VR G) vs ws) : vs.map Val.view = ws.map CVal.view := by
  induction h with
  | nil => rfl
  | cons h1 _ ih => simp [h1.view, ih]

theorem f2_get {α β : Type} {R : α → β → Prop} {h : List α} {h' : List β} (hh : List.Forall₂ R h h') :
    ∀ {a : Nat} {v : α}, h[a]? = some v → ∃ w, h'[a]? = some w ∧ R v w := by
  induction hh with
  | nil => intro a v h; simp at h
  | cons h1 _ ih =>
    intro a v h
    cases a with
    | zero => simp only [List.getElem?_cons_zero, Option.some.injEq] at h; subst h; exact ⟨_, rfl, h1⟩
    | succ a => simpa using ih (by simpa using h)

theorem f2_put {α β : Type} {R : α → β → Prop} {h : List α} {h' : List β} (hh : List.Forall₂ R h h') {v : α} {w : β} (hv : R v w) :
    ∀ a : Nat, List.Forall₂ R (h.set a v) (h'.set a w) := by
  induction hh with
  | nil => intro a; exact .nil
  | cons h1 h2 ih =>
    intro a
    cases a with
    | zero => exact .cons hv h2
    | succ a => exact .cons h1 (ih a)

theorem f2_snoc {α β : Type} {R : α → β → Prop} {h : List α} {h' : List β} (hh : List.Forall₂ R h h') {v : α} {w : β} (hv : R v w) :
    List.Forall₂ R (h ++ [v]) (h' ++ [w]) := by
  induction hh with
  | nil => exact .cons hv .nil
  | cons h1 _ ih => exact .cons h1 ih

theorem f2_vals {G : Glob} {d : Nat → Val} {d' : Nat → CVal} {n : Nat} (h : ∀ j, j < n → VR G (d j) (d' j)) :
    List.Forall₂ (VR G) (Core.vals d n) (vals d' n) := by
  simp only [Core.vals, vals]
  have : ∀ l : List Nat, (∀ j ∈ l, j < n) → List.Forall₂ (VR G) (l.map d) (l.map d') := by
    intro l
    induction l with
    | nil => intro _; exact .nil
    | cons i l ih => intro hl; exact .cons (h i (hl i (List.mem_cons_self ..))) (ih (fun j hj => hl j (List.mem_cons_of_mem _ hj)))
  exact this _ (fun j hj => List.mem_range.1 hj)

theorem SR.set_glob {G : Glob} {σ : Store W} {σt : CStore W} {v : Val} {w : CVal} (h : SR G σ σt) (x : Id) (hv : VR G v w)
    (hc : ∀ l, G.cl x = some l → ∃ ps ρ, v = .clos ps (curryBody l ps []) ρ ∧ l ∈ G.labs ∧ ps.Nodup ∧ (∀ x ∈ ps, plain x) ∧ Top G ρ) :
    SR G { σ with glob := fun y => if y = x then some v else σ.glob y } { σt with glob := fun y => if y = x then some w else σt.glob y } := by
  refine ⟨fun y => ?_, h.heap, h.world, fun y l u hl hu => ?_⟩
  · by_cases e : y = x
    · right; exact ⟨v, w, by simp [e], by simp [e], hv⟩
    · simp only [e, if_false]; exact h.glob y
  · by_cases e : y = x
    · subst e; simp only [if_true, Option.some.injEq] at hu; subst hu; exact hc l hl
    · simp only [e, if_false] at hu; exact h.const y l u hl hu

/-- primitives. -/
theorem doPrim_rel {G : Glob} {M : Sem W} {p : PrimName} {vs : List Val} {ws : List CVal} {σ : Store W} {σt : CStore W}
    (hv : List.Forall₂ (VR G) vs ws) (hs : SR G σ σt) :
    Core.doPrim M p vs σ = none ∨
    (∃ v w, p = .halt ∧ Core.doPrim M p vs σ = some (.stop v) ∧ doPrim M p ws σt = some (.stop w) ∧ VR G v w) ∨
    (∃ v w σ' σt', Core.doPrim M p vs σ = some (.ok v σ') ∧ doPrim M p ws σt = some (.ok w σt') ∧ VR G v w ∧ SR G σ' σt') := by
  cases p with
  | void =>
    cases hv with
    | nil => exact Or.inr (Or.inr ⟨_, _, σ, σt, rfl, rfl, .atom 1, hs⟩)
    | cons => exact Or.inl rfl
  | halt =>
    cases hv with
    | nil => exact Or.inl rfl
    | cons h1 h2 =>
      cases h2 with
      | nil => exact Or.inr (Or.inl ⟨_, _, rfl, rfl, rfl, h1⟩)
      | cons => exact Or.inl rfl
  | ktrap =>
    cases hv with
    | nil => exact Or.inr (Or.inr ⟨_, _, σ, σt, rfl, rfl, .trap, hs⟩)
    | cons => exact Or.inl rfl
  | box =>
    cases hv with
    | nil => exact Or.inl rfl
    | cons h1 h2 =>
      cases h2 with
      | nil =>
        refine Or.inr (Or.inr ⟨_, _, _, _, rfl, rfl, ?_, ⟨hs.glob, f2_snoc hs.heap h1, hs.world, hs.const⟩⟩)
        rw [hs.heap.length_eq]; exact .box _
      | cons => exact Or.inl (by simp [Core.doPrim])
  | boxref =>
    cases hv with
    | nil => exact Or.inl rfl
    | cons h1 h2 =>
      cases h2 with
      | cons => exact Or.inl (boxref_two _ _ _ _)
      | nil =>
        cases h1 with
        | box a =>
          cases hg : σ.heap[a]? with
          | none => exact Or.inl (by simp [Core.doPrim, hg])
          | some v =>
            obtain ⟨w, hw, hr⟩ := f2_get hs.heap hg
            exact Or.inr (Or.inr ⟨v, w, σ, σt, by simp [Core.doPrim, hg], by simp [doPrim, hw], hr, hs⟩)
        | _ => exact Or.inl rfl
  | boxset =>
    cases hv with
    | nil => exact Or.inl rfl
    | cons h1 h2 =>
      cases h2 with
      | nil => exact Or.inl (boxset_one _ _)
      | cons h2 h3 =>
        cases h3 with
        | cons => exact Or.inl (boxset_three _ _ _ _ _)
        | nil =>
          rename_i v w
          cases h1 with
          | box a =>
            by_cases hl : a < σ.heap.length
            · exact Or.inr (Or.inr ⟨v, w, { σ with heap := σ.heap.set a v }, { σt with heap := σt.heap.set a w }, by simp only [Core.doPrim, if_pos hl],
                by simp only [doPrim, if_pos (hs.heap.length_eq ▸ hl)], h2,
                ⟨hs.glob, f2_put hs.heap h2 a, hs.world, hs.const⟩⟩)
            · exact Or.inl (by simp only [Core.doPrim, if_neg hl])
          | _ => exact Or.inl rfl
  | cons =>
    cases hv with
    | nil => exact Or.inl rfl
    | cons h1 h2 =>
      cases h2 with
      | nil => exact Or.inl rfl
      | cons h2 h3 =>
        cases h3 with
        | nil => exact Or.inr (Or.inr ⟨_, _, σ, σt, rfl, rfl, .pair h1 h2, hs⟩)
        | cons => exact Or.inl rfl
  | car =>
    cases hv with
    | nil => exact Or.inl rfl
    | cons h1 h2 =>
      cases h2 with
      | cons => exact Or.inl (car_two _ _ _ _)
      | nil =>
        cases h1 with
        | pair ha hd => exact Or.inr (Or.inr ⟨_, _, σ, σt, rfl, rfl, ha, hs⟩)
        | _ => exact Or.inl rfl
  | cdr =>
    cases hv with
    | nil => exact Or.inl rfl
    | cons h1 h2 =>
      cases h2 with
      | cons => exact Or.inl (cdr_two _ _ _ _)
      | nil =>
        cases h1 with
        | pair ha hd => exact Or.inr (Or.inr ⟨_, _, σ, σt, rfl, rfl, hd, hs⟩)
        | _ => exact Or.inl rfl
  | op n =>
    cases ho : M.op n (vs.map Val.view) σ.world with
    | none => exact Or.inl (by simp [Core.doPrim, ho])
    | some r =>
      have ho' : M.op n (ws.map CVal.view) σt.world = some r := by rw [← VR.views hv, ← hs.world]; exact ho
      exact Or.inr (Or.inr ⟨.atom r.1, .atom r.1, { σ with world := r.2 }, { σt with world := r.2 }, by simp only [Core.doPrim, ho]; rfl,
        by simp only [doPrim, ho']; rfl, .atom _, ⟨hs.glob, hs.heap, rfl, hs.const⟩⟩)

/-! ### environments -/

/-- the registers below `n` are the same. -/
def Below (n : Nat) (r r' : Regs) : Prop := ∀ j, j < n → r' j = r j

theorem Below.refl (n : Nat) (r : Regs) : Below n r r := fun _ _ => rfl
theorem Below.trans {n m : Nat} {r r' r'' : Regs} (h : Below n r r') (h' : Below m r' r'') (hl : n ≤ m) : Below n r r'' :=
  fun j hj => (h' j (by omega)).trans (h j hj)
theorem Below.mono {n m : Nat} {r r' : Regs} (h : Below m r r') (hl : n ≤ m) : Below n r r' := fun j hj => h j (by omega)
theorem Below.gc (n m : Nat) (r : Regs) (h : n ≤ m) : Below n r (r.gc m) := fun j hj => by simp [Regs.gc, show j < m by omega]
theorem Below.set (n i : Nat) (r : Regs) (v : CVal) (h : n ≤ i) : Below n r (r.set i v) := fun j hj => by
  simp [Regs.set, show j ≠ i by omega]

theorem pos_lt {x : Option Id} {renv : Renv} {p : Nat} (h : pos x renv = some p) : p < renv.length := by
  induction renv generalizing p with
  | nil => simp [pos] at h
  | cons y ys ih =>
    by_cases e : y = x
    · simp [pos, e] at h; subst h; simp
    · rw [pos, if_neg e] at h
      cases hp : pos x ys with
      | none => rw [hp] at h; simp at h
      | some q =>
        rw [hp] at h; simp at h; subst h
        have := ih hp; simp; omega

theorem ER.sub {G : Glob} {renv : Renv} {ρ : Env} {r : Regs} {S S' : Id → Prop} (h : ER G renv ρ r S) (hs : ∀ x, S' x → plain x → S x) : ER G renv ρ r S' :=
  ⟨h.top, fun x hx hp => h.reg x (hs x hx hp) hp⟩

theorem ER.below {G : Glob} {renv : Renv} {ρ : Env} {r r' : Regs} {S : Id → Prop} (h : ER G renv ρ r S) (hb : Below renv.length r r') : ER G renv ρ r' S := by
  refine ⟨h.top, fun x hx hp => ?_⟩
  obtain ⟨p, v, w, h1, h2, h3, h4⟩ := h.reg x hx hp
  have := pos_lt h1
  exact ⟨p, v, w, h1, h2, by rw [hb _ (by omega)]; exact h3, h4⟩

/-- a new temporary. -/
theorem ER.tmp {G : Glob} {renv : Renv} {ρ : Env} {r : Regs} {S : Id → Prop} (h : ER G renv ρ r S) : ER G (none :: renv) ρ r S := by
  refine ⟨h.top, fun x hx hp => ?_⟩
  obtain ⟨p, v, w, h1, h2, h3, h4⟩ := h.reg x hx hp
  have := pos_lt h1
  exact ⟨p + 1, v, w, by simp [pos, h1], h2, by rw [← h3]; congr 1; simp, h4⟩

/-- a register for a variable that does not matter. -/
theorem ER.skip {G : Glob} {renv : Renv} {ρ : Env} {r : Regs} {S : Id → Prop} (h : ER G renv ρ r S) (x : Id) (hx : ¬ S x) : ER G (some x :: renv) ρ r S := by
  refine ⟨h.top, fun y hy hp => ?_⟩
  obtain ⟨p, v, w, h1, h2, h3, h4⟩ := h.reg y hy hp
  have := pos_lt h1
  have hne : x ≠ y := by rintro rfl; exact hx hy
  exact ⟨p + 1, v, w, by simp [pos, h1, hne], h2, by rw [← h3]; congr 1; simp, h4⟩

end Verif.Cgen
