import Verif.Globals.Rel
import Verif.Fold.Sim
/-
A program and the program with inlined global constants run in step (C65).
-/
namespace Verif.Globals
open Verif.Core
open Verif.Fold (perm_one perm_two)
open Verif.Beta (lookup_skip lookup_rel idxOf_none lt_of_get vals_known)
variable {W : Type} {C : Ctx W}

/-- the machine, for both programs. -/
abbrev Ctx.stp (C : Ctx W) : State W → Option (State W) := step C.M C.Q

/-! ### stores -/

/-- primitives leave the global variables alone. -/
theorem doPrim_glob (M : Sem W) (p : PrimName) (vs : List Val) (σ : Store W) (g : Id → Option Val) :
    doPrim M p vs { σ with glob := g } = (doPrim M p vs σ).map (fun r => match r with | .ok v σ' => .ok v { σ' with glob := g } | .stop v => .stop v) := by
  cases p with
  | void => cases vs <;> rfl
  | halt => rcases vs with _ | ⟨v, _ | ⟨u, vs⟩⟩ <;> rfl
  | ktrap => cases vs <;> rfl
  | box => rcases vs with _ | ⟨v, _ | ⟨u, vs⟩⟩ <;> rfl
  | boxref =>
    rcases vs with _ | ⟨v, _ | ⟨u, vs⟩⟩
    · rfl
    · cases v <;> simp only [doPrim, Option.map_none]
      rename_i a
      cases h : σ.heap[a]? <;> simp
    · rw [boxref_two, boxref_two]; rfl
  | boxset =>
    rcases vs with _ | ⟨v, _ | ⟨u, _ | ⟨u', vs⟩⟩⟩
    · rfl
    · rw [boxset_one, boxset_one]; rfl
    · cases v <;> simp only [doPrim, Option.map_none]
      rename_i a
      by_cases h : a < σ.heap.length
      · simp [h]
      · simp [h]
    · rw [boxset_three, boxset_three]; rfl
  | cons => rcases vs with _ | ⟨v, _ | ⟨u, _ | ⟨u', vs⟩⟩⟩ <;> rfl
  | car =>
    rcases vs with _ | ⟨v, _ | ⟨u, vs⟩⟩
    · rfl
    · cases v <;> rfl
    · rw [car_two, car_two]; rfl
  | cdr =>
    rcases vs with _ | ⟨v, _ | ⟨u, vs⟩⟩
    · rfl
    · cases v <;> rfl
    · rw [cdr_two, cdr_two]; rfl
  | op n => simp only [doPrim]; cases h : M.op n (vs.map Val.view) σ.world <;> simp

/-- primitives. -/
theorem prim_rel {M : Sem W} {p : PrimName} {vs ws : List Val} {σ σt : Store W} (hv : List.Forall₂ (VR C) vs ws) (hs : SR C σ σt) :
    doPrim M p vs σ = none ∨
    (∃ v w, doPrim M p vs σ = some (.stop v) ∧ doPrim M p ws σt = some (.stop w) ∧ VR C v w) ∨
    (∃ v w σ' σt', doPrim M p vs σ = some (.ok v σ') ∧ doPrim M p ws σt = some (.ok w σt') ∧ VR C v w ∧ SR C σ' σt') := by
  have h0 : StoreRel (VR C) { σ with glob := fun _ => none } { σt with glob := fun _ => none } := ⟨fun _ => Or.inl ⟨rfl, rfl⟩, hs.heap, hs.world⟩
  have e1 := doPrim_glob M p vs { σ with glob := fun _ => none } σ.glob
  have e2 := doPrim_glob M p ws { σt with glob := fun _ => none } σt.glob
  rw [show ({ ({ σ with glob := fun _ => none } : Store W) with glob := σ.glob } : Store W) = σ from rfl] at e1
  rw [show ({ ({ σt with glob := fun _ => none } : Store W) with glob := σt.glob } : Store W) = σt from rfl] at e2
  rcases doPrim_rel primRel (M := M) (p := p) hv h0 with h1 | ⟨v, w, h1, h2, h3⟩ | ⟨v, w, σ', σt', h1, h2, h3, h4⟩
  · rw [h1] at e1; exact Or.inl e1
  · rw [h1] at e1; rw [h2] at e2; exact Or.inr (Or.inl ⟨v, w, e1, e2, h3⟩)
  · rw [h1] at e1; rw [h2] at e2
    exact Or.inr (Or.inr ⟨v, w, _, _, e1, e2, h3, ⟨hs.glob, hs.inl, h4.heap, h4.world⟩⟩)

theorem SR.set_glob {σ σt : Store W} {v w : Val} (h : SR C σ σt) (x : Id) (hv : VR C v w) (hx : ∀ X, C.S x = some X → IsX C v X) :
    SR C { σ with glob := fun y => if y = x then some v else σ.glob y } { σt with glob := fun y => if y = x then some w else σt.glob y } := by
  refine ⟨fun y hy => ?_, fun y X u hX hu => ?_, h.heap, h.world⟩
  · by_cases e : y = x
    · right; exact ⟨v, w, by simp [e], by simp [e], hv⟩
    · simp only [e, if_false]; exact h.glob y hy
  · by_cases e : y = x
    · subst e; simp only [if_true, Option.some.injEq] at hu; subst hu; exact hx X hX
    · simp only [e, if_false] at hu; exact h.inl y X u hX hu

/-- An assignment that is removed. -/
theorem SR.set_left {σ σt : Store W} {v : Val} (h : SR C σ σt) (x : Id) (hr : C.rm x = true) (hx : ∀ X, C.S x = some X → IsX C v X) :
    SR C { σ with glob := fun y => if y = x then some v else σ.glob y } σt := by
  refine ⟨fun y hy => ?_, fun y X u hX hu => ?_, h.heap, h.world⟩
  · by_cases e : y = x
    · rw [e, hr] at hy; cases hy
    · simp only [e, if_false]; exact h.glob y hy
  · by_cases e : y = x
    · subst e; simp only [if_true, Option.some.injEq] at hu; subst hu; exact hx X hX
    · simp only [e, if_false] at hu; exact h.inl y X u hX hu

/-! ### environments -/

theorem ER.weaken {S S' : Id → Prop} {ρ ρt : Env} (h : ER C S ρ ρt) (hS : ∀ y, S' y → S y) : ER C S' ρ ρt :=
  ⟨fun y v hg h1 => h.ex y v hg (hS y h1), fun y v w hg h1 => h.all y v w hg (hS y h1)⟩

theorem ER.closed {S : Id → Prop} {ρ ρt : Env} (h : ∀ y, S y → y.isGlobal = true) : ER C S ρ ρt :=
  ⟨fun y _ hg h1 => absurd (h y h1) (by simp [hg]), fun y _ _ hg h1 => absurd (h y h1) (by simp [hg])⟩

theorem ER.formals {ids : List Id} {b : Exp} {ρ ρt : Env} {vs ws : List Val} (h : ER C (Free · (.lam ids b)) ρ ρt)
    (hv : List.Forall₂ (VR C) vs ws) (hl : ids.length = vs.length) : ER C (Free · b) (bindAll ids vs ρ) (bindAll ids ws ρt) := by
  refine ⟨?_, ?_⟩
  · intro y v hg hy h1
    by_cases hm : y ∈ ids
    · obtain ⟨_, w, _, h2, _⟩ := lookup_rel (ρ := ρ) (ρt := ρt) hv hl hm
      exact ⟨w, h2⟩
    · rw [lookup_skip hm] at h1 ⊢
      exact h.ex y v hg (.lam hm hy) h1
  · intro y v w hg hy h1 h2
    by_cases hm : y ∈ ids
    · obtain ⟨v', w', h1', h2', h3⟩ := lookup_rel (ρ := ρ) (ρt := ρt) hv hl hm
      rw [h1'] at h1; rw [h2'] at h2
      injection h1 with h1; injection h2 with h2; subst h1; subst h2
      exact h3
    · rw [lookup_skip hm] at h1 h2
      exact h.all y v w hg (.lam hm hy) h1 h2

theorem ER.bind {S S' : Id → Prop} {ρ ρt : Env} {x : Id} {v w : Val} (h : ER C S ρ ρt) (hv : VR C v w) (hS : ∀ y, y ≠ x → S' y → S y) :
    ER C S' (.bind x v ρ) (.bind x w ρt) := by
  refine ⟨?_, ?_⟩
  · intro y u hg hy h1
    by_cases e : y = x
    · exact ⟨w, by simp [Env.lookup, e]⟩
    · simp only [Env.lookup, if_neg e] at h1 ⊢
      exact h.ex y u hg (hS y e hy) h1
  · intro y u u' hg hy h1 h2
    by_cases e : y = x
    · simp only [Env.lookup, e, if_true, Option.some.injEq] at h1 h2
      subst h1; subst h2; exact hv
    · simp only [Env.lookup, if_neg e] at h1 h2
      exact h.all y u u' hg (hS y e hy) h1 h2

theorem ER.fix {S S' : Id → Prop} {ρ ρt : Env} {ids : List Id} {lams lams' : List Exp} (h : ER C S ρ ρt)
    (hl : Gs C lams lams') (hS : ∀ y, S' y → y ∉ ids → S y)
    (hS2 : ∀ y, (∃ l ∈ lams', Free y l) → y ∉ ids → S y) : ER C S' (.fix ids lams ρ) (.fix ids lams' ρt) := by
  refine ⟨?_, ?_⟩
  · intro y v hg hy h1
    rw [Env.lookup] at h1
    cases hi : idxOf y ids with
    | some i =>
      rw [Env.lookup, hi]
      exact ⟨_, rfl⟩
    | none =>
      rw [hi] at h1
      rw [Env.lookup, hi]
      exact h.ex y v hg (hS y hy (idxOf_none.mp hi)) h1
  · intro y v w hg hy h1 h2
    rw [Env.lookup] at h1 h2
    cases hi : idxOf y ids with
    | some i =>
      rw [hi] at h1 h2
      injection h1 with h1; injection h2 with h2; subst h1; subst h2
      exact .rclos hl (fun y v hg hy hm => h.ex y v hg (hS2 y hy hm)) (fun y v w hg hy hm => h.all y v w hg (hS2 y hy hm))
    | none =>
      rw [hi] at h1 h2
      exact h.all y v w hg (hS y hy (idxOf_none.mp hi)) h1 h2

/-! ### degenerate lets -/

theorem beg_in {M : Sem W} {Q : Op → List Exp → List Nat} (hQ : FairOrder Q) (x : Id) (b e : Exp) (ρ : Env) (κ : Kont) (σ : Store W) :
    ∃ d todo, Wait x b ρ d todo ∧ Quiet (step M Q) (.ev (.app (.lam [x] b) [e]) ρ κ σ) (.ev e ρ (.args .call [.lam [x] b, e] d 1 todo ρ κ) σ) := by
  have hp := hQ .call [.lam [x] b, e]
  rcases perm_two hp with h | h
  · refine ⟨upd (fun _ => .trap) 0 (.clos [x] b ρ), [], Or.inr ⟨rfl, rfl⟩, ?_⟩
    have h0 : step M Q (.ev (.app (.lam [x] b) [e]) ρ κ σ) = some (.args .call [.lam [x] b, e] (fun _ => .trap) [0, 1] ρ κ σ) := by simp [step, h]
    exact .step h0 rfl (.step rfl rfl (.step rfl rfl (.step rfl rfl (.one rfl rfl))))
  · refine ⟨fun _ => .trap, [0], Or.inl rfl, ?_⟩
    have h0 : step M Q (.ev (.app (.lam [x] b) [e]) ρ κ σ) = some (.args .call [.lam [x] b, e] (fun _ => .trap) [1, 0] ρ κ σ) := by simp [step, h]
    exact .step h0 rfl (.one rfl rfl)

theorem beg_out {M : Sem W} {Q : Op → List Exp → List Nat} {x : Id} {e : Exp} {ρ : Env} {d : Nat → Val} {todo : List Nat} (hx : x.isGlobal = false) (hw : Wait x (.var x) ρ d todo) (κ : Kont) (σ : Store W) (v : Val) :
    Quiet (step M Q) (.ret v (.args .call [.lam [x] (.var x), e] d 1 todo ρ κ) σ) (.ret v κ σ) := by
  have q : Quiet (step M Q) (.ap (.clos [x] (.var x) ρ) [v] κ σ) (.ret v κ σ) :=
    .step (b := .ev (.var x) (.bind x v ρ) κ σ) rfl rfl (.one (by simp [step, hx, Env.lookup]) rfl)
  refine Quiet.trans (b := .ap (.clos [x] (.var x) ρ) [v] κ σ) ?_ q
  rcases hw with rfl | ⟨rfl, h0⟩
  · refine .step rfl rfl (.step rfl rfl (.step rfl rfl (.step rfl rfl (.one ?_ rfl))))
    simp [step, vals, List.range_succ, upd]
  · have h1 : step M Q (.args .call [.lam [x] (.var x), e] (upd d 1 v) [] ρ κ σ) = some (.ap (.clos [x] (.var x) ρ) [v] κ σ) := by
      simp [step, vals, List.range_succ, upd, h0]
    exact .step rfl rfl (.one h1 rfl)

theorem null_in {M : Sem W} {Q : Op → List Exp → List Nat} (hQ : FairOrder Q) (b : Exp) (ρ : Env) (κ : Kont) (σ : Store W) :
    Quiet (step M Q) (.ev (.app (.lam [] b) []) ρ κ σ) (.ev b ρ κ σ) := by
  have ho := perm_one (hQ .call [.lam [] b])
  refine .step (b := .args .call [.lam [] b] (fun _ => .trap) [0] ρ κ σ) ?_ rfl (.step rfl rfl (.step rfl rfl (.step rfl rfl (.step rfl rfl (.one rfl rfl)))))
  simp only [step]; rw [ho]

/-- a primitive without operands. -/
theorem prim_in {M : Sem W} {Q : Op → List Exp → List Nat} (hQ : FairOrder Q) (eff : Effect) (p : PrimName) (ρ : Env) (κ : Kont) (σ : Store W) :
    step M Q (.ev (.prim eff p []) ρ κ σ) = some (.args (.prim eff p) [] (fun _ => .trap) [] ρ κ σ) := by
  have := hQ (.prim eff p) []
  simp only [List.length_nil, List.range_zero, List.perm_nil] at this
  simp only [step, this]

theorem prim_run {M : Sem W} {Q : Op → List Exp → List Nat} (hQ : FairOrder Q) {eff : Effect} {p : PrimName} {v : Val} (h : ∀ σ, doPrim M p [] σ = some (.ok v σ)) (ρ : Env) (κ : Kont) (σ : Store W) :
    Quiet (step M Q) (.ev (.prim eff p []) ρ κ σ) (.ret v κ σ) :=
  .step (prim_in hQ eff p ρ κ σ) rfl (.one (by simp [step, vals, h]) rfl)

/-- evaluation of what stands for a constant. -/
theorem isX_run (hQ : FairOrder C.Q) {v : Val} {X : Exp} (hv : Vish C.M X) (h : IsX C v X) (ρ : Env) (κ : Kont) (σ : Store W) :
    ∃ w, Quiet C.stp (.ev X ρ κ σ) (.ret w κ σ) ∧ VR C v w := by
  rcases hv with ⟨ids, b, rfl⟩ | ⟨p, rfl, hc⟩
  · exact ⟨.clos ids b ρ, .one rfl rfl, h ρ⟩
  · obtain ⟨w, h1, h2⟩ := h
    exact ⟨w, prim_run hQ h2 ρ κ σ, h1⟩

/-! ### definitions -/

/-- what the given definition evaluates to. -/
theorem def_run (hQ : FairOrder C.Q) (hC : C.Good) : {e X : Exp} → G C e X → simple e = true → Vish C.M X → (∀ y, Free y X → y.isGlobal = true) → ∀ {σ σt : Store W}, SR C σ σt → ∀ (ρ : Env) (κ : Kont),
    Fails C.stp (.ev e ρ κ σ) ∨ ∃ v, Quiet C.stp (.ev e ρ κ σ) (.ret v κ σ) ∧ IsX C v X
  | _, _, .var _, _, hX, _, _, _, _, _, _ => by rcases hX with ⟨_, _, h⟩ | ⟨_, h, _⟩ <;> cases h
  | _, _, .inl (x := x) (X := X) h, _, hX, hcl, σ, σt, hs, ρ, κ => by
    have hg := hC.glob x X h
    cases hl : σ.glob x with
    | none => exact Or.inl (.now (by simp [step, hg, hl]) (by simp))
    | some v => exact Or.inr ⟨v, .one (by simp [step, hg, hl]) rfl, hs.inl x X v h hl⟩
  | _, _, .set .., h, _, _, _, _, _, _, _ => by simp [simple] at h
  | _, _, .setD .., h, _, _, _, _, _, _, _ => by simp [simple] at h
  | _, _, .setV .., h, _, _, _, _, _, _, _ => by simp [simple] at h
  | _, _, .setR .., h, _, _, _, _, _, _, _ => by simp [simple] at h
  | _, _, .ite .., h, _, _, _, _, _, _, _ => by simp [simple] at h
  | _, _, .prim (eff := eff) (p := p) f1, _, hX, _, σ, σt, hs, ρ, κ => by
    rcases hX with ⟨_, _, h⟩ | ⟨p', h, hc⟩
    · cases h
    · injection h with h1 h2 h3
      subst h1; subst h2; subst h3
      cases f1
      rcases hc with hc | ⟨v, hc⟩
      · refine Or.inl (Fails.of_reach (Quiet.reach (.one (prim_in hQ _ p ρ κ σ) rfl)) (.now ?_ (by simp)))
        simp [step, vals, hc]
      · refine Or.inr ⟨v, prim_run hQ hc ρ κ σ, v, ?_, hc⟩
        rcases prim_rel (M := C.M) (p := p) (C := C) .nil hs with h1 | ⟨v', w, h1, h2, h3⟩ | ⟨v', w, σ', σt', h1, h2, h3, h4⟩
        · rw [hc] at h1; cases h1
        · rw [hc] at h1; cases h1
        · rw [hc] at h1 h2; cases h1; cases h2; exact h3
  | _, _, .app .., _, hX, _, _, _, _, _, _ => by rcases hX with ⟨_, _, h⟩ | ⟨_, h, _⟩ <;> cases h
  | _, _, .lam (ids := ids) (b := b) f1, _, hX, hcl, σ, σt, hs, ρ, κ =>
    Or.inr ⟨.clos ids b ρ, .one rfl rfl, fun ρt => .clos f1 (ER.closed (C := C) hcl).ex (ER.closed hcl).all⟩
  | _, _, .fix .., h, _, _, _, _, _, _, _ => by simp [simple] at h
  | _, _, .letcc .., h, _, _, _, _, _, _, _ => by simp [simple] at h
  | _, _, .withcc .., h, _, _, _, _, _, _, _ => by simp [simple] at h
  | _, _, .null (b := b) f1, hsi, hX, hcl, σ, σt, hs, ρ, κ => by
    have q := null_in (M := C.M) hQ b ρ κ σ
    rcases def_run hQ hC f1 (by simpa [simple, simples] using hsi) hX hcl hs ρ κ with h | ⟨v, h1, h2⟩
    · exact Or.inl (h.of_reach q.reach)
    · exact Or.inr ⟨v, q.trans h1, h2⟩
  | _, _, .idl (x := x) (e := e) hx f1, hsi, hX, hcl, σ, σt, hs, ρ, κ => by
    obtain ⟨d, todo, hw, q⟩ := beg_in (M := C.M) hQ x (.var x) e ρ κ σ
    rcases def_run hQ hC f1 (by simpa [simple, simples] using hsi) hX hcl hs ρ (.args .call [.lam [x] (.var x), e] d 1 todo ρ κ) with h | ⟨v, h1, h2⟩
    · exact Or.inl (h.of_reach q.reach)
    · exact Or.inr ⟨v, (q.trans h1).trans (beg_out hx hw κ σ v), h2⟩

/-- what the given definition and its replacement evaluate to. -/
theorem def_both (hQ : FairOrder C.Q) (hC : C.Good) : {e X e' : Exp} → G C e X → simple e = true → G C e e' → Vish C.M X → (∀ y, Free y X → y.isGlobal = true) →
    ∀ {σ σt : Store W}, SR C σ σt → ∀ {ρ ρt : Env}, ER C (Free · e') ρ ρt → ∀ (κ κ' : Kont),
    Fails C.stp (.ev e ρ κ σ) ∨ ∃ v w, Quiet C.stp (.ev e ρ κ σ) (.ret v κ σ) ∧ Quiet C.stp (.ev e' ρt κ' σt) (.ret w κ' σt) ∧ VR C v w ∧ IsX C v X
  | _, _, _, .var _, _, _, hX, _, _, _, _, _, _, _, _, _ => by rcases hX with ⟨_, _, h⟩ | ⟨_, h, _⟩ <;> cases h
  | _, _, _, .inl (x := x) (X := X) h, _, h', hX, hcl, σ, σt, hs, ρ, ρt, he, κ, κ' => by
    have hg := hC.glob x X h
    cases hl : σ.glob x with
    | none => exact Or.inl (.now (by simp [step, hg, hl]) (by simp))
    | some v =>
      have q : Quiet C.stp (.ev (.var x) ρ κ σ) (.ret v κ σ) := .one (by simp [step, hg, hl]) rfl
      have hi := hs.inl x X v h hl
      cases h' with
      | var hr =>
        rcases hs.glob x hr with ⟨h1, _⟩ | ⟨v', w, h1, h2, h3⟩
        · rw [hl] at h1; cases h1
        · rw [hl] at h1; cases h1
          exact Or.inr ⟨v, w, q, .one (by simp [step, hg, h2]) rfl, h3, hi⟩
      | inl h'' =>
        rw [h] at h''; cases h''
        obtain ⟨w, h1, h2⟩ := isX_run hQ hX hi ρt κ' σt
        exact Or.inr ⟨v, w, q, h1, h2, hi⟩
  | _, _, _, .set .., h, _, _, _, _, _, _, _, _, _, _, _ => by simp [simple] at h
  | _, _, _, .setD .., h, _, _, _, _, _, _, _, _, _, _, _ => by simp [simple] at h
  | _, _, _, .setV .., h, _, _, _, _, _, _, _, _, _, _, _ => by simp [simple] at h
  | _, _, _, .setR .., h, _, _, _, _, _, _, _, _, _, _, _ => by simp [simple] at h
  | _, _, _, .ite .., h, _, _, _, _, _, _, _, _, _, _, _ => by simp [simple] at h
  | _, _, _, .prim (eff := eff) (p := p) f1, hsi, h', hX, hcl, σ, σt, hs, ρ, ρt, he, κ, κ' => by
    have hd := def_run hQ hC (.prim (eff := eff) (p := p) f1) hsi hX hcl hs ρ κ
    rcases hd with hd | ⟨v, h1, h2⟩
    · exact Or.inl hd
    · have hl := f1.length
      obtain ⟨w, h3, h4⟩ := isX_run hQ hX h2 ρt κ' σt
      rcases hX with ⟨_, _, h⟩ | ⟨p', h, hc⟩
      · cases h
      · injection h with e1 e2 e3
        subst e1; subst e2; subst e3
        cases f1
        cases h' with
        | prim f2 => cases f2; exact Or.inr ⟨v, w, h1, h3, h4, h2⟩
  | _, _, _, .app .., _, _, hX, _, _, _, _, _, _, _, _, _ => by rcases hX with ⟨_, _, h⟩ | ⟨_, h, _⟩ <;> cases h
  | _, _, _, .lam (ids := ids) (b := b) f1, _, h', hX, hcl, σ, σt, hs, ρ, ρt, he, κ, κ' => by
    cases h' with
    | lam f2 =>
      exact Or.inr ⟨.clos ids b ρ, _, .one rfl rfl, .one rfl rfl, .clos f2 he.ex he.all, fun ρt => .clos f1 (ER.closed (C := C) hcl).ex (ER.closed hcl).all⟩
  | _, _, _, .fix .., h, _, _, _, _, _, _, _, _, _, _, _ => by simp [simple] at h
  | _, _, _, .letcc .., h, _, _, _, _, _, _, _, _, _, _, _ => by simp [simple] at h
  | _, _, _, .withcc .., h, _, _, _, _, _, _, _, _, _, _, _ => by simp [simple] at h
  | _, _, _, .null (b := b) f1, hsi, h', hX, hcl, σ, σt, hs, ρ, ρt, he, κ, κ' => by
    cases h' with
    | app hd => simp [isDegLet, isNullLet] at hd
    | null f2 =>
      have q := null_in (M := C.M) hQ b ρ κ σ
      rcases def_both hQ hC f1 (by simpa [simple, simples] using hsi) f2 hX hcl hs he κ κ' with h | ⟨v, w, h1, h2, h3⟩
      · exact Or.inl (h.of_reach q.reach)
      · exact Or.inr ⟨v, w, q.trans h1, h2, h3⟩
  | _, _, _, .idl (x := x) (e := e) hx f1, hsi, h', hX, hcl, σ, σt, hs, ρ, ρt, he, κ, κ' => by
    cases h' with
    | app hd => simp [isDegLet, isNullLet, isIdLet] at hd
    | idl _ f2 =>
      obtain ⟨d, todo, hw, q⟩ := beg_in (M := C.M) hQ x (.var x) e ρ κ σ
      rcases def_both hQ hC f1 (by simpa [simple, simples] using hsi) f2 hX hcl hs he (.args .call [.lam [x] (.var x), e] d 1 todo ρ κ) κ' with h | ⟨v, w, h1, h2, h3⟩
      · exact Or.inl (h.of_reach q.reach)
      · exact Or.inr ⟨v, w, (q.trans h1).trans (beg_out hx hw κ σ v), h2, h3⟩

/-! ### evaluation -/

/-- `s` fails, both finish alike, or both get to related states. -/
def Next (C : Ctx W) (s t : State W) : Prop :=
  Fails C.stp s ∨ (∃ v v' w, Quiet C.stp s (.done v w) ∧ Quiet C.stp t (.done v' w) ∧ v.view = v'.view) ∨
  (∃ s' t', Move C.stp s s' ∧ Move C.stp t t' ∧ Sync C s' t')

theorem Next.left {s s' t : State W} (h : Quiet C.stp s s') (ho : Next C s' t) : Next C s t := by
  rcases ho with hf | ⟨v, v', w, h1, h2, hv⟩ | ⟨a, b, h1, h2, hs⟩
  · exact Or.inl (hf.of_reach h.reach)
  · exact Or.inr (Or.inl ⟨v, v', w, h.trans h1, h2, hv⟩)
  · exact Or.inr (Or.inr ⟨a, b, h1.before h, h2, hs⟩)

theorem Next.sync {s s' t t' : State W} (h1 : C.stp s = some s') (h2 : C.stp t = some t') (hs : Sync C s' t') : Next C s t :=
  Or.inr (Or.inr ⟨s', t', .one h1, .one h2, hs⟩)

theorem Next.moves {s s' t t' : State W} (h1 : Move C.stp s s') (h2 : Move C.stp t t') (hs : Sync C s' t') : Next C s t :=
  Or.inr (Or.inr ⟨s', t', h1, h2, hs⟩)

theorem Next.fail {s t : State W} (h : C.stp s = none) (hd : ∀ v w, s ≠ .done v w) : Next C s t := Or.inl (Fails.now h hd)

/-- at least one step. -/
theorem ev_move {f : State W → Option (State W)} {e : Exp} {ρ : Env} {κ κ' : Kont} {σ σ' : Store W} {v : Val} (h : Quiet f (.ev e ρ κ σ) (.ret v κ' σ')) :
    Move f (.ev e ρ κ σ) (.ret v κ' σ') := by
  cases h with
  | step h1 hw h2 => exact Move.after (.one h1) hw h2

/-- both programs evaluate a removed assignment. -/
theorem set_void (hQ : FairOrder C.Q) {x : Id} {e : Exp} {X : Exp} (hx : x.isGlobal = true) (hS : C.S x = some X) (hr : C.rm x = true) {v : Val} {ρ ρt : Env} {κ κ' : Kont} {σ σt : Store W}
    (hk : KR C κ κ') (hs : SR C σ σt) (q : Quiet C.stp (.ev e ρ (.set x κ) σ) (.ret v (.set x κ) σ)) (hi : IsX C v X) :
    Next C (.ev (.set x e) ρ κ σ) (.ev voidExp ρt κ' σt) := by
  refine .moves (s' := .ret (.atom 1) κ { σ with glob := fun y => if y = x then some v else σ.glob y }) (t' := .ret (.atom 1) κ' σt)
    ⟨_, .step (b := .ev e ρ (.set x κ) σ) (by simp [step, hx]) rfl q, rfl⟩ (ev_move (prim_run hQ (fun _ => rfl) ρt κ' σt))
    (.ret (.atom 1) hk (hs.set_left x hr (fun X' hX' => by rw [hS] at hX'; cases hX'; exact hi)))

theorem ev_ok (hQ : FairOrder C.Q) (hU : Uniform C.Q) (hC : C.Good) : {e e' : Exp} → G C e e' → ∀ {ρ ρt : Env} {κ κ' : Kont} {σ σt : Store W},
    ER C (Free · e') ρ ρt → KR C κ κ' → SR C σ σt → Next C (.ev e ρ κ σ) (.ev e' ρt κ' σt)
  | _, _, .var (x := x) hr, ρ, ρt, κ, κ', σ, σt, he, hk, hs => by
    cases hgl : x.isGlobal with
    | true =>
      rcases hs.glob x hr with ⟨h1, _⟩ | ⟨v, w, h1, h2, h3⟩
      · exact .fail (by simp [step, hgl, h1]) (fun _ _ => by simp)
      · exact .sync (s' := .ret v κ σ) (t' := .ret w κ' σt) (by simp [step, hgl, h1]) (by simp [step, hgl, h2]) (.ret h3 hk hs)
    | false =>
      cases hl : ρ.lookup x with
      | none => exact .fail (by simp [step, hgl, hl]) (fun _ _ => by simp)
      | some v =>
        obtain ⟨w, hw⟩ := he.ex x v hgl .var hl
        exact .sync (s' := .ret v κ σ) (t' := .ret w κ' σt) (by simp [step, hgl, hl]) (by simp [step, hgl, hw])
          (.ret (he.all x v w hgl .var hl hw) hk hs)
  | _, _, .inl (x := x) (X := X) h, ρ, ρt, κ, κ', σ, σt, he, hk, hs => by
    have hg := hC.glob x X h
    cases hl : σ.glob x with
    | none => exact .fail (by simp [step, hg, hl]) (fun _ _ => by simp)
    | some v =>
      obtain ⟨w, h1, h2⟩ := isX_run hQ (hC.form x X h) (hs.inl x X v h hl) ρt κ' σt
      exact .moves (s' := .ret v κ σ) (.one (by simp [step, hg, hl])) (ev_move h1) (.ret h2 hk hs)
  | _, _, .set (x := x) (e := e) (e' := e') hS f1, ρ, ρt, κ, κ', σ, σt, he, hk, hs => by
    cases hg : x.isGlobal with
    | true =>
      exact .sync (s' := .ev e ρ (.set x κ) σ) (t' := .ev e' ρt (.set x κ') σt) (by simp [step, hg]) (by simp [step, hg])
        (.ev f1 (he.weaken (fun y hy => .set x hy)) (.set hS hk) hs)
    | false => exact .fail (by simp [step, hg]) (fun _ _ => by simp)
  | _, _, .setD (x := x) (e := e) (e' := e') (X := X) hS hr hsi f1 f2, ρ, ρt, κ, κ', σ, σt, he, hk, hs => by
    have hg := hC.glob x X hS
    have q1 : Quiet C.stp (.ev (.set x e) ρ κ σ) (.ev e ρ (.set x κ) σ) := .one (by simp [step, hg]) rfl
    have q2 : Quiet C.stp (.ev (.set x e') ρt κ' σt) (.ev e' ρt (.set x κ') σt) := .one (by simp [step, hg]) rfl
    rcases def_both hQ hC f1 hsi f2 (hC.form x X hS) (fun y => hC.closed x X y hS) hs (he.weaken (fun y hy => .set x hy)) (.set x κ) (.set x κ') with h | ⟨v, w, h1, h2, h3, h4⟩
    · exact Or.inl (h.of_reach q1.reach)
    · exact .moves ⟨_, q1.trans h1, rfl⟩ ⟨_, q2.trans h2, rfl⟩
        (.ret (.atom 1) hk (hs.set_glob x h3 (fun X' hX' => by rw [hS] at hX'; cases hX'; exact h4)))
  | _, _, .setV (x := x) (e := e) (X := X) hS hsi f1 hr, ρ, ρt, κ, κ', σ, σt, he, hk, hs => by
    have hg := hC.glob x X hS
    rcases def_run hQ hC f1 hsi (hC.form x X hS) (fun y => hC.closed x X y hS) hs ρ (.set x κ) with h | ⟨v, h1, h2⟩
    · have q : Quiet C.stp (.ev (.set x e) ρ κ σ) (.ev e ρ (.set x κ) σ) := .one (by simp [step, hg]) rfl
      exact Or.inl (h.of_reach q.reach)
    · exact set_void hQ hg hS hr hk hs h1 h2
  | _, _, .setR (x := x) (g := g) (ids := ids) (b := b) (b' := b') hS hgg f1 hr, ρ, ρt, κ, κ', σ, σt, he, hk, hs => by
    have hg := hC.glob x _ hS
    have hcl := fun y => hC.closed x _ y hS
    · refine set_void (v := .rclos [g] [.lam ids b] 0 ρ) hQ hg hS hr hk hs (.step (b := .ev (.var g) (.fix [g] [.lam ids b] ρ) (.set x κ) σ) rfl rfl (.one ?_ rfl)) (fun ρt => .rc f1 hcl)
      simp [step, hgg, Env.lookup, idxOf]
  | _, _, .ite (a := a) (b := b) (c := c) (a' := a') (b' := b') (c' := c') f1 f2 f3, ρ, ρt, κ, κ', σ, σt, he, hk, hs =>
    .sync (s' := .ev a ρ (.ite b c ρ κ) σ) (t' := .ev a' ρt (.ite b' c' ρt κ') σt) rfl rfl
      (.ev f1 (he.weaken (fun y hy => .iteA _ _ hy))
        (.ite f2 f3 (fun y v hg hy => he.ex y v hg (hy.elim (fun h => .iteB _ _ h) (fun h => .iteC _ _ h)))
          (fun y v w hg hy => he.all y v w hg (hy.elim (fun h => .iteB _ _ h) (fun h => .iteC _ _ h))) hk) hs)
  | _, _, .prim (eff := eff) (p := p) (es := es) (es' := es') f1, ρ, ρt, κ, κ', σ, σt, he, hk, hs => by
    refine .sync (s' := .args (.prim eff p) es (fun _ => .trap) (C.Q (.prim eff p) es) ρ κ σ)
      (t' := .args (.prim eff p) es' (fun _ => .trap) (C.Q (.prim eff p) es) ρt κ' σt) rfl ?_
      (.args f1 (he.weaken (fun y ⟨e, h, hy⟩ => .prim _ _ h hy)) (fun _ => .trap) hk hs)
    simp only [step]; rw [hU _ es es' f1.length]
  | _, _, .app (f := f) (f' := f') (es := es) (es' := es') _ f1 f2, ρ, ρt, κ, κ', σ, σt, he, hk, hs => by
    refine .sync (s' := .args .call (f :: es) (fun _ => .trap) (C.Q .call (f :: es)) ρ κ σ)
      (t' := .args .call (f' :: es') (fun _ => .trap) (C.Q .call (f :: es)) ρt κ' σt) rfl ?_
      (.args (.cons f1 f2) (he.weaken (fun y ⟨e, h, hy⟩ => ?_)) (fun _ => .trap) hk hs)
    · simp only [step]; rw [hU _ (f :: es) (f' :: es') (by simp [f2.length])]
    · rcases List.mem_cons.mp h with h | h
      · subst h; exact .appF _ hy
      · exact .appA _ h hy
  | _, _, .lam (ids := ids) (b := b) (b' := b') f1, ρ, ρt, κ, κ', σ, σt, he, hk, hs =>
    .sync (s' := .ret (.clos ids b ρ) κ σ) (t' := .ret (.clos ids b' ρt) κ' σt) rfl rfl (.ret (.clos f1 he.ex he.all) hk hs)
  | _, _, .fix (ids := ids) (lams := lams) (lams' := lams') (b := b) (b' := b') f1 f2, ρ, ρt, κ, κ', σ, σt, he, hk, hs =>
    .sync (s' := .ev b (.fix ids lams ρ) κ σ) (t' := .ev b' (.fix ids lams' ρt) κ' σt) rfl rfl
      (.ev f2 (he.fix f1 (fun y hy hm => .fixB _ hm hy) (fun y ⟨l, hl, hy⟩ hm => .fixL _ hm hl hy)) hk hs)
  | _, _, .letcc (x := x) (b := b) (b' := b') f1, ρ, ρt, κ, κ', σ, σt, he, hk, hs =>
    .sync (s' := .ev b (.bind x (.cont κ) ρ) κ σ) (t' := .ev b' (.bind x (.cont κ') ρt) κ' σt) rfl rfl
      (.ev f1 (he.bind (.cont hk) (fun y hn hy => .letcc hn hy)) hk hs)
  | _, _, .withcc (k := k) (e := e) (k' := k') (e' := e') f1 f2, ρ, ρt, κ, κ', σ, σt, he, hk, hs =>
    .sync (s' := .ev k ρ (.withcc e ρ) σ) (t' := .ev k' ρt (.withcc e' ρt) σt) rfl rfl
      (.ev f1 (he.weaken (fun y hy => .withccK _ hy)) (.withcc f2 (fun y v hg hy => he.ex y v hg (.withccE _ hy)) (fun y v w hg hy => he.all y v w hg (.withccE _ hy))) hs)
  | _, _, .null (b := b) f1, ρ, ρt, κ, κ', σ, σt, he, hk, hs => .left (null_in hQ b ρ κ σ) (ev_ok hQ hU hC f1 he hk hs)
  | _, _, .idl (x := x) (e := e) hx f1, ρ, ρt, κ, κ', σ, σt, he, hk, hs => by
    obtain ⟨ds, todo, hw, q⟩ := beg_in (M := C.M) hQ x (.var x) e ρ κ σ
    exact .left q (ev_ok hQ hU hC f1 he (.idl hx hw hk) hs)

theorem args_ok {op : Op} {es es' : List Exp} {d d' : Nat → Val} {todo : List Nat} {ρ ρt : Env} {κ κ' : Kont}
    {σ σt : Store W} (hf : Gs C es es') (he : ER C (fun y => ∃ e ∈ es', Free y e) ρ ρt)
    (hd : ∀ j, VR C (d j) (d' j)) (hk : KR C κ κ') (hs : SR C σ σt) :
    Next C (.args op es d todo ρ κ σ) (.args op es' d' todo ρt κ' σt) := by
  cases todo with
  | cons i todo =>
    cases hi : es[i]? with
    | none => exact .fail (by cases op <;> simp [step, hi]) (fun _ _ => by simp)
    | some e =>
      obtain ⟨e', hi', f1⟩ := hf.get hi
      have hm := List.mem_of_getElem? hi'
      exact .sync (s' := .ev e ρ (.args op es d i todo ρ κ) σ) (t' := .ev e' ρt (.args op es' d' i todo ρt κ') σt)
        (by cases op <;> simp [step, hi]) (by cases op <;> simp [step, hi'])
        (.ev f1 (he.weaken (fun y hy => ⟨e', hm, hy⟩)) (.args hf he.ex he.all hd hk) hs)
  | nil =>
    cases op with
    | prim eff p =>
      rcases prim_rel (M := C.M) (p := p) (forall₂_vals hd es.length) hs with h1 | ⟨u, w, h1, h2, h3⟩ | ⟨u, w, σ', σt', h1, h2, h4, h5⟩
      · exact .fail (by simp [step, h1]) (fun _ _ => by simp)
      · exact Or.inr (Or.inl ⟨u, w, σ.world, .one (by simp [step, h1]) rfl, .one (by simp [step, ← hf.length, h2, hs.world]) hs.world, h3.view⟩)
      · exact .sync (s' := .ret u κ σ') (t' := .ret w κ' σt') (by simp [step, h1]) (by simp [step, ← hf.length, h2]) (.ret h4 hk h5)
    | call =>
      have hv := forall₂_vals hd es.length
      generalize h1 : vals d es.length = vs at hv
      generalize h2 : vals d' es.length = ws at hv
      cases hv with
      | nil => exact .fail (by simp [step, h1]) (fun _ _ => by simp)
      | cons hf' hv =>
        rename_i f g vs ws
        exact .sync (s' := .ap f vs κ σ) (t' := .ap g ws κ' σt) (by simp [step, h1]) (by simp [step, ← hf.length, h2]) (.ap hf' hv hk hs)

theorem ap_ok {f g : Val} {vs ws : List Val} {κ κ' : Kont} {σ σt : Store W} (hf : VR C f g) (hv : List.Forall₂ (VR C) vs ws)
    (hk : KR C κ κ') (hs : SR C σ σt) : Next C (.ap f vs κ σ) (.ap g ws κ' σt) := by
  have hle := hv.length_eq
  cases hf with
  | atom | pair | box | trap => exact .fail (by simp [step]) (fun _ _ => by simp)
  | clos f1 a1 a2 =>
    rename_i ids b b' ρ ρt
    by_cases hl : ids.length = vs.length
    · exact .sync (s' := .ev b (bindAll ids vs ρ) κ σ) (t' := .ev b' (bindAll ids ws ρt) κ' σt) (by simp only [step]; rw [if_pos hl])
        (by simp only [step]; rw [if_pos (hl.trans hle)]) (.ev f1 (ER.formals ⟨a1, a2⟩ hv hl) hk hs)
    · exact .fail (by simp only [step]; rw [if_neg hl]) (fun _ _ => by simp)
  | rc f1 hcl =>
    rename_i g ids b b' ρ ρt
    by_cases hl : ids.length = vs.length
    · exact .sync (s' := .ev b (bindAll ids vs (.fix [g] [.lam ids b] ρ)) κ σ) (t' := .ev b' (bindAll ids ws ρt) κ' σt) (by simp only [step, List.getElem?_cons_zero]; rw [if_pos hl])
        (by simp only [step]; rw [if_pos (hl.trans hle)]) (.ev f1 (ER.formals (ER.closed hcl) hv hl) hk hs)
    · exact .fail (by simp only [step, List.getElem?_cons_zero]; rw [if_neg hl]) (fun _ _ => by simp)
  | rclos f1 a1 a2 =>
    rename_i ids lams lams' i ρ ρt
    cases hi : lams[i]? with
    | none => exact .fail (by simp [step, hi]) (fun _ _ => by simp)
    | some l =>
      obtain ⟨l', hi', hl'⟩ := f1.get hi
      have hmem := List.mem_of_getElem? hi'
      cases l with
      | lam ps b =>
        cases hl' with
        | lam f2 =>
          rename_i b'
          by_cases hl : ps.length = vs.length
          · have her : ER C (Free · (.lam ps b')) (.fix ids lams ρ) (.fix ids lams' ρt) :=
              ER.fix (S := fun y => (∃ l ∈ lams', Free y l) ∧ y ∉ ids) ⟨fun y v hg hy => a1 y v hg hy.1 hy.2, fun y v w hg hy => a2 y v w hg hy.1 hy.2⟩ f1
                (fun y hy hm => ⟨⟨_, hmem, hy⟩, hm⟩) (fun y h hm => ⟨h, hm⟩)
            exact .sync (s' := .ev b (bindAll ps vs (.fix ids lams ρ)) κ σ) (t' := .ev b' (bindAll ps ws (.fix ids lams' ρt)) κ' σt)
              (by simp only [step, hi]; rw [if_pos hl]) (by simp only [step, hi']; rw [if_pos (hl.trans hle)]) (.ev f2 (her.formals hv hl) hk hs)
          · exact .fail (by simp only [step, hi]; rw [if_neg hl]) (fun _ _ => by simp)
      | _ => exact .fail (by simp [step, hi]) (fun _ _ => by simp)
  | cont hk' =>
    rcases hv with _ | ⟨h1, _ | ⟨h2, h3⟩⟩
    · exact .fail (by simp [step]) (fun _ _ => by simp)
    · exact .sync rfl rfl (.ret h1 hk' hs)
    · exact .fail (by simp [step]) (fun _ _ => by simp)

theorem ret_ok : (κ : Kont) → ∀ {κ' : Kont} {v w : Val} {σ σt : Store W}, VR C v w → KR C κ κ' → SR C σ σt → Next C (.ret v κ σ) (.ret w κ' σt)
  | .halt, _, v, w, σ, σt, hv, .halt, hs => Or.inr (Or.inl ⟨v, w, σ.world, .one rfl rfl, .one (by simp [step, hs.world]) hs.world, hv.view⟩)
  | .trap, _, _, _, _, _, _, .trap, _ => .fail rfl (fun _ _ => by simp)
  | .throw _, _, v, w, σ, σt, hv, .throw hp, hs => .sync rfl rfl (.ap hp (.cons hv .nil) .trap hs)
  | .set x _, _, v, w, σ, σt, hv, .set (κ := κ) (κ' := κ') hS hk, hs =>
    .sync (s' := .ret (.atom 1) κ _) (t' := .ret (.atom 1) κ' _) rfl rfl (.ret (.atom 1) hk (hs.set_glob x hv (fun X hX => by rw [hS] at hX; cases hX)))
  | .ite b c ρ κ, _, v, w, σ, σt, hv, .ite (b' := b') (c' := c') (ρt := ρt) (κ' := κ') o1 o2 a1 a2 hk, hs => by
    have hfv := primRel.false hv
    cases hf : v.isFalse with
    | true =>
      exact .sync (s' := .ev c ρ κ σ) (t' := .ev c' ρt κ' σt) (by simp [step, hf]) (by simp [step, ← hfv, hf])
        (.ev o2 ⟨fun y v hg hy => a1 y v hg (Or.inr hy), fun y v w hg hy => a2 y v w hg (Or.inr hy)⟩ hk hs)
    | false =>
      exact .sync (s' := .ev b ρ κ σ) (t' := .ev b' ρt κ' σt) (by simp [step, hf]) (by simp [step, ← hfv, hf])
        (.ev o1 ⟨fun y v hg hy => a1 y v hg (Or.inl hy), fun y v w hg hy => a2 y v w hg (Or.inl hy)⟩ hk hs)
  | .withcc e ρ, _, v, w, σ, σt, hv, .withcc (e' := e') (ρt := ρt) f1 a1 a2, hs => by
    by_cases hp : v.view = .proc
    · exact .sync (s' := .ev e ρ (.throw v) σ) (t' := .ev e' ρt (.throw w) σt) (by simp only [step]; rw [if_pos hp]) (by simp only [step]; rw [if_pos (hv.view ▸ hp)])
        (.ev f1 ⟨a1, a2⟩ (.throw hv) hs)
    · exact .fail (by simp only [step]; rw [if_neg hp]) (fun _ _ => by simp)
  | .args op _ _ _ _ _ κ, κ0, v, w, σ, σt, hv, hk, hs => by
    cases hk with
    | args o1 a1 a2 hd hk =>
      refine .sync rfl rfl (.args o1 ⟨a1, a2⟩ (fun j => ?_) hk hs)
      simp only [upd]; split
      · exact hv
      · exact hd j
    | idl hx hw hk => exact .left (beg_out hx hw κ σ v) (ret_ok κ hv hk hs)

theorem sync_world {s t : State W} (h : Sync C s t) : s.world = t.world := by
  cases h with
  | ev _ _ _ hs => exact hs.world
  | args _ _ _ _ hs => exact hs.world
  | ap _ _ _ hs => exact hs.world
  | ret _ _ hs => exact hs.world

theorem sync_sim (hQ : FairOrder C.Q) (hU : Uniform C.Q) (hC : C.Good) : SimQ C.stp C.stp (Sync C) := by
  refine ⟨fun s t h => ?_, fun s t h => sync_world h⟩
  cases h with
  | ev hf he hk hs => exact ev_ok hQ hU hC hf he hk hs
  | args hf he hd hk hs => exact args_ok hf he hd hk hs
  | ap hf hv hk hs => exact ap_ok hf hv hk hs
  | ret hv hk hs => exact ret_ok _ hv hk hs

/-- Inlining of global constants preserves the behaviour of a program. -/
theorem inline_behaves (hQ : FairOrder C.Q) (hU : Uniform C.Q) (hC : C.Good) {e e' : Exp} (hf : G C e e') (w : W) (g : Id → Option Val) (hg : ∀ x v, g x = some v → ∃ n, v = .atom n)
    (hS : ∀ x X, C.S x = some X → g x = none) :
    Behaves (step C.M C.Q) (step C.M C.Q) (.ev e .nil .halt ⟨g, [], w⟩) (.ev e' .nil .halt ⟨g, [], w⟩) := by
  refine SimQ.behaves (sync_sim (C := C) hQ hU hC) (.ev hf ⟨?_, ?_⟩ .halt ⟨?_, ?_, .nil, rfl⟩)
  · intro y v _ _ h; simp [Env.lookup] at h
  · intro y v w _ _ h; simp [Env.lookup] at h
  · intro x _
    cases h : g x with
    | none => exact Or.inl ⟨h, h⟩
    | some v =>
      obtain ⟨n, rfl⟩ := hg x v h
      exact Or.inr ⟨_, _, h, h, .atom n⟩
  · intro x X v hX h
    simp only [hS x X hX] at h; cases h

end Verif.Globals
