import Verif.Fold.Typing
/-
A program and the folded program run in step (C36).
-/
namespace Verif.Fold
open Verif.Core
open Verif.Beta (gstep lookup_skip lookup_rel idxOf_none lt_of_get)
variable {W τ : Type} [DecidableEq τ] {C : Ctx W τ}

/-- The order of evaluation depends on the operator and the number of operands only. -/
def Uniform (Q : Op → List Exp → List Nat) : Prop := ∀ op es es', es.length = es'.length → Q op es = Q op es'

/-- the machine. -/
abbrev Ctx.F (C : Ctx W τ) : State W → Option (State W) := gstep C.M C.Q

/-! ### stores -/

theorem forall₂_view {vs ws : List Val} (h : List.Forall₂ (VR C) vs ws) : vs.map Val.view = ws.map Val.view := by
  induction h with
  | nil => rfl
  | cons h1 _ ih => simp [h1.view, ih]

theorem forall₂_get {h h' : List Val} (hh : List.Forall₂ (VR C) h h') : ∀ {a : Nat} {v : Val}, h[a]? = some v → ∃ w, h'[a]? = some w ∧ VR C v w := by
  induction hh with
  | nil => intro a v h; simp at h
  | cons h1 _ ih =>
    intro a v h
    cases a with
    | zero => simp only [List.getElem?_cons_zero, Option.some.injEq] at h; subst h; exact ⟨_, rfl, h1⟩
    | succ a => simpa using ih (by simpa using h)

theorem forall₂_set {h h' : List Val} (hh : List.Forall₂ (VR C) h h') {v w : Val} (hv : VR C v w) : ∀ a : Nat, List.Forall₂ (VR C) (h.set a v) (h'.set a w) := by
  induction hh with
  | nil => intro a; exact .nil
  | cons h1 h2 ih =>
    intro a
    cases a with
    | zero => exact .cons hv h2
    | succ a => exact .cons h1 (ih a)

theorem forall₂_snoc {h h' : List Val} (hh : List.Forall₂ (VR C) h h') {v w : Val} (hv : VR C v w) : List.Forall₂ (VR C) (h ++ [v]) (h' ++ [w]) := by
  induction hh with
  | nil => exact .cons hv .nil
  | cons h1 _ ih => exact .cons h1 ih

theorem SR.set_glob {σ σt : Store W} {v w : Val} (h : SR C σ σt) (x : Id) (hv : VR C v w) :
    SR C { σ with glob := fun y => if y = x then some v else σ.glob y } { σt with glob := fun y => if y = x then some w else σt.glob y } := by
  refine ⟨fun y => ?_, h.heap, h.world⟩
  by_cases e : y = x
  · right; exact ⟨v, w, by simp [e], by simp [e], hv⟩
  · simp only [e, if_false]; exact h.glob y

/-- primitives. -/
theorem doPrim_rel {M : Sem W} {p : PrimName} {vs ws : List Val} {σ σt : Store W} (hv : List.Forall₂ (VR C) vs ws) (hs : SR C σ σt) :
    doPrim M p vs σ = none ∨
    (∃ v w, doPrim M p vs σ = some (.stop v) ∧ doPrim M p ws σt = some (.stop w) ∧ VR C v w) ∨
    (∃ v w σ' σt', doPrim M p vs σ = some (.ok v σ') ∧ doPrim M p ws σt = some (.ok w σt') ∧ VR C v w ∧ SR C σ' σt') := by
  cases p with
  | void =>
    cases hv with
    | nil => exact Or.inr (Or.inr ⟨_, _, σ, σt, rfl, rfl, .atom 1, hs⟩)
    | cons => exact Or.inl rfl
  | halt =>
    cases hv with
    | nil => exact Or.inl rfl
    | cons h1 h2 =>
      cases h2 with
      | nil => exact Or.inr (Or.inl ⟨_, _, rfl, rfl, h1⟩)
      | cons => exact Or.inl rfl
  | ktrap =>
    cases hv with
    | nil => exact Or.inr (Or.inr ⟨_, _, σ, σt, rfl, rfl, .trap, hs⟩)
    | cons => exact Or.inl rfl
  | box =>
    cases hv with
    | nil => exact Or.inl rfl
    | cons h1 h2 =>
      cases h2 with
      | nil =>
        rename_i v w
        refine Or.inr (Or.inr ⟨_, _, _, _, rfl, rfl, ?_, ⟨hs.glob, forall₂_snoc hs.heap h1, hs.world⟩⟩)
        rw [hs.heap.length_eq]; exact .box _
      | cons => exact Or.inl (by simp [doPrim])
  | boxref =>
    cases hv with
    | nil => exact Or.inl rfl
    | cons h1 h2 =>
      cases h2 with
      | cons => exact Or.inl (by cases h1 <;> simp [doPrim])
      | nil =>
        cases h1 with
        | box a =>
          cases hg : σ.heap[a]? with
          | none => exact Or.inl (by simp [doPrim, hg])
          | some v =>
            obtain ⟨w, hw, hr⟩ := forall₂_get hs.heap hg
            exact Or.inr (Or.inr ⟨v, w, σ, σt, by simp [doPrim, hg], by simp [doPrim, hw], hr, hs⟩)
        | _ => exact Or.inl rfl
  | boxset =>
    cases hv with
    | nil => exact Or.inl rfl
    | cons h1 h2 =>
      cases h2 with
      | nil => exact Or.inl (by cases h1 <;> simp [doPrim])
      | cons h2 h3 =>
        cases h3 with
        | cons => exact Or.inl (by cases h1 <;> simp [doPrim])
        | nil =>
          cases h1 with
          | box a =>
            rename_i v w
            by_cases hl : a < σ.heap.length
            · exact Or.inr (Or.inr ⟨v, w, { σ with heap := σ.heap.set a v }, { σt with heap := σt.heap.set a w }, by simp only [doPrim, if_pos hl],
                by simp only [doPrim, if_pos (hs.heap.length_eq ▸ hl)], h2,
                ⟨hs.glob, forall₂_set hs.heap h2 a, hs.world⟩⟩)
            · exact Or.inl (by simp only [doPrim, if_neg hl])
          | _ => exact Or.inl rfl
  | cons =>
    cases hv with
    | nil => exact Or.inl rfl
    | cons h1 h2 =>
      cases h2 with
      | nil => exact Or.inl rfl
      | cons h2 h3 =>
        cases h3 with
        | nil => exact Or.inr (Or.inr ⟨_, _, σ, σt, rfl, rfl, .pair h1 h2, hs⟩)
        | cons => exact Or.inl rfl
  | car =>
    cases hv with
    | nil => exact Or.inl rfl
    | cons h1 h2 =>
      cases h2 with
      | cons => exact Or.inl (by cases h1 <;> simp [doPrim])
      | nil =>
        cases h1 with
        | pair ha hd => exact Or.inr (Or.inr ⟨_, _, σ, σt, rfl, rfl, ha, hs⟩)
        | _ => exact Or.inl rfl
  | cdr =>
    cases hv with
    | nil => exact Or.inl rfl
    | cons h1 h2 =>
      cases h2 with
      | cons => exact Or.inl (by cases h1 <;> simp [doPrim])
      | nil =>
        cases h1 with
        | pair ha hd => exact Or.inr (Or.inr ⟨_, _, σ, σt, rfl, rfl, hd, hs⟩)
        | _ => exact Or.inl rfl
  | op n =>
    cases ho : M.op n (vs.map Val.view) σ.world with
    | none => exact Or.inl (by simp [doPrim, ho])
    | some r =>
      have ho' : M.op n (ws.map Val.view) σt.world = some r := by rw [← forall₂_view hv, ← hs.world]; exact ho
      exact Or.inr (Or.inr ⟨.atom r.1, .atom r.1, { σ with world := r.2 }, { σt with world := r.2 }, by simp only [doPrim, ho]; rfl,
        by simp only [doPrim, ho']; rfl, .atom _, ⟨hs.glob, hs.heap, rfl⟩⟩)

theorem forall₂_vals {d d' : Nat → Val} (h : ∀ j, VR C (d j) (d' j)) (n : Nat) :
    List.Forall₂ (VR C) (vals d n) (vals d' n) := by
  simp only [vals]
  induction List.range n with
  | nil => exact .nil
  | cons i l ih => exact .cons (h i) ih

/-! ### environments -/

theorem ER.weaken {S S' : Id → Prop} {ρ ρt : Env} (h : ER C S ρ ρt) (hS : ∀ y, S' y → S y) : ER C S' ρ ρt :=
  ⟨fun y v h1 => h.ex y v (hS y h1), fun y v w h1 => h.all y v w (hS y h1)⟩

theorem ER.bind {S S' : Id → Prop} {ρ ρt : Env} {ids : List Id} {vs ws : List Val} (h : ER C S ρ ρt) (hS : ∀ y, S' y → y ∉ ids → S y)
    (hv : List.Forall₂ (VR C) vs ws) (hl : ids.length = vs.length) : ER C S' (bindAll ids vs ρ) (bindAll ids ws ρt) := by
  refine ⟨?_, ?_⟩
  · intro y v hy h1
    by_cases hm : y ∈ ids
    · obtain ⟨_, w, _, h2, _⟩ := lookup_rel (ρ := ρ) (ρt := ρt) hv hl hm
      exact ⟨w, h2⟩
    · rw [lookup_skip hm] at h1 ⊢
      exact h.ex y v (hS y hy hm) h1
  · intro y v w hy h1 h2
    by_cases hm : y ∈ ids
    · obtain ⟨v', w', h1', h2', h3⟩ := lookup_rel (ρ := ρ) (ρt := ρt) hv hl hm
      rw [h1'] at h1; rw [h2'] at h2
      injection h1 with h1; injection h2 with h2; subst h1; subst h2
      exact h3
    · rw [lookup_skip hm] at h1 h2
      exact h.all y v w (hS y hy hm) h1 h2

theorem ER.fix {S' : Id → Prop} {Γ : TEnv τ} {ρ ρt : Env} {ids : List Id} {lams lams' : List Exp} {S : Id → Prop} (h : ER C S ρ ρt)
    (hg : ∀ y ∈ ids, tlook y Γ = none) (hl : FRs C.t Γ lams lams') (hG : Good C.has Γ ρ) (hS : ∀ y, S' y → y ∉ ids → S y)
    (hS2 : ∀ y, (∃ l ∈ lams, Free y l) ∧ y ∉ ids → S y) : ER C S' (.fix ids lams ρ) (.fix ids lams' ρt) := by
  refine ⟨?_, ?_⟩
  · intro y v hy h1
    rw [Env.lookup] at h1 ⊢
    cases hi : idxOf y ids with
    | some i => exact ⟨_, rfl⟩
    | none =>
      rw [hi] at h1
      exact h.ex y v (hS y hy (idxOf_none.mp hi)) h1
  · intro y v w hy h1 h2
    rw [Env.lookup] at h1 h2
    cases hi : idxOf y ids with
    | some i =>
      rw [hi] at h1 h2
      injection h1 with h1; injection h2 with h2; subst h1; subst h2
      exact .rclos hg hl hG (fun y v hy => h.ex y v (hS2 y hy)) (fun y v w hy => h.all y v w (hS2 y hy))
    | none =>
      rw [hi] at h1 h2
      exact h.all y v w (hS y hy (idxOf_none.mp hi)) h1 h2

/-- variables that are not used. -/
theorem ER.skip {S : Id → Prop} {ρ ρt : Env} (h : ER C S ρ ρt) {x x' : Id} (hx : ¬ S x) (hx' : ¬ S x') (v w : Val) : ER C S (.bind x v ρ) (.bind x' w ρt) := by
  refine ⟨fun y u hy h1 => ?_, fun y u z hy h1 h2 => ?_⟩
  · have e1 : y ≠ x := fun e => hx (e ▸ hy)
    have e2 : y ≠ x' := fun e => hx' (e ▸ hy)
    simp only [Env.lookup, if_neg e1, if_neg e2] at h1 ⊢
    exact h.ex y u hy h1
  · have e1 : y ≠ x := fun e => hx (e ▸ hy)
    have e2 : y ≠ x' := fun e => hx' (e ▸ hy)
    simp only [Env.lookup, if_neg e1, if_neg e2] at h1 h2
    exact h.all y u z hy h1 h2

theorem ER.skipR {S : Id → Prop} {ρ ρt : Env} (h : ER C S ρ ρt) {x' : Id} (hx' : ¬ S x') (w : Val) : ER C S ρ (.bind x' w ρt) := by
  refine ⟨fun y u hy h1 => ?_, fun y u z hy h1 h2 => ?_⟩
  · have e2 : y ≠ x' := fun e => hx' (e ▸ hy)
    simp only [Env.lookup, if_neg e2] at h1 ⊢
    exact h.ex y u hy h1
  · have e2 : y ≠ x' := fun e => hx' (e ▸ hy)
    simp only [Env.lookup, if_neg e2] at h1 h2
    exact h.all y u z hy h1 h2

/-! ### a `let` with one variable -/

theorem perm_two {l : List Nat} (h : l.Perm [0, 1]) : l = [0, 1] ∨ l = [1, 0] := by
  have hl := h.length_eq
  match l, hl with
  | [a, b], _ =>
    have h0 := (h.mem_iff (a := 0)).mpr (by simp)
    have h1 := (h.mem_iff (a := 1)).mpr (by simp)
    simp only [List.mem_cons, List.not_mem_nil, or_false] at h0 h1
    rcases h0 with rfl | rfl
    · rcases h1 with h | rfl
      · omega
      · exact Or.inl rfl
    · rcases h1 with rfl | h
      · exact Or.inr rfl
      · omega

theorem perm_one {l : List Nat} (h : l.Perm [0]) : l = [0] := List.perm_singleton.mp h

theorem beg_in {M : Sem W} {Q : Op → List Exp → List Nat} (hQ : FairOrder Q) (x : Id) (b e : Exp) (ρ : Env) (κ : Kont) (σ : Store W) :
    ∃ d todo, Wait x b ρ d todo ∧ Quiet (gstep M Q) (.ev (.app (.lam [x] b) [e]) ρ κ σ) (.ev e ρ (.args .call [.lam [x] b, e] d 1 todo ρ κ) σ) ∧
      Move (gstep M Q) (.ev (.app (.lam [x] b) [e]) ρ κ σ) (.ev e ρ (.args .call [.lam [x] b, e] d 1 todo ρ κ) σ) := by
  have hp := hQ .call [.lam [x] b, e]
  rcases perm_two hp with h | h
  · refine ⟨upd (fun _ => .trap) 0 (.clos [x] b ρ), [], Or.inr ⟨rfl, rfl⟩, ?_⟩
    have h0 : gstep M Q (.ev (.app (.lam [x] b) [e]) ρ κ σ) = some (.args .call [.lam [x] b, e] (fun _ => .trap) [0, 1] ρ κ σ) := by simp [gstep, step, h]
    have m : Move (gstep M Q) (.ev (.app (.lam [x] b) [e]) ρ κ σ) (.ev e ρ (.args .call [.lam [x] b, e] (upd (fun _ => .trap) 0 (.clos [x] b ρ)) 1 [] ρ κ) σ) :=
      ⟨_, .step h0 rfl (.step rfl rfl (.step rfl rfl (.one rfl rfl))), rfl⟩
    exact ⟨m.quiet rfl, m⟩
  · refine ⟨fun _ => .trap, [0], Or.inl rfl, ?_⟩
    have h0 : gstep M Q (.ev (.app (.lam [x] b) [e]) ρ κ σ) = some (.args .call [.lam [x] b, e] (fun _ => .trap) [1, 0] ρ κ σ) := by simp [gstep, step, h]
    have m : Move (gstep M Q) (.ev (.app (.lam [x] b) [e]) ρ κ σ) (.ev e ρ (.args .call [.lam [x] b, e] (fun _ => .trap) 1 [0] ρ κ) σ) :=
      ⟨_, .one h0 rfl, rfl⟩
    exact ⟨m.quiet rfl, m⟩

theorem beg_out {M : Sem W} {Q : Op → List Exp → List Nat} {x : Id} {b e : Exp} {ρ : Env} {d : Nat → Val} {todo : List Nat} (hw : Wait x b ρ d todo) (κ : Kont) (σ : Store W) (v : Val) :
    Move (gstep M Q) (.ret v (.args .call [.lam [x] b, e] d 1 todo ρ κ) σ) (.ev b (.bind x v ρ) κ σ) := by
  rcases hw with rfl | ⟨rfl, h0⟩
  · exact ⟨_, .step rfl rfl (.step rfl rfl (.step rfl rfl (.step rfl rfl (.step rfl rfl (.refl _))))), rfl⟩
  · have h1 : gstep M Q (.args .call [.lam [x] b, e] (upd d 1 v) [] ρ κ σ) = some (.ap (.clos [x] b ρ) [v] κ σ) := by
      simp [gstep, step, vals, List.range_succ, upd, h0]
    exact ⟨_, .step rfl rfl (.one h1 rfl), rfl⟩

/-! ### evaluation -/

/-- `s` fails, both finish alike, or both get to related states. -/
def Out (C : Ctx W τ) (s t : State W) : Prop :=
  Fails C.F s ∨ (∃ v v' w, Quiet C.F s (.done v w) ∧ Quiet C.F t (.done v' w) ∧ v.view = v'.view) ∨
  (∃ s' t', Move C.F s s' ∧ Move C.F t t' ∧ Sync C s' t')

theorem Out.src {s s' t : State W} (h : Quiet C.F s s') (ho : Out C s' t) : Out C s t := by
  rcases ho with hf | ⟨v, v', w, h1, h2, hv⟩ | ⟨a, b, h1, h2, hs⟩
  · exact Or.inl (hf.of_reach h.reach)
  · exact Or.inr (Or.inl ⟨v, v', w, h.trans h1, h2, hv⟩)
  · exact Or.inr (Or.inr ⟨a, b, h1.before h, h2, hs⟩)

theorem Out.tgt {s t t' : State W} (h : Quiet C.F t t') (ho : Out C s t') : Out C s t := by
  rcases ho with hf | ⟨v, v', w, h1, h2, hv⟩ | ⟨a, b, h1, h2, hs⟩
  · exact Or.inl hf
  · exact Or.inr (Or.inl ⟨v, v', w, h1, h.trans h2, hv⟩)
  · exact Or.inr (Or.inr ⟨a, b, h1, h2.before h, hs⟩)

theorem Out.sync {s s' t t' : State W} (h1 : C.F s = some s') (h2 : C.F t = some t') (hs : Sync C s' t') : Out C s t :=
  Or.inr (Or.inr ⟨s', t', .one h1, .one h2, hs⟩)

theorem Out.moves {s s' t t' : State W} (h1 : Move C.F s s') (h2 : Move C.F t t') (hs : Sync C s' t') : Out C s t :=
  Or.inr (Or.inr ⟨s', t', h1, h2, hs⟩)

theorem Out.fail {s t : State W} (h : C.F s = none) (hd : ∀ v w, s ≠ .done v w) : Out C s t := Or.inl (Fails.now h hd)

/-- The result of a primitive is as promised. -/
theorem prim_sat (hh : Honest C.M C.t C.has) {Γ : TEnv τ} {eff : Effect} {p : PrimName} {es : List Exp} {D : Dem τ} {d : Nat → Val} {σ σ' : Store W} {v : Val}
    (hc : Can C.t Γ (.prim eff p es) D) (ht : Typed C.t C.has Γ es d (· ∈ ([] : List Nat))) (h : doPrim C.M p (vals d es.length) σ = some (.ok v σ')) : Sat C.has v D := by
  cases D with
  | any => trivial
  | ty T =>
    simp only [Can, ctype] at hc
    exact hh.ret p T _ σ v σ' hc h
  | truth β =>
    simp only [Can] at hc
    unfold foldTest at hc
    split at hc
    · rename_i heq; cases heq
    · rename_i r heq
      injection heq with _ h2 h3; subst h2; subst h3
      split at hc
      · rename_i c c' h1 h2
        injection hc with hc; subst hc
        have hty := ht 0 r c' rfl (by simp) h2
        have hk := hh.check p c (d 0) σ v σ' h1 h
        by_cases e : c = c'
        · subst e; simp only [Sat, decide_true]; exact hk.mpr hty
        · simp only [Sat, e, decide_false]
          cases hf : v.isFalse with
          | true => rfl
          | false => exact absurd (hh.one _ _ _ (hk.mp hf) hty) e
      · cases hc
    · cases hc

theorem ev_ok (hQ : FairOrder C.Q) (hU : Uniform C.Q) (hh : Honest C.M C.t C.has) : (e : Exp) → ∀ {e' : Exp} {Γ : TEnv τ} {D : Dem τ} {ρ ρt : Env} {κ κ' : Kont} {σ σt : Store W},
    FR C.t Γ e e' → Can C.t Γ e D → Good C.has Γ ρ → ER C (Free · e) ρ ρt → KR C D κ κ' → SR C σ σt →
    Out C (.ev e ρ κ σ) (.ev e' ρt κ' σt)
  | .var x, _, Γ, D, ρ, ρt, κ, κ', σ, σt, hf, hc, hG, he, hk, hs => by
    cases hf with
    | var =>
      cases hgl : x.isGlobal with
      | true =>
        have hD : Sat C.has (.atom 0) D ∨ D = .any := by
          cases D with
          | any => exact Or.inr rfl
          | ty T => have := (hG x T (by simpa [Can, ctype] using hc)).1; rw [hgl] at this; cases this
          | truth β => simp [Can, foldTest] at hc
        have hDa : ∀ v, Sat C.has v D := by
          cases D with
          | any => exact fun _ => trivial
          | ty T => have := (hG x T (by simpa [Can, ctype] using hc)).1; rw [hgl] at this; cases this
          | truth β => simp [Can, foldTest] at hc
        rcases hs.glob x with ⟨h1, _⟩ | ⟨v, w, h1, h2, h3⟩
        · exact .fail (by simp [gstep, step, hgl, h1]) (fun _ _ => by simp)
        · exact .sync (s' := .ret v κ σ) (t' := .ret w κ' σt) (by simp [gstep, step, hgl, h1]) (by simp [gstep, step, hgl, h2]) (.ret h3 (hDa v) hk hs)
      | false =>
        cases hl : ρ.lookup x with
        | none => exact .fail (by simp [gstep, step, hgl, hl]) (fun _ _ => by simp)
        | some v =>
          obtain ⟨w, hw⟩ := he.ex x v .var hl
          have hDa : Sat C.has v D := by
            cases D with
            | any => trivial
            | ty T => exact (hG x T (by simpa [Can, ctype] using hc)).2 v hl
            | truth β => simp [Can, foldTest] at hc
          exact .sync (s' := .ret v κ σ) (t' := .ret w κ' σt) (by simp [gstep, step, hgl, hl]) (by simp [gstep, step, hgl, hw])
            (.ret (he.all x v w .var hl hw) hDa hk hs)
  | .set x e, _, Γ, D, ρ, ρt, κ, κ', σ, σt, hf, hc, hG, he, hk, hs => by
    have hD := can_none (by simp [ctype]) (by simp [foldTest]) hc
    subst hD
    cases hf with
    | set hf =>
      rename_i e'
      cases hg : x.isGlobal with
      | true =>
        exact .sync (s' := .ev e ρ (.set x κ) σ) (t' := .ev e' ρt (.set x κ') σt) (by simp [gstep, step, hg]) (by simp [gstep, step, hg])
          (.ev (D := .any) hf trivial hG (he.weaken (fun y hy => .set x hy)) (.set hk) hs)
      | false => exact .fail (by simp [gstep, step, hg]) (fun _ _ => by simp)
  | .ite a b c, _, Γ, D, ρ, ρt, κ, κ', σ, σt, hf, hc, hG, he, hk, hs => by
    obtain ⟨hc1, hc2⟩ := can_ite hc
    cases hf with
    | ite f1 f2 f3 =>
      rename_i a' b' c'
      exact .sync (s' := .ev a ρ (.ite b c ρ κ) σ) (t' := .ev a' ρt (.ite b' c' ρt κ') σt) rfl rfl
        (.ev (D := .any) f1 trivial hG (he.weaken (fun y hy => .iteA _ _ hy))
          (.ite f2 f3 hc1 hc2 hG (fun y v hy => he.ex y v (hy.elim (fun h => .iteB _ _ h) (fun h => .iteC _ _ h)))
            (fun y v w hy => he.all y v w (hy.elim (fun h => .iteB _ _ h) (fun h => .iteC _ _ h))) hk) hs)
    | fold hβ hx hd f1 f2 =>
      rename_i x a' x' β d
      obtain ⟨d', todo, hw, _, m⟩ := beg_in (M := C.M) hQ d x' a' ρt κ' σt
      have hfr : ∀ y, Free y x → Free y (.ite a b c) := fun y hy => by
        subst hx
        cases β with
        | true => exact .iteB _ _ hy
        | false => exact .iteC _ _ hy
      have hcx : Can C.t Γ x D := by
        subst hx
        cases β with
        | true => exact hc1
        | false => exact hc2
      exact .moves (s' := .ev a ρ (.ite b c ρ κ) σ) (.one rfl) m
        (.ev (D := .truth β) f1 hβ hG (he.weaken (fun y hy => .iteA _ _ hy))
          (.fold hx hd f2 hcx hG hw (fun y v hy => he.ex y v (hfr y hy)) (fun y v w hy => he.all y v w (hfr y hy)) hk) hs)
  | .prim eff p es, _, Γ, D, ρ, ρt, κ, κ', σ, σt, hf, hc, hG, he, hk, hs => by
    cases hf with
    | prim f1 =>
      rename_i es'
      refine .sync (s' := .args (.prim eff p) es (fun _ => .trap) (C.Q (.prim eff p) es) ρ κ σ)
        (t' := .args (.prim eff p) es' (fun _ => .trap) (C.Q (.prim eff p) es) ρt κ' σt) rfl ?_
        (.args f1 hc hG (he.weaken (fun y ⟨e, h, hy⟩ => .prim _ _ h hy)) (fun _ => .trap) (fun j e T h1 h2 => ?_) hk hs)
      · simp only [gstep, step]; rw [hU _ es es' f1.length]
      · exact absurd (((hQ (.prim eff p) es).mem_iff (a := j)).mpr (by simpa using lt_of_get h1)) h2
  | .lam ids b, _, Γ, D, ρ, ρt, κ, κ', σ, σt, hf, hc, hG, he, hk, hs => by
    have hD := can_none (by simp [ctype]) (by simp [foldTest]) hc
    subst hD
    cases hf with
    | lam f1 f2 =>
      rename_i b'
      exact .sync (s' := .ret (.clos ids b ρ) κ σ) (t' := .ret (.clos ids b' ρt) κ' σt) rfl rfl (.ret (D := .any) (.clos f1 f2 hG he.ex he.all) trivial hk hs)
  | .fix ids lams b, _, Γ, D, ρ, ρt, κ, κ', σ, σt, hf, hc, hG, he, hk, hs => by
    have hD := can_none (by simp [ctype]) (by simp [foldTest]) hc
    subst hD
    cases hf with
    | fix f1 f2 f3 =>
      rename_i lams' b'
      exact .sync (s' := .ev b (.fix ids lams ρ) κ σ) (t' := .ev b' (.fix ids lams' ρt) κ' σt) rfl rfl
        (.ev (D := .any) f3 trivial (hG.fix f1) (he.fix f1 f2 hG (fun y hy hm => .fixB _ hm hy) (fun y ⟨⟨l, hl, hy⟩, hm⟩ => .fixL _ hm hl hy)) hk hs)
  | .letcc x b, _, Γ, D, ρ, ρt, κ, κ', σ, σt, hf, hc, hG, he, hk, hs => by
    have hD := can_none (by simp [ctype]) (by simp [foldTest]) hc
    subst hD
    cases hf with
    | letcc f1 f2 =>
      rename_i b'
      exact .sync (s' := .ev b (bindAll [x] [.cont κ] ρ) κ σ) (t' := .ev b' (bindAll [x] [.cont κ'] ρt) κ' σt) rfl rfl
        (.ev (D := .any) f2 trivial (hG.bind (by simpa using f1)) (he.bind (fun y hy hm => .letcc (by simpa using hm) hy) (.cons (.cont hk) .nil) rfl) hk hs)
  | .withcc c e, _, Γ, D, ρ, ρt, κ, κ', σ, σt, hf, hc, hG, he, hk, hs => by
    cases hf with
    | withcc f1 f2 =>
      rename_i c' e'
      exact .sync (s' := .ev c ρ (.withcc e ρ) σ) (t' := .ev c' ρt (.withcc e' ρt) σt) rfl rfl
        (.ev (D := .any) f1 trivial hG (he.weaken (fun y hy => .withccK _ hy)) (.withcc f2 hG (fun y v hy => he.ex y v (.withccE _ hy)) (fun y v w hy => he.all y v w (.withccE _ hy))) hs)
  | .app f es, _, Γ, D, ρ, ρt, κ, κ', σ, σt, hf, hc, hG, he, hk, hs => by
    cases hf with
    | app hn f1 f2 =>
      rename_i f' es'
      have hD := can_app hn hc
      subst hD
      refine .sync (s' := .args .call (f :: es) (fun _ => .trap) (C.Q .call (f :: es)) ρ κ σ)
        (t' := .args .call (f' :: es') (fun _ => .trap) (C.Q .call (f :: es)) ρt κ' σt) rfl ?_
        (.args (D := .any) (.cons f1 f2) rfl hG (he.weaken (fun y ⟨e, h, hy⟩ => ?_)) (fun _ => .trap) (fun j e T h1 h2 => ?_) hk hs)
      · simp only [gstep, step]; rw [hU _ (f :: es) (f' :: es') (by simp [f2.length])]
      · rcases List.mem_cons.mp h with h | h
        · subst h; exact .appF _ hy
        · exact .appA _ h hy
      · exact absurd (((hQ .call (f :: es)).mem_iff (a := j)).mpr (by simpa using lt_of_get h1)) h2
    | letE hl hg f1 f2 =>
      rename_i ids b b' es'
      refine .sync (s' := .args .call (.lam ids b :: es) (fun _ => .trap) (C.Q .call (.lam ids b :: es)) ρ κ σ)
        (t' := .args .call (.lam ids b' :: es') (fun _ => .trap) (C.Q .call (.lam ids b :: es)) ρt κ' σt) rfl ?_
        (.letf hl hg f1 f2 (can_let hl hc) hG he (fun _ => .trap) (fun j e T h1 h2 => ?_) (Or.inl ?_) hk hs)
      · simp only [gstep, step]; rw [hU _ (.lam ids b :: es) (.lam ids b' :: es') (by simp [f1.length])]
      · exact absurd (((hQ .call (.lam ids b :: es)).mem_iff (a := j + 1)).mpr (by simpa using lt_of_get h1)) h2
      · exact ((hQ .call (.lam ids b :: es)).mem_iff (a := 0)).mpr (by simp)
    | beg hd0 hd hd' f1 f2 =>
      rename_i d d' b b' e e'
      obtain ⟨ds, todo, hw, _, m⟩ := beg_in (M := C.M) hQ d b e ρ κ σ
      obtain ⟨dt, todo', hw', _, m'⟩ := beg_in (M := C.M) hQ d' b' e' ρt κ' σt
      have hfb : ∀ y, Free y b → Free y (.app (.lam [d] b) [e]) := fun y hy => .appF _ (.lam (by simp; exact fun e => hd (e ▸ hy)) hy)
      exact .moves m m' (.ev (D := .any) f1 trivial hG (he.weaken (fun y hy => .appA _ (by simp) hy))
        (.begf hd0 hd hd' f2 (can_beg hd hc) hG hw hw' (fun y v hy => he.ex y v (hfb y hy)) (fun y v w hy => he.all y v w (hfb y hy)) hk) hs)
    | asrt hd0 hdx hd hd' ht hx f2 =>
      rename_i d d' x b b' eff p T
      obtain ⟨ds, todo, hw, q, _⟩ := beg_in (M := C.M) hQ d b (.prim eff p [.var x]) ρ κ σ
      obtain ⟨dt, todo', hw', q', _⟩ := beg_in (M := C.M) hQ d' b' (.prim eff p [.var x]) ρt κ' σt
      have hfb : ∀ y, Free y b → Free y (.app (.lam [d] b) [.prim eff p [.var x]]) := fun y hy => .appF _ (.lam (by simp; exact fun e => hd (e ▸ hy)) hy)
      have ho := perm_one (hQ (.prim eff p) [.var x])
      have into : ∀ (ρ : Env) (κ : Kont) (σ : Store W), Quiet C.F (.ev (.prim eff p [.var x]) ρ κ σ) (.ev (.var x) ρ (.args (.prim eff p) [.var x] (fun _ => .trap) 0 [] ρ κ) σ) := by
        intro ρ κ σ
        refine .step (b := .args (.prim eff p) [.var x] (fun _ => .trap) [0] ρ κ σ) ?_ rfl (.one rfl rfl)
        simp only [gstep, step]; rw [ho]
      refine .src (q.trans (into _ _ _)) (.tgt (q'.trans (into _ _ _)) ?_)
      cases hl : ρ.lookup x with
      | none => exact .fail (by simp [gstep, step, hx, hl]) (fun _ _ => by simp)
      | some u =>
        have hfx : Free x (.app (.lam [d] b) [.prim eff p [.var x]]) :=
          .appA _ (List.mem_singleton.mpr rfl) (.prim eff p (List.mem_singleton.mpr rfl) .var)
        obtain ⟨w, hlw⟩ := he.ex x u hfx hl
        have hu := he.all x u w hfx hl hlw
        have more : ∀ {ρ : Env} {κ : Kont} {σ : Store W} {u : Val}, ρ.lookup x = some u →
            Quiet C.F (.ev (.var x) ρ (.args (.prim eff p) [.var x] (fun _ => .trap) 0 [] ρ κ) σ) (.args (.prim eff p) [.var x] (upd (fun _ => .trap) 0 u) [] ρ κ σ) := by
          intro ρ κ σ u hl
          exact .step (b := .ret u (.args (.prim eff p) [.var x] (fun _ => .trap) 0 [] ρ κ) σ) (by simp [gstep, step, hx, hl]) rfl (.one rfl rfl)
        refine .src (more hl) (.tgt (more hlw) ?_)
        rcases doPrim_rel (M := C.M) (p := p) (.cons hu .nil) hs with h1 | ⟨r, r', h1, h2, h3⟩ | ⟨r, r', σ', σt', h1, h2, h3, h4⟩
        · exact .fail (by simp [gstep, step, vals, List.range_succ, upd, h1]) (fun _ _ => by simp)
        · exact Or.inr (Or.inl ⟨r, r', σ.world, .one (by simp [gstep, step, vals, List.range_succ, upd, h1]) rfl,
            .one (by simp [gstep, step, vals, List.range_succ, upd, h2, hs.world]) hs.world, h3.view⟩)
        · have hT := hh.assert p T u σ r σ' ht h1
          have hle : ∀ y, Free y b → Le (tlook y Γ) (tlook y ((x, some T) :: Γ)) := by
            intro y _ U hU
            simp only [tlook]
            split
            · rename_i e; subst e
              rw [hh.one _ _ _ hT ((hG y U hU).2 u hl)]
            · exact hU
          refine .sync (s' := .ret r (.args .call [.lam [d] b, .prim eff p [.var x]] ds 1 todo ρ κ) σ')
            (t' := .ret r' (.args .call [.lam [d'] b', .prim eff p [.var x]] dt 1 todo' ρt κ') σt')
            (by simp [gstep, step, vals, List.range_succ, upd, h1]) (by simp [gstep, step, vals, List.range_succ, upd, h2]) (.ret (D := .any) h3 trivial ?_ h4)
          refine .begf (Γ := (x, some T) :: Γ) ?_ hd hd' f2 ((can_beg hd hc).le hle) (hG.cons hx (fun v hv => ?_)) hw hw' (fun y v hy => he.ex y v (hfb y hy)) (fun y v w hy => he.all y v w (hfb y hy)) hk
          · simp only [tlook, if_neg hdx]; exact hd0
          · rw [hl] at hv; injection hv with hv; subst hv; exact hT
    | null f1 =>
      rename_i b
      have ho := perm_one (hQ .call [.lam [] b])
      have q : Quiet C.F (.ev (.app (.lam [] b) []) ρ κ σ) (.ev b ρ κ σ) := by
        refine .step (b := .args .call [.lam [] b] (fun _ => .trap) [0] ρ κ σ) ?_ rfl (.step rfl rfl (.step rfl rfl (.step rfl rfl (.step rfl rfl (.one rfl rfl)))))
        simp only [gstep, step]; rw [ho]
      exact .src q (ev_ok hQ hU hh b f1 (by simpa [exts, ctypes] using can_let rfl hc) hG (he.weaken (fun y hy => .appF _ (.lam (by simp) hy))) hk hs)
    | idl hx f1 =>
      rename_i x e
      obtain ⟨ds, todo, hw, q, _⟩ := beg_in (M := C.M) hQ x (.var x) e ρ κ σ
      exact .src q (ev_ok hQ hU hh e f1 (can_idl hc) hG (he.weaken (fun y hy => .appA _ (by simp) hy)) (.idl hx hw hk) hs)

theorem Typed.upd {t : Types τ} {has : τ → View → Prop} {Γ : TEnv τ} {es : List Exp} {d : Nat → Val} {o o' : Nat → Prop} {i : Nat} {e : Exp} {v : Val} (h : Typed t has Γ es d o)
    (hi : es[i]? = some e) (hv : Sat has v (dem (ctype t Γ e))) (ho : ∀ j, j ≠ i → ¬ o' j → ¬ o j) : Typed t has Γ es (upd d i v) o' := by
  intro j r T h1 h2 h3
  by_cases hj : j = i
  · subst hj
    rw [hi] at h1; injection h1 with h1; subst h1
    rw [h3] at hv
    simp only [Core.upd, if_true]; exact hv
  · simp only [Core.upd, if_neg hj]
    exact h j r T h1 (ho j hj h2) h3

theorem args_ok (hh : Honest C.M C.t C.has) {D : Dem τ} {Γ : TEnv τ} {op : Op} {es es' : List Exp} {d d' : Nat → Val} {todo : List Nat} {ρ ρt : Env} {κ κ' : Kont}
    {σ σt : Store W} (hf : FRs C.t Γ es es') (ho : OpOk C.t Γ D es op) (hG : Good C.has Γ ρ) (he : ER C (fun y => ∃ e ∈ es, Free y e) ρ ρt)
    (hd : ∀ j, VR C (d j) (d' j)) (ht : Typed C.t C.has Γ es d (· ∈ todo)) (hk : KR C D κ κ') (hs : SR C σ σt) :
    Out C (.args op es d todo ρ κ σ) (.args op es' d' todo ρt κ' σt) := by
  cases todo with
  | cons i todo =>
    cases hi : es[i]? with
    | none => exact .fail (by cases op <;> simp [gstep, step, hi]) (fun _ _ => by simp)
    | some e =>
      have hm := List.mem_of_getElem? hi
      obtain ⟨e', hi', f1⟩ := hf.get hi
      exact .sync (s' := .ev e ρ (.args op es d i todo ρ κ) σ) (t' := .ev e' ρt (.args op es' d' i todo ρt κ') σt)
        (by cases op <;> simp [gstep, step, hi]) (by cases op <;> simp [gstep, step, hi'])
        (.ev f1 (can_dem _ _ _) hG (he.weaken (fun y hy => ⟨e, hm, hy⟩)) (.args hf ho hG he.ex he.all hd ht hi hk) hs)
  | nil =>
    cases op with
    | prim eff p =>
      rcases doPrim_rel (M := C.M) (p := p) (forall₂_vals hd es.length) hs with h1 | ⟨u, w, h1, h2, h3⟩ | ⟨u, w, σ', σt', h1, h2, h4, h5⟩
      · exact .fail (by simp [gstep, step, h1]) (fun _ _ => by simp)
      · exact Or.inr (Or.inl ⟨u, w, σ.world, .one (by simp [gstep, step, h1]) rfl, .one (by simp [gstep, step, ← hf.length, h2, hs.world]) hs.world, h3.view⟩)
      · exact .sync (s' := .ret u κ σ') (t' := .ret w κ' σt') (by simp [gstep, step, h1]) (by simp [gstep, step, ← hf.length, h2]) (.ret h4 (prim_sat hh ho ht h1) hk h5)
    | call =>
      simp only [OpOk] at ho; subst ho
      have hv := forall₂_vals hd es.length
      generalize h1 : vals d es.length = vs at hv
      generalize h2 : vals d' es.length = ws at hv
      cases hv with
      | nil => exact .fail (by simp [gstep, step, h1]) (fun _ _ => by simp)
      | cons hf' hv =>
        rename_i f g vs ws
        exact .sync (s' := .ap f vs κ σ) (t' := .ap g ws κ' σt) (by simp [gstep, step, h1]) (by simp [gstep, step, ← hf.length, h2]) (.ap hf' hv hk hs)

theorem forall₂_range {α β : Type} {P : α → β → Prop} {f : Nat → α} {g : Nat → β} : ∀ (n : Nat), (∀ i, i < n → P (f i) (g i)) → List.Forall₂ P ((List.range n).map f) ((List.range n).map g) := by
  intro n h
  have : ∀ l : List Nat, (∀ i ∈ l, i < n) → List.Forall₂ P (l.map f) (l.map g) := by
    intro l
    induction l with
    | nil => intro _; exact .nil
    | cons i l ih => intro hl; exact .cons (h i (hl i (by simp))) (ih (fun j hj => hl j (by simp [hj])))
  exact this _ (fun i hi => by simpa using hi)

theorem letf_ok {D : Dem τ} {Γ : TEnv τ} {ids : List Id} {b b' : Exp} {es es' : List Exp} {d d' : Nat → Val} {todo : List Nat} {ρ ρt : Env} {κ κ' : Kont} {σ σt : Store W}
    (hl : ids.length = es.length) (hg : ∀ y ∈ ids, y.isGlobal = false) (f1 : FRs C.t Γ es es') (f2 : FR C.t (exts ids (ctypes C.t Γ es) Γ) b b')
    (hc : Can C.t (exts ids (ctypes C.t Γ es) Γ) b D) (hG : Good C.has Γ ρ) (he : ER C (Free · (.app (.lam ids b) es)) ρ ρt)
    (hd : ∀ j, VR C (d (j + 1)) (d' (j + 1))) (ht : Typed C.t C.has Γ es (fun j => d (j + 1)) (fun j => j + 1 ∈ todo))
    (h0 : 0 ∈ todo ∨ (d 0 = .clos ids b ρ ∧ d' 0 = .clos ids b' ρt)) (hk : KR C D κ κ') (hs : SR C σ σt) :
    Out C (.args .call (.lam ids b :: es) d todo ρ κ σ) (.args .call (.lam ids b' :: es') d' todo ρt κ' σt) := by
  cases todo with
  | cons i todo =>
    cases i with
    | zero =>
      refine .moves (s' := .args .call (.lam ids b :: es) (upd d 0 (.clos ids b ρ)) todo ρ κ σ)
        (t' := .args .call (.lam ids b' :: es') (upd d' 0 (.clos ids b' ρt)) todo ρt κ' σt)
        ⟨_, .step rfl rfl (.step rfl rfl (.refl _)), rfl⟩ ⟨_, .step rfl rfl (.step rfl rfl (.refl _)), rfl⟩
        (.letf hl hg f1 f2 hc hG he (fun j => by simpa [upd] using hd j) (fun j e T h1 h2 h3 => ?_) (Or.inr ⟨by simp [upd], by simp [upd]⟩) hk hs)
      simpa [upd] using ht j e T h1 (by simpa using h2) h3
    | succ i =>
      cases hi : es[i]? with
      | none => exact .fail (by simp [gstep, step, hi]) (fun _ _ => by simp)
      | some e =>
        have hm := List.mem_of_getElem? hi
        obtain ⟨e', hi', f3⟩ := f1.get hi
        exact .sync (s' := .ev e ρ (.args .call (.lam ids b :: es) d (i + 1) todo ρ κ) σ) (t' := .ev e' ρt (.args .call (.lam ids b' :: es') d' (i + 1) todo ρt κ') σt)
          (by simp [gstep, step, hi]) (by simp [gstep, step, hi'])
          (.ev f3 (can_dem _ _ _) hG (he.weaken (fun y hy => .appA _ hm hy)) (.letf hl hg f1 f2 hc hG he.ex he.all hd ht (by simpa using h0) hi hk) hs)
  | nil =>
    simp only [List.not_mem_nil, false_or] at h0
    obtain ⟨h1, h2⟩ := h0
    have v1 : vals d (es.length + 1) = .clos ids b ρ :: (List.range es.length).map (fun j => d (j + 1)) := by
      simp only [vals, List.range_succ_eq_map, List.map_cons, h1, List.map_map]; rfl
    have v2 : vals d' (es'.length + 1) = .clos ids b' ρt :: (List.range es.length).map (fun j => d' (j + 1)) := by
      simp only [vals, List.range_succ_eq_map, List.map_cons, h2, List.map_map, ← f1.length]; rfl
    refine .moves (s' := .ev b (bindAll ids ((List.range es.length).map (fun j => d (j + 1))) ρ) κ σ)
      (t' := .ev b' (bindAll ids ((List.range es.length).map (fun j => d' (j + 1))) ρt) κ' σt)
      (Move.before (.one (b := .ap (.clos ids b ρ) ((List.range es.length).map (fun j => d (j + 1))) κ σ)
          (by simp only [gstep, step, List.length_cons, v1]) rfl) (.one (by simp [gstep, step, hl])))
      (Move.before (.one (b := .ap (.clos ids b' ρt) ((List.range es.length).map (fun j => d' (j + 1))) κ' σt)
          (by simp only [gstep, step, List.length_cons, v2]) rfl) (.one (by simp [gstep, step, hl])))
      (.ev f2 hc (hG.ext hg (by rw [ctypes_length]; exact hl) ?_) (he.bind (fun y hy hm => .appF _ (.lam hm hy)) (forall₂_range _ (fun i _ => hd i)) (by simpa using hl)) hk hs)
    have e1 : ctypes C.t Γ es = (List.range es.length).map (fun i => (es[i]?.map (ctype C.t Γ)).getD none) := by
      refine List.ext_getElem? (fun i => ?_)
      rw [ctypes_get]
      by_cases hi : i < es.length
      · simp [hi]
      · simp [hi]
    rw [e1]
    refine forall₂_range _ (fun i hi T hT => ?_)
    rw [List.getElem?_eq_getElem hi] at hT
    exact ht i _ T (List.getElem?_eq_getElem hi) (by simp) hT

theorem ap_ok {f g : Val} {vs ws : List Val} {κ κ' : Kont} {σ σt : Store W} (hf : VR C f g) (hv : List.Forall₂ (VR C) vs ws)
    (hk : KR C .any κ κ') (hs : SR C σ σt) : Out C (.ap f vs κ σ) (.ap g ws κ' σt) := by
  cases hf with
  | atom | pair | box | trap => exact .fail (by simp [gstep, step]) (fun _ _ => by simp)
  | clos a1 a2 a3 a4 a5 =>
    rename_i Γ ids b b' ρ ρt
    by_cases hl : ids.length = vs.length
    · have hl' : ids.length = ws.length := by rw [hl]; exact hv.length_eq
      exact .sync (s' := .ev b (bindAll ids vs ρ) κ σ) (t' := .ev b' (bindAll ids ws ρt) κ' σt) (by simp only [gstep, step]; rw [if_pos hl])
        (by simp only [gstep, step]; rw [if_pos hl']) (.ev (D := .any) a2 trivial (a3.bind a1) (ER.bind ⟨a4, a5⟩ (fun y hy hm => .lam hm hy) hv hl) hk hs)
    · exact .fail (by simp only [gstep, step]; rw [if_neg hl]) (fun _ _ => by simp)
  | rclos a1 a2 a3 a4 a5 =>
    rename_i Γ ids lams lams' i ρ ρt
    cases hi : lams[i]? with
    | none => exact .fail (by simp [gstep, step, hi]) (fun _ _ => by simp)
    | some l =>
      have hmem := List.mem_of_getElem? hi
      obtain ⟨l', hi', hl'⟩ := a2.get hi
      cases l with
      | lam ps b =>
        cases hl' with
        | lam o1 o2 =>
          rename_i b'
          by_cases hl : ps.length = vs.length
          · have hl' : ps.length = ws.length := by rw [hl]; exact hv.length_eq
            refine .sync (s' := .ev b (bindAll ps vs (.fix ids lams ρ)) κ σ) (t' := .ev b' (bindAll ps ws (.fix ids lams' ρt)) κ' σt)
              (by simp only [gstep, step, hi]; rw [if_pos hl]) (by simp only [gstep, step, hi']; rw [if_pos hl'])
              (.ev (D := .any) o2 trivial ((a3.fix a1).bind o1) (ER.bind (S := fun y => Free y b ∧ y ∉ ps) (ER.fix ⟨a4, a5⟩ a1 a2 a3 ?_ (fun y h => h)) (fun y hy hm => ⟨hy, hm⟩) hv hl) hk hs)
            exact fun y hy hm => ⟨⟨_, hmem, .lam hy.2 hy.1⟩, hm⟩
          · exact .fail (by simp only [gstep, step, hi]; rw [if_neg hl]) (fun _ _ => by simp)
      | _ => exact .fail (by simp [gstep, step, hi]) (fun _ _ => by simp)
  | cont hk' =>
    cases hv with
    | nil => exact .fail (by simp [gstep, step]) (fun _ _ => by simp)
    | cons h1 h2 =>
      cases h2 with
      | nil => exact .sync rfl rfl (.ret (D := .any) h1 trivial hk' hs)
      | cons => exact .fail (by simp [gstep, step]) (fun _ _ => by simp)

theorem ret_ok : (κ : Kont) → ∀ {D : Dem τ} {κ' : Kont} {v w : Val} {σ σt : Store W}, VR C v w → Sat C.has v D → KR C D κ κ' → SR C σ σt → Out C (.ret v κ σ) (.ret w κ' σt)
  | .halt, _, _, v, w, σ, σt, hv, _, .halt _, hs => Or.inr (Or.inl ⟨v, w, σ.world, .one rfl rfl, .one (by simp [gstep, step, hs.world]) hs.world, hv.view⟩)
  | .trap, _, _, _, _, _, _, _, _, .trap _, _ => .fail rfl (fun _ _ => by simp)
  | .throw _, _, _, _, _, _, _, hv, _, .throw h, hs => .sync rfl rfl (.ap h (.cons hv .nil) (.trap _) hs)
  | .set x _, _, _, v, w, σ, σt, hv, _, .set (κ := κ) (κ' := κ') hk, hs => by
    cases hc : (x.isGlobalConst && (σ.glob x).isSome) with
    | true => exact .fail (by simp only [gstep, hc]; rfl) (fun _ _ => by simp)
    | false =>
      have hc' : (x.isGlobalConst && (σt.glob x).isSome) = false := by
        rcases hs.glob x with ⟨h1, h2⟩ | ⟨a, b, h1, h2, _⟩
        · simp [h2]
        · rw [h1] at hc; rw [h2]; exact hc
      exact .sync (s' := .ret (.atom 1) κ _) (t' := .ret (.atom 1) κ' _) (by simp only [gstep, hc]; rfl) (by simp only [gstep, hc']; rfl) (.ret (D := .any) (.atom 1) trivial hk (hs.set_glob x hv))
  | .ite b c ρ κ, D, κ0, v, w, σ, σt, hv, hD, hk, hs => by
    cases hk with
    | ite o1 o2 c1 c2 hG a1 a2 hk =>
      rename_i D' Γ b' c' ρt κ'
      cases hf : v.isFalse with
      | true =>
        exact .sync (s' := .ev c ρ κ σ) (t' := .ev c' ρt κ' σt) (by simp [gstep, step, hf]) (by simp [gstep, step, ← hv.false, hf])
          (.ev o2 c2 hG ⟨fun y v hy => a1 y v (Or.inr hy), fun y v w hy => a2 y v w (Or.inr hy)⟩ hk hs)
      | false =>
        exact .sync (s' := .ev b ρ κ σ) (t' := .ev b' ρt κ' σt) (by simp [gstep, step, hf]) (by simp [gstep, step, ← hv.false, hf])
          (.ev o1 c1 hG ⟨fun y v hy => a1 y v (Or.inl hy), fun y v w hy => a2 y v w (Or.inl hy)⟩ hk hs)
    | fold hx hd f1 hc hG hw a1 a2 hk =>
      rename_i D' β Γ x x' a' d d' todo ρt κ'
      refine .moves (s' := .ev x ρ κ σ) (.one ?_) (beg_out hw κ' σt w) (.ev f1 hc hG (ER.skipR ⟨a1, a2⟩ hd w) hk hs)
      simp only [Sat] at hD
      simp only [gstep, step, hD, hx]
      cases β <;> rfl
  | .withcc _ _, _, _, v, w, σ, σt, hv, _, .withcc (e := e) (e' := e') (ρ := ρ) (ρt := ρt) o1 hG a1 a2, hs => by
    by_cases hp : v.view = .proc
    · exact .sync (s' := .ev e ρ (.throw v) σ) (t' := .ev e' ρt (.throw w) σt) (by simp only [gstep, step]; rw [if_pos hp])
        (by simp only [gstep, step]; rw [if_pos (by rw [← hv.view]; exact hp)]) (.ev (D := .any) o1 trivial hG ⟨a1, a2⟩ (.throw hv) hs)
    · exact .fail (by simp only [gstep, step]; rw [if_neg hp]) (fun _ _ => by simp)
  | .args op _ _ _ _ _ κ, D, κ0, v, w, σ, σt, hv, hD, hk, hs => by
    cases hk with
    | args o1 o2 hG a1 a2 hd ht hi hk =>
      refine .sync rfl rfl (.args o1 o2 hG ⟨a1, a2⟩ (fun j => ?_) (ht.upd hi hD (fun j hj h => by simp [hj, h])) hk hs)
      simp only [upd]; split
      · exact hv
      · exact hd j
    | letf hl hg f1 f2 hc hG a1 a2 hd ht h0 hi hk =>
      rename_i d i todo ρ D' Γ ids b b' es es' e d' ρt κ'
      refine .sync rfl rfl (.letf hl hg f1 f2 hc hG ⟨a1, a2⟩ (fun j => ?_) (fun j r T h1 h2 h3 => ?_) ?_ hk hs)
      · simp only [upd]; split
        · exact hv
        · exact hd j
      · have := ht.upd (o' := fun j => j + 1 ∈ i) hi hD (fun j hj h => by simp [hj, h]) j r T h1 h2 h3
        simpa [upd] using this
      · rcases h0 with h0 | ⟨h1, h2⟩
        · exact Or.inl h0
        · exact Or.inr ⟨by simp [upd, h1], by simp [upd, h2]⟩
    | begf hx0 hx hx' f1 hc hG hw hw' a1 a2 hk =>
      exact .moves (beg_out hw _ σ v) (beg_out hw' _ σt w) (.ev f1 hc (hG.skip hx0) (ER.skip ⟨a1, a2⟩ hx hx' v w) hk hs)
    | idl hx hw hk =>
      rename_i d todo ρ x e
      have q : Quiet C.F (.ret v (.args .call [.lam [x] (.var x), e] d 1 todo ρ κ) σ) (.ret v κ σ) :=
        ((beg_out hw κ σ v).quiet rfl).trans (.one (by simp [gstep, step, hx, Env.lookup]) rfl)
      exact .src q (ret_ok κ hv hD hk hs)

theorem sync_world {s t : State W} (h : Sync C s t) : s.world = t.world := by
  cases h with
  | ev _ _ _ _ _ hs => exact hs.world
  | args _ _ _ _ _ _ _ hs => exact hs.world
  | letf _ _ _ _ _ _ _ _ _ _ _ hs => exact hs.world
  | ap _ _ _ hs => exact hs.world
  | ret _ _ _ hs => exact hs.world

theorem sync_sim (hQ : FairOrder C.Q) (hU : Uniform C.Q) (hh : Honest C.M C.t C.has) : SimQ C.F C.F (Sync C) := by
  refine ⟨fun s t h => ?_, fun s t h => sync_world h⟩
  cases h with
  | ev hf hc hG he hk hs => exact ev_ok hQ hU hh _ hf hc hG he hk hs
  | args hf ho hG he hd ht hk hs => exact args_ok hh hf ho hG he hd ht hk hs
  | letf hl hg f1 f2 hc hG he hd ht h0 hk hs => exact letf_ok hl hg f1 f2 hc hG he hd ht h0 hk hs
  | ap hf hv hk hs => exact ap_ok hf hv hk hs
  | ret hv hD hk hs => exact ret_ok _ hv hD hk hs

/-- A folding step preserves the behaviour of a program. -/
theorem fold_behaves {M : Sem W} {t : Types τ} {has : τ → View → Prop} {Q : Op → List Exp → List Nat} (hQ : FairOrder Q) (hU : Uniform Q) (hh : Honest M t has)
    {e e' : Exp} (hf : FR t [] e e') (w : W) (g : Id → Option Val) (hg : ∀ x v, g x = some v → ∃ n, v = .atom n) :
    Behaves (gstep M Q) (gstep M Q) (.ev e .nil .halt ⟨g, [], w⟩) (.ev e' .nil .halt ⟨g, [], w⟩) := by
  refine SimQ.behaves (sync_sim (C := ⟨M, t, has, Q⟩) hQ hU hh) ?_
  refine .ev (C := ⟨M, t, has, Q⟩) (Γ := []) (D := .any) hf trivial (fun x T h => by simp [tlook] at h) ⟨?_, ?_⟩ (.halt _) ⟨?_, .nil, rfl⟩
  · intro y v _ h; simp [Env.lookup] at h
  · intro y v w _ h; simp [Env.lookup] at h
  · intro x
    cases h : g x with
    | none => exact Or.inl ⟨h, h⟩
    | some v =>
      obtain ⟨n, rfl⟩ := hg x v h
      exact Or.inr ⟨_, _, h, h, .atom n⟩

end Verif.Fold
