import Verif.Unbox.Rel
import Verif.Fold.Sim
/-
A program and the program with unboxed values run in step (C63): stores, environments, calls.
-/
namespace Verif.Unbox
open Verif.Core
open Verif.Fold (TEnv tlook exts ctype ctypes Uniform perm_one perm_two)
open Verif.Beta (lookup_skip lookup_rel idxOf_none lt_of_get vals_known)
variable {W τ : Type} [DecidableEq τ] {C : Ctx W τ}

/-- the machine for the given program. -/
abbrev Ctx.src (C : Ctx W τ) : State W → Option (State W) := ustep C.M (srcOrder C.Q) C.has C.F
/-- the machine for the new program. -/
abbrev Ctx.tgt (C : Ctx W τ) : State W → Option (State W) := ustep C.M C.Q C.has C.ct

instance (M : Sem W) (ord : Op → List Exp → List Nat) (has : τ → View → Bool) (ct : Id → Option τ) : Final (ustep M ord has ct) := ⟨fun _ _ => rfl⟩

/-! ### stores -/

theorem forall₂_view {vs ws : List Val} (h : List.Forall₂ (VR C) vs ws) : vs.map Val.view = ws.map Val.view := by
  induction h with
  | nil => rfl
  | cons h1 _ ih => simp [h1.view, ih]

theorem forall₂_get {h h' : List Val} (hh : List.Forall₂ (VR C) h h') : ∀ {a : Nat} {v : Val}, h[a]? = some v → ∃ w, h'[a]? = some w ∧ VR C v w := by
  induction hh with
  | nil => intro a v h; simp at h
  | cons h1 _ ih =>
    intro a v h
    cases a with
    | zero => simp only [List.getElem?_cons_zero, Option.some.injEq] at h; subst h; exact ⟨_, rfl, h1⟩
    | succ a => simpa using ih (by simpa using h)

theorem forall₂_set {h h' : List Val} (hh : List.Forall₂ (VR C) h h') {v w : Val} (hv : VR C v w) : ∀ a : Nat, List.Forall₂ (VR C) (h.set a v) (h'.set a w) := by
  induction hh with
  | nil => intro a; exact .nil
  | cons h1 h2 ih =>
    intro a
    cases a with
    | zero => exact .cons hv h2
    | succ a => exact .cons h1 (ih a)

theorem forall₂_snoc {h h' : List Val} (hh : List.Forall₂ (VR C) h h') {v w : Val} (hv : VR C v w) : List.Forall₂ (VR C) (h ++ [v]) (h' ++ [w]) := by
  induction hh with
  | nil => exact .cons hv .nil
  | cons h1 _ ih => exact .cons h1 ih

theorem SR.set_glob {σ σt : Store W} {v w : Val} (h : SR C σ σt) (x : Id) (hv : VR C v w) :
    SR C { σ with glob := fun y => if y = x then some v else σ.glob y } { σt with glob := fun y => if y = x then some w else σt.glob y } := by
  refine ⟨fun y => ?_, h.heap, h.world⟩
  by_cases e : y = x
  · right; exact ⟨v, w, by simp [e], by simp [e], hv⟩
  · simp only [e, if_false]; exact h.glob y

/-- primitives. -/
theorem doPrim_rel {M : Sem W} {p : PrimName} {vs ws : List Val} {σ σt : Store W} (hv : List.Forall₂ (VR C) vs ws) (hs : SR C σ σt) :
    doPrim M p vs σ = none ∨
    (∃ v w, doPrim M p vs σ = some (.stop v) ∧ doPrim M p ws σt = some (.stop w) ∧ VR C v w) ∨
    (∃ v w σ' σt', doPrim M p vs σ = some (.ok v σ') ∧ doPrim M p ws σt = some (.ok w σt') ∧ VR C v w ∧ SR C σ' σt') := by
  cases p with
  | void =>
    cases hv with
    | nil => exact Or.inr (Or.inr ⟨_, _, σ, σt, rfl, rfl, .atom 1, hs⟩)
    | cons => exact Or.inl rfl
  | halt =>
    cases hv with
    | nil => exact Or.inl rfl
    | cons h1 h2 =>
      cases h2 with
      | nil => exact Or.inr (Or.inl ⟨_, _, rfl, rfl, h1⟩)
      | cons => exact Or.inl rfl
  | ktrap =>
    cases hv with
    | nil => exact Or.inr (Or.inr ⟨_, _, σ, σt, rfl, rfl, .trap, hs⟩)
    | cons => exact Or.inl rfl
  | box =>
    cases hv with
    | nil => exact Or.inl rfl
    | cons h1 h2 =>
      cases h2 with
      | nil =>
        rename_i v w
        refine Or.inr (Or.inr ⟨_, _, _, _, rfl, rfl, ?_, ⟨hs.glob, forall₂_snoc hs.heap h1, hs.world⟩⟩)
        rw [hs.heap.length_eq]; exact .box _
      | cons => exact Or.inl (by simp [doPrim])
  | boxref =>
    cases hv with
    | nil => exact Or.inl rfl
    | cons h1 h2 =>
      cases h2 with
      | cons => exact Or.inl (by cases h1 <;> simp [doPrim])
      | nil =>
        cases h1 with
        | box a =>
          cases hg : σ.heap[a]? with
          | none => exact Or.inl (by simp [doPrim, hg])
          | some v =>
            obtain ⟨w, hw, hr⟩ := forall₂_get hs.heap hg
            exact Or.inr (Or.inr ⟨v, w, σ, σt, by simp [doPrim, hg], by simp [doPrim, hw], hr, hs⟩)
        | _ => exact Or.inl rfl
  | boxset =>
    cases hv with
    | nil => exact Or.inl rfl
    | cons h1 h2 =>
      cases h2 with
      | nil => exact Or.inl (by cases h1 <;> simp [doPrim])
      | cons h2 h3 =>
        cases h3 with
        | cons => exact Or.inl (by cases h1 <;> simp [doPrim])
        | nil =>
          cases h1 with
          | box a =>
            rename_i v w
            by_cases hl : a < σ.heap.length
            · exact Or.inr (Or.inr ⟨v, w, { σ with heap := σ.heap.set a v }, { σt with heap := σt.heap.set a w }, by simp only [doPrim, if_pos hl],
                by simp only [doPrim, if_pos (hs.heap.length_eq ▸ hl)], h2,
                ⟨hs.glob, forall₂_set hs.heap h2 a, hs.world⟩⟩)
            · exact Or.inl (by simp only [doPrim, if_neg hl])
          | _ => exact Or.inl rfl
  | cons =>
    cases hv with
    | nil => exact Or.inl rfl
    | cons h1 h2 =>
      cases h2 with
      | nil => exact Or.inl rfl
      | cons h2 h3 =>
        cases h3 with
        | nil => exact Or.inr (Or.inr ⟨_, _, σ, σt, rfl, rfl, .pair h1 h2, hs⟩)
        | cons => exact Or.inl rfl
  | car =>
    cases hv with
    | nil => exact Or.inl rfl
    | cons h1 h2 =>
      cases h2 with
      | cons => exact Or.inl (by cases h1 <;> simp [doPrim])
      | nil =>
        cases h1 with
        | pair ha hd => exact Or.inr (Or.inr ⟨_, _, σ, σt, rfl, rfl, ha, hs⟩)
        | _ => exact Or.inl rfl
  | cdr =>
    cases hv with
    | nil => exact Or.inl rfl
    | cons h1 h2 =>
      cases h2 with
      | cons => exact Or.inl (by cases h1 <;> simp [doPrim])
      | nil =>
        cases h1 with
        | pair ha hd => exact Or.inr (Or.inr ⟨_, _, σ, σt, rfl, rfl, hd, hs⟩)
        | _ => exact Or.inl rfl
  | op n =>
    cases ho : M.op n (vs.map Val.view) σ.world with
    | none => exact Or.inl (by simp [doPrim, ho])
    | some r =>
      have ho' : M.op n (ws.map Val.view) σt.world = some r := by rw [← forall₂_view hv, ← hs.world]; exact ho
      exact Or.inr (Or.inr ⟨.atom r.1, .atom r.1, { σ with world := r.2 }, { σt with world := r.2 }, by simp only [doPrim, ho]; rfl,
        by simp only [doPrim, ho']; rfl, .atom _, ⟨hs.glob, hs.heap, rfl⟩⟩)

theorem forall₂_vals {d d' : Nat → Val} (h : ∀ j, VR C (d j) (d' j)) (n : Nat) :
    List.Forall₂ (VR C) (vals d n) (vals d' n) := by
  simp only [vals]
  induction List.range n with
  | nil => exact .nil
  | cons i l ih => exact .cons (h i) ih

/-! ### environments -/

theorem ER.weaken {s : Id → Id} {S S' : Id → Prop} {ρ ρt : Env} (h : ER C s S ρ ρt) (hS : ∀ y, S' y → S y) : ER C s S' ρ ρt :=
  ⟨fun y v h1 => h.ex y v (hS y h1), fun y v w h1 => h.all y v w (hS y h1)⟩

theorem ER.formals {s : Id → Id} {Γ : TEnv τ} {ids : List Id} {b : Exp} {ρ ρt : Env} {vs ws : List Val} (hf : Formals C.ct Γ s ids b) (h : ER C s (Free · (.lam ids b)) ρ ρt)
    (hv : List.Forall₂ (VR C) vs ws) (hl : ids.length = vs.length) : ER C s (Free · b) (bindAll ids vs ρ) (bindAll ids ws ρt) := by
  refine ⟨?_, ?_⟩
  · intro y v hy h1
    by_cases hm : y ∈ ids
    · obtain ⟨_, w, _, h2, _⟩ := lookup_rel (ρ := ρ) (ρt := ρt) hv hl hm
      rw [(hf.own y hm).2.1]
      exact ⟨w, h2⟩
    · rw [lookup_skip hm] at h1
      rw [lookup_skip (hf.free y hy hm)]
      exact h.ex y v (.lam hm hy) h1
  · intro y v w hy h1 h2
    by_cases hm : y ∈ ids
    · obtain ⟨v', w', h1', h2', h3⟩ := lookup_rel (ρ := ρ) (ρt := ρt) hv hl hm
      rw [(hf.own y hm).2.1] at h2
      rw [h1'] at h1; rw [h2'] at h2
      injection h1 with h1; injection h2 with h2; subst h1; subst h2
      exact h3
    · rw [lookup_skip hm] at h1
      rw [lookup_skip (hf.free y hy hm)] at h2
      exact h.all y v w (.lam hm hy) h1 h2

theorem ER.fix {s : Id → Id} {S S' : Id → Prop} {Γ : TEnv τ} {ρ ρt : Env} {ids : List Id} {lams lams' : List Exp} (h : ER C s S ρ ρt)
    (hg : FixOk Γ s ids lams) (hl : C.Us Γ s lams lams') (hG : C.Good Γ ρt) (hn : ∀ y, S' y → y ∉ ids → s y ∉ ids) (hS : ∀ y, S' y → y ∉ ids → S y)
    (hS2 : ∀ y, (∃ l ∈ lams, Free y l) ∧ y ∉ ids → S y) : ER C s S' (.fix ids lams ρ) (.fix ids lams' ρt) := by
  refine ⟨?_, ?_⟩
  · intro y v hy h1
    rw [Env.lookup] at h1
    cases hi : idxOf y ids with
    | some i =>
      have hm : y ∈ ids := by
        by_contra hm
        rw [idxOf_none.mpr hm] at hi; cases hi
      rw [(hg.own y hm).2.1, Env.lookup, hi]
      exact ⟨_, rfl⟩
    | none =>
      rw [hi] at h1
      have hm := idxOf_none.mp hi
      rw [Env.lookup, idxOf_none.mpr (hn y hy hm)]
      exact h.ex y v (hS y hy hm) h1
  · intro y v w hy h1 h2
    rw [Env.lookup] at h1
    cases hi : idxOf y ids with
    | some i =>
      have hm : y ∈ ids := by
        by_contra hm
        rw [idxOf_none.mpr hm] at hi; cases hi
      rw [(hg.own y hm).2.1, Env.lookup, hi] at h2
      rw [hi] at h1
      injection h1 with h1; injection h2 with h2; subst h1; subst h2
      exact .rclos hg hl hG (fun y v hy => h.ex y v (hS2 y hy)) (fun y v w hy => h.all y v w (hS2 y hy))
    | none =>
      rw [hi] at h1
      have hm := idxOf_none.mp hi
      rw [Env.lookup, idxOf_none.mpr (hn y hy hm)] at h2
      exact h.all y v w (hS y hy hm) h1 h2

/-- the value of the `i`-th of distinct variables. -/
theorem lookup_at {ρ : Env} : ∀ {ids : List Id} {vs : List Val} {i : Nat} {x : Id} {v : Val}, ids.Nodup → ids[i]? = some x → vs[i]? = some v → (bindAll ids vs ρ).lookup x = some v := by
  intro ids
  induction ids with
  | nil => intro vs i x v _ h; simp at h
  | cons y ids ih =>
    intro vs i x v hn h1 h2
    cases vs with
    | nil => simp at h2
    | cons u vs =>
      cases i with
      | zero =>
        simp only [List.getElem?_cons_zero, Option.some.injEq] at h1 h2
        subst h1; subst h2
        simp [bindAll, Env.lookup]
      | succ i =>
        have h1' : ids[i]? = some x := by simpa using h1
        have hne : x ≠ y := fun e => (List.nodup_cons.mp hn).1 (e ▸ List.mem_of_getElem? h1')
        simp only [bindAll, Env.lookup, if_neg hne]
        exact ih (List.nodup_cons.mp hn).2 h1' (by simpa using h2)

theorem lookup_zip {ρ : Env} {x : Id} : ∀ {ids : List Id} {vs : List Val}, ids.length = vs.length → x ∈ ids → ∃ v, (bindAll ids vs ρ).lookup x = some v ∧ (x, v) ∈ ids.zip vs := by
  intro ids
  induction ids with
  | nil => intro vs _ h; simp at h
  | cons y ids ih =>
    intro vs hl h
    cases vs with
    | nil => simp at hl
    | cons u vs =>
      simp only [bindAll, Env.lookup]
      by_cases e : x = y
      · subst e; exact ⟨u, by simp, by simp⟩
      · rcases List.mem_cons.mp h with h | h
        · exact absurd h e
        · obtain ⟨v, h1, h2⟩ := ih (vs := vs) (by simpa using hl) h
          exact ⟨v, by rw [if_neg e]; exact h1, by simp [h2]⟩

omit [DecidableEq τ] in
theorem fits_iff {has : τ → View → Bool} {ct : Id → Option τ} {f : Val} {vs : List Val} :
    fits has ct f vs = true ↔ ∀ x v, (x, v) ∈ binds f vs → ∀ T, ct x = some T → has T v.view = true := by
  simp only [fits, List.all_eq_true]
  constructor
  · intro h x v hm T hT
    have := h (x, v) hm
    simp only [hT] at this; exact this
  · intro h b hm
    obtain ⟨x, v⟩ := b
    cases hT : ct x with
    | none => simp
    | some T => simpa using h x v hm T hT

/-! ### operands whose values are known -/

theorem args_known {M : Sem W} {ord : Op → List Exp → List Nat} {has : τ → View → Bool} {ct : Id → Option τ} {op : Op} {es : List Exp} {ρ : Env} {σ : Store W} {f : Nat → Val}
    (h : ∀ (i : Nat) (e : Exp), es[i]? = some e → ∀ κ, Quiet (ustep M ord has ct) (.ev e ρ κ σ) (.ret (f i) κ σ)) (κ : Kont) :
    ∀ (todo : List Nat) (d : Nat → Val), (∀ i ∈ todo, i < es.length) → (∀ i, i ∉ todo → i < es.length → d i = f i) →
      ∃ d', (∀ i, i < es.length → d' i = f i) ∧ Quiet (ustep M ord has ct) (.args op es d todo ρ κ σ) (.args op es d' [] ρ κ σ) := by
  intro todo
  induction todo with
  | nil => intro d _ hd; exact ⟨d, fun i hi => hd i (by simp) hi, .refl _⟩
  | cons i todo ih =>
    intro d hi hd
    have hlt := hi i (by simp)
    have h1 : ustep M ord has ct (.args op es d (i :: todo) ρ κ σ) = some (.ev es[i] ρ (.args op es d i todo ρ κ) σ) := by
      cases op <;> simp [ustep, step, List.getElem?_eq_getElem hlt]
    obtain ⟨d', h2, h3⟩ := ih (upd d i (f i)) (fun j hj => hi j (by simp [hj])) (fun j hj hjl => by
      by_cases e : j = i
      · simp [upd, e]
      · simp only [upd, if_neg e]; exact hd j (by simp [e, hj]) hjl)
    exact ⟨d', h2, (Quiet.step h1 rfl (h i _ (List.getElem?_eq_getElem hlt) _)).trans (.step rfl rfl h3)⟩

/-- A `let` whose operands are variables. -/
theorem let_vars {M : Sem W} {ord : Op → List Exp → List Nat} {has : τ → View → Bool} {ct : Id → Option τ} (hQ : FairOrder ord) {cs xs : List Id} {b : Exp} {ρ : Env} {us : List Val}
    (hl : cs.length = xs.length) (hu : us.length = xs.length) (hx : ∀ (i : Nat) (x : Id) (u : Val), xs[i]? = some x → us[i]? = some u → x.isGlobal = false ∧ ρ.lookup x = some u)
    (hfit : ∀ x v, (x, v) ∈ cs.zip us → ∀ T, ct x = some T → has T v.view = true) (κ : Kont) (σ : Store W) :
    Quiet (ustep M ord has ct) (.ev (.app (.lam cs b) (xs.map .var)) ρ κ σ) (.ev b (bindAll cs us ρ) κ σ) := by
  obtain ⟨d, hd, q⟩ := args_known (M := M) (ord := ord) (has := has) (ct := ct) (ρ := ρ) (σ := σ) (op := .call) (es := .lam cs b :: xs.map .var)
    (f := fun i => match i with | 0 => .clos cs b ρ | i + 1 => us.getD i .trap)
    (fun i e hi κ => by
      cases i with
      | zero => simp only [List.getElem?_cons_zero, Option.some.injEq] at hi; subst hi; exact .one rfl rfl
      | succ i =>
        simp only [List.getElem?_cons_succ, List.getElem?_map, Option.map_eq_some_iff] at hi
        obtain ⟨x, h1, rfl⟩ := hi
        have hlt : i < us.length := by rw [hu]; exact lt_of_get h1
        obtain ⟨h2, h3⟩ := hx i x us[i] h1 (List.getElem?_eq_getElem hlt)
        refine .one ?_ rfl
        simp [ustep, step, h2, h3, hlt]) κ (ord .call (.lam cs b :: xs.map .var))
    (fun _ => .trap) (fun i hi => by simpa using ((hQ .call (.lam cs b :: xs.map .var)).mem_iff (a := i)).mp hi)
    (fun i hi hil => absurd (((hQ .call (.lam cs b :: xs.map .var)).mem_iff (a := i)).mpr (by simpa using hil)) hi)
  have hv : vals d (xs.length + 1) = .clos cs b ρ :: us := by
    have : xs.length + 1 = (Exp.lam cs b :: xs.map Exp.var).length := by simp
    rw [this, vals_known hd, List.length_cons, List.range_succ_eq_map, List.map_cons, List.map_map, List.length_map, ← hu]
    exact congrArg _ (Beta.range_getD us)
  have hf : fits has ct (.clos cs b ρ) us = true := fits_iff.mpr (by simpa [binds] using hfit)
  have q1 : Quiet (ustep M ord has ct) (.ev (.app (.lam cs b) (xs.map .var)) ρ κ σ) (.args .call (.lam cs b :: xs.map .var) d [] ρ κ σ) := .step rfl rfl q
  refine q1.trans (.step (b := .ap (.clos cs b ρ) us κ σ) (by simp only [ustep, step, List.length_cons, List.length_map, hv]) rfl (.one ?_ rfl))
  simp only [ustep, hf, if_true, step]
  rw [if_pos (by rw [hl, hu])]

end Verif.Unbox
