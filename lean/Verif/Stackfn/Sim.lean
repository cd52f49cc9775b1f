import Verif.Stackfn.Model
/-
Machine steps with an arbitrary order of operands, and simulation of results.
-/
namespace Verif.Stackfn
open Verif.Core
variable {W α β : Type}

/-- One step of the machine; operands are evaluated in any order. -/
def Any (M : Sem W) (s t : State W) : Prop := ∃ ord, FairOrder ord ∧ Core.step M ord s = some t

/-- `n` steps. -/
inductive Runs (M : Sem W) : Nat → State W → State W → Prop
  | refl (s) : Runs M 0 s s
  | step {s t u n} : Any M s t → Runs M n t u → Runs M (n + 1) s u

/-- No step is possible, and the program has not ended. -/
def Stuck (M : Sem W) (s : State W) : Prop := (∀ ord, Core.step M ord s = none) ∧ ∀ v w, s ≠ .done v w

/-- What the machine can do from `s` when the C code has the result `r`: reach a state that fits to the value; get stuck; end the
program; make `n` steps. -/
def Sim (M : Sem W) (n : Nat) (s : State W) (r : Res W α) (post : α → State W → Prop) : Prop :=
  match r with
  | .ok a => ∃ m t, Runs M m s t ∧ post a t
  | .fail => ∃ m t, Runs M m s t ∧ Stuck M t
  | .stop v w => ∃ m, Runs M m s (.done v w)
  | .more => ∃ m t, n ≤ m ∧ Runs M m s t
  | .bad => True

variable {M : Sem W}

theorem Runs.trans {m n : Nat} {s t u : State W} (h : Runs M m s t) (h' : Runs M n t u) : Runs M (m + n) s u := by
  induction h with
  | refl s => rw [Nat.zero_add]; exact h'
  | @step s t u m a r ih =>
    have := Runs.step a (ih h')
    rw [show m + 1 + n = m + n + 1 by omega]; exact this

theorem Runs.one {s t : State W} (h : Any M s t) : Runs M 1 s t := .step h (.refl t)

theorem Sim.ok {n : Nat} {s : State W} {a : α} {post : α → State W → Prop} (h : post a s) : Sim M n s (.ok a) post := ⟨0, s, .refl s, h⟩

theorem Sim.runs {m n : Nat} {s t : State W} {r : Res W α} {post : α → State W → Prop} (h : Runs M m s t) (h' : Sim M n t r post) : Sim M (n + m) s r post := by
  cases r with
  | ok a => obtain ⟨k, u, h1, h2⟩ := h'; exact ⟨m + k, u, h.trans h1, h2⟩
  | fail => obtain ⟨k, u, h1, h2⟩ := h'; exact ⟨m + k, u, h.trans h1, h2⟩
  | stop v w => obtain ⟨k, h1⟩ := h'; exact ⟨m + k, h.trans h1⟩
  | more => obtain ⟨k, u, h1, h2⟩ := h'; exact ⟨m + k, u, by omega, h.trans h2⟩
  | bad => trivial

theorem Sim.mono {m n : Nat} {s : State W} {r : Res W α} {post : α → State W → Prop} (h : Sim M n s r post) (hm : m ≤ n) : Sim M m s r post := by
  cases r with
  | more => obtain ⟨k, u, h1, h2⟩ := h; exact ⟨k, u, by omega, h2⟩
  | ok a => exact h
  | fail => exact h
  | stop v w => exact h
  | bad => trivial

theorem Sim.step {n : Nat} {s t : State W} {r : Res W α} {post : α → State W → Prop} (h : Any M s t) (h' : Sim M n t r post) : Sim M (n + 1) s r post :=
  Sim.runs (.one h) h'

theorem Sim.step' {n : Nat} {s t : State W} {r : Res W α} {post : α → State W → Prop} (h : Any M s t) (h' : Sim M n t r post) : Sim M n s r post :=
  (Sim.step h h').mono (by omega)

theorem Sim.imp {n : Nat} {s : State W} {r : Res W α} {post post' : α → State W → Prop} (h : Sim M n s r post) (hp : ∀ a t, post a t → post' a t) :
    Sim M n s r post' := by
  cases r with
  | ok a => obtain ⟨k, u, h1, h2⟩ := h; exact ⟨k, u, h1, hp _ _ h2⟩
  | fail => exact h
  | stop v w => exact h
  | more => exact h
  | bad => trivial

theorem Sim.bind {n : Nat} {s : State W} {r : Res W α} {k : α → Res W β} {post : α → State W → Prop} {post' : β → State W → Prop}
    (h : Sim M n s r post) (hk : ∀ a t, post a t → Sim M n t (k a) post') : Sim M n s (r.bind k) post' := by
  cases r with
  | ok a =>
    obtain ⟨m, u, h1, h2⟩ := h
    exact (Sim.runs h1 (hk _ _ h2)).mono (by omega)
  | fail => exact h
  | stop v w => exact h
  | more => exact h
  | bad => trivial

theorem Sim.after {n : Nat} {s : State W} {r : Res W α} {post post' : α → State W → Prop} (h : Sim M n s r post)
    (hp : ∀ a t, post a t → ∃ m u, Runs M m t u ∧ post' a u) : Sim M n s r post' := by
  cases r with
  | ok a =>
    obtain ⟨k, t, h1, h2⟩ := h
    obtain ⟨m, u, h3, h4⟩ := hp _ _ h2
    exact ⟨k + m, u, h1.trans h3, h4⟩
  | fail => exact h
  | stop v w => exact h
  | more => exact h
  | bad => trivial

theorem Sim.stuck {n : Nat} {s : State W} {post : α → State W → Prop} (h : Stuck M s) : Sim M n s (.fail : Res W α) post := ⟨0, s, .refl s, h⟩

/-! ### steps -/

/-- the order that evaluates the operands `es` of `op` like `l`. -/
theorem exists_order (op : Op) (es : List Exp) (l : List Nat) (h : l.Perm (List.range es.length)) : ∃ ord, FairOrder ord ∧ ord op es = l := by
  classical
  refine ⟨fun op' es' => if (op', es') = (op, es) then l else List.range es'.length, ?_, by simp⟩
  intro op' es'
  by_cases e : (op', es') = (op, es)
  · simp only [if_pos e]
    obtain ⟨_, rfl⟩ := Prod.mk.inj e
    exact h
  · simp only [if_neg e]; exact List.Perm.refl _

theorem fair_ltr : FairOrder leftToRight := fun _ _ => List.Perm.refl _

theorem any_prim (eff : Effect) (p : PrimName) (es : List Exp) (l : List Nat) (h : l.Perm (List.range es.length)) (ρ : Env) (κ : Kont) (σ : Store W) :
    Any M (.ev (.prim eff p es) ρ κ σ) (.args (.prim eff p) es (fun _ => .trap) l ρ κ σ) := by
  obtain ⟨ord, h1, h2⟩ := exists_order (.prim eff p) es l h
  exact ⟨ord, h1, by simp only [Core.step, h2]⟩

theorem any_app (f : Exp) (es : List Exp) (l : List Nat) (h : l.Perm (List.range (f :: es).length)) (ρ : Env) (κ : Kont) (σ : Store W) :
    Any M (.ev (.app f es) ρ κ σ) (.args .call (f :: es) (fun _ => .trap) l ρ κ σ) := by
  obtain ⟨ord, h1, h2⟩ := exists_order .call (f :: es) l h
  exact ⟨ord, h1, by simp only [Core.step, h2]⟩

theorem any_of {s t : State W} (h : ∀ ord, Core.step M ord s = some t) : Any M s t := ⟨leftToRight, fair_ltr, h _⟩

theorem any_arg {op : Op} {es : List Exp} {d : Nat → Val} {i : Nat} {todo : List Nat} {e : Exp} (h : es[i]? = some e) (ρ : Env) (κ : Kont) (σ : Store W) :
    Any M (.args op es d (i :: todo) ρ κ σ) (.ev e ρ (.args op es d i todo ρ κ) σ) := any_of fun ord => by simp [Core.step, h]

theorem any_ret (v : Val) (op : Op) (es : List Exp) (d : Nat → Val) (i : Nat) (todo : List Nat) (ρ : Env) (κ : Kont) (σ : Store W) :
    Any M (.ret v (.args op es d i todo ρ κ) σ) (.args op es (upd d i v) todo ρ κ σ) := any_of fun ord => by simp [Core.step]

theorem any_lam (ids : List Id) (b : Exp) (ρ : Env) (κ : Kont) (σ : Store W) : Any M (.ev (.lam ids b) ρ κ σ) (.ret (.clos ids b ρ) κ σ) :=
  any_of fun ord => by simp [Core.step]

theorem any_fix (ids : List Id) (lams : List Exp) (b : Exp) (ρ : Env) (κ : Kont) (σ : Store W) :
    Any M (.ev (.fix ids lams b) ρ κ σ) (.ev b (.fix ids lams ρ) κ σ) := any_of fun ord => by simp [Core.step]

theorem any_ite (a b c : Exp) (ρ : Env) (κ : Kont) (σ : Store W) : Any M (.ev (.ite a b c) ρ κ σ) (.ev a ρ (.ite b c ρ κ) σ) :=
  any_of fun ord => by simp [Core.step]

theorem any_ret_ite (v : Val) (b c : Exp) (ρ : Env) (κ : Kont) (σ : Store W) :
    Any M (.ret v (.ite b c ρ κ) σ) (.ev (if v.isFalse then c else b) ρ κ σ) := any_of fun ord => by simp [Core.step]

theorem any_var_glob {x : Id} {σ : Store W} {v : Val} (hx : x.isGlobal = true) (h : σ.glob x = some v) (ρ : Env) (κ : Kont) :
    Any M (.ev (.var x) ρ κ σ) (.ret v κ σ) := any_of fun ord => by simp [Core.step, hx, h]

theorem any_var_loc {x : Id} {ρ : Env} {v : Val} (hx : x.isGlobal = false) (h : ρ.lookup x = some v) (κ : Kont) (σ : Store W) :
    Any M (.ev (.var x) ρ κ σ) (.ret v κ σ) := any_of fun ord => by simp [Core.step, hx, h]

theorem any_call {es : List Exp} {d : Nat → Val} {f : Val} {vs : List Val} (h : vals d es.length = f :: vs) (ρ : Env) (κ : Kont) (σ : Store W) :
    Any M (.args .call es d [] ρ κ σ) (.ap f vs κ σ) := any_of fun ord => by simp [Core.step, h]

theorem any_clos {ids : List Id} {vs : List Val} (h : ids.length = vs.length) (b : Exp) (ρ : Env) (κ : Kont) (σ : Store W) :
    Any M (.ap (.clos ids b ρ) vs κ σ) (.ev b (bindAll ids vs ρ) κ σ) := any_of fun ord => by simp [Core.step, h]

theorem any_rclos {ids : List Id} {lams : List Exp} {i : Nat} {ps : List Id} {b : Exp} {vs : List Val} (hl : lams[i]? = some (.lam ps b))
    (h : ps.length = vs.length) (ρ : Env) (κ : Kont) (σ : Store W) :
    Any M (.ap (.rclos ids lams i ρ) vs κ σ) (.ev b (bindAll ps vs (.fix ids lams ρ)) κ σ) := any_of fun ord => by simp [Core.step, hl, h]

/-- the end of a primitive. -/
theorem sim_prim {n : Nat} {eff : Effect} {p : PrimName} {es : List Exp} {d : Nat → Val} {ρ : Env} {κ : Kont} {σ : Store W} :
    Sim M n (.args (.prim eff p) es d [] ρ κ σ)
      (match doPrim M p (vals d es.length) σ with | some (.ok v σ') => .ok (v, σ') | some (.stop v) => .stop v σ.world | none => .fail)
      (fun r t => t = .ret r.1 κ r.2 ∧ ∃ v σ', doPrim M p (vals d es.length) σ = some (.ok v σ') ∧ r = (v, σ')) := by
  cases h : doPrim M p (vals d es.length) σ with
  | none => exact Sim.stuck ⟨fun ord => by simp [Core.step, h], by intro v w; simp⟩
  | some r =>
    cases r with
    | ok v σ' => exact ⟨1, _, .one (any_of fun ord => by simp [Core.step, h]), rfl, v, σ', rfl, rfl⟩
    | stop v => exact ⟨1, .one (any_of fun ord => by simp [Core.step, h])⟩

theorem doPrim_glob {p : PrimName} {vs : List Val} {σ σ' : Store W} {v : Val} (h : doPrim M p vs σ = some (.ok v σ')) : σ'.glob = σ.glob := by
  unfold doPrim at h
  split at h
  all_goals first
    | (injection h with h; injection h with _ h; subst h; rfl)
    | (injection h with h; cases h)
    | skip
  all_goals first
    | (rw [Option.map_eq_some_iff] at h; obtain ⟨a, _, h⟩ := h; injection h with _ h; subst h; rfl)
    | skip
  · split at h
    · injection h with h; injection h with _ h; subst h; rfl
    · cases h
  · cases h

/-! ### environments -/

theorem bindAll_lookup_not {ids : List Id} {vs : List Val} {ρ : Env} {x : Id} (h : x ∉ ids) : (bindAll ids vs ρ).lookup x = ρ.lookup x := by
  induction ids generalizing vs with
  | nil => simp [bindAll]
  | cons y ys ih =>
    cases vs with
    | nil => simp [bindAll]
    | cons v vs =>
      rw [bindAll, Env.lookup, if_neg (by intro e; exact h (by simp [e]))]
      exact ih (by intro e; exact h (by simp [e]))

theorem bindAll_lookup {ids : List Id} {vs : List Val} {ρ : Env} (hn : ids.Nodup) (hl : ids.length = vs.length) {i : Nat} {x : Id}
    (h : ids[i]? = some x) : (bindAll ids vs ρ).lookup x = vs[i]? := by
  induction ids generalizing vs i with
  | nil => simp at h
  | cons y ys ih =>
    cases vs with
    | nil => simp at hl
    | cons v vs =>
      rw [bindAll, Env.lookup]
      rw [List.nodup_cons] at hn
      cases i with
      | zero => simp at h; simp [h]
      | succ i =>
        simp at h
        have : x ∈ ys := List.mem_of_getElem? h
        rw [if_neg (by intro e; subst e; exact hn.1 this)]
        simpa using ih hn.2 (by simpa using hl) h

theorem idxOf_some {ids : List Id} (hn : ids.Nodup) {i : Nat} {x : Id} (h : ids[i]? = some x) : idxOf x ids = some i := by
  induction ids generalizing i with
  | nil => simp at h
  | cons y ys ih =>
    rw [List.nodup_cons] at hn
    cases i with
    | zero => simp at h; simp [idxOf, h]
    | succ i =>
      simp at h
      have : x ∈ ys := List.mem_of_getElem? h
      rw [idxOf, if_neg (by intro e; subst e; exact hn.1 this), ih hn.2 h]; rfl

theorem idxOf_none {ids : List Id} {x : Id} (h : x ∉ ids) : idxOf x ids = none := by
  induction ids with
  | nil => rfl
  | cons y ys ih =>
    rw [idxOf, if_neg (by intro e; exact h (by simp [e])), ih (by intro e; exact h (by simp [e]))]; rfl

/-- `fr` holds the values of the variables `xs`. -/
def Agr (xs : List Id) (ρ : Env) (fr : Frame) : Prop := ∀ x ∈ xs, ∃ v, ρ.lookup x = some v ∧ fr x = some v

/-- The frames differ only in `B` and in variables with time stamps from `N`. -/
def Same (B : List Id) (N : Nat) (fr fr' : Frame) : Prop := ∀ y : Id, y ∉ B → y.ts < N → fr' y = fr y

theorem Same.refl (B : List Id) (N : Nat) (fr : Frame) : Same B N fr fr := fun _ _ _ => rfl

theorem Same.trans {B B' : List Id} {N : Nat} {a b c : Frame} (h : Same B N a b) (h' : Same B' N b c) : Same (B ++ B') N a c := by
  intro y hy ht
  rw [List.mem_append, not_or] at hy
  rw [h' y hy.2 ht, h y hy.1 ht]

theorem Same.weak {B B' : List Id} {N N' : Nat} {a b : Frame} (h : Same B N a b) (hB : B ⊆ B') (hN : N' ≤ N) : Same B' N' a b :=
  fun y hy ht => h y (fun e => hy (hB e)) (by omega)

theorem Same.agr {B xs : List Id} {N : Nat} {a b : Frame} {ρ : Env} (h : Same B N a b) (hx : ∀ x ∈ xs, x ∉ B ∧ x.ts < N) (ha : Agr xs ρ a) : Agr xs ρ b := by
  intro x hx'
  obtain ⟨v, h1, h2⟩ := ha x hx'
  exact ⟨v, h1, by rw [h x (hx x hx').1 (hx x hx').2, h2]⟩

theorem Same.set (fr : Frame) (x : Id) (v : Option Val) (N : Nat) : Same [x] N fr (fr.set x v) := by
  intro y hy _
  simp only [Frame.set]
  rw [if_neg (by simpa using hy)]

end Verif.Stackfn
