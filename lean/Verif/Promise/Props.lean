import Verif.Promise.Model
import Mathlib.Tactic.Common
/-
C22: a promise has one value.
-/
namespace Verif.Promise

variable {V : Type}

/-- the value of a promise, if it has one -/
def status (s : State V) (p : Nat) : Option V := if s.car (s.box p) then some (s.cdr (s.box p)) else none

structure Inv (s : State V) : Prop where
  box_lt : ∀ b < s.boxes, s.box b < s.pairs

theorem force_fst (s : State V) (q : Nat) : (force s q).1 = s := by
  simp only [force]; split <;> rfl

theorem step_inv {s : State V} (h : Inv s) (e : Event V) : Inv (step s e).1 := by
  cases e with
  | make d v =>
    constructor
    intro b hb
    simp only [step, make] at hb ⊢
    split
    · omega
    · have := h.box_lt b (by omega); omega
  | force p =>
    simp only [step]
    split
    · rw [force_fst]; exact h
    · exact h
  | ret p newp =>
    simp only [step]
    split
    · rename_i hp
      have hb1 := h.box_lt p hp.1
      simp only [ret]
      rw [force_fst]
      by_cases hc : s.car (s.box p) = true
      · rw [if_pos hc]; exact h
      · rw [if_neg hc]
        constructor
        intro b hb
        simp only at hb ⊢
        split
        · exact hb1
        · exact h.box_lt b hb
    · exact h

/-- a value, once there, stays -/
theorem step_status {s : State V} (h : Inv s) (e : Event V) {p : Nat} {v : V} (hp : p < s.boxes) (hs : status s p = some v) :
    status (step s e).1 p = some v ∧ p < (step s e).1.boxes := by
  have hs' : s.car (s.box p) = true ∧ s.cdr (s.box p) = v := by
    unfold status at hs; split at hs <;> simp_all
  obtain ⟨h1, h2⟩ := hs'
  cases e with
  | make d w =>
    have hb := h.box_lt p hp
    refine ⟨?_, by simp [step, make]; omega⟩
    simp only [status, step, make]
    have n1 : ¬ p = s.boxes := by omega
    have n2 : ¬ s.box p = s.pairs := by omega
    simp [n1, n2, h1, h2]
  | force q =>
    simp only [step]
    split
    · simp only [force]; split <;> exact ⟨hs, hp⟩
    · exact ⟨hs, hp⟩
  | ret q newp =>
    simp only [step]
    split
    · simp only [ret]
      by_cases hc : s.car (s.box q) = true
      · simp only [hc, if_true, force]
        exact ⟨hs, hp⟩
      · rw [if_neg hc]
        have hne : s.box p ≠ s.box q := by intro he; rw [he] at h1; exact hc h1
        have key : ∀ (s' : State V), (force s' q).1 = s' := by intro s'; simp only [force]; split <;> rfl
        rw [key]
        refine ⟨?_, hp⟩
        simp only [status]
        by_cases hpn : p = newp
        · subst hpn
          have hne2 : s.box p ≠ s.box q := hne
          simp [h1, h2]
        · simp [hpn, hne, h1, h2]
    · exact ⟨hs, hp⟩

/-- outputs tell the status afterwards -/
theorem step_deliver {s : State V} (e : Event V) {p : Nat} {v : V} (ho : (step s e).2 = .deliver p v) :
    status (step s e).1 p = some v ∧ p < (step s e).1.boxes := by
  have key : ∀ (s' : State V) q, q < s'.boxes → (force s' q).2 = .deliver p v → status (force s' q).1 p = some v ∧ p < (force s' q).1.boxes := by
    intro s' q hq hf
    simp only [force] at hf ⊢
    split at hf
    · rename_i hc
      simp only [Out.deliver.injEq] at hf
      obtain ⟨rfl, rfl⟩ := hf
      simp only [hc, if_true, status]
      exact ⟨by simp, hq⟩
    · simp at hf
  cases e with
  | make d w => simp [step, make] at ho
  | force q =>
    simp only [step] at ho ⊢
    split
    · rename_i hq; rw [if_pos hq] at ho; exact key s q hq ho
    · rename_i hq; rw [if_neg hq] at ho; simp at ho
  | ret q newp =>
    simp only [step] at ho ⊢
    split
    · rename_i hq
      rw [if_pos hq] at ho
      refine key _ q ?_ ho
      by_cases hc : s.car (s.box q) = true
      · rw [if_pos hc]; exact hq.1
      · rw [if_neg hc]; exact hq.1
    · rename_i hq; rw [if_neg hq] at ho; simp at ho

theorem step_eval {s : State V} (e : Event V) {p : Nat} {v : V} (ho : (step s e).2 = .eval p v) :
    status (step s e).1 p = none := by
  have key : ∀ (s' : State V) q, (force s' q).2 = .eval p v → status (force s' q).1 p = none := by
    intro s' q hf
    simp only [force] at hf ⊢
    split at hf
    · simp at hf
    · rename_i hc
      simp only [Out.eval.injEq] at hf
      obtain ⟨rfl, rfl⟩ := hf
      rw [if_neg hc]
      simp only [status]
      rw [if_neg hc]
  cases e with
  | make d w => simp [step, make] at ho
  | force q =>
    simp only [step] at ho ⊢
    split
    · rename_i hq; rw [if_pos hq] at ho; exact key s q ho
    · rename_i hq; rw [if_neg hq] at ho; simp at ho
  | ret q newp =>
    simp only [step] at ho ⊢
    split
    · rename_i hq; rw [if_pos hq] at ho; exact key _ q ho
    · rename_i hq; rw [if_neg hq] at ho; simp at ho

/-- once a promise has a value, no later output contradicts it -/
theorem run_status {p : Nat} {v : V} : ∀ (es : List (Event V)) (s : State V), Inv s → p < s.boxes → status s p = some v →
    ∀ o ∈ run s es, (∀ w, o = .deliver p w → w = v) ∧ (∀ w, o ≠ .eval p w) := by
  intro es
  induction es with
  | nil => intro s _ _ _ o ho; simp [run] at ho
  | cons e es ih =>
    intro s hI hp hs o ho
    obtain ⟨h1, h2⟩ := step_status hI e hp hs
    simp only [run, List.mem_cons] at ho
    rcases ho with rfl | ho
    · refine ⟨fun w hw => ?_, fun w hw => ?_⟩
      · have := (step_deliver e hw).1
        rw [h1] at this
        simpa using this.symm
      · have := step_eval e hw
        rw [h1] at this
        simp at this
    · exact ih _ (step_inv hI e) h2 h1 o ho

theorem run_one : ∀ (es : List (Event V)) (s : State V), Inv s → ∀ (i j : Nat) (p : Nat) (v : V), i < j →
    (run s es)[i]? = some (.deliver p v) → ∀ o, (run s es)[j]? = some o →
    (∀ w, o = .deliver p w → w = v) ∧ (∀ w, o ≠ .eval p w) := by
  intro es
  induction es with
  | nil => intro s _ i j p v _ h; simp [run] at h
  | cons e es ih =>
    intro s hI i j p v hij hi o hj
    obtain ⟨j, rfl⟩ : ∃ k, j = k + 1 := ⟨j - 1, by omega⟩
    simp only [run, List.getElem?_cons_succ] at hj
    cases i with
    | zero =>
      simp only [run, List.getElem?_cons_zero, Option.some.injEq] at hi
      obtain ⟨h1, h2⟩ := step_deliver e hi
      exact run_status es _ (step_inv hI e) h2 h1 o (List.mem_of_getElem? hj)
    | succ i =>
      simp only [run, List.getElem?_cons_succ] at hi
      exact ih _ (step_inv hI e) i j p v (by omega) hi o hj

theorem init_inv (v0 : V) : Inv (State.init v0) := ⟨by intro b hb; simp [State.init] at hb⟩

/-- C22 (LibL): in every history, once some `(force p)` has returned `v`, every later return of `(force p)` also returns `v`
and no `(force p)` calls the delayed thunk again. -/
theorem c22_promise (v0 : V) (es : List (Event V)) (i j p : Nat) (v : V) (hij : i < j)
    (hi : (run (State.init v0) es)[i]? = some (.deliver p v)) (o : Out V) (hj : (run (State.init v0) es)[j]? = some o) :
    (∀ w, o = .deliver p w → w = v) ∧ (∀ w, o ≠ .eval p w) :=
  run_one es _ (init_inv v0) i j p v hij hi o hj

/-- C22 (LibL): the value is the one computed: when the thunk of a promise without value returns a promise that has value `v`, then
`(force p)` returns `v`, and from then on both promises have value `v`; when it returns another lazy promise, `(force p)` goes on with
that promise's thunk. -/
theorem c22_value (s : State V) (p newp : Nat) (hp : p < s.boxes) (hn : newp < s.boxes) (hs : status s p = none) :
    (∀ v, status s newp = some v → (step s (.ret p newp)).2 = .deliver p v ∧
      status (step s (.ret p newp)).1 p = some v ∧ status (step s (.ret p newp)).1 newp = some v) ∧
    (status s newp = none → (step s (.ret p newp)).2 = .eval p (s.cdr (s.box newp))) := by
  have hc : ¬ s.car (s.box p) = true := by
    intro h; simp [status, h] at hs
  constructor
  · intro v hv
    have hv' : s.car (s.box newp) = true ∧ s.cdr (s.box newp) = v := by
      unfold status at hv; split at hv <;> simp_all
    have hne : s.box p ≠ s.box newp := by intro h; rw [h] at hc; exact hc hv'.1
    have hpn : p ≠ newp := by rintro rfl; exact hne rfl
    simp only [step, if_pos (And.intro hp hn), ret, if_neg hc]
    simp [force, status, hv'.1, hv'.2, hpn]
  · intro hv
    have hv' : ¬ s.car (s.box newp) = true := by
      intro h; simp [status, h] at hv
    simp only [step, if_pos (And.intro hp hn), ret, if_neg hc]
    by_cases hpn : p = newp
    · subst hpn; simp [force, hc]
    · simp [force, hv', hpn]

/-! basic library -/

theorem run0_status (v0 : V) {p : Nat} {v : V} : ∀ (es : List (Event0 V)) (s : State0 V), p < s.count → s.ready p = true →
    s.result p = v → ∀ o ∈ run0 v0 s es, (∀ w, o = .deliver p w → w = v) ∧ (∀ w, o ≠ .eval p w) := by
  intro es
  induction es with
  | nil => intro s _ _ _ o ho; simp [run0] at ho
  | cons e es ih =>
    intro s hp hr hv o ho
    have keep : p < (step0 v0 s e).1.count ∧ (step0 v0 s e).1.ready p = true ∧ (step0 v0 s e).1.result p = v := by
      cases e with
      | make proc =>
        simp only [step0]
        exact ⟨by omega, by rw [if_neg (by omega)]; exact hr, by rw [if_neg (by omega)]; exact hv⟩
      | force q => simp only [step0]; split <;> (try split) <;> exact ⟨hp, hr, hv⟩
      | ret q x =>
        simp only [step0]
        split
        · split
          · exact ⟨hp, hr, hv⟩
          · rename_i hnr
            have : p ≠ q := by rintro rfl; exact hnr hr
            simp [this, hp, hr, hv]
        · exact ⟨hp, hr, hv⟩
    simp only [run0, List.mem_cons] at ho
    rcases ho with rfl | ho
    · cases e with
      | make proc => simp [step0]
      | force q =>
        simp only [step0]
        split
        · split
          · refine ⟨fun w hw => ?_, by simp⟩
            simp only [Out.deliver.injEq] at hw
            obtain ⟨rfl, rfl⟩ := hw; exact hv
          · rename_i hnr
            refine ⟨by simp, fun w hw => ?_⟩
            simp only [Out.eval.injEq] at hw
            obtain ⟨rfl, _⟩ := hw; exact hnr hr
        · simp
      | ret q x =>
        simp only [step0]
        split
        · split
          · refine ⟨fun w hw => ?_, by simp⟩
            simp only [Out.deliver.injEq] at hw
            obtain ⟨rfl, rfl⟩ := hw; exact hv
          · rename_i hnr
            refine ⟨fun w hw => ?_, by simp⟩
            simp only [Out.deliver.injEq] at hw
            obtain ⟨rfl, _⟩ := hw; exact absurd hr hnr
        · simp
    · exact ih _ keep.1 keep.2.1 keep.2.2 o ho

theorem run0_one (v0 : V) : ∀ (es : List (Event0 V)) (s : State0 V), ∀ (i j : Nat) (p : Nat) (v : V), i < j →
    (run0 v0 s es)[i]? = some (.deliver p v) → ∀ o, (run0 v0 s es)[j]? = some o →
    (∀ w, o = .deliver p w → w = v) ∧ (∀ w, o ≠ .eval p w) := by
  intro es
  induction es with
  | nil => intro s i j p v _ h; simp [run0] at h
  | cons e es ih =>
    intro s i j p v hij hi o hj
    obtain ⟨j, rfl⟩ : ∃ k, j = k + 1 := ⟨j - 1, by omega⟩
    simp only [run0, List.getElem?_cons_succ] at hj
    cases i with
    | zero =>
      simp only [run0, List.getElem?_cons_zero, Option.some.injEq] at hi
      have hst : p < (step0 v0 s e).1.count ∧ (step0 v0 s e).1.ready p = true ∧ (step0 v0 s e).1.result p = v := by
        cases e with
        | make proc => simp [step0] at hi
        | force q =>
          simp only [step0] at hi ⊢
          split at hi
          · rename_i hq
            rw [if_pos hq]
            split at hi
            · rename_i hr
              simp only [Out.deliver.injEq] at hi
              obtain ⟨rfl, rfl⟩ := hi
              rw [if_pos hr]; exact ⟨hq, hr, rfl⟩
            · simp at hi
          · simp at hi
        | ret q x =>
          simp only [step0] at hi ⊢
          split at hi
          · rename_i hq
            rw [if_pos hq]
            split at hi
            · rename_i hr
              simp only [Out.deliver.injEq] at hi
              obtain ⟨rfl, rfl⟩ := hi
              rw [if_pos hr]; exact ⟨hq, hr, rfl⟩
            · rename_i hr
              simp only [Out.deliver.injEq] at hi
              obtain ⟨rfl, rfl⟩ := hi
              rw [if_neg hr]; simp [hq]
          · simp at hi
      exact run0_status v0 es _ hst.1 hst.2.1 hst.2.2 o (List.mem_of_getElem? hj)
    | succ i =>
      simp only [run0, List.getElem?_cons_succ] at hi
      exact ih _ i j p v (by omega) hi o hj

/-- C22 (basic library): the same for the promises of 0.sf. -/
theorem c22_promise0 (v0 : V) (es : List (Event0 V)) (i j p : Nat) (v : V) (hij : i < j)
    (hi : (run0 v0 (State0.init v0) es)[i]? = some (.deliver p v)) (o : Out V) (hj : (run0 v0 (State0.init v0) es)[j]? = some o) :
    (∀ w, o = .deliver p w → w = v) ∧ (∀ w, o ≠ .eval p w) :=
  run0_one v0 es _ i j p v hij hi o hj

/-- C22 (basic library): a completed first evaluation returns its own value. -/
theorem c22_value0 (v0 : V) (s : State0 V) (p : Nat) (x : V) (hp : p < s.count) (hr : s.ready p = false) :
    (step0 v0 s (.ret p x)).2 = .deliver p x := by simp [step0, hp, hr]

/-- a reentrant history: promise 0 is forced, its thunk forces it again, the inner force completes with 5 first, then the outer one
returns with promise 2 = 7: the outer force also delivers 5 -/
example : run (State.init 0) [.make false 100, .force 0, .force 0, .make true 5, .ret 0 1, .make true 7, .ret 0 2, .force 0] =
    [.made 0, .eval 0 100, .eval 0 100, .made 1, .deliver 0 5, .made 2, .deliver 0 5, .deliver 0 5] := by rfl
example : run0 0 (State0.init 0) [.make 100, .force 0, .force 0, .ret 0 5, .ret 0 7, .force 0] =
    [.made 0, .eval 0 100, .eval 0 100, .deliver 0 5, .deliver 0 5, .deliver 0 5] := by rfl

end Verif.Promise
