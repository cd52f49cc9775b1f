import Verif.Core.Machine
/-
Executions of a machine given by its step function.
-/
namespace Verif.Core
variable {W : Type} {f : State W → Option (State W)}

/-- `n` steps. -/
def iter (f : State W → Option (State W)) : Nat → State W → Option (State W)
  | 0, s => some s
  | n + 1, s => (f s).bind (iter f n)

/-- a machine that makes no steps after the end of the program. -/
class Final (f : State W → Option (State W)) : Prop where
  done : ∀ v w, f (.done v w) = none

instance (M : Sem W) (ord : Op → List Exp → List Nat) : Final (step M ord) := ⟨fun _ _ => rfl⟩

/-- `s'` is reached from `s`. -/
def Reach (f : State W → Option (State W)) (s s' : State W) : Prop := ∃ n, iter f n s = some s'

/-- `s'` is reached from `s` in at least one step. -/
def Reach1 (f : State W → Option (State W)) (s s' : State W) : Prop := ∃ n, iter f (n + 1) s = some s'

/-- The machine is in error: it has not finished and cannot go on. -/
def Stuck (f : State W → Option (State W)) (s : State W) : Prop :=
  f s = none ∧ ∀ v w, s ≠ .done v w

/-- The execution from `s` ends in an error. -/
def Fails (f : State W → Option (State W)) (s : State W) : Prop := ∃ s', Reach f s s' ∧ Stuck f s'

theorem run_add (n m : Nat) (s : State W) : iter f (n + m) s = (iter f n s).bind (iter f m) := by
  induction n generalizing s with
  | zero => simp [iter]
  | succ n ih =>
    rw [Nat.succ_add, iter, iter]
    cases f s with
    | none => rfl
    | some t => exact ih t

theorem Reach.refl (s : State W) : Reach f s s := ⟨0, rfl⟩

theorem Reach.trans {a b c : State W} (h1 : Reach f a b) (h2 : Reach f b c) : Reach f a c := by
  obtain ⟨n, hn⟩ := h1
  obtain ⟨m, hm⟩ := h2
  exact ⟨n + m, by rw [run_add, hn]; exact hm⟩

theorem Reach1.reach {a b : State W} (h : Reach1 f a b) : Reach f a b := by
  obtain ⟨n, hn⟩ := h
  exact ⟨n + 1, hn⟩

theorem Reach1.trans {a b c : State W} (h1 : Reach1 f a b) (h2 : Reach f b c) : Reach1 f a c := by
  obtain ⟨n, hn⟩ := h1
  obtain ⟨m, hm⟩ := h2
  exact ⟨n + m, by rw [show n + m + 1 = n + 1 + m by omega, run_add, hn]; exact hm⟩

theorem Reach.trans1 {a b c : State W} (h1 : Reach f a b) (h2 : Reach1 f b c) : Reach1 f a c := by
  obtain ⟨n, hn⟩ := h1
  obtain ⟨m, hm⟩ := h2
  exact ⟨n + m, by rw [show n + m + 1 = n + (m + 1) by omega, run_add, hn]; exact hm⟩

theorem Reach1.one {a b : State W} (h : f a = some b) : Reach1 f a b := ⟨0, by simp [iter, h]⟩

theorem Reach.one {a b : State W} (h : f a = some b) : Reach f a b := (Reach1.one h).reach

theorem Reach.cons {a b c : State W} (h : f a = some b) (h2 : Reach f b c) : Reach f a c :=
  (Reach.one h).trans h2

theorem Reach1.cons {a b c : State W} (h : f a = some b) (h2 : Reach f b c) : Reach1 f a c :=
  (Reach1.one h).trans h2

theorem Fails.of_reach {a b : State W} (h : Reach f a b) (hf : Fails f b) : Fails f a := by
  obtain ⟨c, h1, h2⟩ := hf
  exact ⟨c, h.trans h1, h2⟩

theorem Fails.of_step {a b : State W} (h : f a = some b) (hf : Fails f b) : Fails f a :=
  hf.of_reach (Reach.one h)

theorem Fails.now {a : State W} (h : f a = none) (hd : ∀ v w, a ≠ .done v w) : Fails f a :=
  ⟨a, Reach.refl a, h, hd⟩

/-- deterministic executions: of two states reached, one is reached from the other. -/
theorem reach_total {a b c : State W} (h1 : Reach f a b) (h2 : Reach f a c) :
    Reach f b c ∨ Reach f c b := by
  obtain ⟨n, hn⟩ := h1
  obtain ⟨m, hm⟩ := h2
  rcases Nat.le_total n m with h | h
  · left
    refine ⟨m - n, ?_⟩
    have : m = n + (m - n) := by omega
    rw [this, run_add, hn] at hm
    exact hm
  · right
    refine ⟨n - m, ?_⟩
    have : n = m + (n - m) := by omega
    rw [this, run_add, hm] at hn
    exact hn

theorem run_final {s : State W} (h : f s = none) {n : Nat} {t : State W} (hr : iter f n s = some t) : t = s := by
  cases n with
  | zero => simpa [iter] using hr.symm
  | succ n => simp [iter, h] at hr

theorem reach_final {s t : State W} (h : f s = none) (hr : Reach f s t) : t = s := by
  obtain ⟨n, hn⟩ := hr
  exact run_final h hn

/-- what is seen of a finished program after `n` steps. -/
def outcome (f : State W → Option (State W)) (n : Nat) (s : State W) : Option (View × W) :=
  match iter f n s with
  | some (.done v w) => some (v.view, w)
  | _ => none

theorem outcome_reach {n : Nat} {s : State W} {u : View} {w : W} (h : outcome f n s = some (u, w)) :
    ∃ v, Reach f s (.done v w) ∧ v.view = u := by
  unfold outcome at h
  split at h
  · rename_i v w' hr
    simp only [Option.some.injEq, Prod.mk.injEq] at h
    obtain ⟨h1, h2⟩ := h
    subst h2
    exact ⟨v, ⟨n, hr⟩, h1⟩
  · cases h

theorem step_done [Final f] (v : Val) (w : W) : f (.done v w) = none := Final.done v w

/-- Two machines: a relation on states such that, unless the first fails, both finish with related outcomes or both
go on to related states. -/
structure Sim (f g : State W → Option (State W)) (R : State W → State W → Prop) : Prop where
  next : ∀ s t, R s t → Fails f s ∨
    (∃ v v' w, Reach f s (.done v w) ∧ Reach g t (.done v' w) ∧ v.view = v'.view) ∨
    (∃ s' t', Reach1 f s s' ∧ Reach1 g t t' ∧ R s' t')
  world : ∀ s t, R s t → s.world = t.world

section
variable {f g : State W → Option (State W)} {R : State W → State W → Prop}

/-- after any number of steps of the first there is a later meeting point, unless it fails or finishes. -/
theorem Sim.left [Final f] [Final g] (h : Sim f g R) : ∀ (n : Nat) (s t : State W), R s t → ∀ u, iter f n s = some u →
    Fails f s ∨ (∃ v v' w, Reach f u (.done v w) ∧ Reach g t (.done v' w) ∧ v.view = v'.view) ∨
    (∃ s' t', Reach f u s' ∧ Reach g t t' ∧ R s' t') := by
  intro n
  induction n using Nat.strongRecOn with
  | _ n ih =>
    intro s t hR u hu
    rcases h.next s t hR with hf | ⟨v, v', w, h1, h2, hv⟩ | ⟨s', t', h1, h2, hR'⟩
    · exact Or.inl hf
    · refine Or.inr (Or.inl ⟨v, v', w, ?_, h2, hv⟩)
      rcases reach_total h1 ⟨n, hu⟩ with h | h
      · rw [reach_final (step_done v w) h]; exact Reach.refl _
      · exact h
    · obtain ⟨m, hm⟩ := h1
      rcases Nat.lt_or_ge n (m + 1) with hlt | hge
      · refine Or.inr (Or.inr ⟨s', t', ⟨m + 1 - n, ?_⟩, h2.reach, hR'⟩)
        have : m + 1 = n + (m + 1 - n) := by omega
        rw [this, run_add, hu] at hm
        exact hm
      · have e : n = (m + 1) + (n - (m + 1)) := by omega
        rw [e, run_add, hm] at hu
        rcases ih (n - (m + 1)) (by omega) s' t' hR' u hu with hf | ⟨v, v', w, g1, g2, hv⟩ | ⟨s2, t2, g1, g2, hR2⟩
        · exact Or.inl (hf.of_reach ⟨m + 1, hm⟩)
        · exact Or.inr (Or.inl ⟨v, v', w, g1, h2.reach.trans g2, hv⟩)
        · exact Or.inr (Or.inr ⟨s2, t2, g1, h2.reach.trans g2, hR2⟩)

/-- the same for the second. -/
theorem Sim.right [Final f] [Final g] (h : Sim f g R) : ∀ (n : Nat) (s t : State W), R s t → ∀ u, iter g n t = some u →
    Fails f s ∨ (∃ v v' w, Reach f s (.done v w) ∧ Reach g u (.done v' w) ∧ v.view = v'.view) ∨
    (∃ s' t', Reach f s s' ∧ Reach g u t' ∧ R s' t') := by
  intro n
  induction n using Nat.strongRecOn with
  | _ n ih =>
    intro s t hR u hu
    rcases h.next s t hR with hf | ⟨v, v', w, h1, h2, hv⟩ | ⟨s', t', h1, h2, hR'⟩
    · exact Or.inl hf
    · refine Or.inr (Or.inl ⟨v, v', w, h1, ?_, hv⟩)
      rcases reach_total h2 ⟨n, hu⟩ with h | h
      · rw [reach_final (step_done v' w) h]; exact Reach.refl _
      · exact h
    · obtain ⟨m, hm⟩ := h2
      rcases Nat.lt_or_ge n (m + 1) with hlt | hge
      · refine Or.inr (Or.inr ⟨s', t', h1.reach, ⟨m + 1 - n, ?_⟩, hR'⟩)
        have : m + 1 = n + (m + 1 - n) := by omega
        rw [this, run_add, hu] at hm
        exact hm
      · have e : n = (m + 1) + (n - (m + 1)) := by omega
        rw [e, run_add, hm] at hu
        rcases ih (n - (m + 1)) (by omega) s' t' hR' u hu with hf | ⟨v, v', w, g1, g2, hv⟩ | ⟨s2, t2, g1, g2, hR2⟩
        · exact Or.inl (hf.of_reach h1.reach)
        · exact Or.inr (Or.inl ⟨v, v', w, h1.reach.trans g1, g2, hv⟩)
        · exact Or.inr (Or.inr ⟨s2, t2, h1.reach.trans g1, g2, hR2⟩)

/-- a finished state cannot be passed. -/
theorem done_unique [Final f] {s : State W} {v v' : Val} {w w' : W} (h1 : Reach f s (.done v w)) (h2 : Reach f s (.done v' w')) :
    v = v' ∧ w = w' := by
  rcases reach_total h1 h2 with h | h
  · have := reach_final (step_done v w) h
    injection this with a b; exact ⟨a.symm, b.symm⟩
  · have := reach_final (step_done v' w') h
    injection this with a b; exact ⟨a, b⟩

theorem fails_done [Final f] {s : State W} {v : Val} {w : W} (h1 : Fails f s) (h2 : Reach f s (.done v w)) : False := by
  obtain ⟨c, hc, hs, hd⟩ := h1
  rcases reach_total hc h2 with h | h
  · exact hd _ _ (reach_final hs h).symm
  · exact hd _ _ (reach_final (step_done v w) h)

end

/-- Two programs with the same observable behaviour, as far as the first one does not run into an error:
results agree; whatever one of them has done to the world so far, the two get to a common world later on. -/
structure SameBehaviour (f g : State W → Option (State W)) (s t : State W) : Prop where
  result : ∀ v w, Reach f s (.done v w) → ∃ v', Reach g t (.done v' w) ∧ v.view = v'.view
  result' : ∀ v' w, Reach g t (.done v' w) → Fails f s ∨ ∃ v, Reach f s (.done v w) ∧ v.view = v'.view
  world : ∀ s', Reach f s s' → Fails f s ∨
    ∃ s'' t'', Reach f s' s'' ∧ Reach g t t'' ∧ s''.world = t''.world
  world' : ∀ t', Reach g t t' → Fails f s ∨
    ∃ s'' t'', Reach f s s'' ∧ Reach g t' t'' ∧ s''.world = t''.world
  diverge : Fails f s ∨ ((∀ n, (iter f n s).isSome) → ∀ n, (iter g n t).isSome)

theorem run_prefix {n m : Nat} {s : State W} (h : (iter f n s).isSome) (hm : m ≤ n) : (iter f m s).isSome := by
  have e : n = m + (n - m) := by omega
  rw [e, run_add] at h
  cases hr : iter f m s with
  | none => rw [hr] at h; simp at h
  | some u => rfl

theorem Sim.same {f g : State W → Option (State W)} [Final f] [Final g] {R : State W → State W → Prop} (h : Sim f g R) {s t : State W}
    (hR : R s t) : SameBehaviour f g s t := by
  constructor
  · intro v w ⟨n, hn⟩
    rcases h.left n s t hR _ hn with hf | ⟨v1, v', w1, h1, h2, hv⟩ | ⟨s', t', h1, h2, hR'⟩
    · exact (fails_done hf ⟨n, hn⟩).elim
    · have := reach_final (step_done v w) h1
      injection this with a b
      subst a; subst b
      exact ⟨v', h2, hv⟩
    · have := reach_final (step_done v w) h1
      subst this
      rcases h.next _ _ hR' with hf | ⟨v1, v', w1, g1, g2, hv⟩ | ⟨s2, t2, g1, g2, _⟩
      · exact (fails_done hf (Reach.refl _)).elim
      · have := reach_final (step_done v w) g1
        injection this with a b
        subst a; subst b
        exact ⟨v', h2.trans g2, hv⟩
      · obtain ⟨m, hm⟩ := g1
        simp [iter, step_done] at hm
  · intro v' w ⟨n, hn⟩
    rcases h.right n s t hR _ hn with hf | ⟨v, v1, w1, h1, h2, hv⟩ | ⟨s', t', h1, h2, hR'⟩
    · exact Or.inl hf
    · have := reach_final (step_done v' w) h2
      injection this with a b
      subst a; subst b
      exact Or.inr ⟨v, h1, hv⟩
    · have := reach_final (step_done v' w) h2
      subst this
      rcases h.next _ _ hR' with hf | ⟨v, v1, w1, g1, g2, hv⟩ | ⟨s2, t2, g1, g2, _⟩
      · exact Or.inl (hf.of_reach h1)
      · have := reach_final (step_done v' w) g2
        injection this with a b
        subst a; subst b
        exact Or.inr ⟨v, h1.trans g1, hv⟩
      · obtain ⟨m, hm⟩ := g2
        simp [iter, step_done] at hm
  · intro s' ⟨n, hn⟩
    rcases h.left n s t hR _ hn with hf | ⟨v, v', w, h1, h2, hv⟩ | ⟨s2, t2, h1, h2, hR'⟩
    · exact Or.inl hf
    · exact Or.inr ⟨_, _, h1, h2, rfl⟩
    · exact Or.inr ⟨_, _, h1, h2, h.world _ _ hR'⟩
  · intro t' ⟨n, hn⟩
    rcases h.right n s t hR _ hn with hf | ⟨v, v', w, h1, h2, hv⟩ | ⟨s2, t2, h1, h2, hR'⟩
    · exact Or.inl hf
    · exact Or.inr ⟨_, _, h1, h2, rfl⟩
    · exact Or.inr ⟨_, _, h1, h2, h.world _ _ hR'⟩
  · by_cases hf : Fails f s
    · exact Or.inl hf
    · right
      intro hs n
      -- the second machine makes at least `n` steps along the meeting points
      have key : ∀ (n : Nat) (s t : State W), R s t → ¬ Fails f s → (∀ m, (iter f m s).isSome) →
          ∃ m t', n ≤ m ∧ iter g m t = some t' := by
        intro n
        induction n with
        | zero => intro s t _ _ _; exact ⟨0, t, Nat.le_refl _, rfl⟩
        | succ n ih =>
          intro s t hR hf hs
          rcases h.next s t hR with hf' | ⟨v, v', w, ⟨m, hm⟩, _, _⟩ | ⟨s', t', ⟨m1, h1⟩, ⟨m2, h2⟩, hR'⟩
          · exact absurd hf' hf
          · have := hs (m + 1)
            rw [run_add, hm] at this
            simp [iter, step_done] at this
          · obtain ⟨m, t2, hm, hr⟩ := ih s' t' hR' (fun hf' => hf (hf'.of_reach ⟨m1 + 1, h1⟩)) (fun m => by
              have := hs (m1 + 1 + m)
              rw [run_add, h1] at this
              exact this)
            exact ⟨m2 + 1 + m, t2, by omega, by rw [run_add, h2]; exact hr⟩
      obtain ⟨m, t', hm, hr⟩ := key n s t hR hf hs
      exact run_prefix (by rw [hr]; rfl) hm

end Verif.Core
