import Verif.Core.Steps
/-
The sequence of worlds a program goes through, and simulations that preserve it.
-/
namespace Verif.Core
variable {W : Type} {f g h : State W → Option (State W)}

/-- `c` is reached from `a`, and the world stays the same. -/
inductive Quiet (f : State W → Option (State W)) : State W → State W → Prop
  | refl (a : State W) : Quiet f a a
  | step {a b c : State W} : f a = some b → b.world = a.world → Quiet f b c → Quiet f a c

/-- `c` is reached from `a`, in at least one step; the world stays the same until the last step. -/
def Move (f : State W → Option (State W)) (a c : State W) : Prop := ∃ b, Quiet f a b ∧ f b = some c

/-- Started in `s`, the machine goes through the worlds `ws`, in this order; repetitions are not counted. -/
inductive Visits (f : State W → Option (State W)) : State W → List W → Prop
  | here (s : State W) : Visits f s [s.world]
  | same {s s' : State W} {ws : List W} : f s = some s' → s'.world = s.world → Visits f s' ws → Visits f s ws
  | new {s s' : State W} {ws : List W} : f s = some s' → s'.world ≠ s.world → Visits f s' ws → Visits f s (s.world :: ws)

theorem Quiet.one {a b : State W} (h : f a = some b) (hw : b.world = a.world) : Quiet f a b := .step h hw (.refl _)

theorem Quiet.trans {a b c : State W} (h1 : Quiet f a b) (h2 : Quiet f b c) : Quiet f a c := by
  induction h1 with
  | refl => exact h2
  | step h hw _ ih => exact .step h hw (ih h2)

theorem Quiet.world {a b : State W} (h : Quiet f a b) : b.world = a.world := by
  induction h with
  | refl => rfl
  | step _ hw _ ih => rw [ih, hw]

theorem Quiet.reach {a b : State W} (h : Quiet f a b) : Reach f a b := by
  induction h with
  | refl => exact Reach.refl _
  | step h _ _ ih => exact Reach.cons h ih

theorem Move.one {a b : State W} (h : f a = some b) : Move f a b := ⟨a, .refl a, h⟩

theorem Move.before {a b c : State W} (h1 : Quiet f a b) (h2 : Move f b c) : Move f a c := by
  obtain ⟨d, h3, h4⟩ := h2
  exact ⟨d, h1.trans h3, h4⟩

theorem Move.after {a b c : State W} (h1 : Move f a b) (hw : b.world = a.world) (h2 : Quiet f b c) : Move f a c := by
  obtain ⟨d, h3, h4⟩ := h1
  cases h2 with
  | refl => exact ⟨d, h3, h4⟩
  | step h5 h6 h7 =>
    have h8 : Quiet f a b := h3.trans (.one h4 (by rw [hw, h3.world]))
    clear h3 h4
    induction h7 generalizing b with
    | refl => exact ⟨b, h8, h5⟩
    | step g1 g2 g3 ih => exact ih (h8.world ▸ (by rw [h6, h8.world])) g1 g2 (h8.trans (.one h5 h6))

theorem Move.quiet {a b : State W} (h : Move f a b) (hw : b.world = a.world) : Quiet f a b := by
  obtain ⟨d, h3, h4⟩ := h
  exact h3.trans (.one h4 (by rw [hw, h3.world]))

theorem Move.reach1 {a b : State W} (h : Move f a b) : Reach1 f a b := by
  obtain ⟨d, h3, h4⟩ := h
  exact h3.reach.trans1 (Reach1.one h4)

theorem Visits.before {s s' : State W} {ws : List W} (h : Quiet f s s') (hv : Visits f s' ws) : Visits f s ws := by
  induction h with
  | refl => exact hv
  | step h hw _ ih => exact .same h hw (ih hv)

/-- Two machines: a relation on states such that, unless the first fails, both finish with related outcomes or both
go on to related states; the world changes at most once on the way. -/
structure SimQ (f g : State W → Option (State W)) (R : State W → State W → Prop) : Prop where
  next : ∀ s t, R s t → Fails f s ∨
    (∃ v v' w, Quiet f s (.done v w) ∧ Quiet g t (.done v' w) ∧ v.view = v'.view) ∨
    (∃ s' t', Move f s s' ∧ Move g t t' ∧ R s' t')
  world : ∀ s t, R s t → s.world = t.world

theorem SimQ.sim {R : State W → State W → Prop} (h : SimQ f g R) : Sim f g R := by
  refine ⟨fun s t hR => ?_, h.world⟩
  rcases h.next s t hR with hf | ⟨v, v', w, h1, h2, hv⟩ | ⟨s', t', h1, h2, hR'⟩
  · exact Or.inl hf
  · exact Or.inr (Or.inl ⟨v, v', w, h1.reach, h2.reach, hv⟩)
  · exact Or.inr (Or.inr ⟨s', t', h1.reach1, h2.reach1, hR'⟩)

/-- the first `n` steps visit the worlds `ws`. -/
inductive VisitsIn (f : State W → Option (State W)) : Nat → State W → List W → Prop
  | here (s : State W) : VisitsIn f 0 s [s.world]
  | same {n : Nat} {s s' : State W} {ws : List W} : f s = some s' → s'.world = s.world → VisitsIn f n s' ws → VisitsIn f (n + 1) s ws
  | new {n : Nat} {s s' : State W} {ws : List W} : f s = some s' → s'.world ≠ s.world → VisitsIn f n s' ws →
      VisitsIn f (n + 1) s (s.world :: ws)

theorem Visits.count {s : State W} {ws : List W} (h : Visits f s ws) : ∃ n, VisitsIn f n s ws := by
  induction h with
  | here s => exact ⟨0, .here s⟩
  | same h1 h2 _ ih => obtain ⟨n, hn⟩ := ih; exact ⟨n + 1, .same h1 h2 hn⟩
  | new h1 h2 _ ih => obtain ⟨n, hn⟩ := ih; exact ⟨n + 1, .new h1 h2 hn⟩

/-- steps along a quiet path. -/
theorem VisitsIn.quiet {s a : State W} (hq : Quiet f s a) : ∀ {n : Nat} {ws : List W}, VisitsIn f n s ws →
    ws = [s.world] ∨ ∃ m, m ≤ n ∧ VisitsIn f m a ws := by
  induction hq with
  | refl => intro n ws h; exact Or.inr ⟨n, Nat.le_refl _, h⟩
  | step h1 hw hq ih =>
    intro n ws h
    cases h with
    | here => exact Or.inl rfl
    | same g1 g2 g3 =>
      rw [h1] at g1; injection g1 with g1; subst g1
      rcases ih g3 with h | ⟨m, hm, h⟩
      · exact Or.inl (by rw [h, hw])
      · exact Or.inr ⟨m, by omega, h⟩
    | new g1 g2 g3 =>
      rw [h1] at g1; injection g1 with g1; subst g1
      exact absurd hw g2

/-- one side of the comparison of traces. -/
theorem trace_aux [Final f] {R : State W → State W → Prop}
    (hn : ∀ s t, R s t → (∃ v v' w, Quiet f s (.done v w) ∧ Quiet g t (.done v' w) ∧ True) ∨
      (∃ s' t', Move f s s' ∧ Move g t t' ∧ R s' t')) (hw : ∀ s t, R s t → s.world = t.world) :
    ∀ (n : Nat) (s t : State W) (ws : List W), R s t → VisitsIn f n s ws → Visits g t ws := by
  intro n
  induction n using Nat.strongRecOn with
  | _ n ih =>
    intro s t ws hR hv
    rcases hn s t hR with ⟨v, v', w, h1, h2, _⟩ | ⟨s', t', ⟨a, h1, h2⟩, ⟨b, h3, h4⟩, hR'⟩
    · rcases hv.quiet h1 with h | ⟨m, _, h⟩
      · rw [h, hw s t hR]; exact .here t
      · cases h with
        | here => rw [h1.world, hw s t hR]; exact .here t
        | same g1 => rw [step_done (f := f)] at g1; cases g1
        | new g1 => rw [step_done (f := f)] at g1; cases g1
    · rcases hv.quiet h1 with h | ⟨m, hm, h⟩
      · rw [h, hw s t hR]; exact .here t
      · cases h with
        | here => rw [h1.world, hw s t hR]; exact .here t
        | same g1 g2 g3 =>
          rw [h2] at g1; injection g1 with g1; subst g1
          have := ih _ (by omega) _ _ _ hR' g3
          refine Visits.before h3 (.same h4 ?_ this)
          rw [← hw _ _ hR', g2, h1.world, h3.world, hw s t hR]
        | new g1 g2 g3 =>
          rw [h2] at g1; injection g1 with g1; subst g1
          have := ih _ (by omega) _ _ _ hR' g3
          have e : a.world = b.world := by rw [h1.world, h3.world, hw s t hR]
          rw [e]
          exact Visits.before h3 (.new h4 (by rw [← hw _ _ hR', ← e]; exact g2) this)

/-- The programs `s` and `t` behave in the same way, as far as the first one does not run into an error: they go through
the same sequence of worlds, and have the same result, if any. -/
structure Behaves (f g : State W → Option (State W)) (s t : State W) : Prop where
  fails : Fails g t → Fails f s
  result : ∀ v w, Reach f s (.done v w) → ∃ v', Reach g t (.done v' w) ∧ v.view = v'.view
  result' : ∀ v' w, Reach g t (.done v' w) → Fails f s ∨ ∃ v, Reach f s (.done v w) ∧ v.view = v'.view
  trace : ∀ ws, Visits f s ws → Fails f s ∨ Visits g t ws
  trace' : ∀ ws, Visits g t ws → Fails f s ∨ Visits f s ws

theorem Behaves.refl (f : State W → Option (State W)) (s : State W) : Behaves f f s s :=
  ⟨fun h => h, fun v w hr => ⟨v, hr, rfl⟩, fun v w hr => Or.inr ⟨v, hr, rfl⟩, fun _ h => Or.inr h, fun _ h => Or.inr h⟩

theorem Behaves.trans {s t u : State W} (h1 : Behaves f g s t) (h2 : Behaves g h t u) : Behaves f h s u := by
  refine ⟨fun hf => h1.fails (h2.fails hf), ?_, ?_, ?_, ?_⟩
  · intro v w hr
    obtain ⟨v1, hr1, e1⟩ := h1.result v w hr
    obtain ⟨v2, hr2, e2⟩ := h2.result v1 w hr1
    exact ⟨v2, hr2, by rw [e1, e2]⟩
  · intro v w hr
    rcases h2.result' v w hr with hf | ⟨v1, hr1, e1⟩
    · exact Or.inl (h1.fails hf)
    · rcases h1.result' v1 w hr1 with hf | ⟨v2, hr2, e2⟩
      · exact Or.inl hf
      · exact Or.inr ⟨v2, hr2, by rw [e2, e1]⟩
  · intro ws hv
    rcases h1.trace ws hv with hf | hv
    · exact Or.inl hf
    · rcases h2.trace ws hv with hf | hv
      · exact Or.inl (h1.fails hf)
      · exact Or.inr hv
  · intro ws hv
    rcases h2.trace' ws hv with hf | hv
    · exact Or.inl (h1.fails hf)
    · exact h1.trace' ws hv

theorem Fails.step_back {a b : State W} (h : f a = some b) (hf : Fails f a) : Fails f b := by
  obtain ⟨c, ⟨n, hn⟩, h1, h2⟩ := hf
  cases n with
  | zero =>
    simp only [iter] at hn
    injection hn with hn; subst hn
    rw [h] at h1; cases h1
  | succ n =>
    simp only [iter, h, Option.bind_some] at hn
    exact ⟨c, ⟨n, hn⟩, h1, h2⟩

theorem Fails.reach_back {a b : State W} (h : Reach f a b) (hf : Fails f a) : Fails f b := by
  obtain ⟨n, hn⟩ := h
  induction n generalizing a with
  | zero => simp only [iter] at hn; injection hn with hn; subst hn; exact hf
  | succ n ih =>
    simp only [iter] at hn
    cases h1 : f a with
    | none => rw [h1] at hn; cases hn
    | some c => rw [h1] at hn; exact ih (hf.step_back h1) hn

theorem SimQ.behaves [Final f] [Final g] {R : State W → State W → Prop} (h : SimQ f g R) {s t : State W} (hR : R s t) : Behaves f g s t := by
  have hs := h.sim.same hR
  -- unless `s` fails, the relation restricted to states that do not fail
  have key : ¬ Fails f s → (∀ ws, Visits f s ws → Visits g t ws) ∧ (∀ ws, Visits g t ws → Visits f s ws) := by
    intro hf
    constructor
    · intro ws hv
      obtain ⟨n, hv⟩ := hv.count
      refine trace_aux (R := fun a b => R a b ∧ ¬ Fails f a) ?_ (fun a b hab => h.world a b hab.1) n s t ws ⟨hR, hf⟩ hv
      intro a b hab
      rcases h.next a b hab.1 with hf | ⟨v, v', w, h1, h2, _⟩ | ⟨s', t', h1, h2, hR'⟩
      · exact absurd hf hab.2
      · exact Or.inl ⟨v, v', w, h1, h2, trivial⟩
      · exact Or.inr ⟨s', t', h1, h2, hR', fun hf => hab.2 (hf.of_reach h1.reach1.reach)⟩
    · intro ws hv
      obtain ⟨n, hv⟩ := hv.count
      refine trace_aux (R := fun b a => R a b ∧ ¬ Fails f a) ?_ (fun b a hab => (h.world a b hab.1).symm) n t s ws ⟨hR, hf⟩ hv
      intro b a hab
      rcases h.next a b hab.1 with hf | ⟨v, v', w, h1, h2, _⟩ | ⟨s', t', h1, h2, hR'⟩
      · exact absurd hf hab.2
      · exact Or.inl ⟨v', v, w, h2, h1, trivial⟩
      · exact Or.inr ⟨t', s', h2, h1, hR', fun hf => hab.2 (hf.of_reach h1.reach1.reach)⟩
  refine ⟨?_, hs.result, hs.result', ?_, ?_⟩
  · intro hg
    refine Classical.byContradiction fun hf => ?_
    -- the first machine finishes or goes on for ever
    by_cases hd : ∃ v w, Reach f s (.done v w)
    · obtain ⟨v, w, hr⟩ := hd
      obtain ⟨v', hr', _⟩ := hs.result v w hr
      exact fails_done hg hr'
    · have hall : ∀ n, (iter f n s).isSome := by
        intro n
        induction n with
        | zero => rfl
        | succ n ih =>
          obtain ⟨u, hu⟩ := Option.isSome_iff_exists.mp ih
          rw [run_add n 1, hu]
          simp only [Option.bind_some, iter]
          cases h1 : f u with
          | some c => rfl
          | none =>
            refine (hf ⟨u, ⟨n, hu⟩, h1, fun v w e => ?_⟩).elim
            subst e; exact hd ⟨v, w, n, hu⟩
      rcases hs.diverge with hf' | hdiv
      · exact hf hf'
      · obtain ⟨c, ⟨n, hn⟩, h1, _⟩ := hg
        have := hdiv hall (n + 1)
        rw [run_add n 1, hn] at this
        simp [iter, h1] at this
  · intro ws hv
    by_cases hf : Fails f s
    · exact Or.inl hf
    · exact Or.inr ((key hf).1 ws hv)
  · intro ws hv
    by_cases hf : Fails f s
    · exact Or.inl hf
    · exact Or.inr ((key hf).2 ws hv)

end Verif.Core
