import Verif.Core.Machine
/-
Machines in general, and simulations between machines with different kinds of states.
-/
namespace Verif.Core

/-- A machine: states, step function (`none`: finished or in error), the outside world in a state, and the result of
a finished program. -/
structure Sys (W : Type) where
  S : Type
  step : S → Option S
  world : S → W
  out : S → Option View
  final : ∀ s u, out s = some u → step s = none

namespace Sys
variable {W : Type} {A B C : Sys W}

/-- `n` steps lead from `s` to `s'`; `ws` are the worlds on the way, without the first one and without repetitions. -/
inductive Path (A : Sys W) : Nat → A.S → List W → A.S → Prop
  | refl (s : A.S) : Path A 0 s [] s
  | same {n : Nat} {s s1 s2 : A.S} {ws : List W} : A.step s = some s1 → A.world s1 = A.world s → Path A n s1 ws s2 → Path A (n + 1) s ws s2
  | new {n : Nat} {s s1 s2 : A.S} {ws : List W} : A.step s = some s1 → A.world s1 ≠ A.world s → Path A n s1 ws s2 →
      Path A (n + 1) s (A.world s1 :: ws) s2

/-- the program goes through the worlds `ws`. -/
def Visits (A : Sys W) (s : A.S) (ws : List W) : Prop := ∃ n s', Path A n s ws s'
/-- the program ends with result `u`, after going through the worlds `ws`. -/
def Ends (A : Sys W) (s : A.S) (ws : List W) (u : View) : Prop := ∃ n s', Path A n s ws s' ∧ A.out s' = some u
/-- the program runs into an error. -/
def Fails (A : Sys W) (s : A.S) : Prop := ∃ n ws s', Path A n s ws s' ∧ A.step s' = none ∧ A.out s' = none

/-- The program `t` behaves like the program `s`, unless `s` runs into an error: both go through the same sequence of worlds,
and have the same result, if any. -/
structure Behaves (A B : Sys W) (s : A.S) (t : B.S) : Prop where
  start : A.world s = B.world t
  fails : B.Fails t → A.Fails s
  ends : ∀ ws u, A.Ends s ws u → B.Ends t ws u
  ends' : ∀ ws u, B.Ends t ws u → A.Fails s ∨ A.Ends s ws u
  visits : ∀ ws, A.Visits s ws → A.Fails s ∨ B.Visits t ws
  visits' : ∀ ws, B.Visits t ws → A.Fails s ∨ A.Visits s ws

theorem Behaves.refl (A : Sys W) (s : A.S) : Behaves A A s s :=
  ⟨rfl, fun h => h, fun _ _ h => h, fun _ _ h => Or.inr h, fun _ h => Or.inr h, fun _ h => Or.inr h⟩

theorem Behaves.trans {s : A.S} {t : B.S} {u : C.S} (h1 : Behaves A B s t) (h2 : Behaves B C t u) : Behaves A C s u := by
  refine ⟨h1.start.trans h2.start, fun h => h1.fails (h2.fails h), fun ws v h => h2.ends _ _ (h1.ends _ _ h), ?_, ?_, ?_⟩
  · intro ws v h
    rcases h2.ends' ws v h with h | h
    · exact Or.inl (h1.fails h)
    · exact h1.ends' ws v h
  · intro ws h
    rcases h1.visits ws h with h | h
    · exact Or.inl h
    · rcases h2.visits ws h with h | h
      · exact Or.inl (h1.fails h)
      · exact Or.inr h
  · intro ws h
    rcases h2.visits' ws h with h | h
    · exact Or.inl (h1.fails h)
    · exact h1.visits' ws h

theorem Path.one {s s1 : A.S} (h : A.step s = some s1) (hw : A.world s1 = A.world s) : Path A 1 s [] s1 := .same h hw (.refl _)

theorem Path.trans {n m : Nat} {s s1 s2 : A.S} {ws ws' : List W} (h : Path A n s ws s1) (h' : Path A m s1 ws' s2) :
    Path A (n + m) s (ws ++ ws') s2 := by
  induction h with
  | refl => rw [Nat.zero_add]; exact h'
  | same h1 h2 _ ih => rw [Nat.succ_add]; exact .same h1 h2 (ih h')
  | new h1 h2 _ ih => rw [Nat.succ_add]; exact .new h1 h2 (ih h')

theorem Path.world {n : Nat} {s s' : A.S} {ws : List W} (h : Path A n s ws s') : A.world s' = ws.getLastD (A.world s) := by
  induction h with
  | refl => rfl
  | same _ h2 _ ih => rw [ih, h2]
  | new _ _ _ ih => rw [ih, List.getLastD_cons]

/-- two executions from the same state. -/
theorem Path.split {n m : Nat} {s s1 s2 : A.S} {ws ws' : List W} (h : Path A n s ws s1) (h' : Path A m s ws' s2) :
    (n ≤ m ∧ ∃ ws2, ws' = ws ++ ws2 ∧ Path A (m - n) s1 ws2 s2) ∨ (m ≤ n ∧ ∃ ws2, ws = ws' ++ ws2 ∧ Path A (n - m) s2 ws2 s1) := by
  induction h generalizing m ws' with
  | refl => exact Or.inl ⟨Nat.zero_le _, ws', rfl, h'⟩
  | same h1 h2 h3 ih =>
    cases h' with
    | refl => exact Or.inr ⟨Nat.zero_le _, _, rfl, .same h1 h2 h3⟩
    | same g1 g2 g3 =>
      rw [h1] at g1; injection g1 with g1; subst g1
      rcases ih g3 with ⟨a, b, c, d⟩ | ⟨a, b, c, d⟩
      · exact Or.inl ⟨by omega, b, c, by rwa [Nat.succ_sub_succ]⟩
      · exact Or.inr ⟨by omega, b, c, by rwa [Nat.succ_sub_succ]⟩
    | new g1 g2 g3 =>
      rw [h1] at g1; injection g1 with g1; subst g1
      exact absurd h2 g2
  | new h1 h2 h3 ih =>
    cases h' with
    | refl => exact Or.inr ⟨Nat.zero_le _, _, rfl, .new h1 h2 h3⟩
    | same g1 g2 g3 =>
      rw [h1] at g1; injection g1 with g1; subst g1
      exact absurd g2 h2
    | new g1 g2 g3 =>
      rw [h1] at g1; injection g1 with g1; subst g1
      rcases ih g3 with ⟨a, b, c, d⟩ | ⟨a, b, c, d⟩
      · exact Or.inl ⟨by omega, b, by rw [c]; rfl, by rwa [Nat.succ_sub_succ]⟩
      · exact Or.inr ⟨by omega, b, by rw [c]; rfl, by rwa [Nat.succ_sub_succ]⟩

/-- a part of the worlds is visited, too. -/
theorem Path.prefix {n : Nat} {s s' : A.S} {ws ws' : List W} (h : Path A n s (ws ++ ws') s') : A.Visits s ws := by
  generalize e : ws ++ ws' = l at h
  induction h generalizing ws with
  | refl s =>
    have : ws = [] := by cases ws with | nil => rfl | cons => simp at e
    subst this; exact ⟨0, s, .refl s⟩
  | same h1 h2 _ ih => obtain ⟨m, t, ht⟩ := ih e; exact ⟨m + 1, t, .same h1 h2 ht⟩
  | new h1 h2 _ ih =>
    rename_i s _ _ _ _
    cases ws with
    | nil => exact ⟨0, s, .refl s⟩
    | cons w ws =>
      simp only [List.cons_append, List.cons.injEq] at e
      obtain ⟨m, t, ht⟩ := ih e.2
      rw [e.1]
      exact ⟨m + 1, t, .new h1 h2 ht⟩

theorem Path.stuck {n : Nat} {s s' : A.S} {ws : List W} (h : Path A n s ws s') (hs : A.step s = none) : n = 0 ∧ ws = [] ∧ s' = s := by
  cases h with
  | refl => exact ⟨rfl, rfl, rfl⟩
  | same h1 => rw [hs] at h1; cases h1
  | new h1 => rw [hs] at h1; cases h1

theorem Path.inv {n : Nat} {s s' : A.S} {ws : List W} (h : Path A n s ws s') : s = s' ∨ ∃ s1 m ws', A.step s = some s1 ∧ Path A m s1 ws' s' := by
  cases h with
  | refl => exact Or.inl rfl
  | same h1 _ h3 => exact Or.inr ⟨_, _, _, h1, h3⟩
  | new h1 _ h3 => exact Or.inr ⟨_, _, _, h1, h3⟩

theorem Fails.of_path {n : Nat} {s s' : A.S} {ws : List W} (h : Path A n s ws s') (hf : A.Fails s') : A.Fails s := by
  obtain ⟨m, ws', t, h1, h2, h3⟩ := hf
  exact ⟨_, _, t, h.trans h1, h2, h3⟩

theorem Fails.of_step {s s' : A.S} (h : A.step s = some s') (hf : A.Fails s') : A.Fails s := by
  by_cases hw : A.world s' = A.world s
  · exact .of_path (.one h hw) hf
  · exact .of_path (.new h hw (.refl _)) hf

theorem Fails.now {s : A.S} (h : A.step s = none) (ho : A.out s = none) : A.Fails s := ⟨0, [], s, .refl s, h, ho⟩

/-- Two machines: a relation on states such that, unless the first one fails, both finish with the same result or both go
on to related states, through the same worlds. -/
structure Sim (A B : Sys W) (R : A.S → B.S → Prop) : Prop where
  next : ∀ s t, R s t → A.Fails s ∨
    (∃ n m ws s' t' u, Path A n s ws s' ∧ Path B m t ws t' ∧ A.out s' = some u ∧ B.out t' = some u) ∨
    (∃ n m ws s' t', Path A (n + 1) s ws s' ∧ Path B (m + 1) t ws t' ∧ R s' t')
  world : ∀ s t, R s t → A.world s = B.world t

/-- what is known on both sides if the first machine does not fail. -/
structure Both (A B : Sys W) (R : A.S → B.S → Prop) : Prop where
  next : ∀ s t, R s t →
    (∃ n m ws s' t' u, Path A n s ws s' ∧ Path B m t ws t' ∧ A.out s' = some u ∧ B.out t' = some u) ∨
    (∃ n m ws s' t', Path A (n + 1) s ws s' ∧ Path B (m + 1) t ws t' ∧ R s' t')

theorem Both.flip {R : A.S → B.S → Prop} (h : Both A B R) : Both B A (fun t s => R s t) := by
  refine ⟨fun t s hR => ?_⟩
  rcases h.next s t hR with ⟨n, m, ws, s', t', u, h1, h2, h3, h4⟩ | ⟨n, m, ws, s', t', h1, h2, h3⟩
  · exact Or.inl ⟨m, n, ws, t', s', u, h2, h1, h4, h3⟩
  · exact Or.inr ⟨m, n, ws, t', s', h2, h1, h3⟩

theorem Both.visits {R : A.S → B.S → Prop} (h : Both A B R) : ∀ (k : Nat) (s : A.S) (t : B.S) (ws : List W) (x : A.S), R s t →
    Path A k s ws x → B.Visits t ws := by
  intro k
  induction k using Nat.strongRecOn with
  | _ k ih =>
    intro s t ws x hR hp
    rcases h.next s t hR with ⟨n, m, ws', s', t', u, h1, h2, h3, h4⟩ | ⟨n, m, ws', s', t', h1, h2, h3⟩
    · rcases hp.split h1 with ⟨a, b, c, d⟩ | ⟨a, b, c, d⟩
      · subst c; exact h2.prefix
      · obtain ⟨_, rfl, _⟩ := d.stuck (A.final _ _ h3)
        rw [List.append_nil] at c; subst c; exact ⟨_, _, h2⟩
    · rcases hp.split h1 with ⟨a, b, c, d⟩ | ⟨a, b, c, d⟩
      · subst c; exact h2.prefix
      · obtain ⟨j, y, hy⟩ := ih _ (by omega) _ _ _ _ h3 d
        subst c; exact ⟨_, _, h2.trans hy⟩

/-- executions that cannot go on. -/
theorem Both.finish {R : A.S → B.S → Prop} (h : Both A B R) : ∀ (k : Nat) (s : A.S) (t : B.S) (ws : List W) (x : A.S), R s t →
    Path A k s ws x → A.step x = none → ∃ u, A.out x = some u ∧ B.Ends t ws u := by
  intro k
  induction k using Nat.strongRecOn with
  | _ k ih =>
    intro s t ws x hR hp hx
    rcases h.next s t hR with ⟨n, m, ws', s', t', u, h1, h2, h3, h4⟩ | ⟨n, m, ws', s', t', h1, h2, h3⟩
    · rcases hp.split h1 with ⟨a, b, c, d⟩ | ⟨a, b, c, d⟩
      · obtain ⟨_, rfl, e⟩ := d.stuck hx
        rw [List.append_nil] at c; subst c; subst e
        exact ⟨u, h3, _, _, h2, h4⟩
      · obtain ⟨_, rfl, e⟩ := d.stuck (A.final _ _ h3)
        rw [List.append_nil] at c; subst c; subst e
        exact ⟨u, h3, _, _, h2, h4⟩
    · rcases hp.split h1 with ⟨a, b, c, d⟩ | ⟨a, b, c, d⟩
      · obtain ⟨e0, rfl, e⟩ := d.stuck hx
        rw [List.append_nil] at c; subst c; subst e
        obtain ⟨u, hu, j, y, hy, ho⟩ := ih 0 (by omega) _ _ _ _ h3 (.refl _) hx
        exact ⟨u, hu, _, _, by simpa using h2.trans hy, ho⟩
      · obtain ⟨u, hu, j, y, hy, ho⟩ := ih _ (by omega) _ _ _ _ h3 d hx
        subst c
        exact ⟨u, hu, _, _, h2.trans hy, ho⟩

theorem Sim.behaves {R : A.S → B.S → Prop} (h : Sim A B R) {s : A.S} {t : B.S} (hR : R s t) : Behaves A B s t := by
  by_cases hf : A.Fails s
  · refine ⟨h.world s t hR, fun _ => hf, fun ws u he => ?_, fun _ _ _ => Or.inl hf, fun _ _ => Or.inl hf, fun _ _ => Or.inl hf⟩
    -- a program that ends does not fail
    obtain ⟨n, x, h1, h2⟩ := he
    obtain ⟨m, ws', y, g1, g2, g3⟩ := hf
    rcases h1.split g1 with ⟨a, b, c, d⟩ | ⟨a, b, c, d⟩
    · obtain ⟨_, _, e⟩ := d.stuck (A.final _ _ h2)
      subst e; rw [h2] at g3; cases g3
    · obtain ⟨_, _, e⟩ := d.stuck g2
      subst e; rw [h2] at g3; cases g3
  · have hb : Both A B (fun a b => R a b ∧ ¬ A.Fails a) := by
      refine ⟨fun a b hab => ?_⟩
      rcases h.next a b hab.1 with hf | hd | ⟨n, m, ws, s', t', h1, h2, h3⟩
      · exact absurd hf hab.2
      · exact Or.inl hd
      · exact Or.inr ⟨n, m, ws, s', t', h1, h2, h3, fun hf => hab.2 (hf.of_path h1)⟩
    refine ⟨h.world s t hR, ?_, ?_, ?_, ?_, ?_⟩
    · rintro ⟨n, ws, x, h1, h2, h3⟩
      obtain ⟨u, hu, _⟩ := hb.flip.finish n t s ws x ⟨hR, hf⟩ h1 h2
      rw [h3] at hu; cases hu
    · rintro ws u ⟨n, x, h1, h2⟩
      obtain ⟨u', hu, he⟩ := hb.finish n s t ws x ⟨hR, hf⟩ h1 (A.final _ _ h2)
      rw [h2] at hu; injection hu with hu; subst hu; exact he
    · rintro ws u ⟨n, x, h1, h2⟩
      obtain ⟨u', hu, he⟩ := hb.flip.finish n t s ws x ⟨hR, hf⟩ h1 (B.final _ _ h2)
      rw [h2] at hu; injection hu with hu; subst hu; exact Or.inr he
    · rintro ws ⟨n, x, h1⟩
      exact Or.inr (hb.visits n s t ws x ⟨hR, hf⟩ h1)
    · rintro ws ⟨n, x, h1⟩
      exact Or.inr (hb.flip.visits n t s ws x ⟨hR, hf⟩ h1)

end Sys

/-- the result of a state of the machine for core expressions. -/
def State.out {W : Type} : State W → Option View
  | .done v _ => some v.view
  | _ => none

/-- The machine for core expressions. -/
def coreSys {W : Type} (M : Sem W) (ord : Op → List Exp → List Nat) : Sys W where
  S := State W
  step := step M ord
  world := State.world
  out := State.out
  final := by intro s u h; cases s <;> first | rfl | (simp [State.out] at h)

end Verif.Core
