import Verif.Exc.Sim
/-
C66: the dynamic environment of programs that use parameters, exception handlers, `guard`, `dynamic-wind` and continuations together.
-/
namespace Verif.Exc
variable {W : Type}

/-- C66.  A program that uses `parameterize`, `with-exception-handler`, `raise`, `raise-continuable`, `guard`, `dynamic-wind` and call/cc of the library,
in any combination, ends with the result (a value, an unhandled exception, or an error; and the state of the world) the specification says, and does
not end if the specification says so.  In the specification the handlers, the values of the parameters and the active calls of `dynamic-wind` are
a part of each continuation; handlers are called with the outer handlers; the clauses of `guard` are tried in the dynamic environment of the `guard`, and
if none applies the exception is raised again in the dynamic environment of the first `raise`; each thunk of `dynamic-wind` runs with the parameters
outside of its call. -/
theorem c66_dynamic_environment (conv : Nat → V → V) (ps : Nat → V) (w : W) (p : Prog W) (r : Option (Bool × V × W)) :
    Ends (step conv) result (start ps w p) r ↔ Ends (Spec.step conv) Spec.result (Spec.start ps w p) r := by
  constructor
  · rintro ⟨n, s, h1, h2, h3⟩
    exact spec_of_ends n (start_rel ps w p) h1 h2 h3
  · rintro ⟨n, s, h1, h2, rfl⟩
    exact ends_of_spec n (start_rel ps w p) h1 h2

/-- a result is unique. -/
theorem c66_deterministic (conv : Nat → V → V) (ps : Nat → V) (w : W) (p : Prog W) (r r' : Option (Bool × V × W))
    (h : Ends (step conv) result (start ps w p) r) (h' : Ends (step conv) result (start ps w p) r') : r = r' := by
  obtain ⟨n, s, h1, h2, rfl⟩ := h
  obtain ⟨m, s', h3, h4, rfl⟩ := h'
  obtain ⟨e1, e2⟩ := ends_det h1 h2 h3
  obtain ⟨e3, e4⟩ := ends_det h3 h4 h1
  obtain rfl : n = m := by omega
  rw [h1] at h3
  injection h3 with h3
  rw [h3]

theorem catch_up {conv : Nat → V → V} {E0 : Cells} (n : Nat) : ∀ {s : State W} {s' : Spec.State W}, R E0 s s' →
    ∀ {s1' : Spec.State W}, iter (Spec.step conv) n s' = some s1' → ∃ s1, Reach (step conv) s s1 ∧ R E0 s1 s1' := by
  induction n with
  | zero => intro s s' h s1' h1; injection h1 with h1; subst h1; exact ⟨s, .refl _, h⟩
  | succ n ih =>
    intro s s' h s1' h1
    rw [iter] at h1
    rcases h.sim (conv := conv) with ⟨a, b, h3, h4, h5⟩ | ⟨h3, _⟩
    · rw [h3] at h1
      obtain ⟨s1, g1, g2⟩ := ih h5 h1
      exact ⟨s1, h4.reach.trans g1, g2⟩
    · rw [h3] at h1; cases h1

/-- C66, for programs that do not end too: whatever state of the world the specification passes through, the library passes through it. -/
theorem c66_worlds (conv : Nat → V → V) (ps : Nat → V) (w : W) (p : Prog W) (n : Nat) (s' : Spec.State W)
    (h : iter (Spec.step conv) n (Spec.start ps w p) = some s') : ∃ m s, iter (step conv) m (start ps w p) = some s ∧ s.ctl = s'.ctl ∧ s.world = s'.world := by
  obtain ⟨s, ⟨m, hm⟩, h1⟩ := catch_up n (start_rel ps w p) h
  refine ⟨m, s, hm, ?_⟩
  rcases h1 with ⟨h1, t, h2⟩ | ⟨ok, v, h1, h2, h3⟩
  · exact ⟨h1, h2.world⟩
  · exact ⟨h1.trans h2.symm, h3⟩

/-! ### what the specification says -/

section
variable {conv : Nat → V → V} {s : Spec.State W}

/-- `raise` calls the innermost handler with the outer handlers installed, all else as it was; if the handler returns, an exception is raised
with the same (outer) handlers. -/
theorem c66_raise (h : V) (hs : List V) (v : V) (h1 : s.ctl = .ev (.raise v)) (h2 : s.d.hs = h :: hs) :
    ∃ s1, Spec.step conv s = some s1 ∧ s1.ctl = .ev (.app h v) ∧ s1.d = { s.d with hs := hs } ∧ s1.world = s.world ∧
      ∀ s2 u, s2.ctl = .ret u → s2.k = s1.k → ∃ s3, Spec.step conv s2 = some s3 ∧ s3.ctl = .ev (.raise (.returned v)) ∧ s3.d = s2.d ∧ s3.world = s2.world := by
  refine ⟨{ Spec.within s { s.d with hs := hs } (.app h v) with k := .bind (fun _ => .raise (.returned v)) :: .restore s.d :: s.k }, by simp only [Spec.step, h1, h2], rfl, rfl, rfl, ?_⟩
  intro s2 u h3 h4
  exact ⟨{ s2 with ctl := .ev (.raise (.returned v)), k := .restore s.d :: s.k }, by simp [Spec.step, h3, h4], rfl, rfl, rfl⟩

/-- `raise-continuable` returns what the handler returns, to the dynamic environment of the call. -/
theorem c66_raise_continuable (h : V) (hs : List V) (v : V) (h1 : s.ctl = .ev (.raiseC v)) (h2 : s.d.hs = h :: hs) :
    ∃ s1, Spec.step conv s = some s1 ∧ s1.ctl = .ev (.app h v) ∧ s1.d = { s.d with hs := hs } ∧ s1.world = s.world ∧
      ∀ s2 u, s2.ctl = .ret u → s2.k = s1.k → s2.d = s1.d → ∃ s3, Spec.step conv s2 = some s3 ∧ s3.ctl = .ret u ∧ s3.k = s.k ∧ s3.d = s.d ∧ s3.world = s2.world := by
  refine ⟨Spec.within s { s.d with hs := hs } (.app h v), by simp only [Spec.step, h1, h2], rfl, rfl, rfl, ?_⟩
  intro s2 u h3 h4 h5
  refine ⟨{ Spec.go s2 s.d with ctl := .ret u, k := s.k }, by simp [Spec.step, h3, h4, Spec.within], rfl, rfl, rfl, ?_⟩
  simp only [Spec.go, h5, Spec.within, Spec.travel]
  have : ∀ l : List (Spec.Wnd W), Spec.only l l = [] := by
    intro l
    unfold Spec.only
    rw [List.filter_eq_nil_iff]
    intro e he
    simp only [Bool.not_eq_true', Bool.not_eq_false, List.any_eq_true]
    exact ⟨e, he, by simp⟩
  simp [this]

/-- a `guard` whose body raises an exception at once goes on with its clauses, with the continuation and the dynamic environment of the `guard`. -/
theorem c66_guard (cl : V → Clause W) (v : V) (h1 : s.ctl = .ev (.guard cl (.raise v))) :
    ∃ s1 k, iter (Spec.step conv) 3 s = some s1 ∧ s1.ctl = .ev (clProg (.again k v) (cl v)) ∧ s1.k = s.k ∧ s1.d = s.d ∧ s1.world = s.world := by
  have only_self : ∀ l : List (Spec.Wnd W), Spec.only l l = [] := by
    intro l
    unfold Spec.only
    rw [List.filter_eq_nil_iff]
    intro e he
    simp only [Bool.not_eq_true', Bool.not_eq_false, List.any_eq_true]
    exact ⟨e, he, by simp⟩
  let s1 : Spec.State W := { Spec.within s { s.d with hs := .ghand s.cls.length s.gconts.length :: s.d.hs } (.raise v) with
    cls := s.cls ++ [cl], gconts := s.gconts ++ [(s.k, s.d)] }
  have e1 : Spec.step conv s = some s1 := by simp only [Spec.step, h1, s1]
  let s2 : Spec.State W := { Spec.within s1 s.d (.app (.ghand s.cls.length s.gconts.length) v) with k := .bind (fun _ => .raise (.returned v)) :: .restore s1.d :: s1.k }
  have e2 : Spec.step conv s1 = some s2 := rfl
  let s3 : Spec.State W := { Spec.go s2 s.d with ctl := .ev (clProg (.again (.gcont s2.gconts.length) v) (cl v)), k := s.k, gconts := s2.gconts ++ [(s2.k, s2.d)] }
  have e3 : Spec.step conv s2 = some s3 := by
    have g1 : s2.gconts[s.gconts.length]? = some (s.k, s.d) := by simp [s2, s1, Spec.within]
    have g2 : s2.cls[s.cls.length]? = some cl := by simp [s2, s1, Spec.within]
    have g3 : s2.ctl = .ev (.app (.ghand s.cls.length s.gconts.length) v) := rfl
    simp only [Spec.step, g3, g1, g2, Option.bind_some, Option.map_some, s3]
  refine ⟨s3, _, by rw [iter, e1]; simp only [Option.bind_some]; rw [iter, e2]; simp only [Option.bind_some]; rw [iter, e3]; rfl, rfl, rfl, rfl, ?_⟩
  simp [s3, s2, s1, Spec.go, Spec.travel, only_self, Spec.within]
end

/-! ### examples -/

section
/-- writes a number. -/
private def out (n : Nat) : (Nat → V) → List Nat → List Nat := fun _ w => w ++ [n]
/-- writes a parameter. -/
private def show' (x : Nat) : (Nat → V) → List Nat → List Nat := fun ps w => match ps x with | .atom n => w ++ [n] | _ => w
private def say (n : Nat) (v : V) : Prog (List Nat) := .act (fun _ w => (v, w ++ [n]))

/-- `(guard (x [#t (say 9) x]) (dynamic-wind (say 1) (lambda () (raise 5)) (say 2)))`. -/
private def ex1 : Prog (List Nat) := .guard (fun x => .hit (say 9 x)) (.wind (out 1) (out 2) (.raise (.atom 5)))

example : Ends (step (fun _ v => v)) result (start (fun _ => .atom 0) [] ex1) (some (true, .atom 5, [1, 2, 9])) := ⟨13, _, rfl, rfl, rfl⟩

/-- a handler outside, a `guard` whose only test fails after writing 8, parameters seen by the thunks and by the handler: the exception is raised
again where it was raised first. -/
private def ex2 : Prog (List Nat) :=
  .bind (.lam (fun _ => .act (fun ps w => (ps 0, show' 0 ps w)))) (fun h =>
    .handle h (.guard (fun _ => .test (say 8 (.atom 0)) (fun _ => .miss))
      (.params [(0, .atom 30)] (.wind (show' 0) (out 2) (.params [(0, .atom 40)] (.raiseC (.atom 5)))))))

example : Ends (step (fun _ v => v)) result (start (fun _ => .atom 7) [] ex2) (some (true, .atom 40, [30, 2, 8, 30, 40, 2])) := ⟨38, _, rfl, rfl, rfl⟩

/-- no handler is left. -/
private def ex3 : Prog (List Nat) := .bind (.lam (fun v => .ret v)) (fun h => .handle h (.wind (out 1) (out 2) (.raise (.atom 5))))

example : Ends (step (fun _ v => v)) result (start (fun _ => .atom 7) [] ex3) (some (false, .returned (.atom 5), [1])) := ⟨14, _, rfl, rfl, rfl⟩

/-- a continuation is used to come back into a call of `dynamic-wind`, in which a parameter is bound. -/
private def ex4 : Prog (List Nat) :=
  .bind (.wind (out 1) (out 2) (.params [(0, .atom 3)] (.bind (.callcc (fun k => .ret k)) (fun v => .bind (.act (fun ps w => (.atom 0, show' 0 ps w))) (fun _ => .ret v)))))
    (fun k => match k with | .atom n => .ret (.atom n) | k => .app k (.atom 6))

example : Ends (step (fun _ v => v)) result (start (fun _ => .atom 7) [] ex4) (some (true, .atom 6, [1, 3, 2, 1, 3, 2])) := ⟨25, _, rfl, rfl, rfl⟩

example : ∃ s : Spec.State (List Nat), s.ctl = .ev (.guard (fun x => .hit (say 9 x)) (.raise (.atom 1))) := ⟨Spec.start (fun _ => .dflt) [] _, rfl⟩
example : ∃ s : Spec.State (List Nat), s.ctl = .ev (.raise (.atom 1)) ∧ s.d.hs = [.dflt] := ⟨{ Spec.start (fun _ => .dflt) [] (.raise (.atom 1)) with d := ⟨[.dflt], fun _ => .dflt, []⟩ }, rfl, rfl⟩
end

end Verif.Exc
