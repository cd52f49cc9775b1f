import Verif.Process.Model
import Verif.Wind.Props
import Verif.StrMem.Props
/-
Property C82: leaving a process and its arguments.
-/
namespace Verif.Process
open Verif.StrMem

variable {Thunk : Type}

theorem run_append (fuel : Nat) : ∀ (o1 o2 : List (Wind.Op Thunk)) (s0 : Wind.State Thunk),
    Wind.run fuel s0 (o1 ++ o2) = (Wind.run fuel s0 o1).bind fun s => Wind.run fuel s o2 := by
  intro o1
  induction o1 with
  | nil => intro o2 s0; rfl
  | cons o o1 ih =>
    intro o2 s0
    simp only [List.cons_append, Wind.run, Option.bind_eq_bind]
    cases Wind.step fuel s0 o with
    | none => rfl
    | some s1 => simp only [Option.bind_some]; exact ih o2 s1

theorem spec_append : ∀ (o1 o2 : List (Wind.Op Thunk)) (s : Wind.Spec Thunk), s.run (o1 ++ o2) = (s.run o1).run o2 := by
  intro o1
  induction o1 with
  | nil => intro o2 s; rfl
  | cons o o1 ih => intro o2 s; exact ih o2 _

theorem valid_exit : ∀ (ops : List (Wind.Op Thunk)) (s : Wind.Spec Thunk), Wind.Valid s ops → Wind.Valid s (ops ++ [.goto 0]) := by
  intro ops
  induction ops with
  | nil => intro s _; exact ⟨Nat.zero_le _, trivial⟩
  | cons o ops ih => intro s h; exact ⟨h.1, ih _ h.2⟩

/-- The `after` thunks of all extents that are open, innermost first. -/
def openAfters (sp : Wind.Spec Thunk) : List Thunk :=
  (Wind.inside sp.tree sp.cur).filterMap fun e => sp.tree[e - 1]?.map (·.after)

theorem thunks_root (t : Wind.Tree Thunk) (x : Nat) :
    Wind.thunks t x 0 = (Wind.inside t x).filterMap fun e => t[e - 1]?.map (·.after) := by
  have h0 : Wind.inside t 0 = [] := rfl
  simp [Wind.thunks, Wind.entered, Wind.left, h0]

/-- At any point of any history of dynamic extents and continuations `exit` calls the `after` thunks of the extents that are open, innermost first, nothing
else, and then leaves the process with the status its arguments ask for. -/
theorem c82_exit (ops : List (Wind.Op Thunk)) (hv : Wind.Valid Wind.Spec.init ops) (fuel : Nat) (hf : 2 * (ops.length + 1) < fuel) (args : List Val) :
    ∃ s l, Wind.run fuel Wind.init ops = some s ∧ exitProc fuel s args = some (l, emergencyExit args) ∧
      l = s.log ++ openAfters (Wind.Spec.init.run ops) := by
  obtain ⟨s, h1, h2, h3⟩ := Wind.c21_dynamic_wind ops hv fuel (by omega)
  obtain ⟨s', g1, g2, g3⟩ := Wind.c21_dynamic_wind (ops ++ [.goto 0]) (valid_exit ops _ hv) fuel (by simpa using hf)
  rw [run_append, h1, Option.bind_some] at g1
  have hr : Wind.reroot fuel s 0 = some s' := by
    simp only [Wind.run, Wind.step, Option.bind_eq_bind] at g1
    cases h : Wind.reroot fuel s 0 with
    | none => rw [h] at g1; cases g1
    | some z => rw [h] at g1; exact g1
  refine ⟨s, s'.log, h1, ?_, ?_⟩
  · unfold exitProc
    rw [hr]; rfl
  · rw [g2, spec_append, h2]
    show (Wind.Spec.step _ _).log = _
    simp only [Wind.Spec.step, thunks_root]
    rfl

example : Wind.Valid Wind.Spec.init [.enter "b1" "a1", .enter "b2" "a2", .goto 1, .enter "b3" "a3"] ∧
    openAfters (Wind.Spec.init.run [.enter "b1" "a1", .enter "b2" "a2", .goto 1, .enter "b3" "a3"]) = ["a3", "a1"] := by
  refine ⟨⟨trivial, trivial, ?_, trivial, trivial⟩, by decide⟩
  decide

/-- Success and failure as the caller of the process sees them, for a result of `main` and for arguments of `exit`: no argument and `#t` are success, `#f` and all else that is no
number is failure, and more than one argument too; `main` succeeds exactly with `#f`. -/
theorem c82_status (v : Val) :
    seen (emergencyExit []) = 0 ∧ seen (emergencyExit [.bool true]) = 0 ∧
    (v ≠ .bool true → (∀ n, v ≠ .fixnum n) → seen (emergencyExit [v]) = 1) ∧
    (∀ w l, seen (emergencyExit (v :: w :: l)) = 1) ∧
    (seen (mainStatus v) = 0 ↔ v = .bool false) := by
  refine ⟨rfl, rfl, fun h1 h2 => ?_, fun _ _ => rfl, ?_⟩
  · cases v with
    | bool b => cases b with
      | true => exact absurd rfl h1
      | false => rfl
    | fixnum n => exact absurd rfl (h2 n)
    | other => rfl
  · unfold mainStatus
    split
    · next h => simp [h, seen]
    · next h => simp [h, seen]

/-- A number from 0 to 255 reaches the caller unchanged. -/
theorem c82_number_partial (n : Int) (h : 0 ≤ n ∧ n ≤ 255) : (seen (emergencyExit [.fixnum n]) : Int) = n := by
  have : emergencyExit [.fixnum n] = n := rfl
  rw [this]
  unfold seen
  omega

example : (0 : Int) ≤ 255 ∧ (255 : Int) ≤ 255 := by decide

/-- The full claim: a number other than 0 is never seen as success. -/
def C82Full : Prop := ∀ n : Int, n ≠ 0 → seen (emergencyExit [.fixnum n]) ≠ 0

/-- `(exit 256)` is seen as success. -/
theorem c82_counterexample : ¬ C82Full := fun h => h 256 (by decide) (by decide)

/-- The arguments of a process as C gets them: texts without NUL, each with its terminator, and a null pointer at the end. -/
def Argv (argv : List (Option Mem)) (args : List (List Nat)) : Prop :=
  (∀ s ∈ args, NulFree s ∧ ∀ c ∈ s, c < 256) ∧ argv = args.map (fun s : List Nat => some (s.map some ++ [some 0])) ++ [none]

/-- `command-line` gives a list of strings that hold exactly the arguments, in order. -/
theorem c82_command_line (argv : List (Option Mem)) (args : List (List Nat)) (h : Argv argv args) :
    ∃ ds, commandLine argv = some ds ∧ List.Forall₂ Holds ds args := by
  obtain ⟨hs, rfl⟩ := h
  have key : ∀ (rest done : List (List Nat)) (r : List Data) (f : Nat), (∀ s ∈ rest, NulFree s ∧ ∀ c ∈ s, c < 256) → rest.length < f →
      ∃ ds, commandLoop ((done ++ rest).map (fun s : List Nat => some (s.map some ++ [some 0])) ++ [none]) f r done.length = some (r.reverse ++ ds) ∧
        List.Forall₂ Holds ds rest := by
    intro rest
    induction rest with
    | nil =>
      intro done r f _ hf
      obtain ⟨f, rfl⟩ : ∃ g, f = g + 1 := ⟨f - 1, by simp only [List.length_nil] at hf; omega⟩
      refine ⟨[], ?_, .nil⟩
      have : argvRef (done.map (fun s : List Nat => some (s.map some ++ [some 0])) ++ [none]) done.length = some none := by
        simp [argvRef]
      simp only [commandLoop, this, List.append_nil]
    | cons s rest ih =>
      intro done r f hr hf
      obtain ⟨f, rfl⟩ : ∃ g, f = g + 1 := ⟨f - 1, by simp only [List.length_cons] at hf; omega⟩
      obtain ⟨hn, hb⟩ := hr s List.mem_cons_self
      obtain ⟨d, hd, hh⟩ := newstring_text s [] hn hb
      have hg : ((done ++ s :: rest).map (fun s : List Nat => some (s.map some ++ [some 0])) ++ [none])[done.length]? = some (some (s.map some ++ [some 0])) := by
        simp
      have ha : argvRef ((done ++ s :: rest).map (fun s : List Nat => some (s.map some ++ [some 0])) ++ [none]) done.length = some (some d) := by
        unfold argvRef
        rw [hg]
        simp only [hd, Option.map_some]
      obtain ⟨ds, e1, e2⟩ := ih (done ++ [s]) (d :: r) f (fun z hz => hr z (List.mem_cons_of_mem _ hz)) (by simp only [List.length_cons] at hf; omega)
      refine ⟨d :: ds, ?_, .cons hh e2⟩
      simp only [commandLoop, ha]
      simp only [List.append_assoc, List.cons_append, List.nil_append, List.length_append, List.length_singleton, List.reverse_cons] at e1
      exact e1
  obtain ⟨ds, e1, e2⟩ := key args [] [] (((args.map fun s : List Nat => some (s.map some ++ [some 0])) ++ [none]).length + 1) hs (by simp; omega)
  refine ⟨ds, ?_, e2⟩
  simpa [commandLine] using e1

example : Argv [some [some 97, some 0], some [some 0], none] [[97], []] := by
  refine ⟨?_, rfl⟩
  unfold NulFree
  decide

end Verif.Process
