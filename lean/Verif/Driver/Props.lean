import Verif.Driver.Model
import Verif.Str.Props
/-
Property C81: the driver.
-/
namespace Verif.Driver

/-- An argument that is the name of a file. -/
def IsFile (a : Name) : Prop := a ∉ [optV, optW, optD, optHelp, optStdin]

instance (a : Name) : Decidable (IsFile a) := inferInstanceAs (Decidable (a ∉ [optV, optW, optD, optHelp, optStdin]))

/-- An argument that only sets a variable. -/
def IsFlag (a : Name) : Prop := a ∈ [optV, optW, optD]

instance (a : Name) : Decidable (IsFlag a) := inferInstanceAs (Decidable (a ∈ [optV, optW, optD]))

/-- The full claim: a run leaves the source files as they were; and a run with everything compiled has exit status 0. -/
def C81Full : Prop :=
  ∀ (C : Compiler) (v0 : Bool) (w : Files) (args : List Name),
    (∀ a ∈ args, IsFile a → (main C v0 w args).files a = w a) ∧
    (args ≠ [] → (∀ a ∈ args, IsFlag a ∨ ((w a).isSome ∨ a = optStdin) ∧ ∀ w', (C w' a).isSome) → (main C v0 w args).status = 0)

theorem file_step {C : Compiler} {v0 log : Bool} {w : Files} {out : List Msg} {a : Name} {as : List Name} (h : IsFile a) :
    mainLoop C v0 log w out (a :: as) =
      if (w a).isNone then ⟨w, out ++ [.missing a], 1⟩
      else match compileFile C w a with
        | none => ⟨w, if log then out ++ [.compiling a] else out, 1⟩
        | some (w', o) => mainLoop C v0 log w' (if log then out ++ [.compiling a, .writing o] else out) as := by
  simp only [IsFile, List.mem_cons, List.not_mem_nil, or_false, not_or] at h
  obtain ⟨h1, h2, h3, h4, h5⟩ := h
  rw [mainLoop, if_neg h1, if_neg h2, if_neg h3, if_neg h4, if_neg h5]
  rfl

theorem flag_step {C : Compiler} {v0 log : Bool} {w : Files} {out : List Msg} {a : Name} {as : List Name} (h : IsFlag a) :
    mainLoop C v0 log w out (a :: as) = mainLoop C v0 (log || decide (a = optV)) w out as := by
  simp only [IsFlag, List.mem_cons, List.not_mem_nil, or_false] at h
  rcases h with rfl | rfl | rfl
  · rw [mainLoop, if_pos rfl]; simp
  · rw [mainLoop, if_neg (by decide), if_pos rfl]
    simp [show optW ≠ optV by decide]
  · rw [mainLoop, if_neg (by decide), if_neg (by decide), if_pos rfl]
    simp [show optD ≠ optV by decide]

theorem kinds (a : Name) : IsFlag a ∨ a = optHelp ∨ a = optStdin ∨ IsFile a := by
  simp only [IsFlag, IsFile, List.mem_cons, List.not_mem_nil, or_false, not_or]
  by_cases h1 : a = optV
  · exact .inl (.inl h1)
  by_cases h2 : a = optW
  · exact .inl (.inr (.inl h2))
  by_cases h3 : a = optD
  · exact .inl (.inr (.inr h3))
  by_cases h4 : a = optHelp
  · exact .inr (.inl h4)
  by_cases h5 : a = optStdin
  · exact .inr (.inr (.inl h5))
  exact .inr (.inr (.inr ⟨h1, h2, h3, h4, h5⟩))

theorem help_step {C : Compiler} {v0 log : Bool} {w : Files} {out : List Msg} {as : List Name} :
    mainLoop C v0 log w out (optHelp :: as) = ⟨w, out ++ [.about], 0⟩ := by
  rw [mainLoop, if_neg (by decide), if_neg (by decide), if_neg (by decide), if_pos rfl]; rfl

theorem stdin_step {C : Compiler} {v0 log : Bool} {w : Files} {out : List Msg} {as : List Name} :
    mainLoop C v0 log w out (optStdin :: as) = compileStdin C v0 w out := by
  rw [mainLoop, if_neg (by decide), if_neg (by decide), if_neg (by decide), if_neg (by decide), if_pos rfl]

theorem stdin_files (C : Compiler) (v0 : Bool) (w : Files) (out : List Msg) : (compileStdin C v0 w out).files = w := by
  unfold compileStdin
  split <;> rfl

theorem compileFile_files {C : Compiler} {w w' : Files} {a o : Name} (h : compileFile C w a = some (w', o)) :
    ∃ t m, C w a = some (t, m) ∧ o = outName a ∧ w' (outName a) = some t ∧ ∀ n, n ≠ outName a → w' n = w n := by
  unfold compileFile at h
  split at h
  · cases h
  · next t m hc =>
    obtain ⟨rfl, rfl⟩ := Prod.mk.inj (Option.some.inj h)
    refine ⟨t, m, hc, rfl, by simp [write], fun n hn => ?_⟩
    simp only [write, delete, if_neg hn]

/-! ### What a run changes -/

theorem loop_frame (C : Compiler) (v0 : Bool) (n : Name) : ∀ (args : List Name) (log : Bool) (w : Files) (out : List Msg),
    (∀ a ∈ args, IsFile a → n ≠ outName a) → (mainLoop C v0 log w out args).files n = w n := by
  intro args
  induction args with
  | nil => intro log w out _; rfl
  | cons a as ih =>
    intro log w out h
    have hs : ∀ b ∈ as, IsFile b → n ≠ outName b := fun b hb => h b (List.mem_cons_of_mem _ hb)
    rcases kinds a with ha | rfl | rfl | ha
    · rw [flag_step ha]; exact ih _ _ _ hs
    · rw [help_step]
    · rw [stdin_step, stdin_files]
    · rw [file_step ha]
      split
      · rfl
      · split
        · rfl
        · next w' o hc =>
          obtain ⟨_, _, _, _, _, hf⟩ := compileFile_files hc
          rw [ih _ _ _ hs, hf n (h a List.mem_cons_self ha)]

/-- A run changes no files but the C files that belong to its arguments. -/
theorem c81_frame (C : Compiler) (v0 : Bool) (w : Files) (args : List Name) (n : Name) (h : ∀ a ∈ args, IsFile a → n ≠ outName a) :
    (main C v0 w args).files n = w n := by
  unfold main
  split
  · rfl
  · exact loop_frame C v0 n args false w [] h

example : outName "src/a.sf".toList = "src/a.c".toList ∧ IsFile "src/a.sf".toList := by decide

/-- Sources are not changed, if none of them is the C file that belongs to an argument; this is so if their names have a dot and do not
end in `.c`. -/
theorem c81_sources_partial (C : Compiler) (v0 : Bool) (w : Files) (args : List Name) (n : Name) (p e : List Char)
    (hn : n = p ++ '.' :: e) (hd : '.' ∉ e) (he : e ≠ ['c']) : (main C v0 w args).files n = w n := by
  refine c81_frame C v0 w args n fun a _ _ h => he ?_
  have h1 := Str.c42_last_dot p e hd
  have h2 := Str.c42_last_dot (Str.pathStripExtension a) ['c'] (by decide)
  rw [← hn, h] at h1
  unfold outName at h h1
  rw [h1] at h2
  rw [← h2, hn] at h
  have h3 := List.append_cancel_left h
  simpa using h3

example : "a.b/prog.sf".toList = "a.b/prog".toList ++ '.' :: "sf".toList ∧ '.' ∉ "sf".toList ∧ "sf".toList ≠ ['c'] := by decide

/-! ### A successful run -/

/-- All files compile, to different C files, none of which is read: the exit status is 0, every C file has the text the compiler gives for its source in
the files as they were at the beginning. -/
theorem c81_success_partial (C : Compiler) (v0 : Bool) (w : Files) (args srcs outs : List Name) (text : Name → Text) (hargs : args ≠ [])
    (hkind : ∀ a ∈ args, IsFlag a ∨ IsFile a) (hsrcs : srcs = args.filter fun a => decide (IsFile a)) (houts : outs = srcs.map outName)
    (hdistinct : outs.Nodup) (hexist : ∀ a ∈ srcs, (w a).isSome ∧ a ∉ outs)
    (hcomp : ∀ a ∈ srcs, ∀ w', (∀ n, n ∉ outs → w' n = w n) → ∃ m, C w' a = some (text a, m)) :
    (main C v0 w args).status = 0 ∧ (∀ a ∈ srcs, (main C v0 w args).files (outName a) = some (text a)) ∧
    (∀ n, n ∉ outs → (main C v0 w args).files n = w n) := by
  have key : ∀ (as : List Name) (log : Bool) (w1 : Files) (out : List Msg), (∀ a ∈ as, IsFlag a ∨ IsFile a) →
      (∀ a ∈ as, IsFile a → a ∈ srcs) → ((as.filter fun a => decide (IsFile a)).map outName).Nodup → (∀ n, n ∉ outs → w1 n = w n) →
      (mainLoop C v0 log w1 out as).status = 0 ∧
      (∀ a ∈ as, IsFile a → (mainLoop C v0 log w1 out as).files (outName a) = some (text a)) := by
    intro as
    induction as with
    | nil => intro log w1 out _ _ _ _; exact ⟨rfl, fun a ha => by cases ha⟩
    | cons a as ih =>
      intro log w1 out hk hs hd hw
      have hk' : ∀ b ∈ as, IsFlag b ∨ IsFile b := fun b hb => hk b (List.mem_cons_of_mem _ hb)
      have hs' : ∀ b ∈ as, IsFile b → b ∈ srcs := fun b hb => hs b (List.mem_cons_of_mem _ hb)
      by_cases hf : IsFile a
      · have ha := hs a List.mem_cons_self hf
        have hd1 : (List.map outName (a :: as.filter fun a => decide (IsFile a))).Nodup := by
          rwa [List.filter_cons_of_pos (by simpa using hf)] at hd
        rw [List.map_cons, List.nodup_cons] at hd1
        obtain ⟨hex, hno⟩ := hexist a ha
        obtain ⟨m, hc⟩ := hcomp a ha w1 hw
        have hwa : (w1 a).isNone = false := by
          rw [hw a hno]
          cases h : w a with
          | none => rw [h] at hex; cases hex
          | some _ => rfl
        have hcf : compileFile C w1 a = some (write (delete w1 (outName a)) (outName a) (text a), outName a) := by
          unfold compileFile
          rw [hc]
        obtain ⟨t, m', hc', _, hnew, hold⟩ := compileFile_files hcf
        have ht : t = text a := by
          rw [hc] at hc'
          exact (Prod.mk.inj (Option.some.inj hc')).1.symm
        rw [ht] at hnew
        have hin : outName a ∈ outs := by rw [houts]; exact List.mem_map.2 ⟨a, ha, rfl⟩
        rw [file_step hf, hwa, hcf]
        simp only [Bool.false_eq_true, if_false]
        obtain ⟨e1, e2⟩ := ih log (write (delete w1 (outName a)) (outName a) (text a)) (if log then out ++ [.compiling a, .writing (outName a)] else out) hk' hs' hd1.2
          (fun n hn => by rw [hold n (fun e => hn (e ▸ hin)), hw n hn])
        refine ⟨e1, fun b hb hbf => ?_⟩
        rcases List.mem_cons.1 hb with rfl | hb
        · rw [loop_frame C v0 (outName b) as _ _ _ (fun c hc hcf' e => hd1.1 (by
            rw [e]; exact List.mem_map.2 ⟨c, List.mem_filter.2 ⟨hc, by simpa using hcf'⟩, rfl⟩)), hnew]
        · exact e2 b hb hbf
      · have hfl : IsFlag a := (hk a List.mem_cons_self).resolve_right hf
        have hd1 : ((as.filter fun a => decide (IsFile a)).map outName).Nodup := by
          rwa [List.filter_cons_of_neg (by simpa using hf)] at hd
        rw [flag_step hfl]
        obtain ⟨e1, e2⟩ := ih (log || decide (a = optV)) w1 out hk' hs' hd1 hw
        refine ⟨e1, fun b hb hbf => ?_⟩
        rcases List.mem_cons.1 hb with rfl | hb
        · exact absurd hbf hf
        · exact e2 b hb hbf
  obtain ⟨e1, e2⟩ := key args false w [] hkind (fun a ha hf => by rw [hsrcs]; exact List.mem_filter.2 ⟨ha, by simpa using hf⟩)
    (by rw [← hsrcs, ← houts]; exact hdistinct) (fun _ _ => rfl)
  have hmain : main C v0 w args = mainLoop C v0 false w [] args := if_neg hargs
  refine ⟨by rw [hmain]; exact e1, fun a ha => ?_, fun n hn => c81_frame C v0 w args n fun a ha hf e => hn ?_⟩
  · rw [hmain]
    rw [hsrcs] at ha
    obtain ⟨h1, h2⟩ := List.mem_filter.1 ha
    exact e2 a h1 (by simpa using h2)
  · rw [houts, e, hsrcs]
    exact List.mem_map.2 ⟨a, List.mem_filter.2 ⟨ha, by simpa using hf⟩, rfl⟩

/-- Two sources and a flag. -/
def demoFiles : Files := fun n => if n = "a.sf".toList ∨ n = "b.sf".toList then some "source".toList else none

example : let args := ["-v".toList, "a.sf".toList, "b.sf".toList]
    let srcs := args.filter fun a => decide (IsFile a)
    (∀ a ∈ args, IsFlag a ∨ IsFile a) ∧ (srcs.map outName).Nodup ∧ (∀ a ∈ srcs, (demoFiles a).isSome ∧ a ∉ srcs.map outName) := by decide

/-! ### Order of the arguments -/

/-- A run whose first arguments are flags and files that compile goes on with the rest, with the files as they are then, and reports if `-v` was among them. -/
theorem c81_sequence (C : Compiler) (v0 : Bool) : ∀ (pre post : List Name) (log : Bool) (w : Files) (out : List Msg),
    (∀ a ∈ pre, IsFlag a ∨ IsFile a) → (mainLoop C v0 log w out pre).status = 0 →
    mainLoop C v0 log w out (pre ++ post) =
      mainLoop C v0 (log || decide (optV ∈ pre)) (mainLoop C v0 log w out pre).files (mainLoop C v0 log w out pre).out post := by
  intro pre
  induction pre with
  | nil => intro post log w out _ _; simp [mainLoop]
  | cons a as ih =>
    intro post log w out hk h0
    have hk' : ∀ b ∈ as, IsFlag b ∨ IsFile b := fun b hb => hk b (List.mem_cons_of_mem _ hb)
    rcases hk a List.mem_cons_self with ha | ha
    · rw [flag_step ha] at h0
      rw [List.cons_append, flag_step ha, flag_step ha, ih post _ w out hk' h0]
      congr 1
      rw [Bool.or_assoc]
      congr 1
      by_cases hv : a = optV
      · simp [hv]
      · simp [hv, Ne.symm hv]
    · have hv : optV ≠ a := fun e => by rw [← e] at ha; exact absurd ha (by decide)
      have hmem : decide (optV ∈ a :: as) = decide (optV ∈ as) := by simp [hv]
      rw [hmem]
      rw [file_step ha] at h0
      rw [List.cons_append, file_step ha, file_step ha]
      cases hw : (w a).isNone with
      | true => rw [hw] at h0; cases h0
      | false =>
        rw [hw] at h0
        simp only [Bool.false_eq_true, if_false] at h0 ⊢
        cases hc : compileFile C w a with
        | none => rw [hc] at h0; cases h0
        | some r =>
          rw [hc] at h0
          exact ih post log r.1 _ hk' h0

/-- A file that compiles: its C file is replaced and nothing else, the run goes on, and with `-v` the names of both are reported. -/
theorem c81_file (C : Compiler) (v0 log : Bool) (w : Files) (out : List Msg) (a : Name) (post : List Name) (t : Text) (m : Bool) (ha : IsFile a)
    (hw : (w a).isSome) (hc : C w a = some (t, m)) :
    ∃ w', mainLoop C v0 log w out (a :: post) = mainLoop C v0 log w' (out ++ if log then [.compiling a, .writing (outName a)] else []) post ∧
      w' (outName a) = some t ∧ ∀ n, n ≠ outName a → w' n = w n := by
  have h1 : (w a).isNone = false := by
    cases h : w a with
    | none => rw [h] at hw; cases hw
    | some _ => rfl
  have h2 : compileFile C w a = some (write (delete w (outName a)) (outName a) t, outName a) := by unfold compileFile; rw [hc]
  obtain ⟨t', m', hc', _, hnew, hold⟩ := compileFile_files h2
  have ht : t' = t := by
    rw [hc] at hc'
    exact (Prod.mk.inj (Option.some.inj hc')).1.symm
  refine ⟨_, ?_, hnew.trans (congrArg some ht), hold⟩
  rw [file_step ha, h1, h2]
  cases log <;> simp

/-- The first file that is missing ends the run with status 1 and a message; nothing after it is looked at. -/
theorem c81_missing (C : Compiler) (v0 log : Bool) (w : Files) (out : List Msg) (a : Name) (post : List Name) (ha : IsFile a) (hw : w a = none) :
    mainLoop C v0 log w out (a :: post) = ⟨w, out ++ [.missing a], 1⟩ := by
  rw [file_step ha, hw]; rfl

/-- A file that does not compile ends the run with status 1; its C file is left as it was. -/
theorem c81_failed (C : Compiler) (v0 log : Bool) (w : Files) (out : List Msg) (a : Name) (post : List Name) (ha : IsFile a) (hw : (w a).isSome)
    (hc : C w a = none) :
    (mainLoop C v0 log w out (a :: post)).files = w ∧ (mainLoop C v0 log w out (a :: post)).status = 1 := by
  have h1 : (w a).isNone = false := by
    cases h : w a with
    | none => rw [h] at hw; cases hw
    | some _ => rfl
  have h2 : compileFile C w a = none := by unfold compileFile; rw [hc]
  rw [file_step ha, h1, h2]
  exact ⟨rfl, rfl⟩

/-- Help, no arguments: the usage is shown; the status is 0 if it was asked for, else 1. -/
theorem c81_help (C : Compiler) (v0 : Bool) (w : Files) (flags post : List Name) (h : ∀ a ∈ flags, IsFlag a) :
    main C v0 w (flags ++ optHelp :: post) = ⟨w, [.about], 0⟩ ∧ main C v0 w [] = ⟨w, [.about], 1⟩ := by
  refine ⟨?_, rfl⟩
  unfold main
  rw [if_neg (by simp)]
  have : ∀ (fl : List Name) (log : Bool), (∀ a ∈ fl, IsFlag a) → mainLoop C v0 log w [] (fl ++ optHelp :: post) = ⟨w, [.about], 0⟩ := by
    intro fl
    induction fl with
    | nil => intro log _; rw [List.nil_append, help_step]; rfl
    | cons a as ih =>
      intro log hf
      rw [List.cons_append, flag_step (hf a List.mem_cons_self)]
      exact ih _ fun b hb => hf b (List.mem_cons_of_mem _ hb)
  exact this flags false h

/-- `-`: the module goes to the standard output, no file is changed, the arguments after it are ignored; an error
in the source is a failure with no output. -/
theorem c81_stdin (C : Compiler) (v0 : Bool) (w : Files) (post : List Name) :
    (main C v0 w (optStdin :: post)).files = w ∧ main C v0 w (optStdin :: post) = main C v0 w [optStdin] ∧
    (∀ t m, C w optStdin = some (t, m) → (main C v0 w (optStdin :: post)).out = [.code t]) ∧
    (C w optStdin = none → main C v0 w (optStdin :: post) = ⟨w, [], 1⟩) := by
  have h : ∀ l, main C v0 w (optStdin :: l) = compileStdin C v0 w [] := by
    intro l
    unfold main
    rw [if_neg (by simp), stdin_step]
  rw [h, h]
  refine ⟨stdin_files .., rfl, fun t m hc => ?_, fun hc => ?_⟩
  · unfold compileStdin
    rw [show C w ['-'] = some (t, m) from hc]
    rfl
  · unfold compileStdin
    rw [show C w ['-'] = none from hc]

/-! ### Refutations -/

/-- A compiler that always succeeds. -/
def demoC : Compiler := fun _ n => some (n, true)

/-- `sfc a.c` replaces its source. -/
theorem c81_source_counterexample :
    let w : Files := fun n => if n = "a.c".toList then some "source".toList else none
    w "a.c".toList = some "source".toList ∧ (main demoC false w ["a.c".toList]).files "a.c".toList = some "a.c".toList := by decide

/-- `sfc - < a.sf` with a `main` in `a.sf` has exit status 1 though everything went well. -/
theorem c81_stdin_counterexample (v0 : Bool) (w : Files) : (main demoC v0 w [optStdin]).status = 1 := by
  cases v0 <;> rfl

/-- Two sources in one run that differ in their extensions only: the second C file replaces the first; `./prog` is compiled to `.c`. -/
theorem c81_names_counterexample :
    outName "a.sf".toList = outName "a.scm".toList ∧ outName "./prog".toList = ".c".toList ∧ outName "x.d/prog".toList = "x.c".toList := by decide

theorem c81_counterexample : ¬ C81Full := by
  intro h
  have h1 := (h demoC false (fun n => if n = "a.c".toList then some "source".toList else none) ["a.c".toList]).1 "a.c".toList
    List.mem_cons_self (by decide)
  revert h1
  decide

end Verif.Driver
