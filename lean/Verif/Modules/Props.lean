import Verif.Modules.Run
/-
C67: modules are loaded in the right order.
-/
namespace Verif.Modules
variable {fs : Files} {files : List File}

/-- Modules run in the order in which they are loaded: if a file loads `a` and later `b`, and `b` does not need `a`, the code of `a` runs first. -/
def InOrder : Prop :=
  ∀ (fs : Files) (files : List File) (f a b : File) (l₁ l₂ l₃ : List Form) (fuel : Nat) (log : List Name), Project fs files → f ∈ files →
    fs f = some (l₁ ++ .load a :: l₂ ++ .load b :: l₃) → Defines fs a → Defines fs b → ¬ Needs fs a b → ¬ Needs fs b a → a ≠ b →
    start fs fuel files f = some log → ∃ p q r, log = p ++ moduleName a :: q ++ moduleName b :: r

/-- All modules needed run. -/
def AllRun : Prop :=
  ∀ (fs : Files) (files : List File) (f g : File) (fuel : Nat) (log : List Name), Project fs files → f ∈ files → Needs fs f g → start fs fuel files f = some log → moduleName g ∈ log

/-- The functions called by `LOAD()` are declared. -/
def AllDeclared : Prop :=
  ∀ (fs : Files) (files : List File) (f : File) (fuel : Nat) (m : Module), Project fs files → f ∈ files → parseFile fs fuel f = some m → ∀ n ∈ m.loads, n ∈ m.externs

/-- Definitions of all files needed are in the generated file. -/
def AllText : Prop :=
  ∀ (fs : Files) (f g : File) (forms : List Form) (t fuel : Nat) (m : Module), Needs fs f g → fs g = some forms → .defn t ∈ forms → parseFile fs fuel f = some m → t ∈ m.defs

/-- **C67** in full. -/
def C67Full : Prop := InOrder ∧ AllRun ∧ AllDeclared ∧ AllText

/-- **C67**, at run time.  The program made of a complete set of modules, started at any of them, comes to the end of loading; the code of the module
and of those it needs, directly or not, that have definitions runs once each, and no other; and the code of a module runs after
that of the modules it needs, unless these need the module, too.  Missing: modules without definitions, the order of modules that do not need each other. -/
theorem c67_loading_partial (hP : Project fs files) (f : File) (hf : f ∈ files) (fuel : Nat) (hfuel : files.length < fuel) :
    ∃ log, start fs fuel files f = some log ∧ log.Nodup ∧
      (∀ n, n ∈ log ↔ n = moduleName f ∨ ∃ g, Needs fs f g ∧ Defines fs g ∧ n = moduleName g) ∧
      (∀ g h, g ∈ files → Needs fs g h → ¬ Needs fs h g → Defines fs h → ∀ l₁ l₂, log = l₁ ++ moduleName g :: l₂ → moduleName h ∈ l₁) := by
  have hM : ∀ n ∈ files.map moduleName, ∃ l, link fs fuel files n = some l ∧ ∀ x ∈ l, x ∈ files.map moduleName := by
    intro n hn
    obtain ⟨g, hg, rfl⟩ := List.mem_map.mp hn
    obtain ⟨m, hm⟩ := parse_total hP hg hfuel
    refine ⟨m.loads, by rw [link_file hP hg, hm]; rfl, ?_⟩
    intro x hx
    obtain ⟨h, h1, _, rfl⟩ := ((parse_loads hP hg hm).1 x).mp hx
    exact List.mem_map.mpr ⟨h, from_files hP hg (.inr h1), rfl⟩
  obtain ⟨r, hr⟩ := call_total hM fuel (moduleName f) (List.mem_map.mpr ⟨f, hf, rfl⟩) ⟨[], []⟩
    (Nat.lt_of_le_of_lt (List.length_filter_le _ _) (by simpa using hfuel))
  obtain ⟨new, a, ha⟩ := call_ok fuel _ _ _ hr
  have hlog : r.log = new := by simpa using a.log
  have hfn : moduleName f ∈ new := by simpa using (a.loaded _).mp ha
  refine ⟨r.log, by unfold start; rw [hr]; rfl, by rw [hlog]; exact a.nodup, ?_, ?_⟩
  · intro n
    rw [hlog]
    constructor
    · intro hn
      obtain ⟨m, rfl, hc⟩ := a.from_ n hn
      have key : ∀ {m k : Name}, Calls (link fs fuel files) m k → m = moduleName f → k = moduleName f ∨ ∃ g, Needs fs f g ∧ Defines fs g ∧ k = moduleName g := by
        intro m k hc hm
        cases hc with
        | refl => exact .inl hm
        | step h1 h2 h3 =>
          obtain ⟨g, hg, rfl, hfg⟩ := calls_from hP hf h1 hm
          rw [link_file hP hg] at h2
          obtain ⟨md, h5, rfl⟩ := Option.map_eq_some_iff.mp h2
          obtain ⟨x, h6, h7, h8⟩ := ((parse_loads hP hg h5).1 _).mp h3
          refine .inr ⟨x, ?_, h7, h8⟩
          rcases hfg with rfl | hfg
          · exact h6
          · rcases From.trans (.inr hfg) (.inr h6) with rfl | h9
            · clear h7 h8
              have : ∀ {a b c : File}, Needs fs a b → Needs fs b c → Needs fs a c := by
                intro a b c q1 q2
                induction q2 with
                | load hl => exact .more q1 hl
                | more _ hl ih => exact .more ih hl
              exact this hfg h6
            · exact h9
      exact key hc rfl
    · rintro (rfl | ⟨g, h1, h2, rfl⟩)
      · exact hfn
      · obtain ⟨l, e1, e2⟩ := a.closed _ hfn
        rw [link_file hP hf] at e1
        obtain ⟨m, e3, rfl⟩ := Option.map_eq_some_iff.mp e1
        have := e2 _ (((parse_loads hP hf e3).1 _).mpr ⟨g, h1, h2, rfl⟩)
        simpa using (a.loaded _).mp this
  · intro g h hg h1 h2 h3 l₁ l₂ he
    rw [hlog] at he
    obtain ⟨l, e1, _⟩ := a.closed (moduleName g) (by rw [he]; simp)
    have e1' := e1
    rw [link_file hP hg] at e1
    obtain ⟨m, e3, rfl⟩ := Option.map_eq_some_iff.mp e1
    rcases a.order _ _ _ he _ e1' _ (((parse_loads hP hg e3).1 _).mpr ⟨h, h1, h3, rfl⟩) with h4 | h4 | h4
    · cases h4
    · exact h4
    · have hh := from_files hP hg (.inr h1)
      obtain ⟨k, hk, e4, e5⟩ := calls_from hP hh h4 rfl
      obtain rfl := hP.names g hg k hk e4
      rcases e5 with rfl | e5
      · exact absurd h1 h2
      · exact absurd e5 h2

/-- **C67**, at compile time: the modules `LOAD()` calls are those needed that have definitions, each once; functions are declared for modules loaded
directly only. -/
theorem c67_calls (hP : Project fs files) (f : File) (hf : f ∈ files) (fuel : Nat) (hfuel : files.length < fuel) :
    ∃ m, parseFile fs fuel f = some m ∧ (∀ n, n ∈ m.loads ↔ ∃ g, Needs fs f g ∧ Defines fs g ∧ n = moduleName g) ∧ m.loads.Nodup ∧
      (∀ n ∈ m.externs, ∃ g, Loads fs f g ∧ Defines fs g ∧ n = moduleName g) := by
  obtain ⟨m, hm⟩ := parse_total hP hf hfuel
  exact ⟨m, hm, parse_loads hP hf hm⟩

/-- **C67**.  The includes and definitions in the generated file are those of the text in which the text of each file stands in the place of its first
`load`, without the local definitions of loaded files, in the order of the text. -/
theorem c67_text (hP : Project fs files) (f : File) (hf : f ∈ files) (forms : List Form) (h : fs f = some forms) (fuel : Nat) (hfuel : files.length < fuel) :
    ∃ m, parseFile fs fuel f = some m ∧ m.incs = (spliceAll (splice fs fuel) forms []).1.filterMap inclOf ∧ m.defs = (spliceAll (splice fs fuel) forms []).1.filterMap defnOf := by
  obtain ⟨m, hm⟩ := parse_total hP hf hfuel
  refine ⟨m, hm, ?_⟩
  unfold parseFile at hm
  rw [h] at hm
  simpa using scanMain_text (addLoad_text hP fuel) forms (fun g hg => hP.closed f hf g ⟨forms, h, hg⟩) [] (by simp) [] [] [] false ⟨[], []⟩ m rfl hm

/-- The condition on names: they are different if the last components of the file names without extension are (of characters that fit in a byte). -/
theorem c67_names (f g : File) (hf : Names.Bytes (Str.pathStripExtension (Str.pathStripDirectory f))) (hg : Names.Bytes (Str.pathStripExtension (Str.pathStripDirectory g))) :
    moduleName f = moduleName g ↔ Str.pathStripExtension (Str.pathStripDirectory f) = Str.pathStripExtension (Str.pathStripDirectory g) :=
  ⟨Names.c38_injective _ _ _ hf hg, fun h => by unfold moduleName; rw [h]⟩

/-! ### counterexamples and examples -/

/-- a file system. -/
def fsOf (l : List (File × List Form)) : Files := fun f => (l.find? (fun p => p.1 == f)).map (·.2)

def checkHead : List Form → Bool
  | [] => true
  | .define _ :: l => l.all (fun x => match x with | .load _ => false | .spec _ => false | _ => true)
  | .other _ :: l => l.all (fun x => match x with | .load _ => false | .spec _ => false | _ => true)
  | _ :: l => checkHead l

theorem headFirst_of : ∀ (l : List Form), checkHead l = true → HeadFirst l := by
  intro l
  induction l with
  | nil => intro _; trivial
  | cons x l ih =>
    intro h
    have aux : l.all (fun x => match x with | .load _ => false | .spec _ => false | _ => true) = true → (∀ f, Form.load f ∉ l) ∧ (∀ t, Form.spec t ∉ l) := by
      intro h
      rw [List.all_eq_true] at h
      exact ⟨fun f hf => by simpa using h _ hf, fun t ht => by simpa using h _ ht⟩
    cases x with
    | define y => exact aux h
    | other y => exact aux h
    | load f => exact ih h
    | incl t => exact ih h
    | defn t => exact ih h
    | localdef t => exact ih h
    | spec t => exact ih h

def checkProject (l : List (File × List Form)) : Bool :=
  let files := l.map (·.1)
  files.all (fun f => match fsOf l f with
    | some forms => checkHead forms && forms.all (fun x => match x with | .load g => files.contains g | _ => true)
    | none => false) &&
  files.all (fun f => files.all (fun g => moduleName f != moduleName g || f == g))

theorem project_of {l : List (File × List Form)} (h : checkProject l = true) : Project (fsOf l) (l.map (·.1)) := by
  unfold checkProject at h
  simp only [Bool.and_eq_true] at h
  obtain ⟨h1, h2⟩ := h
  rw [List.all_eq_true] at h1 h2
  constructor
  · intro f hf
    have := h1 f hf
    split at this
    · rename_i forms he
      exact ⟨forms, he, headFirst_of _ (by simp only [Bool.and_eq_true] at this; exact this.1)⟩
    · cases this
  · rintro f hf g ⟨forms, he, hg⟩
    have := h1 f hf
    rw [he] at this
    simp only [Bool.and_eq_true] at this
    have := (List.all_eq_true.mp this.2) _ hg
    simpa using this
  · intro f hf g hg he
    have := (List.all_eq_true.mp (h2 f hf)) g hg
    simpa [he] using this

/-- what a file needs, as a list that has all files loaded by it and by its members. -/
theorem needs_sub {l : List (File × List Form)} {f g : File} (L : List File) (h : ∀ x ∈ f :: L, ∀ forms, fsOf l x = some forms → ∀ y, .load y ∈ forms → y ∈ L) (hn : Needs (fsOf l) f g) : g ∈ L := by
  induction hn with
  | load hl => obtain ⟨forms, e1, e2⟩ := hl; exact h f List.mem_cons_self forms e1 _ e2
  | more _ hl ih => obtain ⟨forms, e1, e2⟩ := hl; exact h _ (List.mem_cons_of_mem _ ih) forms e1 _ e2

private def fM : File := "m.sf".toList
private def fA : File := "a.sf".toList
private def fB : File := "b.sf".toList

/-- the file `m.sf` loads `a.sf` and `b.sf`. -/
private def two : List (File × List Form) := [(fM, [.load fA, .load fB, .other 0]), (fA, [.define 1]), (fB, [.define 2])]

/-- The modules loaded by a file run in the reverse order. -/
theorem c67_order_counterexample : ¬ InOrder := by
  intro h
  have hn : ∀ x y, x = fA ∨ x = fB → ¬ Needs (fsOf two) x y := by
    intro x y hx hn
    have := needs_sub [] (by
      intro z hz forms he y hy
      simp only [List.mem_singleton] at hz
      subst hz
      rcases hx with rfl | rfl
      · rw [show fsOf two fA = some [.define 1] by decide +kernel] at he; injection he with he; subst he; simp at hy
      · rw [show fsOf two fB = some [.define 2] by decide +kernel] at he; injection he with he; subst he; simp at hy) hn
    cases this
  obtain ⟨p, q, r, he⟩ := h (fsOf two) (two.map (·.1)) fM fA fB [] [] [.other 0] 5 [moduleName fB, moduleName fA, moduleName fM] (project_of (by decide +kernel)) (by decide +kernel)
    (by decide +kernel) ⟨[.define 1], 1, by decide +kernel, by simp⟩ ⟨[.define 2], 2, by decide +kernel, by simp⟩ (hn _ _ (.inl rfl)) (hn _ _ (.inr rfl)) (by decide +kernel) (by decide +kernel)
  have hab : moduleName fA ≠ moduleName fB := by decide +kernel
  have ham : moduleName fM ≠ moduleName fB := by decide +kernel
  rcases p with _ | ⟨x, p⟩
  · simp only [List.nil_append, List.cons_append, List.cons.injEq] at he
    exact hab he.1.symm
  · simp only [List.cons_append, List.cons.injEq] at he
    obtain ⟨_, he⟩ := he
    have : moduleName fB ∈ [moduleName fA, moduleName fM] := by rw [he]; simp
    simp only [List.mem_cons, List.not_mem_nil, or_false] at this
    rcases this with h1 | h1
    · exact hab h1.symm
    · exact ham h1.symm

/-- A module that has no definitions does not run. -/
theorem c67_effects_counterexample : ¬ AllRun := by
  intro h
  have := h (fsOf [(fM, [.load fA]), (fA, [.other 1])]) [fM, fA] fM fA 5 [moduleName fM] (project_of (l := [(fM, [.load fA]), (fA, [.other 1])]) (by decide +kernel)) (by decide +kernel)
    (.load ⟨[.load fA], by decide +kernel, by simp⟩) (by decide +kernel)
  revert this
  decide +kernel

/-- A function called by `LOAD()` need not be declared. -/
theorem c67_declared_counterexample : ¬ AllDeclared := by
  intro h
  have := h (fsOf [(fM, [.load fA]), (fA, [.load fB, .define 1]), (fB, [.define 2])]) [fM, fA, fB] fM 5 ⟨[moduleName fA], [moduleName fA, moduleName fB], [], []⟩
    (project_of (l := [(fM, [.load fA]), (fA, [.load fB, .define 1]), (fB, [.define 2])]) (by decide +kernel)) (by decide +kernel) (by rfl) (moduleName fB) (by simp)
  revert this
  decide +kernel

/-- Of two files with the same last component only the first one is loaded. -/
theorem c67_names_counterexample : ¬ AllText := by
  intro h
  have := h (fsOf [(fM, [.load fA, .load "x/a.sf".toList]), (fA, [.defn 1]), ("x/a.sf".toList, [.defn 2])]) fM "x/a.sf".toList [.defn 2] 2 5 ⟨[], [], [], [1]⟩
    (.load ⟨[.load fA, .load "x/a.sf".toList], by decide +kernel, by simp⟩) (by decide +kernel) (by simp) (by rfl)
  revert this
  decide +kernel

theorem c67_counterexample : ¬ C67Full := fun h => c67_order_counterexample h.1

/-- a project with a module needed twice, one that is needed by a module needed, and modules that need each other. -/
private def proj : List (File × List Form) :=
  [(fM, [.incl 1, .load fA, .incl 2, .load fB, .defn 3, .localdef 4, .other 0]), (fA, [.load "c.sf".toList, .incl 5, .localdef 6, .define 1]),
    (fB, [.load "c.sf".toList, .load "d.sf".toList, .defn 7, .define 2]), ("c.sf".toList, [.incl 8, .define 3]), ("d.sf".toList, [.load fB, .define 4])]

example : Project (fsOf proj) (proj.map (·.1)) := project_of (by decide +kernel)
example : start (fsOf proj) 6 (proj.map (·.1)) fM = some (["c", "d", "b", "a", "m"].map (fun s => ("module_" ++ s).toList)) := by decide +kernel
example : (parseFile (fsOf proj) 6 fM).map (fun m => (m.incs, m.defs)) = some ([1, 8, 5, 2], [7, 3, 4]) := by decide +kernel
example : Names.Bytes (Str.pathStripExtension (Str.pathStripDirectory "lib/libl.sf".toList)) :=
  (by decide +kernel : ∀ c ∈ Str.pathStripExtension (Str.pathStripDirectory "lib/libl.sf".toList), c.toNat < 256)

/-- if a file can be compiled, its `load` and `%%` forms are before its definitions and expressions. -/
theorem c67_head (fs : Files) (fuel : Nat) (f : File) (m : Module) (forms : List Form) (h : parseFile fs fuel f = some m) (hf : fs f = some forms) : HeadFirst forms := by
  unfold parseFile at h
  rw [hf] at h
  have key : ∀ (forms : List Form) (ext : List Name) (incs defs : List Nat) (b : Bool) (s : St) (m : Module),
      scanMain (addLoad fs fuel) forms ext incs defs b s = some m → if b then (∀ f, .load f ∉ forms) ∧ (∀ t, .spec t ∉ forms) else HeadFirst forms := by
    intro forms
    induction forms with
    | nil => intro ext incs defs b s m _; cases b <;> simp [HeadFirst]
    | cons x l ih =>
      intro ext incs defs b s m h
      cases x with
      | load g =>
        rw [scanMain] at h
        cases b with
        | true => simp at h
        | false =>
          rw [if_neg (by simp)] at h
          cases ha : addLoad fs fuel g s with
          | none => rw [ha] at h; cases h
          | some r => rw [ha] at h; exact ih _ _ _ _ _ _ h
      | spec t =>
        rw [scanMain] at h
        cases b with
        | true => simp at h
        | false => rw [if_neg (by simp)] at h; exact ih _ _ _ _ _ _ h
      | define t => have := ih _ _ _ _ _ _ h; cases b <;> simpa [HeadFirst] using this
      | other t => have := ih _ _ _ _ _ _ h; cases b <;> simpa [HeadFirst] using this
      | incl t => have := ih _ _ _ _ _ _ h; cases b <;> simpa [HeadFirst] using this
      | defn t => have := ih _ _ _ _ _ _ h; cases b <;> simpa [HeadFirst] using this
      | localdef t => have := ih _ _ _ _ _ _ h; cases b <;> simpa [HeadFirst] using this
  exact key forms _ _ _ _ _ _ h

example : (parseFile (fun f => if f = "a".toList then some [.incl 1, .define 2, .other 3] else none) 3 "a".toList).isSome := by decide +kernel

end Verif.Modules
