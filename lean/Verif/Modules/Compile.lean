import Verif.Modules.Spec
/-
What `module-add-load!` does.
-/
namespace Verif.Modules

theorem From.trans {fs : Files} {f g h : File} (h1 : From fs f g) (h2 : From fs g h) : From fs f h := by
  rcases h1 with rfl | h1
  · exact h2
  rcases h2 with rfl | h2
  · exact .inr h1
  refine .inr ?_
  induction h2 with
  | load hl => exact .more h1 hl
  | more _ hl ih => exact .more ih hl

theorem From.cons {fs : Files} {f g h : File} (h1 : Loads fs f g) (h2 : From fs g h) : Needs fs f h := by
  have : From fs f h := .trans (.inr (.load h1)) h2
  rcases h2 with rfl | h2
  · exact .load h1
  · induction h2 with
    | load hl => exact .more (.load h1) hl
    | more _ hl ih => exact .more (ih (.trans (.inr (.load h1)) (.inr (by assumption)))) hl

section
variable {fs : Files} {files : List File}

/-- what visiting files, each reached from one that has the property `Root`, does. -/
structure Step (fs : Files) (files : List File) (Root : File → Prop) (s s' : St) : Prop where
  mono : ∀ n ∈ s.visits, n ∈ s'.visits
  new : ∀ n ∈ s'.visits, n ∈ s.visits ∨ ∃ r g, Root r ∧ From fs r g ∧ n = moduleName g
  closed : ∀ g ∈ files, moduleName g ∈ s'.visits → moduleName g ∉ s.visits → ∀ h, Loads fs g h → moduleName h ∈ s'.visits
  loads : ∀ n, n ∈ s'.loads ↔ n ∈ s.loads ∨ ∃ g ∈ files, n = moduleName g ∧ n ∉ s.visits ∧ n ∈ s'.visits ∧ Defines fs g
  sub : (∀ n ∈ s.loads, n ∈ s.visits) → ∀ n ∈ s'.loads, n ∈ s'.visits
  nodup : (∀ n ∈ s.loads, n ∈ s.visits) → s.loads.Nodup → s'.loads.Nodup

theorem Step.refl {Root : File → Prop} (s : St) : Step fs files Root s s :=
  ⟨fun _ h => h, fun _ h => .inl h, fun _ _ h1 h2 => absurd h1 h2, fun n => ⟨.inl, fun h => by rcases h with h | ⟨_, _, _, h1, h2, _⟩; exact h; exact absurd h2 h1⟩, fun h => h, fun _ h => h⟩

theorem Step.trans {Root : File → Prop} {a b c : St} (h1 : Step fs files Root a b) (h2 : Step fs files Root b c) : Step fs files Root a c where
  mono n h := h2.mono n (h1.mono n h)
  new n h := by
    rcases h2.new n h with h | h
    · exact h1.new n h
    · exact .inr h
  closed g hg h3 h4 h hl := by
    by_cases hb : moduleName g ∈ b.visits
    · exact h2.mono _ (h1.closed g hg hb h4 h hl)
    · exact h2.closed g hg h3 hb h hl
  loads n := by
    constructor
    · intro h
      rcases (h2.loads n).mp h with h | ⟨g, e1, e3, e4, e5, e6⟩
      · rcases (h1.loads n).mp h with h | ⟨g, e1, e3, e4, e5, e6⟩
        · exact .inl h
        · exact .inr ⟨g, e1, e3, e4, h2.mono _ e5, e6⟩
      · exact .inr ⟨g, e1, e3, fun h => e4 (h1.mono _ h), e5, e6⟩
    · intro h
      rcases h with h | ⟨g, e1, e3, e4, e5, e6⟩
      · exact (h2.loads n).mpr (.inl ((h1.loads n).mpr (.inl h)))
      · by_cases hb : n ∈ b.visits
        · exact (h2.loads n).mpr (.inl ((h1.loads n).mpr (.inr ⟨g, e1, e3, e4, hb, e6⟩)))
        · exact (h2.loads n).mpr (.inr ⟨g, e1, e3, hb, e5, e6⟩)
  sub h := h2.sub (h1.sub h)
  nodup h h' := h2.nodup (h1.sub h) (h1.nodup h h')

theorem Step.weaken {R R' : File → Prop} (hR : ∀ r g, R r → From fs r g → ∃ r', R' r' ∧ From fs r' g) {s s' : St} (h : Step fs files R s s') : Step fs files R' s s' where
  mono := h.mono
  new n hn := by
    rcases h.new n hn with h1 | ⟨r, g, h1, h2, h3⟩
    · exact .inl h1
    · obtain ⟨r', q1, q2⟩ := hR r g h1 h2
      exact .inr ⟨r', g, q1, q2, h3⟩
  closed := h.closed
  loads := h.loads
  sub := h.sub
  nodup := h.nodup

theorem from_files (hP : Project fs files) {f g : File} (hf : f ∈ files) (h : From fs f g) : g ∈ files := by
  rcases h with rfl | h
  · exact hf
  · induction h with
    | load hl => exact hP.closed _ hf _ hl
    | more _ hl ih => exact hP.closed _ ih _ hl

abbrev Add := File → St → Option (Option Name × List Nat × List Nat × St)

/-- what `module-add-load!` has to do. -/
def AddOk (fs : Files) (files : List File) (add : Add) : Prop :=
  ∀ f ∈ files, ∀ s nm i d s', add f s = some (nm, i, d, s') →
    Step fs files (fun r => r = f) s s' ∧ moduleName f ∈ s'.visits ∧ (∀ n, nm = some n ↔ n = moduleName f ∧ n ∉ s.visits ∧ Defines fs f)

/-- the loop does what its calls do. -/
theorem scan_ok {add : Add} (hA : AddOk fs files add) : ∀ (l : List Form), (∀ g, .load g ∈ l → g ∈ files) → ∀ i d b s i' d' b' s', scan add l i d b s = some (i', d', b', s') →
    Step fs files (fun r => .load r ∈ l) s s' ∧ (∀ g, .load g ∈ l → moduleName g ∈ s'.visits) ∧ (b' = true ↔ b = true ∨ ∃ x, .define x ∈ l) := by
  intro l
  induction l with
  | nil =>
    intro _ i d b s i' d' b' s' h
    simp only [scan, Option.some.injEq, Prod.mk.injEq] at h
    obtain ⟨rfl, rfl, rfl, rfl⟩ := h
    exact ⟨.refl _, fun g hg => by simp at hg, by simp⟩
  | cons x l ih =>
    intro hl i d b s i' d' b' s' h
    have hl' : ∀ g, .load g ∈ l → g ∈ files := fun g hg => hl g (List.mem_cons_of_mem _ hg)
    have wk : ∀ {s s' : St}, Step fs files (fun r => .load r ∈ l) s s' → Step fs files (fun r => .load r ∈ x :: l) s s' :=
      fun h => h.weaken (fun r g h1 h2 => ⟨r, List.mem_cons_of_mem _ h1, h2⟩)
    cases x with
    | load f =>
      simp only [scan] at h
      split at h
      · rename_i nm xi xd s1 he
        obtain ⟨a1, a2, _⟩ := hA f (hl f List.mem_cons_self) _ _ _ _ _ he
        obtain ⟨b1, b2, b3⟩ := ih hl' _ _ _ _ _ _ _ _ h
        refine ⟨.trans (a1.weaken (R' := fun r => .load r ∈ Form.load f :: l) (fun r g h1 h2 => ⟨f, List.mem_cons_self, by subst h1; exact h2⟩)) (wk b1), ?_, ?_⟩
        · intro g hg
          rcases List.mem_cons.mp hg with hg | hg
          · injection hg with hg; subst hg; exact b1.mono _ a2
          · exact b2 g hg
        · rw [b3]; simp
      · cases h
    | define y =>
      obtain ⟨b1, b2, b3⟩ := ih hl' _ _ _ _ _ _ _ _ h
      refine ⟨wk b1, fun g hg => b2 g (by simpa using hg), ?_⟩
      rw [b3]; simp only [true_or, true_iff]; exact .inr ⟨y, List.mem_cons_self⟩
    | incl t =>
      obtain ⟨b1, b2, b3⟩ := ih hl' _ _ _ _ _ _ _ _ h
      exact ⟨wk b1, fun g hg => b2 g (by simpa using hg), by rw [b3]; simp⟩
    | defn t =>
      obtain ⟨b1, b2, b3⟩ := ih hl' _ _ _ _ _ _ _ _ h
      exact ⟨wk b1, fun g hg => b2 g (by simpa using hg), by rw [b3]; simp⟩
    | localdef t =>
      obtain ⟨b1, b2, b3⟩ := ih hl' _ _ _ _ _ _ _ _ h
      exact ⟨wk b1, fun g hg => b2 g (by simpa using hg), by rw [b3]; simp⟩
    | spec t =>
      obtain ⟨b1, b2, b3⟩ := ih hl' _ _ _ _ _ _ _ _ h
      exact ⟨wk b1, fun g hg => b2 g (by simpa using hg), by rw [b3]; simp⟩
    | other t =>
      obtain ⟨b1, b2, b3⟩ := ih hl' _ _ _ _ _ _ _ _ h
      exact ⟨wk b1, fun g hg => b2 g (by simpa using hg), by rw [b3]; simp⟩

theorem defines_iff {f : File} {forms : List Form} (h : fs f = some forms) : Defines fs f ↔ ∃ x, .define x ∈ forms := by
  constructor
  · rintro ⟨l, x, h1, h2⟩
    rw [h] at h1; injection h1 with h1; subst h1; exact ⟨x, h2⟩
  · rintro ⟨x, h1⟩; exact ⟨forms, x, h, h1⟩

/-- `module-add-load!` visits the files it has to. -/
theorem addLoad_ok (hP : Project fs files) (n : Nat) : AddOk fs files (addLoad fs n) := by
  induction n with
  | zero => intro f _ s nm i d s' h; cases h
  | succ n ih =>
    intro f hf s nm i d s' h
    rw [addLoad] at h
    split at h
    · rename_i hv
      simp only [Option.some.injEq, Prod.mk.injEq] at h
      obtain ⟨rfl, rfl, rfl, rfl⟩ := h
      refine ⟨.refl _, hv, fun n => ?_⟩
      constructor
      · intro h; cases h
      · rintro ⟨rfl, h, _⟩; exact absurd hv h
    · rename_i hv
      split at h
      · cases h
      · rename_i forms hfs
        split at h
        · cases h
        · rename_i xi xd xb s1 hsc
          have hld : ∀ g, .load g ∈ forms → Loads fs f g := fun g hg => ⟨forms, hfs, hg⟩
          obtain ⟨a1, a2, a3⟩ := scan_ok ih forms (fun g hg => hP.closed f hf g (hld g hg)) _ _ _ _ _ _ _ _ hsc
          simp only [Bool.false_eq_true, false_or, ← defines_iff hfs] at a3
          have hin : moduleName f ∈ s1.visits := a1.mono _ List.mem_cons_self
          have hS : ∀ lds : List Name, (∀ n, n ∈ lds ↔ n ∈ s1.loads ∨ (n = moduleName f ∧ Defines fs f)) →
              ((∀ n ∈ s.loads, n ∈ s.visits) → s.loads.Nodup → lds.Nodup) → Step fs files (fun r => r = f) s { s1 with loads := lds } := by
            intro lds hlds hnd
            have hs1 : ∀ n, n ∈ s1.loads ↔ n ∈ s.loads ∨ ∃ g ∈ files, n = moduleName g ∧ n ∉ moduleName f :: s.visits ∧ n ∈ s1.visits ∧ Defines fs g := a1.loads
            constructor
            · exact fun n h => a1.mono n (List.mem_cons_of_mem _ h)
            · intro n hn
              rcases a1.new n hn with h1 | ⟨r, g, h1, h2, h3⟩
              · rcases List.mem_cons.mp h1 with rfl | h1
                · exact .inr ⟨f, f, rfl, .inl rfl, rfl⟩
                · exact .inl h1
              · exact .inr ⟨f, g, rfl, .inr (From.cons (hld r h1) h2), h3⟩
            · intro g hg h1 h2 k hk
              by_cases he : moduleName g = moduleName f
              · obtain rfl := hP.names g hg f hf he
                obtain ⟨l, e1, e2⟩ := hk
                rw [hfs] at e1; injection e1 with e1; subst e1
                exact a2 k e2
              · exact a1.closed g hg h1 (by simp [he, h2]) k hk
            · intro n
              rw [hlds, hs1]
              constructor
              · rintro ((h1 | ⟨g, h1, h2, h3, h4, h5⟩) | ⟨rfl, h1⟩)
                · exact .inl h1
                · exact .inr ⟨g, h1, h2, fun h => h3 (List.mem_cons_of_mem _ h), h4, h5⟩
                · exact .inr ⟨f, hf, rfl, hv, hin, h1⟩
              · rintro (h1 | ⟨g, h1, h2, h3, h4, h5⟩)
                · exact .inl (.inl h1)
                · by_cases he : n = moduleName f
                  · obtain rfl := hP.names g h1 f hf (h2 ▸ he)
                    exact .inr ⟨he, h5⟩
                  · exact .inl (.inr ⟨g, h1, h2, by simp [he, h3], h4, h5⟩)
            · intro h1 n hn
              rcases (hlds n).mp hn with h2 | ⟨rfl, _⟩
              · exact a1.sub (fun m hm => List.mem_cons_of_mem _ (h1 m hm)) n h2
              · exact hin
            · exact hnd
          have hnot : (∀ n ∈ s.loads, n ∈ s.visits) → moduleName f ∉ s1.loads := by
            intro h1 h2
            rcases (a1.loads _).mp h2 with h3 | ⟨_, _, _, h3, _⟩
            · exact hv (h1 _ h3)
            · exact h3 List.mem_cons_self
          split at h
          · rename_i hb
            simp only [Option.some.injEq, Prod.mk.injEq] at h
            obtain ⟨rfl, rfl, rfl, rfl⟩ := h
            have hd := a3.mp hb
            refine ⟨hS _ (fun n => ?_) (fun h1 h2 => ?_), hin, fun n => ?_⟩
            · simp [hd]; exact or_comm
            · exact List.nodup_cons.mpr ⟨hnot h1, a1.nodup (fun m hm => List.mem_cons_of_mem _ (h1 m hm)) h2⟩
            · simp only [Option.some.injEq]
              constructor
              · rintro rfl; exact ⟨rfl, hv, hd⟩
              · rintro ⟨rfl, _⟩; rfl
          · rename_i hb
            simp only [Option.some.injEq, Prod.mk.injEq] at h
            obtain ⟨rfl, rfl, rfl, rfl⟩ := h
            have hd : ¬ Defines fs f := fun hd => hb (a3.mpr hd)
            refine ⟨hS s1.loads (fun n => by simp [hd]) (fun h1 h2 => a1.nodup (fun m hm => List.mem_cons_of_mem _ (h1 m hm)) h2), hin, fun n => ?_⟩
            constructor
            · intro h; cases h
            · rintro ⟨_, _, h⟩; exact absurd h hd

/-- the loop over the file compiled. -/
theorem scanMain_ok {add : Add} (hA : AddOk fs files add) : ∀ (l : List Form), (∀ g, .load g ∈ l → g ∈ files) → ∀ e i d b s m, scanMain add l e i d b s = some m →
    ∃ s', Step fs files (fun r => .load r ∈ l) s s' ∧ (∀ g, .load g ∈ l → moduleName g ∈ s'.visits) ∧ m.loads = s'.loads ∧
      (∀ n, n ∈ m.externs → n ∈ e ∨ ∃ g, .load g ∈ l ∧ n = moduleName g ∧ Defines fs g) := by
  intro l
  induction l with
  | nil =>
    intro _ e i d b s m h
    simp only [scanMain, Option.some.injEq] at h
    subst h
    exact ⟨s, .refl _, fun g hg => by simp at hg, rfl, fun n hn => .inl (by simpa using hn)⟩
  | cons x l ih =>
    intro hl e i d b s m h
    have hl' : ∀ g, .load g ∈ l → g ∈ files := fun g hg => hl g (List.mem_cons_of_mem _ hg)
    have wk : ∀ {s s' : St}, Step fs files (fun r => .load r ∈ l) s s' → Step fs files (fun r => .load r ∈ x :: l) s s' :=
      fun h => h.weaken (fun r g h1 h2 => ⟨r, List.mem_cons_of_mem _ h1, h2⟩)
    have same : ∀ e i d b, (∀ g, x ≠ .load g) → scanMain add l e i d b s = some m → ∃ s', Step fs files (fun r => .load r ∈ x :: l) s s' ∧
        (∀ g, .load g ∈ x :: l → moduleName g ∈ s'.visits) ∧ m.loads = s'.loads ∧
        (∀ n, n ∈ m.externs → n ∈ e ∨ ∃ g, .load g ∈ x :: l ∧ n = moduleName g ∧ Defines fs g) := by
      intro e i d b hx h
      obtain ⟨s', b1, b2, b3, b4⟩ := ih hl' _ _ _ _ _ _ h
      refine ⟨s', wk b1, ?_, b3, ?_⟩
      · intro g hg
        rcases List.mem_cons.mp hg with hg | hg
        · exact absurd hg.symm (hx g)
        · exact b2 g hg
      · intro n hn
        rcases b4 n hn with h1 | ⟨g, h1, h2⟩
        · exact .inl h1
        · exact .inr ⟨g, List.mem_cons_of_mem _ h1, h2⟩
    cases x with
    | load f =>
      simp only [scanMain] at h
      split at h
      · cases h
      split at h
      · rename_i nm xi xd s1 he
        obtain ⟨a1, a2, a3⟩ := hA f (hl f List.mem_cons_self) _ _ _ _ _ he
        obtain ⟨s', b1, b2, b3, b4⟩ := ih hl' _ _ _ _ _ _ h
        refine ⟨s', .trans (a1.weaken (R' := fun r => .load r ∈ Form.load f :: l) (fun r g h1 h2 => ⟨f, List.mem_cons_self, by subst h1; exact h2⟩)) (wk b1), ?_, b3, ?_⟩
        · intro g hg
          rcases List.mem_cons.mp hg with hg | hg
          · injection hg with hg; subst hg; exact b1.mono _ a2
          · exact b2 g hg
        · intro n hn
          rcases b4 n hn with h1 | ⟨g, h1, h2⟩
          · cases nm with
            | none => exact .inl h1
            | some k =>
              rcases List.mem_cons.mp h1 with rfl | h1
              · obtain ⟨c1, _, c3⟩ := (a3 n).mp rfl
                exact .inr ⟨f, List.mem_cons_self, c1, c3⟩
              · exact .inl h1
          · exact .inr ⟨g, List.mem_cons_of_mem _ h1, h2⟩
      · cases h
    | define y => exact same _ _ _ _ (fun g => by simp) h
    | incl t => exact same _ _ _ _ (fun g => by simp) h
    | defn t => exact same _ _ _ _ (fun g => by simp) h
    | localdef t => exact same _ _ _ _ (fun g => by simp) h
    | spec t =>
      simp only [scanMain] at h
      split at h
      · cases h
      · exact same _ _ _ _ (fun g => by simp) h
    | other t => exact same _ _ _ _ (fun g => by simp) h

/-- `LOAD()` calls the modules with definitions that are needed, each once. -/
theorem parse_loads (hP : Project fs files) {fuel : Nat} {f : File} (hf : f ∈ files) {m : Module} (h : parseFile fs fuel f = some m) :
    (∀ n, n ∈ m.loads ↔ ∃ g, Needs fs f g ∧ Defines fs g ∧ n = moduleName g) ∧ m.loads.Nodup ∧ (∀ n ∈ m.externs, ∃ g, Loads fs f g ∧ Defines fs g ∧ n = moduleName g) := by
  unfold parseFile at h
  obtain ⟨forms, hfs, h⟩ := Option.bind_eq_some_iff.mp h
  have hld : ∀ g, .load g ∈ forms → Loads fs f g := fun g hg => ⟨forms, hfs, hg⟩
  obtain ⟨s', a1, a2, a3, a4⟩ := scanMain_ok (addLoad_ok hP fuel) forms (fun g hg => hP.closed f hf g (hld g hg)) _ _ _ _ _ _ h
  have hvis : ∀ g, Needs fs f g → moduleName g ∈ s'.visits := by
    intro g hg
    induction hg with
    | load hl =>
      obtain ⟨l, e1, e2⟩ := hl
      rw [hfs] at e1; injection e1 with e1; subst e1
      exact a2 _ e2
    | more h1 hl ih => exact a1.closed _ (from_files hP hf (.inr h1)) ih (by simp) _ hl
  refine ⟨fun n => ?_, ?_, ?_⟩
  · rw [a3, a1.loads]
    constructor
    · rintro (h1 | ⟨g, h1, h2, h3, h4, h5⟩)
      · cases h1
      · rcases a1.new n h4 with h6 | ⟨r, g', h6, h7, h8⟩
        · cases h6
        · have : Needs fs f g' := From.cons (hld r h6) h7
          obtain rfl := hP.names g h1 g' (from_files hP hf (.inr this)) (h2 ▸ h8)
          exact ⟨g, this, h5, h2⟩
    · rintro ⟨g, h1, h2, rfl⟩
      exact .inr ⟨g, from_files hP hf (.inr h1), rfl, by simp, hvis g h1, h2⟩
  · rw [a3]; exact a1.nodup (by simp) .nil
  · intro n hn
    rcases a4 n hn with h1 | ⟨g, h1, h2, h3⟩
    · cases h1
    · exact ⟨g, hld g h1, h3, h2⟩
end

end Verif.Modules
