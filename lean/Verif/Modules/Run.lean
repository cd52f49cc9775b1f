import Verif.Modules.Compile
/-
Enough fuel, and what the generated functions do.
-/
namespace Verif.Modules
variable {fs : Files} {files : List File}

/-! ### the compiler comes to an end -/

/-- files not visited. -/
def unvisited (files : List File) (s : St) : Nat := (files.filter (fun f => decide (moduleName f ∉ s.visits))).length

theorem filter_le {α : Type} {p q : α → Bool} (h : ∀ x, p x = true → q x = true) (l : List α) : (l.filter p).length ≤ (l.filter q).length := by
  induction l with
  | nil => exact Nat.le_refl _
  | cons x l ih =>
    rw [List.filter_cons, List.filter_cons]
    by_cases hp : p x = true
    · simp [hp, h x hp, ih]
    · by_cases hq : q x = true
      · simp only [hp, hq, if_true, List.length_cons]; simp only [Bool.false_eq_true, if_false]; omega
      · simp [hp, hq, ih]

theorem filter_lt {α : Type} {p q : α → Bool} (h : ∀ x, p x = true → q x = true) {l : List α} {a : α} (ha : a ∈ l) (hq : q a = true) (hp : p a = false) :
    (l.filter p).length < (l.filter q).length := by
  induction l with
  | nil => cases ha
  | cons x l ih =>
    rw [List.filter_cons, List.filter_cons]
    rcases List.mem_cons.mp ha with rfl | ha
    · have := filter_le h l
      simp [hp, hq]; omega
    · have := ih ha
      by_cases hp : p x = true
      · simp [hp, h x hp, this]
      · by_cases hq : q x = true
        · simp only [hp, hq, if_true, List.length_cons]; simp only [Bool.false_eq_true, if_false]; omega
        · simp [hp, hq, this]

theorem unvisited_mono {s s' : St} (h : ∀ n ∈ s.visits, n ∈ s'.visits) : unvisited files s' ≤ unvisited files s := by
  apply filter_le
  intro x
  simp only [decide_eq_true_eq]
  exact fun h1 h2 => h1 (h _ h2)

theorem scan_total {add : Add} (hA : AddOk fs files add) {k : Nat} (hT : ∀ f ∈ files, ∀ s, unvisited files s ≤ k → ∃ r, add f s = some r) :
    ∀ (l : List Form), (∀ g, .load g ∈ l → g ∈ files) → ∀ i d b s, unvisited files s ≤ k → ∃ r, scan add l i d b s = some r := by
  intro l
  induction l with
  | nil => intro _ i d b s _; exact ⟨_, rfl⟩
  | cons x l ih =>
    intro hl i d b s hs
    have hl' : ∀ g, .load g ∈ l → g ∈ files := fun g hg => hl g (List.mem_cons_of_mem _ hg)
    cases x with
    | load f =>
      obtain ⟨⟨nm, xi, xd, s1⟩, hr⟩ := hT f (hl f List.mem_cons_self) s hs
      obtain ⟨a1, _⟩ := hA f (hl f List.mem_cons_self) _ _ _ _ _ hr
      simp only [scan, hr]
      exact ih hl' _ _ _ _ (Nat.le_trans (unvisited_mono a1.mono) hs)
    | _ => exact ih hl' _ _ _ _ hs

theorem addLoad_total (hP : Project fs files) (n : Nat) : ∀ f ∈ files, ∀ s, unvisited files s < n → ∃ r, addLoad fs n f s = some r := by
  induction n with
  | zero => intro f _ s h; omega
  | succ n ih =>
    intro f hf s h
    rw [addLoad]
    split
    · exact ⟨_, rfl⟩
    · rename_i hv
      obtain ⟨forms, hfs, _⟩ := hP.read f hf
      have hlt : unvisited files { s with visits := moduleName f :: s.visits } < unvisited files s := by
        refine filter_lt (fun x => ?_) hf (by simpa using hv) (by simp)
        simp only [decide_eq_true_eq]
        exact fun h1 h2 => h1 (List.mem_cons_of_mem _ h2)
      obtain ⟨⟨i, d, b, s1⟩, hr⟩ := scan_total (addLoad_ok hP n) (k := n - 1) (fun g hg s hs => ih g hg s (by omega)) forms
        (fun g hg => hP.closed f hf g ⟨forms, hfs, hg⟩) [] [] false { s with visits := moduleName f :: s.visits } (by omega)
      simp only [hfs, hr]
      split <;> exact ⟨_, rfl⟩

theorem scanMain_total {add : Add} (hT : ∀ f ∈ files, ∀ s, ∃ r, add f s = some r) :
    ∀ (l : List Form) (b : Bool), (∀ g, .load g ∈ l → g ∈ files) → (if b then (∀ f, .load f ∉ l) ∧ (∀ t, .spec t ∉ l) else HeadFirst l) →
      ∀ e i d s, ∃ m, scanMain add l e i d b s = some m := by
  intro l
  induction l with
  | nil => intro b _ _ e i d s; exact ⟨_, rfl⟩
  | cons x l ih =>
    intro b hl hb e i d s
    have hl' : ∀ g, .load g ∈ l → g ∈ files := fun g hg => hl g (List.mem_cons_of_mem _ hg)
    cases b with
    | true =>
      simp only [if_true] at hb
      have hb' : (∀ f, Form.load f ∉ l) ∧ (∀ t, Form.spec t ∉ l) := ⟨fun f hf => hb.1 f (List.mem_cons_of_mem _ hf), fun f hf => hb.2 f (List.mem_cons_of_mem _ hf)⟩
      cases x with
      | load f => exact absurd List.mem_cons_self (hb.1 f)
      | spec t => exact absurd List.mem_cons_self (hb.2 t)
      | define y => exact ih true hl' (by simpa using hb') _ _ _ _
      | incl t => exact ih true hl' (by simpa using hb') _ _ _ _
      | defn t => exact ih true hl' (by simpa using hb') _ _ _ _
      | localdef t => exact ih true hl' (by simpa using hb') _ _ _ _
      | other t => exact ih true hl' (by simpa using hb') _ _ _ _
    | false =>
      simp only [Bool.false_eq_true, if_false] at hb
      cases x with
      | load f =>
        obtain ⟨⟨nm, xi, xd, s1⟩, hr⟩ := hT f (hl f List.mem_cons_self) s
        simp only [scanMain, Bool.false_eq_true, if_false, hr]
        exact ih false hl' (by simpa [HeadFirst] using hb) _ _ _ _
      | spec t =>
        simp only [scanMain, Bool.false_eq_true, if_false]
        exact ih false hl' (by simpa [HeadFirst] using hb) _ _ _ _
      | define y => exact ih true hl' (by simpa [HeadFirst] using hb) _ _ _ _
      | incl t => exact ih false hl' (by simpa [HeadFirst] using hb) _ _ _ _
      | defn t => exact ih false hl' (by simpa [HeadFirst] using hb) _ _ _ _
      | localdef t => exact ih false hl' (by simpa [HeadFirst] using hb) _ _ _ _
      | other t => exact ih true hl' (by simpa [HeadFirst] using hb) _ _ _ _

theorem parse_total (hP : Project fs files) {f : File} (hf : f ∈ files) {fuel : Nat} (h : files.length < fuel) : ∃ m, parseFile fs fuel f = some m := by
  obtain ⟨forms, hfs, hh⟩ := hP.read f hf
  unfold parseFile
  simp only [hfs, Option.bind_some]
  refine scanMain_total (files := files) (fun g hg s => addLoad_total hP fuel g hg s ?_) forms false (fun g hg => hP.closed f hf g ⟨forms, hfs, hg⟩) (by simpa using hh) _ _ _ _
  exact Nat.lt_of_le_of_lt (List.length_filter_le _ _) h

/-! ### the functions of the generated code -/

section
variable {mods : Name → Option (List Name)}

/-- the function of `m` calls the function of `n`, directly or not, or is the same. -/
inductive Calls (mods : Name → Option (List Name)) : Name → Name → Prop
  | refl (n : Name) : Calls mods n n
  | step {m n k : Name} {l : List Name} : Calls mods m n → mods n = some l → k ∈ l → Calls mods m k

theorem Calls.cons {m n k : Name} {l : List Name} (h1 : mods m = some l) (h2 : n ∈ l) (h3 : Calls mods n k) : Calls mods m k := by
  induction h3 with
  | refl => exact .step (.refl _) h1 h2
  | step _ h4 h5 ih => exact .step ih h4 h5

/-- what calls of functions, each called by one that has the property `Root`, do. -/
structure Ran (mods : Name → Option (List Name)) (Root : Name → Prop) (r r' : Run) (new : List Name) : Prop where
  log : r'.log = r.log ++ new
  loaded : ∀ n, n ∈ r'.loaded ↔ n ∈ r.loaded ∨ n ∈ new
  nodup : new.Nodup
  fresh : ∀ n ∈ new, n ∉ r.loaded
  from_ : ∀ n ∈ new, ∃ m, Root m ∧ Calls mods m n
  order : ∀ l₁ m l₂, new = l₁ ++ m :: l₂ → ∀ l, mods m = some l → ∀ x ∈ l, x ∈ r.loaded ∨ x ∈ l₁ ∨ Calls mods x m
  closed : ∀ m ∈ new, ∃ l, mods m = some l ∧ ∀ x ∈ l, x ∈ r'.loaded

theorem Ran.refl {Root : Name → Prop} (r : Run) : Ran mods Root r r [] :=
  ⟨by simp, by simp, .nil, by simp, by simp, fun l₁ m l₂ h => by simp at h, by simp⟩

theorem append_split {α : Type} {a b l₁ l₂ : List α} {m : α} (h : a ++ b = l₁ ++ m :: l₂) :
    (∃ c, a = l₁ ++ m :: c) ∨ (∃ c, l₁ = a ++ c ∧ b = c ++ m :: l₂) := by
  induction a generalizing l₁ with
  | nil => exact .inr ⟨l₁, rfl, h⟩
  | cons x a ih =>
    cases l₁ with
    | nil => injection h with h1 h2; subst h1; exact .inl ⟨a, rfl⟩
    | cons y l₁ =>
      injection h with h1 h2
      subst h1
      rcases ih h2 with ⟨c, hc⟩ | ⟨c, h1, h2⟩
      · exact .inl ⟨c, by rw [hc]; rfl⟩
      · exact .inr ⟨c, by rw [h1]; rfl, h2⟩

theorem Ran.trans {Root : Name → Prop} {a b c : Run} {n1 n2 : List Name} (h1 : Ran mods Root a b n1) (h2 : Ran mods Root b c n2) : Ran mods Root a c (n1 ++ n2) where
  log := by rw [h2.log, h1.log, List.append_assoc]
  loaded n := by rw [h2.loaded, h1.loaded, List.mem_append, or_assoc]
  nodup := by
    refine List.nodup_append.mpr ⟨h1.nodup, h2.nodup, ?_⟩
    intro x hx y hy e
    subst e
    exact h2.fresh x hy ((h1.loaded x).mpr (.inr hx))
  fresh n hn := by
    rcases List.mem_append.mp hn with h | h
    · exact h1.fresh n h
    · exact fun hl => h2.fresh n h ((h1.loaded n).mpr (.inl hl))
  from_ n hn := by
    rcases List.mem_append.mp hn with h | h
    · exact h1.from_ n h
    · exact h2.from_ n h
  order l₁ m l₂ h l hl x hx := by
    rcases append_split h with ⟨d, hd⟩ | ⟨d, hd1, hd2⟩
    · exact h1.order _ _ _ hd l hl x hx
    · rcases h2.order _ _ _ hd2 l hl x hx with h3 | h3 | h3
      · rcases (h1.loaded x).mp h3 with h4 | h4
        · exact .inl h4
        · exact .inr (.inl (by rw [hd1]; exact List.mem_append_left _ h4))
      · exact .inr (.inl (by rw [hd1]; exact List.mem_append_right _ h3))
      · exact .inr (.inr h3)
  closed m hm := by
    rcases List.mem_append.mp hm with h | h
    · obtain ⟨l, e1, e2⟩ := h1.closed m h
      exact ⟨l, e1, fun x hx => (h2.loaded x).mpr (.inl (e2 x hx))⟩
    · exact h2.closed m h

theorem Ran.weaken {R R' : Name → Prop} {r r' : Run} {new : List Name} (hR : ∀ m, R m → R' m) (h : Ran mods R r r' new) : Ran mods R' r r' new :=
  { h with from_ := fun n hn => let ⟨m, h1, h2⟩ := h.from_ n hn; ⟨m, hR m h1, h2⟩ }

def CallOk (mods : Name → Option (List Name)) (call : Name → Run → Option Run) : Prop :=
  ∀ n r r', call n r = some r' → ∃ new, Ran mods (fun m => m = n) r r' new ∧ n ∈ r'.loaded

theorem calls_ok {call : Name → Run → Option Run} (hC : CallOk mods call) : ∀ (l : List Name) (r r' : Run), calls call l r = some r' →
    ∃ new, Ran mods (fun m => m ∈ l) r r' new ∧ ∀ n ∈ l, n ∈ r'.loaded := by
  intro l
  induction l with
  | nil =>
    intro r r' h
    injection h with h; subst h
    exact ⟨[], .refl _, by simp⟩
  | cons n l ih =>
    intro r r' h
    obtain ⟨r1, h1, h2⟩ := Option.bind_eq_some_iff.mp h
    obtain ⟨new1, a1, a2⟩ := hC _ _ _ h1
    obtain ⟨new2, b1, b2⟩ := ih _ _ h2
    refine ⟨new1 ++ new2, .trans (a1.weaken (fun m hm => by subst hm; exact List.mem_cons_self)) (b1.weaken (fun m hm => List.mem_cons_of_mem _ hm)), ?_⟩
    intro k hk
    rcases List.mem_cons.mp hk with rfl | hk
    · exact (b1.loaded k).mpr (.inl a2)
    · exact b2 k hk

theorem call_ok (k : Nat) : CallOk mods (call mods k) := by
  induction k with
  | zero => intro n r r' h; cases h
  | succ k ih =>
    intro n r r' h
    rw [call] at h
    split at h
    · rename_i hn
      injection h with h; subst h
      exact ⟨[], .refl _, hn⟩
    · rename_i hn
      split at h
      · cases h
      · rename_i l hl
        obtain ⟨r1, h1, rfl⟩ := Option.map_eq_some_iff.mp h
        obtain ⟨new, a1, a2⟩ := calls_ok ih _ _ _ h1
        have hld : ∀ x, x ∈ r1.loaded ↔ (x = n ∨ x ∈ r.loaded) ∨ x ∈ new := by
          intro x; rw [a1.loaded]; simp
        have hnn : n ∉ new := fun h => a1.fresh n h List.mem_cons_self
        refine ⟨new ++ [n], ⟨?_, ?_, ?_, ?_, ?_, ?_, ?_⟩, (hld n).mpr (.inl (.inl rfl))⟩
        · simp [a1.log]
        · intro x
          show x ∈ r1.loaded ↔ _
          rw [hld]; simp; tauto
        · refine List.nodup_append.mpr ⟨a1.nodup, by simp, ?_⟩
          intro x hx y hy e
          simp only [List.mem_singleton] at hy
          subst hy; subst e; exact hnn hx
        · intro x hx
          rcases List.mem_append.mp hx with h | h
          · exact fun h' => a1.fresh x h (List.mem_cons_of_mem _ h')
          · simp only [List.mem_singleton] at h; subst h; exact hn
        · intro x hx
          rcases List.mem_append.mp hx with h | h
          · obtain ⟨m, q1, q2⟩ := a1.from_ x h
            exact ⟨n, rfl, .cons hl q1 q2⟩
          · simp only [List.mem_singleton] at h; subst h; exact ⟨x, rfl, .refl _⟩
        · intro l₁ m l₂ he l' hl' x hx
          rcases append_split he with ⟨d, hd⟩ | ⟨d, hd1, hd2⟩
          · rcases a1.order _ _ _ hd l' hl' x hx with h3 | h3
            · rcases List.mem_cons.mp h3 with rfl | h3
              · obtain ⟨m', q1, q2⟩ := a1.from_ m (by rw [hd]; simp)
                exact .inr (.inr (.cons hl q1 q2))
              · exact .inl h3
            · exact .inr h3
          · have hm : m = n ∧ d = [] := by
              cases d with
              | nil => injection hd2 with h1 h2; exact ⟨h1.symm, rfl⟩
              | cons y d => injection hd2 with h1 h2; simp at h2
            obtain ⟨rfl, rfl⟩ := hm
            rw [hl] at hl'; injection hl' with hl'; subst hl'
            rcases (hld x).mp (a2 x hx) with (rfl | h3) | h3
            · exact .inr (.inr (.refl _))
            · exact .inl h3
            · exact .inr (.inl (by rw [hd1]; simpa using h3))
        · intro x hx
          rcases List.mem_append.mp hx with h | h
          · exact a1.closed x h
          · simp only [List.mem_singleton] at h; subst h; exact ⟨l, hl, a2⟩

/-- modules not loaded. -/
def unloaded (ns : List Name) (r : Run) : Nat := (ns.filter (fun n => decide (n ∉ r.loaded))).length

theorem calls_total {ns : List Name} {call : Name → Run → Option Run} (hC : CallOk mods call) {k : Nat} (hT : ∀ n ∈ ns, ∀ r, unloaded ns r ≤ k → ∃ r', call n r = some r') :
    ∀ (l : List Name), (∀ n ∈ l, n ∈ ns) → ∀ r, unloaded ns r ≤ k → ∃ r', calls call l r = some r' := by
  intro l
  induction l with
  | nil => intro _ r _; exact ⟨r, rfl⟩
  | cons n l ih =>
    intro hl r hr
    obtain ⟨r1, h1⟩ := hT n (hl n List.mem_cons_self) r hr
    obtain ⟨new, a1, _⟩ := hC _ _ _ h1
    simp only [calls, h1, Option.bind_some]
    refine ih (fun n hn => hl n (List.mem_cons_of_mem _ hn)) r1 (Nat.le_trans (filter_le (fun x => ?_) ns) hr)
    simp only [decide_eq_true_eq]
    exact fun h2 h3 => h2 ((a1.loaded x).mpr (.inl h3))

theorem call_total {ns : List Name} (hM : ∀ n ∈ ns, ∃ l, mods n = some l ∧ ∀ x ∈ l, x ∈ ns) (k : Nat) :
    ∀ n ∈ ns, ∀ r, unloaded ns r < k → ∃ r', call mods k n r = some r' := by
  induction k with
  | zero => intro n _ r h; omega
  | succ k ih =>
    intro n hn r h
    rw [call]
    split
    · exact ⟨_, rfl⟩
    · rename_i hl
      obtain ⟨l, h1, h2⟩ := hM n hn
      have hlt : unloaded ns { r with loaded := n :: r.loaded } < unloaded ns r := by
        refine filter_lt (fun x => ?_) hn (by simpa using hl) (by simp)
        simp only [decide_eq_true_eq]
        exact fun h1 h2 => h1 (List.mem_cons_of_mem _ h2)
      obtain ⟨r1, h3⟩ := calls_total (call_ok k) (k := k - 1) (fun n hn r hr => ih n hn r (by omega)) l h2 { r with loaded := n :: r.loaded } (by omega)
      simp only [h1, h3, Option.map_some]
      exact ⟨_, rfl⟩
end

/-! ### projects -/

theorem link_file (hP : Project fs files) {f : File} (hf : f ∈ files) {fuel : Nat} : link fs fuel files (moduleName f) = (parseFile fs fuel f).map (·.loads) := by
  unfold link
  cases hx : files.find? (fun g => moduleName g == moduleName f) with
  | none =>
    have := List.find?_eq_none.mp hx f hf
    simp at this
  | some g =>
    have h1 := List.find?_some hx
    have h2 := List.mem_of_find?_eq_some hx
    obtain rfl := hP.names g h2 f hf (by simpa using h1)
    rfl

theorem calls_from (hP : Project fs files) {fuel : Nat} {g : File} (hg : g ∈ files) {n k : Name} (h : Calls (link fs fuel files) n k) (hn : n = moduleName g) :
    ∃ h ∈ files, k = moduleName h ∧ From fs g h := by
  induction h with
  | refl => exact ⟨g, hg, hn, .inl rfl⟩
  | step _ h2 h3 ih =>
    obtain ⟨f, hf, rfl, h4⟩ := ih
    rw [link_file hP hf] at h2
    obtain ⟨m, h5, rfl⟩ := Option.map_eq_some_iff.mp h2
    obtain ⟨x, h6, _, h7⟩ := ((parse_loads hP hf h5).1 _).mp h3
    exact ⟨x, from_files hP hf (.inr h6), h7, .trans h4 (.inr h6)⟩

/-! ### includes and definitions -/

/-- `add` gives the texts `text` does. -/
def TextOk (files : List File) (add : Add) (text : File → List File → List Form × List File) : Prop :=
  ∀ f ∈ files, ∀ v, (∀ g ∈ v, g ∈ files) → ∀ s nm i d s', s.visits = v.map moduleName → add f s = some (nm, i, d, s') →
    let t := if f ∈ v then ([], v) else text f v
    s'.visits = t.2.map moduleName ∧ (∀ g ∈ t.2, g ∈ files) ∧ i = (t.1.filterMap inclOf).reverse ∧ d = (t.1.filterMap defnOf).reverse

/-- local definitions are left out. -/
def notLocal : Form → Bool := fun x => match x with | .localdef _ => false | _ => true

theorem scan_text {add : Add} {text : File → List File → List Form × List File} (hA : TextOk files add text) :
    ∀ (l : List Form), (∀ g, .load g ∈ l → g ∈ files) → ∀ v, (∀ g ∈ v, g ∈ files) → ∀ i d b s i' d' b' s', s.visits = v.map moduleName →
      scan add l i d b s = some (i', d', b', s') →
      s'.visits = (spliceAll text (l.filter notLocal) v).2.map moduleName ∧ (∀ g ∈ (spliceAll text (l.filter notLocal) v).2, g ∈ files) ∧
        i' = ((spliceAll text (l.filter notLocal) v).1.filterMap inclOf).reverse ++ i ∧ d' = ((spliceAll text (l.filter notLocal) v).1.filterMap defnOf).reverse ++ d := by
  intro l
  induction l with
  | nil =>
    intro _ v hv i d b s i' d' b' s' hs h
    simp only [scan, Option.some.injEq, Prod.mk.injEq] at h
    obtain ⟨rfl, rfl, rfl, rfl⟩ := h
    exact ⟨hs, hv, rfl, rfl⟩
  | cons x l ih =>
    intro hl v hv i d b s i' d' b' s' hs h
    have hl' : ∀ g, .load g ∈ l → g ∈ files := fun g hg => hl g (List.mem_cons_of_mem _ hg)
    cases x with
    | load f =>
      simp only [scan] at h
      split at h
      · rename_i nm xi xd s1 he
        obtain ⟨a1, a2, a3, a4⟩ := hA f (hl f List.mem_cons_self) v hv _ _ _ _ _ hs he
        obtain ⟨b1, b2, b3, b4⟩ := ih hl' _ a2 _ _ _ _ _ _ _ _ a1 h
        simp only [List.filter_cons, notLocal, if_true, spliceAll]
        refine ⟨b1, b2, ?_, ?_⟩
        · rw [b3, a3]; simp only [List.filterMap_append, List.reverse_append, List.append_assoc]
        · rw [b4, a4]; simp only [List.filterMap_append, List.reverse_append, List.append_assoc]
      · cases h
    | incl t =>
      obtain ⟨b1, b2, b3, b4⟩ := ih hl' v hv _ _ _ _ _ _ _ _ hs h
      refine ⟨b1, b2, ?_, ?_⟩
      · rw [b3]; simp [List.filter_cons, notLocal, spliceAll, inclOf, List.filterMap_cons]
      · rw [b4]; simp [List.filter_cons, notLocal, spliceAll, defnOf, List.filterMap_cons]
    | defn t =>
      obtain ⟨b1, b2, b3, b4⟩ := ih hl' v hv _ _ _ _ _ _ _ _ hs h
      refine ⟨b1, b2, ?_, ?_⟩
      · rw [b3]; simp [List.filter_cons, notLocal, spliceAll, inclOf, List.filterMap_cons]
      · rw [b4]; simp [List.filter_cons, notLocal, spliceAll, defnOf, List.filterMap_cons]
    | localdef t =>
      obtain ⟨b1, b2, b3, b4⟩ := ih hl' v hv _ _ _ _ _ _ _ _ hs h
      exact ⟨b1, b2, b3, b4⟩
    | define y =>
      obtain ⟨b1, b2, b3, b4⟩ := ih hl' v hv _ _ _ _ _ _ _ _ hs h
      refine ⟨b1, b2, ?_, ?_⟩
      · rw [b3]; simp [List.filter_cons, notLocal, spliceAll, inclOf, List.filterMap_cons]
      · rw [b4]; simp [List.filter_cons, notLocal, spliceAll, defnOf, List.filterMap_cons]
    | spec t =>
      obtain ⟨b1, b2, b3, b4⟩ := ih hl' v hv _ _ _ _ _ _ _ _ hs h
      refine ⟨b1, b2, ?_, ?_⟩
      · rw [b3]; simp [List.filter_cons, notLocal, spliceAll, inclOf, List.filterMap_cons]
      · rw [b4]; simp [List.filter_cons, notLocal, spliceAll, defnOf, List.filterMap_cons]
    | other t =>
      obtain ⟨b1, b2, b3, b4⟩ := ih hl' v hv _ _ _ _ _ _ _ _ hs h
      refine ⟨b1, b2, ?_, ?_⟩
      · rw [b3]; simp [List.filter_cons, notLocal, spliceAll, inclOf, List.filterMap_cons]
      · rw [b4]; simp [List.filter_cons, notLocal, spliceAll, defnOf, List.filterMap_cons]

theorem visited_iff (hP : Project fs files) {f : File} (hf : f ∈ files) {v : List File} (hv : ∀ g ∈ v, g ∈ files) : moduleName f ∈ v.map moduleName ↔ f ∈ v := by
  rw [List.mem_map]
  constructor
  · rintro ⟨g, h1, h2⟩
    obtain rfl := hP.names g (hv g h1) f hf h2
    exact h1
  · exact fun h => ⟨f, h, rfl⟩

theorem addLoad_text (hP : Project fs files) (n : Nat) : TextOk files (addLoad fs n) (splice fs n) := by
  induction n with
  | zero => intro f _ v _ s nm i d s' _ h; cases h
  | succ n ih =>
    intro f hf v hv s nm i d s' hs h
    rw [addLoad] at h
    split at h
    · rename_i hm
      rw [hs, visited_iff hP hf hv] at hm
      simp only [Option.some.injEq, Prod.mk.injEq] at h
      obtain ⟨rfl, rfl, rfl, rfl⟩ := h
      simp only [hm, if_true]
      exact ⟨hs, hv, rfl, rfl⟩
    · rename_i hm
      rw [hs, visited_iff hP hf hv] at hm
      split at h
      · cases h
      · rename_i forms hfs
        split at h
        · cases h
        · rename_i xi xd xb s1 hsc
          obtain ⟨b1, b2, b3, b4⟩ := scan_text ih forms (fun g hg => hP.closed f hf g ⟨forms, hfs, hg⟩) (f :: v)
            (fun g hg => by rcases List.mem_cons.mp hg with rfl | hg; exact hf; exact hv g hg) _ _ _ _ _ _ _ _ (by simp [hs]) hsc
          have hsp : splice fs (n + 1) f v = spliceAll (splice fs n) (forms.filter notLocal) (f :: v) := by
            rw [splice, hfs]; rfl
          simp only [hm, if_false, hsp]
          split at h
          · simp only [Option.some.injEq, Prod.mk.injEq] at h
            obtain ⟨rfl, rfl, rfl, rfl⟩ := h
            exact ⟨b1, b2, by simpa using b3, by simpa using b4⟩
          · simp only [Option.some.injEq, Prod.mk.injEq] at h
            obtain ⟨rfl, rfl, rfl, rfl⟩ := h
            exact ⟨b1, b2, by simpa using b3, by simpa using b4⟩

theorem scanMain_text {add : Add} {text : File → List File → List Form × List File} (hA : TextOk files add text) :
    ∀ (l : List Form), (∀ g, .load g ∈ l → g ∈ files) → ∀ v, (∀ g ∈ v, g ∈ files) → ∀ e i d b s m, s.visits = v.map moduleName →
      scanMain add l e i d b s = some m →
        m.incs = i.reverse ++ (spliceAll text l v).1.filterMap inclOf ∧ m.defs = d.reverse ++ (spliceAll text l v).1.filterMap defnOf := by
  intro l
  induction l with
  | nil =>
    intro _ v hv e i d b s m hs h
    simp only [scanMain, Option.some.injEq] at h
    subst h
    simp [spliceAll]
  | cons x l ih =>
    intro hl v hv e i d b s m hs h
    have hl' : ∀ g, .load g ∈ l → g ∈ files := fun g hg => hl g (List.mem_cons_of_mem _ hg)
    cases x with
    | load f =>
      simp only [scanMain] at h
      split at h
      · cases h
      split at h
      · rename_i nm xi xd s1 he
        obtain ⟨a1, a2, a3, a4⟩ := hA f (hl f List.mem_cons_self) v hv _ _ _ _ _ hs he
        obtain ⟨b3, b4⟩ := ih hl' _ a2 _ _ _ _ _ _ a1 h
        simp only [spliceAll]
        refine ⟨?_, ?_⟩
        · rw [b3, a3]; simp only [List.filterMap_append, List.reverse_append, List.reverse_reverse, List.append_assoc]
        · rw [b4, a4]; simp only [List.filterMap_append, List.reverse_append, List.reverse_reverse, List.append_assoc]
      · cases h
    | spec t =>
      simp only [scanMain] at h
      split at h
      · cases h
      obtain ⟨b3, b4⟩ := ih hl' v hv _ _ _ _ _ _ hs h
      exact ⟨by rw [b3]; simp [spliceAll, inclOf, List.filterMap_cons], by rw [b4]; simp [spliceAll, defnOf, List.filterMap_cons]⟩
    | incl t =>
      obtain ⟨b3, b4⟩ := ih hl' v hv _ _ _ _ _ _ hs h
      exact ⟨by rw [b3]; simp [spliceAll, inclOf, List.filterMap_cons], by rw [b4]; simp [spliceAll, defnOf, List.filterMap_cons]⟩
    | defn t =>
      obtain ⟨b3, b4⟩ := ih hl' v hv _ _ _ _ _ _ hs h
      exact ⟨by rw [b3]; simp [spliceAll, inclOf, List.filterMap_cons], by rw [b4]; simp [spliceAll, defnOf, List.filterMap_cons]⟩
    | localdef t =>
      obtain ⟨b3, b4⟩ := ih hl' v hv _ _ _ _ _ _ hs h
      exact ⟨by rw [b3]; simp [spliceAll, inclOf, List.filterMap_cons], by rw [b4]; simp [spliceAll, defnOf, List.filterMap_cons]⟩
    | define y =>
      obtain ⟨b3, b4⟩ := ih hl' v hv _ _ _ _ _ _ hs h
      exact ⟨by rw [b3]; simp [spliceAll, inclOf, List.filterMap_cons], by rw [b4]; simp [spliceAll, defnOf, List.filterMap_cons]⟩
    | other t =>
      obtain ⟨b3, b4⟩ := ih hl' v hv _ _ _ _ _ _ hs h
      exact ⟨by rw [b3]; simp [spliceAll, inclOf, List.filterMap_cons], by rw [b4]; simp [spliceAll, defnOf, List.filterMap_cons]⟩

end Verif.Modules
