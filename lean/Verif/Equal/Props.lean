import Verif.Equal.Model
import Verif.Cmp.Props
import Mathlib.Logic.Relation
import Mathlib.Data.List.TakeWhile
/-
C12: equal? on acyclic data.  C15: the list searches agree with their predicate.
-/
namespace Verif.Equal

variable {F : Type} [DecidableEq F]

/-! ### specification -/

/-- `y` is a component of `x` -/
def Child (H : Heap F) (y x : Obj) : Prop := ∃ w ws, H x = some (.blk (w :: ws)) ∧ y ∈ ws

/-- no infinite descent from `x` (on a finite heap: no cycle is reachable) -/
def Acyclic (H : Heap F) (x : Obj) : Prop := Acc (Child H) x

/-- what an object looks like when all sharing is expanded -/
inductive Tree (F : Type) where
  /-- immediate -/
  | imm (o : Obj)
  /-- flonum -/
  | flo (v : Option F)
  /-- string -/
  | str (s : List Char)
  /-- object with identity only (ports and other native data) -/
  | raw (o : Obj)
  /-- block with tag and components -/
  | node (w : Obj) (ts : List (Tree F))

/-- `x` unfolds to the tree `t` -/
inductive Unfolds (H : Heap F) : Obj → Tree F → Prop
  | imm {o} : H o = none → Unfolds H o (.imm o)
  | flo {o v} : H o = some (.flo v) → Unfolds H o (.flo v)
  | str {o s} : H o = some (.str s) → Unfolds H o (.str s)
  | bytes {o b} : H o = some (.bytes b) → Unfolds H o (.raw o)
  | native {o h} : H o = some (.native h) → Unfolds H o (.raw o)
  | empty {o} : H o = some (.blk []) → Unfolds H o (.raw o)
  | node {o w ws ts} : H o = some (.blk (w :: ws)) → ws.length = ts.length →
      (∀ i (h : i < ws.length) (h' : i < ts.length), Unfolds H ws[i] ts[i]) → Unfolds H o (.node w ts)

/-- `y` is reachable from `x` -/
def Reach (H : Heap F) (x y : Obj) : Prop := Relation.ReflTransGen (Child H) y x

/-- strings reachable from `x` contain no NUL, flonums reachable from `x` are not NaN -/
def Plain (H : Heap F) (x : Obj) : Prop :=
  ∀ y, Reach H x y → (∀ s, H y = some (.str s) → Cmp.NulFree s) ∧ H y ≠ some (.flo none)

/-! ### lemmas -/

theorem feq_iff (a b : Option F) : feq a b = true ↔ a = b ∧ a ≠ none := by
  cases a <;> cases b <;> simp [feq]

theorem feq_comm (a b : Option F) : feq a b = feq b a := by
  rw [Bool.eq_iff_iff, feq_iff, feq_iff]; constructor <;> (rintro ⟨rfl, h⟩; exact ⟨rfl, h⟩)

/-- text before the first NUL -/
def text (s : List Char) : List Char := s.takeWhile (· ≠ nul)

theorem nulFree_text (s : List Char) : Cmp.NulFree (text s) := by
  intro c hc
  simpa using List.mem_takeWhile_imp hc

theorem text_nulFree {s : List Char} (h : Cmp.NulFree s) : text s = s := by
  unfold text
  rw [List.takeWhile_eq_self_iff]
  intro c hc
  simpa using h c hc

theorem seq_iff (s t : List Char) : seq s t = true ↔ text s = text t := by
  unfold seq
  rw [Cmp.c16_general]
  have := Cmp.strcmp_lex (text s) (text t) (nulFree_text s) (nulFree_text t)
  unfold text at this
  rw [this]
  simp only [beq_iff_eq, Cmp.lex_eq]
  rfl

theorem seq_comm (s t : List Char) : seq s t = seq t s := by
  rw [Bool.eq_iff_iff, seq_iff, seq_iff]; exact eq_comm

theorem cmpAll_true {f : Obj → Obj → Option Bool} : ∀ {xs ys : List Obj}, xs.length = ys.length →
    (cmpAll f xs ys = some true ↔ ∀ i (h : i < xs.length) (h' : i < ys.length), f xs[i] ys[i] = some true) := by
  intro xs
  induction xs with
  | nil => intro ys h; cases ys <;> simp [cmpAll]
  | cons x xs ih =>
    intro ys h
    cases ys with
    | nil => simp at h
    | cons y ys =>
      simp only [List.length_cons, Nat.add_right_cancel_iff] at h
      unfold cmpAll
      constructor
      · intro e i hi hi'
        cases e1 : f x y with
        | none => rw [e1] at e; simp at e
        | some b =>
          cases b with
          | false => rw [e1] at e; simp at e
          | true =>
            rw [e1] at e
            cases i with
            | zero => exact e1
            | succ i => exact (ih h).1 e i (by simpa using hi) (by simpa using hi')
      · intro e
        have e1 := e 0 (by simp) (by simp)
        simp only [List.getElem_cons_zero] at e1
        rw [e1]
        refine (ih h).2 fun i hi hi' => ?_
        have := e (i + 1) (by simpa using hi) (by simpa using hi')
        simpa using this

theorem cmpAll_some {f : Obj → Obj → Option Bool} : ∀ {xs ys : List Obj},
    (∀ x ∈ xs, ∀ y, (f x y).isSome) → (cmpAll f xs ys).isSome := by
  intro xs
  induction xs with
  | nil => intro ys _; cases ys <;> simp [cmpAll]
  | cons x xs ih =>
    intro ys h
    cases ys with
    | nil => simp [cmpAll]
    | cons y ys =>
      unfold cmpAll
      have h1 := h x (by simp) y
      cases e : f x y with
      | none => rw [e] at h1; simp at h1
      | some b =>
        cases b with
        | false => simp
        | true => exact ih fun z hz => h z (by simp [hz])

theorem cmpAll_mono {f g : Obj → Obj → Option Bool} : ∀ {xs ys : List Obj},
    (∀ x ∈ xs, ∀ y r, f x y = some r → g x y = some r) → ∀ {r}, cmpAll f xs ys = some r → cmpAll g xs ys = some r := by
  intro xs
  induction xs with
  | nil => intro ys _ r; cases ys <;> simp [cmpAll]
  | cons x xs ih =>
    intro ys h r
    cases ys with
    | nil => simp [cmpAll]
    | cons y ys =>
      unfold cmpAll
      cases e : f x y with
      | none => simp
      | some b =>
        rw [h x (by simp) y b e]
        cases b with
        | false => simp
        | true => exact ih fun z hz => h z (by simp [hz])

theorem isequal_mono_succ (H : Heap F) : ∀ n x y r, isequal H n x y = some r → isequal H (n + 1) x y = some r := by
  intro n
  induction n with
  | zero => intro x y r h; simp [isequal] at h
  | succ n ih =>
    intro x y r h
    unfold isequal at h ⊢
    by_cases hxy : x = y
    · simpa [hxy] using h
    · simp only [if_neg hxy] at h ⊢
      split
      · next e1 e2 => simpa [e1, e2] using h
      · next e1 e2 => simpa [e1, e2] using h
      · next e1 e2 =>
        simp only [e1, e2] at h
        split
        · next hc =>
          rw [if_pos hc] at h
          exact cmpAll_mono (fun z _ y r => ih z y r) h
        · next hc => rw [if_neg hc] at h; exact h
      · next h1 h2 h3 =>
        split at h
        · next e1 e2 => exact (h1 _ _ e1 e2).elim
        · next e1 e2 => exact (h2 _ _ e1 e2).elim
        · next e1 e2 => exact (h3 _ _ _ _ e1 e2).elim
        · exact h

theorem isequal_mono (H : Heap F) {n m : Nat} (hnm : n ≤ m) {x y : Obj} {r : Bool} (h : isequal H n x y = some r) :
    isequal H m x y = some r := by
  induction hnm with
  | refl => exact h
  | step _ ih => exact isequal_mono_succ H _ _ _ _ ih

/-- fuel bound for finitely many objects -/
theorem bound_list {P : Nat → Obj → Prop} (hm : ∀ n m x, n ≤ m → P n x → P m x) : ∀ xs : List Obj, (∀ x ∈ xs, ∃ n, P n x) →
    ∃ n, ∀ x ∈ xs, P n x := by
  intro xs
  induction xs with
  | nil => intro _; exact ⟨0, by simp⟩
  | cons x xs ih =>
    intro h
    obtain ⟨n, hn⟩ := h x (by simp)
    obtain ⟨m, hm'⟩ := ih fun z hz => h z (by simp [hz])
    refine ⟨max n m, fun z hz => ?_⟩
    rcases List.mem_cons.1 hz with e | hz
    · rw [e]; exact hm _ _ _ (by omega) hn
    · exact hm _ _ _ (by omega) (hm' z hz)

theorem terminates {H : Heap F} {x : Obj} (h : Acyclic H x) : ∃ n, ∀ y, (isequal H n x y).isSome := by
  induction h with
  | intro x _ ih =>
    have key : ∃ n, ∀ w ws, H x = some (.blk (w :: ws)) → ∀ z ∈ ws, ∀ y, (isequal H n z y).isSome := by
      cases e : H x with
      | none => exact ⟨0, by simp⟩
      | some nd =>
        cases nd with
        | blk l =>
          cases l with
          | nil => exact ⟨0, by simp⟩
          | cons w ws =>
            obtain ⟨n, hn⟩ := bound_list (P := fun n z => ∀ y, (isequal H n z y).isSome) (fun n m z hnm hz y => by
              obtain ⟨r, hr⟩ := Option.isSome_iff_exists.1 (hz y)
              rw [isequal_mono H hnm hr]; rfl) ws (fun z hz => ih z ⟨w, ws, e, hz⟩)
            refine ⟨n, fun w' ws' e' => ?_⟩
            simp only [Option.some.injEq, Node.blk.injEq, List.cons.injEq] at e'
            obtain ⟨rfl, rfl⟩ := e'
            exact hn
        | _ => exact ⟨0, by simp⟩
    obtain ⟨n, hn⟩ := key
    refine ⟨n + 1, fun y => ?_⟩
    unfold isequal
    split
    · rfl
    · split
      · rfl
      · rfl
      · next e1 e2 =>
        split
        · exact cmpAll_some fun z hz y => hn _ _ e1 z hz y
        · rfl
      · rfl

theorem isequal_comm (H : Heap F) : ∀ n x y, isequal H n x y = isequal H n y x := by
  have hall : ∀ {f : Obj → Obj → Option Bool}, (∀ a b, f a b = f b a) → ∀ xs ys, cmpAll f xs ys = cmpAll f ys xs := by
    intro f hf xs
    induction xs with
    | nil => intro ys; cases ys <;> simp [cmpAll]
    | cons x xs ih =>
      intro ys
      cases ys with
      | nil => simp [cmpAll]
      | cons y ys => unfold cmpAll; rw [hf x y, ih ys]
  intro n
  induction n with
  | zero => intro x y; rfl
  | succ n ih =>
    intro x y
    unfold isequal
    by_cases hxy : x = y
    · subst hxy; rfl
    · rw [if_neg hxy, if_neg (Ne.symm hxy)]
      split
      · next e1 e2 => simp only [e1, e2, feq_comm]
      · next e1 e2 => simp only [e1, e2, seq_comm]
      · next w ws u us e1 e2 =>
        simp only [e1, e2]
        rw [hall (fun a b => ih a b)]
        by_cases hc : ws.length = us.length ∧ w = u
        · rw [if_pos hc, if_pos ⟨hc.1.symm, hc.2.symm⟩]
        · rw [if_neg hc, if_neg (fun h => hc ⟨h.1.symm, h.2.symm⟩)]
      · next h1 h2 h3 =>
        split
        · next e1 e2 => exact (h1 _ _ e2 e1).elim
        · next e1 e2 => exact (h2 _ _ e2 e1).elim
        · next e1 e2 => exact (h3 _ _ _ _ e2 e1).elim
        · rfl

/-- when isequal answers true -/
theorem isequal_true {H : Heap F} {n : Nat} {x y : Obj} : isequal H (n + 1) x y = some true ↔
    x = y ∨ (∃ a b, H x = some (.flo a) ∧ H y = some (.flo b) ∧ a = b ∧ a ≠ none) ∨
    (∃ s t, H x = some (.str s) ∧ H y = some (.str t) ∧ text s = text t) ∨
    (∃ w ws us, H x = some (.blk (w :: ws)) ∧ H y = some (.blk (w :: us)) ∧ ws.length = us.length ∧
      ∀ i (h : i < ws.length) (h' : i < us.length), isequal H n ws[i] us[i] = some true) := by
  conv => lhs; unfold isequal
  by_cases hxy : x = y
  · simp [hxy]
  · rw [if_neg hxy]
    constructor
    · intro h
      split at h
      · next a b e1 e2 =>
        simp only [Option.some.injEq, feq_iff] at h
        exact .inr (.inl ⟨_, _, e1, e2, h⟩)
      · next e1 e2 =>
        simp only [Option.some.injEq, seq_iff] at h
        exact .inr (.inr (.inl ⟨_, _, e1, e2, h⟩))
      · next e1 e2 =>
        split at h
        · next hc =>
          refine .inr (.inr (.inr ⟨_, _, _, e1, ?_, hc.1, (cmpAll_true hc.1).1 h⟩))
          rw [hc.2]; exact e2
        · simp at h
      · simp at h
    · rintro (h | ⟨a, b, e1, e2, h⟩ | ⟨s, t, e1, e2, h⟩ | ⟨w, ws, us, e1, e2, hl, h⟩)
      · exact (hxy h).elim
      · simp only [e1, e2, Option.some.injEq, feq_iff]; exact h
      · simp only [e1, e2, Option.some.injEq, seq_iff]; exact h
      · simp only [e1, e2]
        rw [if_pos ⟨hl, trivial⟩, cmpAll_true hl]
        exact h

theorem isequal_trans (H : Heap F) : ∀ n x y z, isequal H n x y = some true → isequal H n y z = some true →
    isequal H n x z = some true := by
  intro n
  induction n with
  | zero => intro x y z h; simp [isequal] at h
  | succ n ih =>
    intro x y z h1 h2
    rcases isequal_true.1 h1 with e | ⟨a, b, e1, e2, h⟩ | ⟨s, t, e1, e2, h⟩ | ⟨w, ws, us, e1, e2, hl, h⟩
    · rw [e]; exact h2
    all_goals
      rcases isequal_true.1 h2 with e' | ⟨a', b', e1', e2', h'⟩ | ⟨s', t', e1', e2', h'⟩ | ⟨w', ws', us', e1', e2', hl', h'⟩
    all_goals first
      | (rw [← e']; exact h1)
      | (rw [e2] at e1'; simp at e1'; done)
      | skip
    · rw [e2] at e1'
      simp only [Option.some.injEq, Node.flo.injEq] at e1'
      exact isequal_true.2 (.inr (.inl ⟨a, b', e1, e2', h.1.trans (e1'.trans h'.1), h.2⟩))
    · rw [e2] at e1'
      simp only [Option.some.injEq, Node.str.injEq] at e1'
      exact isequal_true.2 (.inr (.inr (.inl ⟨s, t', e1, e2', h.trans (by rw [e1', h'])⟩)))
    · rw [e2] at e1'
      simp only [Option.some.injEq, Node.blk.injEq, List.cons.injEq] at e1'
      obtain ⟨rfl, rfl⟩ := e1'
      exact isequal_true.2 (.inr (.inr (.inr ⟨w, ws, us', e1, e2', hl.trans hl', fun i hi hi' =>
        ih _ _ _ (h i hi (by omega)) (h' i (by omega) hi')⟩)))

/-! ### C12 -/

/-- C12, termination: `equal?` finishes whenever one of its arguments is acyclic, and more stack does not change the answer. -/
theorem c12_terminates (H : Heap F) (x y : Obj) (h : Acyclic H x ∨ Acyclic H y) :
    ∃ n r, ∀ m ≥ n, isequal H m x y = some r := by
  rcases h with h | h
  · obtain ⟨n, hn⟩ := terminates h
    obtain ⟨r, hr⟩ := Option.isSome_iff_exists.1 (hn y)
    exact ⟨n, r, fun m hm => isequal_mono H hm hr⟩
  · obtain ⟨n, hn⟩ := terminates h
    obtain ⟨r, hr⟩ := Option.isSome_iff_exists.1 (hn x)
    exact ⟨n, r, fun m hm => by rw [isequal_comm]; exact isequal_mono H hm hr⟩

/-- acyclic objects are exactly those that unfold to a tree -/
theorem c12_unfolds (H : Heap F) (x : Obj) : Acyclic H x ↔ ∃ t, Unfolds H x t := by
  constructor
  · intro h
    induction h with
    | intro x _ ih =>
      cases e : H x with
      | none => exact ⟨_, .imm e⟩
      | some nd =>
        cases nd with
        | flo v => exact ⟨_, .flo e⟩
        | str s => exact ⟨_, .str e⟩
        | bytes b => exact ⟨_, .bytes e⟩
        | native h => exact ⟨_, .native e⟩
        | blk l =>
          cases l with
          | nil => exact ⟨_, .empty e⟩
          | cons w ws =>
            have : ∀ ws' : List Obj, (∀ z ∈ ws', z ∈ ws) → ∃ ts : List (Tree F), ws'.length = ts.length ∧
                ∀ i (h : i < ws'.length) (h' : i < ts.length), Unfolds H ws'[i] ts[i] := by
              intro ws'
              induction ws' with
              | nil => intro _; exact ⟨[], rfl, by simp⟩
              | cons z zs ih2 =>
                intro hz
                obtain ⟨ts, hl, hts⟩ := ih2 fun q hq => hz q (by simp [hq])
                obtain ⟨t, ht⟩ := ih z ⟨w, ws, e, hz z (by simp)⟩
                refine ⟨t :: ts, by simp [hl], fun i hi hi' => ?_⟩
                cases i with
                | zero => exact ht
                | succ i => exact hts i (by simpa using hi) (by simpa using hi')
            obtain ⟨ts, hl, hts⟩ := this ws fun _ h => h
            exact ⟨_, .node e hl hts⟩
  · rintro ⟨t, h⟩
    induction h with
    | node e hl _ ih =>
      refine ⟨_, ?_⟩
      rintro y ⟨w', ws', e', hy⟩
      rw [e] at e'
      simp only [Option.some.injEq, Node.blk.injEq, List.cons.injEq] at e'
      obtain ⟨rfl, rfl⟩ := e'
      obtain ⟨i, hi, rfl⟩ := List.getElem_of_mem hy
      exact ih i hi (by omega)
    | imm e | flo e | str e | bytes e | native e | empty e =>
      refine ⟨_, ?_⟩
      rintro y ⟨w', ws', e', hy⟩
      rw [e] at e'
      simp at e'

theorem Plain.child {H : Heap F} {x y : Obj} (h : Plain H x) (hc : Child H y x) : Plain H y :=
  fun z hz => h z (Relation.ReflTransGen.tail hz hc)

theorem tree_iff {H : Heap F} {x : Obj} {t : Tree F} (hx : Unfolds H x t) : ∀ {y u}, Unfolds H y u → Plain H x → Plain H y →
    ∃ n, (isequal H n x y = some true ∨ isequal H n x y = some false) ∧ (isequal H n x y = some true ↔ t = u) := by
  have fin : ∀ {x y : Obj} {P : Prop}, Acyclic H x → ((∃ n, isequal H (n + 1) x y = some true) ↔ P) →
      ∃ n, (isequal H n x y = some true ∨ isequal H n x y = some false) ∧ (isequal H n x y = some true ↔ P) := by
    intro x y P ha hP
    obtain ⟨n, r, hn⟩ := c12_terminates H x y (.inl ha)
    refine ⟨n, ?_, ?_⟩
    · rw [hn n le_rfl]; cases r <;> simp
    · rw [← hP]
      constructor
      · intro h; exact ⟨n, isequal_mono_succ H _ _ _ _ h⟩
      · rintro ⟨m, hm⟩
        have h1 := hn (max n (m + 1)) (by omega)
        have h2 := isequal_mono H (show m + 1 ≤ max n (m + 1) by omega) hm
        rw [h1] at h2
        rw [hn n le_rfl, h2]
  have sound : ∀ {x t}, Unfolds H x t → ∀ {y u}, Unfolds H y u → Plain H x → Plain H y → t = u →
      ∃ n, isequal H (n + 1) x y = some true := by
    intro x t hx
    induction hx with
    | imm e =>
      intro y u hy _ _ htu; subst htu; cases hy; exact ⟨0, isequal_true.2 (.inl rfl)⟩
    | flo e =>
      intro y u hy hp _ htu; subst htu
      cases hy with
      | flo e' => exact ⟨0, isequal_true.2 (.inr (.inl ⟨_, _, e, e', rfl, fun hn => (hp _ .refl).2 (by rw [e, hn])⟩))⟩
    | str e =>
      intro y u hy _ _ htu; subst htu
      cases hy with
      | str e' => exact ⟨0, isequal_true.2 (.inr (.inr (.inl ⟨_, _, e, e', rfl⟩)))⟩
    | bytes e | native e | empty e =>
      intro y u hy _ _ htu; subst htu
      cases hy <;> exact ⟨0, isequal_true.2 (.inl rfl)⟩
    | @node o w ws ts e hl _ ih =>
      intro y u hy hp hq htu; subst htu
      cases hy with
      | @node _ _ us _ e' hl' hus =>
        have hch : ∀ i (h : i < ws.length) (h' : i < us.length), ∃ n, isequal H (n + 1) ws[i] us[i] = some true := fun i h h' =>
          ih i h (by omega) (hus i h' (by omega)) (hp.child ⟨w, ws, e, List.getElem_mem _⟩)
            (hq.child ⟨w, us, e', List.getElem_mem _⟩) rfl
        have : ∃ n, ∀ k ∈ List.range ws.length, ∀ (h : k < ws.length) (h' : k < us.length), isequal H n ws[k] us[k] = some true := by
          refine bound_list (P := fun n k => ∀ (h : k < ws.length) (h' : k < us.length), isequal H n ws[k] us[k] = some true)
            (fun n m k hnm hk h h' => isequal_mono H hnm (hk h h')) _ fun k hk => ?_
          have hk := List.mem_range.1 hk
          obtain ⟨n, hn⟩ := hch k hk (by omega)
          exact ⟨n + 1, fun _ _ => hn⟩
        obtain ⟨n, hn⟩ := this
        exact ⟨n, isequal_true.2 (.inr (.inr (.inr ⟨w, ws, us, e, e', by omega, fun i h h' =>
          hn i (List.mem_range.2 h) h h'⟩)))⟩
  have complete : ∀ {x t}, Unfolds H x t → ∀ {y u}, Unfolds H y u → Plain H x → Plain H y → ∀ n,
      isequal H (n + 1) x y = some true → t = u := by
    have uniq : ∀ {x t}, Unfolds H x t → ∀ {u}, Unfolds H x u → t = u := by
      intro x t hx
      induction hx with
      | imm e | flo e | str e | bytes e | native e | empty e =>
        intro u hy; cases hy <;> simp_all
      | @node o w ws ts e hl _ ih =>
        intro u hy
        cases hy with
        | @node _ _ us ts' e' hl' hus =>
          rw [e] at e'
          simp only [Option.some.injEq, Node.blk.injEq, List.cons.injEq] at e'
          obtain ⟨rfl, rfl⟩ := e'
          congr 1
          refine List.ext_getElem (by omega) fun i h h' => ?_
          exact ih i (by omega) h (hus i (by omega) h')
        | imm e' | flo e' | str e' | bytes e' | native e' | empty e' => rw [e] at e'; simp at e'
    intro x t hx
    induction hx with
    | imm e | flo e | bytes e | native e | empty e =>
      intro y u hy _ _ n h
      rcases isequal_true.1 h with e3 | ⟨a, b, e1, e2, h⟩ | ⟨s, t, e1, e2, h⟩ | ⟨w, ws, us, e1, e2, hl, h⟩
      · subst e3; cases hy <;> simp_all
      all_goals (cases hy <;> simp_all)
    | str e =>
      intro y u hy hp hq n h
      rcases isequal_true.1 h with e3 | ⟨a, b, e1, e2, h⟩ | ⟨s, t, e1, e2, h⟩ | ⟨w, ws, us, e1, e2, hl, h⟩
      · subst e3; cases hy <;> simp_all
      · simp_all
      · rw [text_nulFree ((hp _ .refl).1 _ e1), text_nulFree ((hq _ .refl).1 _ e2)] at h
        cases hy <;> simp_all
      · simp_all
    | @node o w ws ts e hl hws ih =>
      intro y u hy hp hq n h
      rcases isequal_true.1 h with e3 | ⟨a, b, e1, e2, h⟩ | ⟨s, t, e1, e2, h⟩ | ⟨w', ws', us, e1, e2, hl', h⟩
      · subst e3; exact uniq (.node e hl hws) hy
      · simp_all
      · simp_all
      · rw [e] at e1
        simp only [Option.some.injEq, Node.blk.injEq, List.cons.injEq] at e1
        obtain ⟨rfl, rfl⟩ := e1
        cases hy with
        | @node _ w2 us2 ts' e' hl2 hus =>
          rw [e2] at e'
          simp only [Option.some.injEq, Node.blk.injEq, List.cons.injEq] at e'
          obtain ⟨rfl, rfl⟩ := e'
          congr 1
          refine List.ext_getElem (by omega) fun i h1 h2 => ?_
          refine ih i (by omega) h1 (hus i (by omega) h2) (hp.child ⟨w, ws, e, List.getElem_mem _⟩)
            (hq.child ⟨w, us, e2, List.getElem_mem _⟩) n ?_
          exact isequal_mono_succ H _ _ _ _ (h i (by omega) (by omega))
        | imm e' | flo e' | str e' | bytes e' | native e' | empty e' => rw [e2] at e'; simp at e'
  intro y u hy hp hq
  exact fin ((c12_unfolds H x).2 ⟨t, hx⟩) ⟨fun ⟨n, h⟩ => complete hx hy hp hq n h, fun h => sound hx hy hp hq h⟩

/-- C12 in full: equal? answers whether two acyclic objects unfold to the same tree. -/
def C12Full : Prop := ∀ (F : Type) [DecidableEq F] (H : Heap F) (x y : Obj) (t u : Tree F), Unfolds H x t → Unfolds H y u →
  ∃ n r, (∀ m ≥ n, isequal H m x y = some r) ∧ (r = true ↔ t = u)

/-- C12, provided reachable strings contain no NUL and reachable flonums are not NaN. -/
theorem c12_tree_partial (H : Heap F) (x y : Obj) (t u : Tree F) (hx : Unfolds H x t) (hy : Unfolds H y u)
    (hp : Plain H x) (hq : Plain H y) :
    ∃ n r, (∀ m ≥ n, isequal H m x y = some r) ∧ (r = true ↔ t = u) := by
  obtain ⟨n, h1, h2⟩ := tree_iff hx hy hp hq
  rcases h1 with h1 | h1
  · exact ⟨n, true, fun m hm => isequal_mono H hm h1, by simpa [h1] using h2⟩
  · exact ⟨n, false, fun m hm => isequal_mono H hm h1, by simpa [h1] using h2⟩

/-- C12 fails for strings with an embedded NUL: "a\0b" and "a\0c" are `equal?`. -/
theorem c12_counterexample : ¬ C12Full := by
  intro h
  let H : Heap Nat := fun o => if o = 2 then some (.str ['a', nul, 'b']) else if o = 4 then some (.str ['a', nul, 'c']) else none
  obtain ⟨n, r, h1, h2⟩ := h Nat H 2 4 _ _ (.str (s := ['a', nul, 'b']) rfl) (.str (s := ['a', nul, 'c']) rfl)
  have h3 : isequal H (n + 1) 2 4 = some true :=
    isequal_true.2 (.inr (.inr (.inl ⟨['a', nul, 'b'], ['a', nul, 'c'], rfl, rfl, by decide⟩)))
  rw [h1 (n + 1) (by omega)] at h3
  simp only [Option.some.injEq] at h3
  have := h2.1 h3
  simp at this

/-- C12: equal? is reflexive, symmetric and transitive, whatever the objects, and eqv? implies equal?. -/
theorem c12_equivalence (H : Heap F) (n : Nat) (x y z : Obj) :
    isequal H (n + 1) x x = some true ∧ isequal H n x y = isequal H n y x ∧
    (isequal H n x y = some true → isequal H n y z = some true → isequal H n x z = some true) ∧
    (iseqv H x y = true → isequal H (n + 1) x y = some true) := by
  refine ⟨isequal_true.2 (.inl rfl), isequal_comm H n x y, isequal_trans H n x y z, fun h => ?_⟩
  unfold iseqv at h
  split at h
  · next e => exact isequal_true.2 (.inl e)
  · split at h
    · next e1 e2 => exact isequal_true.2 (.inr (.inl ⟨_, _, e1, e2, (feq_iff _ _).1 h⟩))
    · simp at h

/-- a heap with the list (1.5 "ab") twice: 8 = pair(16, 24), 16 = flonum, 24 = pair(32, null), 32 = string; 40 = pair(48, 56) etc. -/
def demoHeap : Heap Nat := fun o =>
  if o = 8 then some (.blk [5, 16, 24]) else if o = 16 then some (.flo (some 15)) else
  if o = 24 then some (.blk [5, 32, 7]) else if o = 32 then some (.str ['a', 'b']) else
  if o = 40 then some (.blk [5, 48, 56]) else if o = 48 then some (.flo (some 15)) else
  if o = 56 then some (.blk [5, 64, 7]) else if o = 64 then some (.str ['a', 'b']) else none

example : isequal demoHeap 3 8 40 = some true := by decide
example : isequal demoHeap 3 8 24 = some false := by decide
example : ∃ t, Unfolds demoHeap 24 t :=
  ⟨_, .node rfl (ts := [.str ['a', 'b'], .imm 7]) rfl fun i h h' => by
    match i, h, h' with
    | 0, _, _ => exact .str rfl
    | 1, _, _ => exact .imm rfl⟩

/-! ### C15 -/

/-- `l` is the proper list whose pairs are `ps` -/
inductive IsList (H : Heap F) (T : Tags) : Obj → List (Obj × Obj) → Prop
  | nil : IsList H T T.null []
  | cons {p a d ps} : p ≠ T.null → uncons H T p = some (a, d) → IsList H T d ps → IsList H T p ((p, a) :: ps)

theorem memLoop_spec {H : Heap F} {T : Tags} {test : Obj → Option Bool} {pred : Obj → Bool} {l : Obj} {ps : List (Obj × Obj)}
    (hl : IsList H T l ps) (ht : ∀ p ∈ ps, test p.2 = some (pred p.2)) : ∀ n > ps.length,
    memLoop H T test n l = some ((ps.find? fun p => pred p.2).map (·.1)) := by
  induction hl with
  | nil => intro n hn; cases n with
    | zero => simp at hn
    | succ n => simp [memLoop]
  | @cons p a d ps hp hu _ ih =>
    intro n hn
    cases n with
    | zero => simp at hn
    | succ n =>
      have h1 := ht (p, a) (by simp)
      simp only at h1
      unfold memLoop
      rw [if_neg hp, hu]
      simp only [Option.bind_eq_bind, Option.bind_some, h1]
      cases e : pred a with
      | true => simp [e]
      | false =>
        simp only [e, List.find?_cons, Bool.false_eq_true, if_false]
        exact ih (fun q hq => ht q (by simp [hq])) n (by simpa using hn)

theorem assLoop_spec {H : Heap F} {T : Tags} {test : Obj → Option Bool} {pred : Obj → Bool} {l : Obj} {ps : List (Obj × Obj)}
    (hl : IsList H T l ps) (key : Obj → Obj) (hk : ∀ p ∈ ps, ∃ v, uncons H T p.2 = some (key p.2, v))
    (ht : ∀ p ∈ ps, test (key p.2) = some (pred (key p.2))) : ∀ n > ps.length,
    assLoop H T test n l = some ((ps.find? fun p => pred (key p.2)).map (·.2)) := by
  induction hl with
  | nil => intro n hn; cases n with
    | zero => simp at hn
    | succ n => simp [assLoop]
  | @cons p a d ps hp hu _ ih =>
    intro n hn
    cases n with
    | zero => simp at hn
    | succ n =>
      obtain ⟨v, hv⟩ := hk (p, a) (by simp)
      have h1 := ht (p, a) (by simp)
      simp only at h1 hv
      unfold assLoop
      rw [if_neg hp, hu]
      simp only [Option.bind_eq_bind, Option.bind_some, hv, h1]
      cases e : pred (key a) with
      | true => simp [e]
      | false =>
        simp only [e, List.find?_cons, Bool.false_eq_true, if_false]
        exact ih (fun q hq => hk q (by simp [hq])) (fun q hq => ht q (by simp [hq])) n (by simpa using hn)

/-- the key is not a NaN flonum -/
def NotNaN (H : Heap F) (x : Obj) : Prop := H x ≠ some (.flo none)

theorem testV_eq {H : Heap F} {x : Obj} (hx : NotNaN H x) (y : Obj) : testV H x y = some (iseqv H x y) := by
  unfold testV iseqv NotNaN at *
  by_cases hxy : x = y
  · subst hxy
    cases e : H x with
    | none => simp [testEq]
    | some nd =>
      cases nd with
      | flo v =>
        cases v with
        | none => exact (hx e).elim
        | some a => simp [testFlo, e, feq]
      | _ => simp [testEq]
  · cases e : H x with
    | none => simp [testEq, hxy, Ne.symm hxy]
    | some nd =>
      cases nd with
      | flo v =>
        simp only [testFlo, if_neg hxy]
        cases e2 : H y with
        | none => rfl
        | some nd2 => cases nd2 <;> rfl
      | _ => simp [testEq, hxy, Ne.symm hxy]

/-- `eqf` is an equality test that agrees with isequal on immediates, flonums and strings (both `isequal` functions do) -/
structure EqLike (H : Heap F) (eqf : Obj → Obj → Option Bool) : Prop where
  refl : ∀ x, eqf x x = some true
  imm : ∀ x y, H x = none → x ≠ y → eqf y x = some false
  flo : ∀ x y v, H x = some (.flo v) → x ≠ y →
    eqf y x = some (match H y with | some (.flo u) => feq v u | _ => false)
  str : ∀ x y s, H x = some (.str s) → x ≠ y →
    eqf y x = some (match H y with | some (.str t) => seq s t | _ => false)

theorem testE_eq {H : Heap F} {eqf : Obj → Obj → Option Bool} (he : EqLike H eqf) {x : Obj} (hx : NotNaN H x) (y : Obj) :
    testE H eqf x y = eqf y x := by
  unfold testE NotNaN at *
  by_cases hxy : x = y
  · subst hxy
    cases e : H x with
    | none => simp [testEq, he.refl]
    | some nd =>
      cases nd with
      | flo v =>
        cases v with
        | none => exact (hx e).elim
        | some a => simp [testFlo, e, feq, he.refl]
      | str s => simp [testStr, e, he.refl, (seq_iff s s).2 rfl]
      | _ => rfl
  · cases e : H x with
    | none => simp [testEq, he.imm x y e hxy, Ne.symm hxy]
    | some nd =>
      cases nd with
      | flo v =>
        simp only [testFlo, he.flo x y v e hxy]
        cases e2 : H y with
        | none => rfl
        | some nd2 => cases nd2 <;> rfl
      | str v =>
        simp only [testStr, he.str x y v e hxy]
        cases e2 : H y with
        | none => rfl
        | some nd2 => cases nd2 <;> rfl
      | _ => rfl

/-- the base library's isequal qualifies -/
theorem isequal_eqLike (H : Heap F) (n : Nat) : EqLike H (isequal H (n + 1)) := by
  constructor
  · intro x; exact isequal_true.2 (.inl rfl)
  · intro x y e hxy
    rw [isequal_comm]; simp [isequal, e, hxy]
  · intro x y v e hxy
    rw [isequal_comm]; simp only [isequal, e, if_neg hxy]
    cases e2 : H y with
    | none => rfl
    | some nd => cases nd <;> rfl
  · intro x y v e hxy
    rw [isequal_comm]; simp only [isequal, e, if_neg hxy]
    cases e2 : H y with
    | none => rfl
    | some nd => cases nd <;> rfl

/-- C15 in full for memv: the result is the first pair of the list whose car is eqv? to the key. -/
def C15Full : Prop := ∀ (F : Type) [DecidableEq F] (H : Heap F) (T : Tags) (x l : Obj) (ps : List (Obj × Obj)), IsList H T l ps →
  ∀ n > ps.length, ismemv H T n x l = some ((ps.find? fun p => iseqv H x p.2).map (·.1))

/-- C15, memv and assv, for keys other than NaN: the first pair whose car (the first entry whose key) is eqv? to `x`, else #f. -/
theorem c15_memv_assv_partial (H : Heap F) (T : Tags) (x l : Obj) (ps : List (Obj × Obj)) (hl : IsList H T l ps)
    (hx : NotNaN H x) :
    (∀ n > ps.length, ismemv H T n x l = some ((ps.find? fun p => iseqv H x p.2).map (·.1))) ∧
    ∀ key : Obj → Obj, (∀ p ∈ ps, ∃ v, uncons H T p.2 = some (key p.2, v)) →
      ∀ n > ps.length, isassv H T n x l = some ((ps.find? fun p => iseqv H x (key p.2)).map (·.2)) :=
  ⟨memLoop_spec hl (fun _ _ => testV_eq hx _), fun key hk => assLoop_spec hl key hk fun _ _ => testV_eq hx _⟩

/-- C15, member and assoc, for keys other than NaN: exactly the search that calls equal? on each element (which must finish). -/
theorem c15_member_assoc_partial (H : Heap F) (T : Tags) (eqf : Obj → Obj → Option Bool) (he : EqLike H eqf) (x l : Obj)
    (ps : List (Obj × Obj)) (hl : IsList H T l ps) (hx : NotNaN H x) (eqb : Obj → Bool) :
    ((∀ p ∈ ps, eqf p.2 x = some (eqb p.2)) →
      ∀ n > ps.length, ismember H T eqf n x l = some ((ps.find? fun p => eqb p.2).map (·.1))) ∧
    ∀ key : Obj → Obj, (∀ p ∈ ps, ∃ v, uncons H T p.2 = some (key p.2, v)) → (∀ p ∈ ps, eqf (key p.2) x = some (eqb (key p.2))) →
      ∀ n > ps.length, isassoc H T eqf n x l = some ((ps.find? fun p => eqb (key p.2)).map (·.2)) :=
  ⟨fun h => memLoop_spec hl (fun p hp => by rw [testE_eq he hx]; exact h p hp),
   fun key hk h => assLoop_spec hl key hk fun p hp => by rw [testE_eq he hx]; exact h p hp⟩

/-- C15, base library, acyclic key: member needs no termination hypothesis — there is a stack depth from which on it returns the
first pair whose car is equal? to the key. -/
theorem c15_member_acyclic_partial (H : Heap F) (T : Tags) (x l : Obj) (ps : List (Obj × Obj)) (hl : IsList H T l ps)
    (hx : NotNaN H x) (ha : Acyclic H x) :
    ∃ d, ∀ m ≥ d, ∀ n > ps.length,
      ismember H T (isequal H m) n x l = some ((ps.find? fun p => isequal H d p.2 x == some true).map (·.1)) := by
  obtain ⟨d, hd⟩ := terminates ha
  refine ⟨d + 1, fun m hm n hn => ?_⟩
  obtain ⟨m, rfl⟩ : ∃ k, m = k + 1 := ⟨m - 1, by omega⟩
  refine (c15_member_assoc_partial H T _ (isequal_eqLike H m) x l ps hl hx (fun y => isequal H (d + 1) y x == some true)).1 ?_ n hn
  intro p _
  obtain ⟨r, hr⟩ := Option.isSome_iff_exists.1 (hd p.2)
  rw [isequal_comm]
  rw [isequal_comm H (d + 1), isequal_mono H (show d ≤ m + 1 by omega) hr, isequal_mono H (show d ≤ d + 1 by omega) hr]
  cases r <;> rfl

/-- C15 fails for NaN: an object is eqv? to itself, but memv does not find a NaN flonum in a list that contains this very object. -/
theorem c15_counterexample : ¬ C15Full := by
  intro h
  let H : Heap Nat := fun o => if o = 2 then some (.flo none) else if o = 4 then some (.blk [5, 2, 7]) else none
  have hl : IsList H ⟨7, 5⟩ 4 [(4, 2)] := .cons (by decide) rfl (.nil (T := ⟨7, 5⟩))
  have := h Nat H ⟨7, 5⟩ 2 4 _ hl 2 (by simp)
  revert this; decide

example : IsList demoHeap ⟨7, 5⟩ 8 [(8, 16), (24, 32)] :=
  .cons (by decide) rfl (.cons (T := ⟨7, 5⟩) (by decide) rfl .nil)
example : ismemv demoHeap ⟨7, 5⟩ 5 48 8 = some (some 8) := by decide
example : ismember demoHeap ⟨7, 5⟩ (isequal demoHeap 3) 5 64 8 = some (some 24) := by decide
example : ismemv demoHeap ⟨7, 5⟩ 5 64 8 = some none := by decide

end Verif.Equal
