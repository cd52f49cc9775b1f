import Verif.Globals.Pass
/-
The list of substitutions (C65).
-/
namespace Verif.Globals
open Verif.Core Verif.Sets
variable {W : Type}

theorem assq_mem {x : Id} {n : Entry} : ∀ {l : List Entry}, assq x l = some n → n ∈ l := by
  intro l
  induction l with
  | nil => intro h; simp [assq] at h
  | cons m l ih =>
    intro h
    simp only [assq] at h
    split at h
    · cases h; simp
    · simp [ih h]

theorem assq_id {x : Id} {n : Entry} : ∀ {l : List Entry}, assq x l = some n → n.id = x := by
  intro l
  induction l with
  | nil => intro h; simp [assq] at h
  | cons m l ih =>
    intro h
    simp only [assq] at h
    split at h
    · rename_i e; cases h; exact e
    · exact ih h

theorem assq_none {x : Id} : ∀ {l : List Entry}, assq x l = none ↔ x ∉ l.map Entry.id := by
  intro l
  induction l with
  | nil => simp [assq]
  | cons m l ih =>
    simp only [assq, List.map_cons, List.mem_cons, not_or]
    by_cases h : m.id = x
    · simp [h]
    · rw [if_neg h, ih]; simp [Ne.symm h]

theorem assq_suffix {x : Id} {n : Entry} {l : List Entry} : ∀ {l₁ : List Entry}, ((l₁ ++ l).map Entry.id).Nodup → assq x l = some n → assq x (l₁ ++ l) = some n := by
  intro l₁
  induction l₁ with
  | nil => intro _ h; exact h
  | cons m l₁ ih =>
    intro hn h
    simp only [List.cons_append, List.map_cons, List.nodup_cons] at hn
    have hne : m.id ≠ x := fun e => hn.1 (by
      rw [List.map_append, List.mem_append]; right
      rw [e, ← assq_id h]; exact List.mem_map_of_mem (assq_mem h))
    simp only [List.cons_append, assq, if_neg hne]
    exact ih hn.2 h

theorem gsubs_nil {l : List Entry} {es : List Exp} (h : gsubs l es = []) : es = [] := by cases es <;> simp [gsubs] at h ⊢

theorem gsubs_mem {l : List Entry} {a : Exp} : ∀ {es : List Exp}, a ∈ gsubs l es → ∃ e ∈ es, gsub l e = a := by
  intro es
  induction es with
  | nil => intro h; simp [gsubs] at h
  | cons e es ih =>
    intro h
    simp only [gsubs, List.mem_cons] at h
    rcases h with h | h
    · exact ⟨e, by simp, h.symm⟩
    · obtain ⟨e', h1, h2⟩ := ih h; exact ⟨e', by simp [h1], h2⟩

theorem isNullLet_iff {e : Exp} : isNullLet e = true ↔ ∃ b, e = .app (.lam [] b) [] := by
  constructor
  · intro h; unfold isNullLet at h; split at h
    · exact ⟨_, rfl⟩
    · cases h
  · rintro ⟨b, rfl⟩; rfl

theorem isIdLet_iff {e : Exp} : isIdLet e = true ↔ ∃ x a, e = .app (.lam [x] (.var x)) [a] := by
  constructor
  · intro h; unfold isIdLet at h; split at h
    · simp at h; subst h; exact ⟨_, _, rfl⟩
    · cases h
  · rintro ⟨b, a, rfl⟩; simp [isIdLet]

/-- how an application is substituted. -/
theorem gsub_app (l : List Entry) (f : Exp) (es : List Exp) :
    (∃ b, f = .lam [] b ∧ es = [] ∧ gsub l (.app f es) = gsub l b) ∨ (∃ x a, f = .lam [x] (.var x) ∧ es = [a] ∧ gsub l (.app f es) = gsub l a) ∨
    (isDegLet (.app f es) = false ∧ gsub l (.app f es) = .app (gsub l f) (gsubs l es)) := by
  by_cases h1 : isNullLet (.app f es) = true
  · obtain ⟨b, h⟩ := isNullLet_iff.mp h1
    injection h with h h'; subst h; subst h'
    exact Or.inl ⟨b, rfl, rfl, by rw [gsub, if_pos h1]⟩
  · by_cases h2 : isIdLet (.app f es) = true
    · obtain ⟨x, a, h⟩ := isIdLet_iff.mp h2
      injection h with h h'; subst h; subst h'
      exact Or.inr (Or.inl ⟨x, a, rfl, rfl, by rw [gsub, if_neg h1, if_pos h2]; rfl⟩)
    · refine Or.inr (Or.inr ⟨by simp [isDegLet, h1, h2], ?_⟩)
      cases f with
      | lam ids b => rw [gsub, if_neg h1, if_neg h2]; simp only [gsub]
      | _ => rw [gsub]; all_goals first | rfl | simp

mutual
theorem gsub_free {l : List Entry} {y : Id} : (e : Exp) → Free y (gsub l e) → Free y e ∨ ∃ n ∈ l, Free y n.exp ∨ ∃ a, n.aexp = some a ∧ Free y a
  | .var x, h => by
    simp only [gsub] at h
    split at h
    · rename_i n hn; exact Or.inr ⟨n, assq_mem hn, Or.inl h⟩
    · exact Or.inl h
  | .set x e, h => by
    have key : Free y (.set x (gsub l e)) → Free y (.set x e) ∨ ∃ n ∈ l, Free y n.exp ∨ ∃ a, n.aexp = some a ∧ Free y a := by
      intro h
      cases h with
      | setTarget => exact Or.inl (.setTarget _)
      | set _ h => exact (gsub_free e h).imp (.set x) id
    simp only [gsub] at h
    split at h
    · rename_i n hn
      split at h
      · rename_i a ha; exact Or.inr ⟨n, assq_mem hn, Or.inr ⟨a, ha, h⟩⟩
      · exact key h
    · exact key h
  | .ite a b c, h => by
    simp only [gsub] at h
    cases h with
    | iteA _ _ h => exact (gsub_free a h).imp (.iteA _ _) id
    | iteB _ _ h => exact (gsub_free b h).imp (.iteB _ _) id
    | iteC _ _ h => exact (gsub_free c h).imp (.iteC _ _) id
  | .prim eff p es, h => by
    simp only [gsub] at h
    cases h with
    | prim _ _ hm h => exact (gsubs_free es ⟨_, hm, h⟩).imp (fun ⟨e, hm, h⟩ => .prim _ _ hm h) id
  | .app f es, h => by
    rcases gsub_app l f es with ⟨b, rfl, rfl, h1⟩ | ⟨x, a, rfl, rfl, h1⟩ | ⟨_, h1⟩
    · rw [h1] at h
      exact (gsub_free b h).imp (fun h => .appF _ (.lam (by simp) h)) id
    · rw [h1] at h
      exact (gsub_free a h).imp (fun h => .appA _ (by simp) h) id
    · rw [h1] at h
      cases h with
      | appF _ h => exact (gsub_free f h).imp (.appF _) id
      | appA _ hm h => exact (gsubs_free es ⟨_, hm, h⟩).imp (fun ⟨e, hm, h⟩ => .appA _ hm h) id
  | .lam ids b, h => by
    simp only [gsub] at h
    cases h with
    | lam hm h => exact (gsub_free b h).imp (.lam hm) id
  | .fix ids lams b, h => by
    simp only [gsub] at h
    cases h with
    | fixL _ hm hl h => exact (gsubs_free lams ⟨_, hl, h⟩).imp (fun ⟨e, hl, h⟩ => .fixL _ hm hl h) id
    | fixB _ hm h => exact (gsub_free b h).imp (.fixB _ hm) id
  | .letcc x b, h => by
    simp only [gsub] at h
    cases h with
    | letcc hm h => exact (gsub_free b h).imp (.letcc hm) id
  | .withcc k e, h => by
    simp only [gsub] at h
    cases h with
    | withccK _ h => exact (gsub_free k h).imp (.withccK _) id
    | withccE _ h => exact (gsub_free e h).imp (.withccE _) id
theorem gsubs_free {l : List Entry} {y : Id} : (es : List Exp) → (∃ a ∈ gsubs l es, Free y a) → (∃ e ∈ es, Free y e) ∨ ∃ n ∈ l, Free y n.exp ∨ ∃ a, n.aexp = some a ∧ Free y a
  | [], h => by obtain ⟨a, h, _⟩ := h; simp [gsubs] at h
  | e :: es, h => by
    obtain ⟨a, hm, h⟩ := h
    simp only [gsubs, List.mem_cons] at hm
    rcases hm with rfl | hm
    · exact (gsub_free e h).imp (fun h => ⟨e, by simp, h⟩) id
    · exact (gsubs_free es ⟨a, hm, h⟩).imp (fun ⟨e, hm, h⟩ => ⟨e, by simp [hm], h⟩) id
end

/-! ### entries -/

/-- what the entries of the list look like. -/
inductive Form (M : Sem W) (priv : Id → Bool) (n : Entry) : Prop
  | keep : n.exp = .var n.id → n.aexp = none → Form M priv n
  | proc {ids : List Id} {b : Exp} : n.exp = .lam ids b → bodyOk b [] = true → Closed (.lam ids b) → n.aexp = (if priv n.id then some voidExp else none) → Form M priv n
  | const {p : PrimName} : n.exp = .prim noEffect p [] → Const M p → n.aexp = (if priv n.id then some voidExp else none) → Form M priv n

/-- all entries are for global variables and look as they should. -/
def Forms (M : Sem W) (priv : Id → Bool) (l : List Entry) : Prop := ∀ n ∈ l, n.id.isGlobal = true ∧ Form M priv n

variable {M : Sem W} {priv : Id → Bool}

theorem Forms.closed {l : List Entry} (h : Forms M priv l) {n : Entry} (hn : n ∈ l) {y : Id} (hy : Free y n.exp ∨ ∃ a, n.aexp = some a ∧ Free y a) : y.isGlobal = true := by
  obtain ⟨h1, h2⟩ := h n hn
  have hvoid : ∀ a, (if priv n.id then some voidExp else none) = some a → ¬ Free y a := by
    intro a ha hy
    split at ha
    · cases ha; cases hy with | prim _ _ hm => cases hm
    · cases ha
  rcases hy with hy | ⟨a, ha, hy⟩
  · cases h2 with
    | keep e _ => rw [e] at hy; cases hy; exact h1
    | proc e _ hc _ => rw [e] at hy; exact hc y hy
    | const e => rw [e] at hy; cases hy with | prim _ _ hm => cases hm
  · cases h2 with
    | keep _ e => rw [e] at ha; cases ha
    | proc _ _ _ e => rw [e] at ha; exact absurd hy (hvoid a ha)
    | const _ _ e => rw [e] at ha; exact absurd hy (hvoid a ha)

/-- only variables become variables. -/
theorem gsub_var {l : List Entry} (hl : Forms M priv l) {x : Id} : ∀ {b : Exp}, tidy b = true → gsub l b = .var x → b = .var x := by
  intro b hb h
  cases b with
  | var y =>
    simp only [gsub] at h
    split at h
    · rename_i n hn
      rcases (hl n (assq_mem hn)).2 with ⟨e, _⟩ | ⟨e, _⟩ | ⟨e, _⟩
      · rw [e] at h; rw [assq_id hn] at h; exact h
      · rw [e] at h; cases h
      · rw [e] at h; cases h
    · exact h
  | set y e =>
    simp only [gsub] at h
    split at h
    · rename_i n hn
      split at h
      · rename_i a ha
        have : ∀ a, (if priv n.id then some voidExp else none) = some a → a ≠ .var x := by
          intro a ha
          split at ha
          · cases ha; simp [voidExp]
          · cases ha
        rcases (hl n (assq_mem hn)).2 with ⟨_, e⟩ | ⟨_, _, _, e⟩ | ⟨_, _, e⟩
        · rw [e] at ha; cases ha
        · rw [e] at ha; exact absurd h (this a ha)
        · rw [e] at ha; exact absurd h (this a ha)
      · cases h
    · cases h
  | app f es =>
    simp only [tidy, Bool.and_eq_true, Bool.not_eq_true'] at hb
    rcases gsub_app l f es with ⟨b, rfl, rfl, _⟩ | ⟨y, a, rfl, rfl, _⟩ | ⟨_, h1⟩
    · simp [isDegLet, isNullLet] at hb
    · simp [isDegLet, isNullLet, isIdLet] at hb
    · rw [h1] at h; cases h
  | _ => simp [gsub] at h

/-- no procedure is made from an expression without degenerate `let`s, except for references and procedures. -/
theorem gsub_lam {l : List Entry} {ids : List Id} {b' : Exp} : ∀ {b : Exp}, tidy b = true → (∀ n ∈ l, ∀ a, n.aexp = some a → a = voidExp) → gsub l b = .lam ids b' →
    (∃ y n, b = .var y ∧ assq y l = some n ∧ n.exp = .lam ids b') ∨ ∃ b0, b = .lam ids b0 ∧ b' = gsub l b0 := by
  intro b hb ha h
  cases b with
  | var y =>
    simp only [gsub] at h
    split at h
    · rename_i n hn; exact Or.inl ⟨y, n, rfl, hn, h⟩
    · cases h
  | set y e =>
    simp only [gsub] at h
    split at h
    · rename_i n hn
      split at h
      · rename_i a ha'; rw [ha n (assq_mem hn) a ha'] at h; cases h
      · cases h
    · cases h
  | app f es =>
    simp only [tidy, Bool.and_eq_true, Bool.not_eq_true'] at hb
    rcases gsub_app l f es with ⟨b, rfl, rfl, _⟩ | ⟨y, a, rfl, rfl, _⟩ | ⟨_, h1⟩
    · simp [isDegLet, isNullLet] at hb
    · simp [isDegLet, isNullLet, isIdLet] at hb
    · rw [h1] at h; cases h
  | lam ids0 b0 => simp only [gsub, Exp.lam.injEq] at h; obtain ⟨rfl, rfl⟩ := h; exact Or.inr ⟨b0, rfl, rfl⟩
  | _ => simp [gsub] at h

theorem Forms.void {l : List Entry} (h : Forms M priv l) : ∀ n ∈ l, ∀ a, n.aexp = some a → a = voidExp := by
  intro n hn a ha
  have : ∀ a, (if priv n.id then some voidExp else none) = some a → a = voidExp := by
    intro a ha
    split at ha
    · cases ha; rfl
    · cases ha
  rcases (h n hn).2 with ⟨_, e⟩ | ⟨_, _, _, e⟩ | ⟨_, _, e⟩
  · rw [e] at ha; cases ha
  · rw [e] at ha; exact this a ha
  · rw [e] at ha; exact this a ha

/-- no application becomes a constant. -/
theorem app_not {l : List Entry} (hl : Forms M priv l) {f : Exp} {es : List Exp} (ht : tidy (.app f es) = true) (he : es ≠ []) : inlineable (gsub l (.app f es)) = false := by
  simp only [tidy, Bool.and_eq_true, Bool.not_eq_true'] at ht
  rcases gsub_app l f es with ⟨b, rfl, rfl, _⟩ | ⟨y, a, rfl, rfl, _⟩ | ⟨h0, h1⟩
  · exact absurd rfl he
  · simp [isDegLet, isNullLet, isIdLet] at ht
  · rw [h1]
    cases hf : gsub l f with
    | lam ids b' =>
      have hn : isNullLet (.app (.lam ids b') (gsubs l es)) = false := by
        by_contra hc
        obtain ⟨b, h⟩ := isNullLet_iff.mp (by simpa using hc)
        injection h with _ h
        exact he (gsubs_nil h)
      have hi : isIdLet (.app (.lam ids b') (gsubs l es)) = false := by
        by_contra hc
        obtain ⟨x, a, h⟩ := isIdLet_iff.mp (by simpa using hc)
        injection h with h h'
        injection h with h2 h3
        subst h2; subst h3
        rcases gsub_lam ht.1.2 hl.void hf with ⟨y, n, rfl, hn, he⟩ | ⟨b0, rfl, hb0⟩
        · rcases (hl n (assq_mem hn)).2 with ⟨e, _⟩ | ⟨e, hb, _⟩ | ⟨e, _⟩
          · rw [e] at he; cases he
          · rw [e] at he; cases he; simp [bodyOk] at hb
          · rw [e] at he; cases he
        · have : b0 = .var x := gsub_var hl (by simpa [tidy] using ht.1.2) hb0.symm
          subst this
          obtain ⟨e0, rfl⟩ : ∃ e0, es = [e0] := by
            cases es with
            | nil => exact absurd rfl he
            | cons e0 es =>
              simp only [gsubs, List.cons.injEq] at h'
              exact ⟨e0, by rw [gsubs_nil h'.2]⟩
          simp [isDegLet, isNullLet, isIdLet] at h0
      unfold inlineable; simp [hn, hi]
    | _ => rw [inlineable]; all_goals simp

theorem finish_form {l : List Entry} (hl : Forms M priv l) {x : Id} {e : Exp} (ht : tidy e = true) (hcall : ∀ f, e ≠ .app f [])
    (hcl : ∀ ids b, e = .lam ids b → Closed e) (hco : ∀ p, e = .prim noEffect p [] → Const M p) :
    (finish priv x e l).id = x ∧ Form M priv (finish priv x e l) := by
  unfold finish
  split
  · rename_i h
    refine ⟨rfl, ?_⟩
    simp only [Bool.and_eq_true] at h
    obtain ⟨h1, h2⟩ := h
    cases e with
    | var y =>
      simp only [gsub] at h2 ⊢
      cases hn : assq y l with
      | none => rw [hn] at h2; simp [inlineable] at h2
      | some n =>
        rw [hn] at h2
        simp only at h2 ⊢
        rcases (hl n (assq_mem hn)).2 with ⟨e, _⟩ | ⟨e, hb, hc, _⟩ | ⟨e, hc, _⟩
        · rw [e] at h2; simp [inlineable] at h2
        · exact .proc e hb hc rfl
        · exact .const e hc rfl
    | prim eff p es =>
      simp only [gsub, inlineable, Bool.and_eq_true, List.isEmpty_iff] at h2
      have he := gsubs_nil h2.2
      subst he
      have heff : eff = noEffect := by simpa [Effect.refTransparent] using h2.1
      subst heff
      exact .const (p := p) (by simp [gsub, gsubs]) (hco p rfl) rfl
    | lam ids b =>
      simp only [gsub, inlineable] at h2
      refine .proc (ids := ids) (b := gsub l b) (by simp only [gsub]) h2 (fun y hy => ?_) rfl
      rcases gsub_free (.lam ids b) (l := l) (by simpa only [gsub] using hy) with h | ⟨n, hn, h⟩
      · exact hcl ids b rfl y h
      · exact hl.closed hn h
    | app f es => rw [app_not hl ht (fun e => hcall f (by rw [e]))] at h2; cases h2
    | _ => simp [simple] at h1
  · exact ⟨rfl, .keep rfl rfl⟩

mutual
/-- nothing to replace. -/
theorem gsub_plain {n : Entry} : (e : Exp) → tidy e = true → without n.id e = true → gsub [n] e = e
  | .var x, _, h => by
    have h : x ≠ n.id := by simpa [without] using h
    simp [gsub, assq, Ne.symm h]
  | .set x e, ht, h => by
    simp only [without, Bool.and_eq_true, decide_eq_true_eq, ne_eq] at h
    simp only [gsub, assq, if_neg (Ne.symm h.1), gsub_plain e (by simpa [tidy] using ht) h.2]
  | .ite a b c, ht, h => by
    simp only [without, tidy, Bool.and_eq_true] at h ht
    simp only [gsub, gsub_plain a ht.1.1 h.1.1, gsub_plain b ht.1.2 h.1.2, gsub_plain c ht.2 h.2]
  | .prim eff p es, ht, h => by
    simp only [without, tidy] at h ht
    simp only [gsub, gsubs_plain es ht h]
  | .app f es, ht, h => by
    simp only [without, tidy, Bool.and_eq_true, Bool.not_eq_true'] at h ht
    rcases gsub_app [n] f es with ⟨b, rfl, rfl, _⟩ | ⟨y, a, rfl, rfl, _⟩ | ⟨h0, h1⟩
    · simp [isDegLet, isNullLet] at ht
    · simp [isDegLet, isNullLet, isIdLet] at ht
    · rw [h1, gsub_plain f ht.1.2 h.1, gsubs_plain es ht.2 h.2]
  | .lam ids b, ht, h => by
    simp only [without, tidy] at h ht
    simp only [gsub, gsub_plain b ht h]
  | .fix ids lams b, ht, h => by
    simp only [without, tidy, Bool.and_eq_true] at h ht
    simp only [gsub, gsubs_plain lams ht.1 h.1, gsub_plain b ht.2 h.2]
  | .letcc x b, ht, h => by
    simp only [without, tidy] at h ht
    simp only [gsub, gsub_plain b ht h]
  | .withcc k e, ht, h => by
    simp only [without, tidy, Bool.and_eq_true] at h ht
    simp only [gsub, gsub_plain k ht.1 h.1, gsub_plain e ht.2 h.2]
theorem gsubs_plain {n : Entry} : (es : List Exp) → tidys es = true → withouts n.id es = true → gsubs [n] es = es
  | [], _, _ => rfl
  | e :: es, ht, h => by
    simp only [withouts, tidys, Bool.and_eq_true] at h ht
    simp only [gsubs, gsub_plain e ht.1 h.1, gsubs_plain es ht.2 h.2]
end

/-- what is known about a definition. -/
structure DefOk (M : Sem W) (priv : Id → Bool) (x : Id) (d : Exp) : Prop where
  glob : x.isGlobal = true
  tidy : tidy d = true
  call : ∀ f, d ≠ .app f []
  closed : ∀ ids b, d = .lam ids b → Closed d
  const : ∀ p, d = .prim noEffect p [] → Const M p
  recs : ∀ g l, d = .fix [g] [l] (.var g) → priv x = true → without g l = true ∧ ∃ ids b, l = .lam ids b ∧ Closed (.lam ids b)

/-- how a definition becomes an entry. -/
theorem finalize_cases {l : List Entry} {x : Id} {d : Exp} (hd : DefOk M priv x d) :
    finalize priv (x, d) l = ⟨x, .var x, none⟩ ∨ (finalize priv (x, d) l = finish priv x d l ∧ ∀ ids lams b, d ≠ .fix ids lams b) ∨
    ∃ g ids b, d = .fix [g] [.lam ids b] (.var g) ∧ priv x = true ∧ finalize priv (x, d) l = finish priv x (.lam ids b) l ∧ tidy (.lam ids b) = true ∧ Closed (.lam ids b) := by
  have fin_none : ∀ e, priv x = false → (finish priv x e l).aexp = none := by
    intro e h; unfold finish; split <;> simp [h]
  unfold finalize
  split
  · rename_i g lam h heq
    simp only at heq
    split
    · rename_i hgh
      subst hgh
      cases hp : priv x with
      | false => left; simp only; rw [fin_none _ hp]; rfl
      | true =>
        obtain ⟨h1, ids, b, rfl, h2⟩ := hd.recs g lam heq hp
        have ht : Globals.tidy (.lam ids b) = true := by have := hd.tidy; rw [heq] at this; simpa [Globals.tidy, tidys] using this
        simp only [gsub_plain (n := ⟨g, .var x, none⟩) (.lam ids b) ht h1]
        split
        · exact Or.inl rfl
        · exact Or.inr (Or.inr ⟨g, ids, b, heq, trivial, rfl, ht, h2⟩)
    · left
      rw [heq]
      simp [finish, simple]
  · rename_i hne
    by_cases hf : ∃ ids lams b, d = .fix ids lams b
    · obtain ⟨ids, lams, b, rfl⟩ := hf
      left; simp [finish, simple]
    · exact Or.inr (Or.inl ⟨rfl, fun ids lams b h => hf ⟨ids, lams, b, h⟩⟩)

theorem finalize_form {l : List Entry} (hl : Forms M priv l) {x : Id} {d : Exp} (hd : DefOk M priv x d) :
    (finalize priv (x, d) l).id = x ∧ Form M priv (finalize priv (x, d) l) := by
  rcases finalize_cases (l := l) hd with h | ⟨h, _⟩ | ⟨g, ids, b, _, _, h, ht, hc⟩
  · rw [h]; exact ⟨rfl, .keep rfl rfl⟩
  · rw [h]; exact finish_form hl hd.tidy hd.call hd.closed hd.const
  · rw [h]
    exact finish_form hl ht (by simp) (fun ids' b' e => by cases e; exact hc) (by simp)

/-! ### the whole list -/

theorem finals_snoc (ds : List (Id × Exp)) (d : Id × Exp) : finals priv (ds ++ [d]) = finalize priv d (finals priv ds) :: finals priv ds := by
  have : ∀ (ds : List (Id × Exp)) (l : List Entry), reduceLeft (fun d l => finalize priv d l :: l) l (ds ++ [d]) =
      finalize priv d (reduceLeft (fun d l => finalize priv d l :: l) l ds) :: reduceLeft (fun d l => finalize priv d l :: l) l ds := by
    intro ds
    induction ds with
    | nil => intro l; rfl
    | cons a ds ih => intro l; simp only [List.cons_append, reduceLeft, ih]
  exact this ds []

theorem finals_ok : ∀ (k : Nat) (ds : List (Id × Exp)), ds.length = k → (∀ x d, (x, d) ∈ ds → DefOk M priv x d) →
    Forms M priv (finals priv ds) ∧ (finals priv ds).map Entry.id = (ds.map Prod.fst).reverse ∧
    ∀ n ∈ finals priv ds, ∃ l₁ ds₁ d ds₂, ds = ds₁ ++ (n.id, d) :: ds₂ ∧ finals priv ds = l₁ ++ finals priv ds₁ ∧ n = finalize priv (n.id, d) (finals priv ds₁) := by
  intro k
  induction k with
  | zero =>
    intro ds hk _
    have := List.eq_nil_of_length_eq_zero hk
    subst this
    refine ⟨fun n hn => ?_, rfl, fun n hn => ?_⟩ <;> simp [finals, reduceLeft] at hn
  | succ k ih =>
    intro ds hk hd
    obtain ⟨ds', ⟨x, d⟩, rfl⟩ : ∃ ds' d, ds = ds' ++ [d] := by
      rcases List.eq_nil_or_concat ds with h | ⟨ds', d, h⟩
      · rw [h] at hk; simp at hk
      · exact ⟨ds', d, by simpa using h⟩
    obtain ⟨h1, h2, h3⟩ := ih ds' (by simpa using hk) (fun y e hm => hd y e (by simp [hm]))
    have hx := hd x d (by simp)
    obtain ⟨f1, f2⟩ := finalize_form h1 hx
    rw [finals_snoc]
    refine ⟨fun n hn => ?_, ?_, fun n hn => ?_⟩
    · rcases List.mem_cons.mp hn with rfl | hn
      · exact ⟨by rw [f1]; exact hx.glob, f2⟩
      · exact h1 n hn
    · simp [f1, h2]
    · rcases List.mem_cons.mp hn with rfl | hn
      · exact ⟨[finalize priv (x, d) (finals priv ds')], ds', d, [], by rw [f1], rfl, by rw [f1]⟩
      · obtain ⟨l₁, ds₁, e, ds₂, e1, e2, e3⟩ := h3 n hn
        exact ⟨finalize priv (x, d) (finals priv ds') :: l₁, ds₁, e, ds₂ ++ [(x, d)], by rw [e1]; simp, by rw [e2]; rfl, e3⟩

end Verif.Globals
