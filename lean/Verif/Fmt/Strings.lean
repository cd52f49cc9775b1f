import Verif.Fmt.Spec
import Verif.Str.Props
/-
The string functions used by the formatter.
-/
namespace Verif.Fmt

theorem spanCi_le (s : List Char) : spanCi s ≤ s.length := by
  induction s with
  | nil => simp [spanCi]
  | cons c r ih => rw [spanCi]; split <;> simp <;> omega

theorem ident_iff (s T : List Char) : ident s = some T ↔ T = s ∧ ∀ c ∈ s, identChar c = true := by
  have key : s.length = spanCi s ↔ ∀ c ∈ s, identChar c = true := by
    induction s with
    | nil => simp [spanCi]
    | cons c r ih =>
      have := spanCi_le r
      rw [spanCi]
      split
      · rename_i h; simp [h, ← ih]
      · rename_i h; simp [h]
  unfold ident
  split
  · rename_i h; rw [key] at h; simp only [Option.some.injEq]; exact ⟨fun e => ⟨e.symm, h⟩, fun e => e.1.symm⟩
  · rename_i h; rw [key] at h; simp only [reduceCtorEq, false_iff]; exact fun e => h e.2

theorem split_char (s : List Char) (c : Char) : (c ∉ s ∧ before s [c] = none ∧ after s [c] = none) ∨
    ∃ b a, s = b ++ c :: a ∧ c ∉ b ∧ before s [c] = some b ∧ after s [c] = some a := by
  by_cases h : [c] <:+: s
  · right
    obtain ⟨b, a, hb, ha, e, hmin⟩ := Str.c43_split s [c] h
    refine ⟨b, a, by simpa using e, ?_, by simp [before, hb], by simp [after, ha]⟩
    intro hc
    obtain ⟨b1, b2, rfl⟩ := List.append_of_mem hc
    have := hmin b1 (b2 ++ [c] ++ a) (by rw [e]; simp)
    simp at this
    omega
  · left
    obtain ⟨hb, ha⟩ := Str.c43_split_none s [c] h
    refine ⟨?_, by simp [before, hb], by simp [after, ha]⟩
    intro hc
    obtain ⟨b1, b2, rfl⟩ := List.append_of_mem hc
    exact h ⟨b1, b2, by simp⟩

theorem append_char_inj {b b' a a' : List Char} {c : Char} (h : b ++ c :: a = b' ++ c :: a') (hb : c ∉ b) (hb' : c ∉ b') : b = b' ∧ a = a' := by
  induction b generalizing b' with
  | nil =>
    cases b' with
    | nil => simpa using h
    | cons d b' => simp at h; exact absurd (by rw [h.1]; exact List.mem_cons_self) hb'
  | cons d b ih =>
    cases b' with
    | nil => simp at h; exact absurd (by rw [h.1]; exact List.mem_cons_self) hb
    | cons d' b' =>
      simp only [List.cons_append, List.cons.injEq] at h
      obtain ⟨h1, h2⟩ := ih h.2 (fun x => hb (List.mem_cons_of_mem _ x)) (fun x => hb' (List.mem_cons_of_mem _ x))
      exact ⟨by rw [h.1, h1], h2⟩

theorem before_eq {b a : List Char} {c : Char} (h : c ∉ b) : before (b ++ c :: a) [c] = some b ∧ after (b ++ c :: a) [c] = some a := by
  rcases split_char (b ++ c :: a) c with ⟨h1, _⟩ | ⟨b', a', e, hb', h2, h3⟩
  · exact absurd (by simp) h1
  · obtain ⟨rfl, rfl⟩ := append_char_inj e h hb'; exact ⟨h2, h3⟩

/-- the C type of `T(…` is `T`. -/
theorem primexp_iff (s T : List Char) : primexpCtype s = some T ↔ (∃ r, s = T ++ '(' :: r) ∧ ∀ c ∈ T, identChar c = true := by
  unfold primexpCtype
  rcases split_char s '(' with ⟨h1, h2, _⟩ | ⟨b, a, rfl, hb, h2, _⟩
  · rw [h2]; simp only [Option.bind_none, reduceCtorEq, false_iff]
    rintro ⟨⟨r, rfl⟩, _⟩; exact h1 (by simp)
  · rw [h2]; simp only [Option.bind_some, ident_iff]
    constructor
    · rintro ⟨rfl, h⟩; exact ⟨⟨a, rfl⟩, h⟩
    · rintro ⟨⟨r, e⟩, h⟩
      obtain ⟨rfl, _⟩ := append_char_inj e hb (fun hc => by have := h _ hc; revert this; decide)
      exact ⟨rfl, h⟩

theorem after_self (p r : List Char) : after (p ++ r) p = some r := by
  obtain ⟨b, a, _, ha, e, hmin⟩ := Str.c43_split (p ++ r) p ⟨[], r, by simp⟩
  have := hmin [] r (by simp)
  have hb : b = [] := by simpa using this
  subst hb
  simp only [List.nil_append, List.append_cancel_left_eq] at e
  subst e
  simp [after, ha]

theorem numeric_of_mem {c : Char} (h : c ∈ "01234567890".toList) : numeric c = true := by
  have key : ∀ c ∈ "01234567890".toList, numeric c = true := by decide
  exact key c h

theorem mem_takeWhile {α : Type} (p : α → Bool) (l : List α) (x : α) (h : x ∈ l.takeWhile p) : p x = true := by
  induction l with
  | nil => simp at h
  | cons a l ih =>
    rw [List.takeWhile_cons] at h
    split at h
    · rename_i ha
      rcases List.mem_cons.mp h with rfl | h
      · exact ha
      · exact ih h
    · simp at h

theorem dropLevel_spec (s : List Char) : ∃ lv, Level lv ∧ s = lv ++ dropLevel s := by
  unfold dropLevel afterSpan afterPrefix
  rw [(Str.c43_span s _).2]
  simp only [Option.getD_some]
  obtain ⟨_, _, h3, h4⟩ := Str.c43_affixes (s.dropWhile fun c => decide (c ∈ "01234567890".toList)) [',', ' ']
  cases h : Str.afterPrefix (s.dropWhile fun c => decide (c ∈ "01234567890".toList)) [',', ' '] with
  | none => exact ⟨[], .inl rfl, by simp⟩
  | some o =>
    cases o with
    | none => exact ⟨[], .inl rfl, by simp⟩
    | some r =>
      have e := (h3 r).mp h
      refine ⟨s.takeWhile (fun c => decide (c ∈ "01234567890".toList)) ++ [',', ' '], .inr ⟨_, ?_, rfl⟩, ?_⟩
      · intro c hc
        have := mem_takeWhile _ _ _ hc
        exact numeric_of_mem (by simpa using this)
      · simp only [Option.join_some, Option.getD_some, List.append_assoc]
        rw [← e, List.takeWhile_append_dropWhile]

theorem startsWith_iff (s p : List Char) : startsWith s p = true ↔ p <+: s := by
  simp [startsWith, Str.c43_starts_with]
theorem endsWith_iff (s p : List Char) : endsWith s p = true ↔ p <:+ s := by
  simp [endsWith, Str.c43_ends_with]

/-- `matchName` cuts off the name, if what follows is not a letter or digit. -/
theorem matchName_iff {α : Type} (f : α → Option Char) (l : List α) (cs : List Char) (r : List α) : matchName f l cs = some r ↔
    (∃ pre, l = pre ++ r ∧ pre.map f = cs.map some) ∧ (r = [] ∨ ∃ a r' c, r = a :: r' ∧ f a = some c ∧ alnum c = false) := by
  induction cs generalizing l with
  | nil =>
    cases l with
    | nil =>
      simp only [matchName, Option.some.injEq]
      constructor
      · rintro rfl; exact ⟨⟨[], by simp⟩, .inl rfl⟩
      · rintro ⟨⟨pre, h1, _⟩, _⟩
        have := h1.symm; simp at this; exact this.2.symm
    | cons a l =>
      simp only [matchName]
      constructor
      · intro h
        cases hf : f a with
        | none => rw [hf] at h; simp at h
        | some c =>
          rw [hf] at h; simp only at h
          split at h
          · simp at h
          · rename_i hc
            simp only [Option.some.injEq] at h
            exact ⟨⟨[], by simp [h]⟩, .inr ⟨a, l, c, h.symm, hf, by simpa [alnum] using hc⟩⟩
      · rintro ⟨⟨pre, h1, h2⟩, h3⟩
        simp only [List.map_nil, List.map_eq_nil_iff] at h2
        subst h2
        simp only [List.nil_append] at h1
        subst h1
        rcases h3 with h3 | ⟨a', r', c, h3, h4, h5⟩
        · simp at h3
        · simp only [List.cons.injEq] at h3
          obtain ⟨rfl, rfl⟩ := h3
          rw [h4]; simp only
          rw [if_neg (by simpa [alnum] using h5)]
  | cons d ds ih =>
    cases l with
    | nil =>
      simp only [matchName, reduceCtorEq, false_iff]
      rintro ⟨⟨pre, h1, h2⟩, _⟩
      have := h1.symm; simp at this
      rw [this.1] at h2; simp at h2
    | cons a l =>
      simp only [matchName]
      constructor
      · intro h
        cases hf : f a with
        | none => rw [hf] at h; simp at h
        | some c =>
          rw [hf] at h; simp only at h
          split at h
          · rename_i hc; subst hc
            obtain ⟨⟨pre, h1, h2⟩, h3⟩ := (ih l).mp h
            exact ⟨⟨a :: pre, by simp [h1], by simp [h2, hf]⟩, h3⟩
          · simp at h
      · rintro ⟨⟨pre, h1, h2⟩, h3⟩
        cases pre with
        | nil => simp at h2
        | cons b pre =>
          simp only [List.cons_append, List.cons.injEq, List.map_cons] at h1 h2
          obtain ⟨rfl, h1⟩ := h1
          rw [h2.1]; simp only [if_true]
          exact (ih l).mpr ⟨⟨pre, h1, h2.2⟩, h3⟩

theorem flats_append (a b : List Text) : flats (a ++ b) = flats a ++ flats b := by
  induction a with
  | nil => simp [flats]
  | cons t a ih => simp [flats, ih]
theorem flats_ch (cs : List Char) : flats (cs.map Text.ch) = cs := by
  induction cs with
  | nil => simp [flats]
  | cons c cs ih => simp [flats, ih, Text.flat]

theorem char_map {pre : List Text} {cs : List Char} (h : pre.map Text.char? = cs.map some) : pre = cs.map .ch := by
  induction pre generalizing cs with
  | nil => simpa using h
  | cons a pre ih =>
    cases cs with
    | nil => simp at h
    | cons c cs =>
      simp only [List.map_cons, List.cons.injEq] at h
      rw [ih h.2]
      cases a <;> simp_all [Text.char?]

theorem Steps.trans {f : Char → Bool} {s : Bool} {a b c : List Char} (h : Steps f s a b) (h' : Steps f s b c) : Steps f s a c := by
  induction h with
  | refl => exact h'
  | step h1 _ ih => exact .step h1 (ih h')

theorem Step.append {f : Char → Bool} {s : Bool} {a b : List Char} (h : Step f s a b) (x : List Char) : Step f s (a ++ x) (b ++ x) := by
  cases h with
  | @same p T lv y h1 h2 h3 => simpa using Step.same (x := y ++ x) h1 h2 h3
  | @void p T lv y h1 h2 h3 => simpa using Step.void (x := y ++ x) h1 h2 h3

theorem Step.prepend {f : Char → Bool} {a b : List Char} (h : Step f false a b) (s : Bool) (g : List Char) : Step f s (g ++ a) (g ++ b) := by
  have key : ∀ p, Edge f false p → Edge f s (g ++ p) := by
    rintro p (⟨_, h⟩ | ⟨q, c, rfl, h⟩)
    · simp at h
    · exact .inr ⟨g ++ q, c, by simp, h⟩
  cases h with
  | @same p T lv y h1 h2 h3 => simpa using Step.same (x := y) (key p h1) h2 h3
  | @void p T lv y h1 h2 h3 => simpa using Step.void (x := y) (key p h1) h2 h3

theorem Steps.append {f : Char → Bool} {s : Bool} {a b : List Char} (h : Steps f s a b) (x : List Char) : Steps f s (a ++ x) (b ++ x) := by
  induction h with
  | refl => exact .refl _
  | step h1 _ ih => exact .step (h1.append x) ih

theorem Steps.prepend {f : Char → Bool} {a b : List Char} (h : Steps f false a b) (s : Bool) (g : List Char) : Steps f s (g ++ a) (g ++ b) := by
  induction h with
  | refl => exact .refl _
  | step h1 _ ih => exact .step (h1.prepend s g) ih

end Verif.Fmt
