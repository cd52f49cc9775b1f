import Verif.Reader.Mono
/-
Property theorems C27: comments and whitespace.
-/
namespace Verif.Reader
open Verif.Num Verif.Cmp

/-! ## Specification -/

/-- What may stand between `#|` and its matching `|#`: characters and nested block comments.  The text is cut
into `#|`, `|#` and single characters from left to right, so that a character that would start `#|` or `|#`
together with the next one is not a single character. -/
inductive Body : List Char → Prop
  | nil : Body []
  | char (c : Char) (b : List Char) : Body b → ¬ (c = '#' ∧ (b ++ cs!"|#").head? = some '|') →
      ¬ (c = '|' ∧ (b ++ cs!"|#").head? = some '#') → Body (c :: b)
  | nest (b1 b2 : List Char) : Body b1 → Body b2 → Body (cs!"#|" ++ b1 ++ cs!"|#" ++ b2)

/-- Atmosphere: whitespace, line comments and block comments. -/
inductive Atmos : List Char → Prop
  | nil : Atmos []
  | white (c : Char) (a : List Char) : isspace c = true → Atmos a → Atmos (c :: a)
  | line (l a : List Char) : '\n' ∉ l → Atmos a → Atmos (';' :: l ++ '\n' :: a)
  | block (b a : List Char) : Body b → Atmos a → Atmos (cs!"#|" ++ b ++ cs!"|#" ++ a)

/-! ## Block comments -/

/-- `t` closes `d + 1` comments and leaves `rest` -/
inductive Closes : Nat → List Char → List Char → Prop
  | zero (b rest : List Char) : Body b → Closes 0 (b ++ '|' :: '#' :: rest) rest
  | succ (d : Nat) (b t rest : List Char) : Body b → Closes d t rest → Closes (d + 1) (b ++ '|' :: '#' :: t) rest

theorem blockComment_body {b : List Char} (h : Body b) : ∀ (d : Nat) (rest : List Char),
    blockComment d (b ++ '|' :: '#' :: rest) = match d with | 0 => some rest | d+1 => blockComment d rest := by
  induction h with
  | nil => intro d rest; cases d <;> rw [List.nil_append, blockComment]
  | char c b hb h1 h2 ih =>
    intro d rest
    rw [← ih d rest, List.cons_append]
    generalize hi : b ++ '|' :: '#' :: rest = i
    have hh : i.head? = (b ++ cs!"|#").head? := by subst hi; cases b <;> rfl
    rw [← hh] at h1 h2
    rw [blockComment.eq_def]
    split
    · rename_i heq; cases heq
    · rename_i heq; cases heq; exact absurd ⟨rfl, rfl⟩ h2
    · rename_i heq; cases heq; exact absurd ⟨rfl, rfl⟩ h1
    · rename_i heq; cases heq; rfl
  | nest b1 b2 _ _ ih1 ih2 =>
    intro d rest
    have e : cs!"#|" ++ b1 ++ cs!"|#" ++ b2 ++ '|' :: '#' :: rest =
        '#' :: '|' :: (b1 ++ '|' :: '#' :: (b2 ++ '|' :: '#' :: rest)) := by simp
    rw [e, blockComment, ih1 (d + 1), ← ih2 d rest]

theorem blockComment_closes {d : Nat} {t rest : List Char} (h : blockComment d t = some rest) : Closes d t rest := by
  fun_induction blockComment d t with
  | case1 => cases h
  | case2 i => cases h; exact .zero [] _ .nil
  | case3 i d ih => exact .succ d [] i rest .nil (ih h)
  | case4 d i ih =>
    have := ih h
    cases this with
    | succ _ b t _ hb ht =>
      cases ht with
      | zero b2 _ hb2 =>
        have := Closes.zero (cs!"#|" ++ b ++ cs!"|#" ++ b2) rest (.nest b b2 hb hb2)
        simpa using this
      | succ d b2 t2 _ hb2 ht2 =>
        have := Closes.succ d (cs!"#|" ++ b ++ cs!"|#" ++ b2) t2 rest (.nest b b2 hb hb2) ht2
        simpa using this
  | case5 d c i h1 h2 ih =>
    have hx := ih h
    have key : ∀ b t, i = b ++ '|' :: '#' :: t → Body b → Body (c :: b) := by
      intro b t hi hb
      have hh : i.head? = (b ++ cs!"|#").head? := by subst hi; cases b <;> rfl
      refine .char c b hb ?_ ?_
      · rintro ⟨rfl, hc⟩
        rw [← hh] at hc
        cases i with
        | nil => cases hc
        | cons x i => cases hc; exact h2 _ rfl rfl
      · rintro ⟨rfl, hc⟩
        rw [← hh] at hc
        cases i with
        | nil => cases hc
        | cons x i => cases hc; exact h1 _ rfl rfl
    cases hx with
    | zero b _ hb => exact Closes.zero (c :: b) rest (key b _ rfl hb)
    | succ d b t _ hb ht => exact Closes.succ d (c :: b) t rest (key b _ rfl hb) ht

theorem blockComment_iff (t rest : List Char) :
    blockComment 0 t = some rest ↔ ∃ b, Body b ∧ t = b ++ cs!"|#" ++ rest := by
  constructor
  · intro h
    cases blockComment_closes h with
    | zero b _ hb => exact ⟨b, hb, by simp⟩
  · rintro ⟨b, hb, rfl⟩
    have := blockComment_body hb 0 rest
    simpa using this

/-! ## Lexical facts -/

theorem lexical_block (i : List Char) : lexical ('#' :: '|' :: i) = none := rfl

theorem reader_block (n : Nat) (r : List Ext) (i : List Char) : reader (n+1) [] r ('#' :: '|' :: i) =
    match blockComment 0 i with
    | some i => .ok (datum cs!"atmosphere" []) i
    | none => .err := by
  rw [reader, initialReader, lexical_block]
  cases h : blockComment 0 i <;> simp [inputPrefix, inputDelimitedPrefix, h]

theorem lexical_white {c : Char} (h : isspace c = true) (i : List Char) :
    lexical (c :: i) = match i.dropWhile isspace with
      | [] => some (some (datum cs!"eof" [], []))
      | i => some (some (datum cs!"atmosphere" [], i)) := by
  rw [lexical, if_pos h]
  cases i.dropWhile isspace <;> rfl

theorem lexical_line (i : List Char) :
    lexical (';' :: i) = match lineComment i with
      | none => some (some (datum cs!"eof" [], []))
      | some i => some (some (datum cs!"atmosphere" [], i)) := rfl

theorem lineComment_spec {l : List Char} (h : '\n' ∉ l) (a : List Char) : lineComment (l ++ '\n' :: a) = some a := by
  induction l with
  | nil => rfl
  | cons c l ih =>
    simp only [List.mem_cons, not_or] at h
    rw [List.cons_append, lineComment, if_neg (Ne.symm h.1), ih h.2]

theorem lineComment_end {l : List Char} (h : '\n' ∉ l) : lineComment l = none := by
  induction l with
  | nil => rfl
  | cons c l ih =>
    simp only [List.mem_cons, not_or] at h
    rw [lineComment, if_neg (Ne.symm h.1), ih h.2]

theorem reader_lexical {n : Nat} {r : List Ext} {i : List Char} {x : Option (SX × List Char)}
    (h : lexical i = some x) : reader (n+1) [] r i = .ofOption x := by
  rw [reader, initialReader, h]

/-! ## The loops skip atmosphere -/

abbrev eofD : SX := datum cs!"eof" []
abbrev atmD : SX := datum cs!"atmosphere" []

/-- What the three loops `subread`, `subread-to-terminator` and `subread-top` have in common. -/
structure Loop (α : Type) where
  run : Nat → List Char → α
  fuel : α
  atEof : α
  zero : ∀ i, run 0 i = fuel
  out : ∀ n i, reader n [] [] i = .fuel → run (n+1) i = fuel
  atm : ∀ n i i', reader n [] [] i = .ok atmD i' → run (n+1) i = run n i'
  eof : ∀ n i, reader n [] [] i = .ok eofD [] → run (n+1) i = atEof
  mono : ∀ n m i x, run n i = x → x ≠ fuel → n ≤ m → run m i = x

variable {α : Type} (L : Loop α)

theorem Loop.pos {n : Nat} {i : List Char} {x : α} (h : L.run n i = x) (hx : x ≠ L.fuel) : ∃ k, n = k + 2 := by
  match n with
  | 0 => exact absurd (h.symm.trans (L.zero i)) hx
  | 1 => exact absurd (h.symm.trans (L.out 0 i (by rw [reader]))) hx
  | k+2 => exact ⟨k, rfl⟩

theorem Loop.step_atm {i i' : List Char} (h : ∀ k, reader (k+1) [] [] i = .ok atmD i') (n : Nat) :
    L.run (n+2) i = L.run (n+1) i' := L.atm _ _ _ (h n)

/-- if one call of the reader skips from `i` to `i'`, so does the loop -/
theorem Loop.skip_atm {i i' : List Char} (h : ∀ k, reader (k+1) [] [] i = .ok atmD i') {x : α} (hx : x ≠ L.fuel) :
    (∀ n, L.run n i = x → L.run n i' = x) ∧ (∀ n, L.run n i' = x → L.run (n+1) i = x) := by
  constructor
  · intro n hn
    obtain ⟨k, rfl⟩ := L.pos hn hx
    rw [L.step_atm h] at hn
    exact L.mono _ _ _ _ hn hx (by omega)
  · intro n hn
    obtain ⟨k, rfl⟩ := L.pos hn hx
    rw [L.step_atm h]
    exact hn

theorem reader_nil (k : Nat) : reader (k+1) [] [] [] = .ok eofD [] := rfl

theorem Loop.skip_white {c : Char} (hc : isspace c = true) (y : List Char) {x : α} (hx : x ≠ L.fuel) :
    (∀ n, L.run n (c :: y) = x → L.run n y = x) ∧ (∀ n, L.run n y = x → L.run (n+1) (c :: y) = x) := by
  cases y with
  | nil =>
    have h1 : ∀ k, reader (k+1) [] [] [c] = .ok eofD [] := by
      intro k; rw [reader_lexical (lexical_white hc [])]; rfl
    constructor
    · intro n hn
      obtain ⟨k, rfl⟩ := L.pos hn hx
      rw [L.eof _ _ (h1 k)] at hn
      rw [L.eof _ _ (reader_nil k)]; exact hn
    · intro n hn
      obtain ⟨k, rfl⟩ := L.pos hn hx
      rw [L.eof _ _ (reader_nil k)] at hn
      rw [L.eof _ _ (h1 (k+1))]; exact hn
  | cons c' y =>
    by_cases hc' : isspace c' = true
    · have e : lexical (c :: c' :: y) = lexical (c' :: y) := by
        rw [lexical_white hc, lexical_white hc', List.dropWhile_cons_of_pos hc']
      have hr : ∀ k, reader (k+1) [] [] (c :: c' :: y) = reader (k+1) [] [] (c' :: y) := by
        intro k
        rw [reader_lexical (e.trans (lexical_white hc' y) |>.trans ?_), reader_lexical ((lexical_white hc' y).trans ?_)]
        · exact match y.dropWhile isspace with | [] => some (eofD, []) | i => some (atmD, i)
        · cases y.dropWhile isspace <;> rfl
        · cases y.dropWhile isspace <;> rfl
      have hrun : ∀ k, L.run (k+2) (c :: c' :: y) = L.run (k+2) (c' :: y) := by
        intro k
        have hl := lexical_white hc' y
        cases hd : y.dropWhile isspace with
        | nil =>
          rw [hd] at hl
          have h1 := reader_lexical (n := k) (r := []) hl
          rw [L.eof _ _ ((hr k).trans h1), L.eof _ _ h1]
        | cons z zs =>
          rw [hd] at hl
          have h1 := reader_lexical (n := k) (r := []) hl
          rw [L.atm _ _ _ ((hr k).trans h1), L.atm _ _ _ h1]
      constructor
      · intro n hn
        obtain ⟨k, rfl⟩ := L.pos hn hx
        rw [hrun] at hn; exact hn
      · intro n hn
        obtain ⟨k, rfl⟩ := L.pos hn hx
        rw [← hrun] at hn
        exact L.mono _ _ _ _ hn hx (by omega)
    · have hl := lexical_white hc (c' :: y)
      rw [List.dropWhile_cons_of_neg hc'] at hl
      exact L.skip_atm (fun k => reader_lexical hl) hx

theorem Loop.skip {a : List Char} (h : Atmos a) (i : List Char) {x : α} (hx : x ≠ L.fuel) :
    (∀ n, L.run n (a ++ i) = x → L.run n i = x) ∧ (∀ n, L.run n i = x → ∃ m, L.run m (a ++ i) = x) := by
  induction h with
  | nil => exact ⟨fun n h => h, fun n h => ⟨n, h⟩⟩
  | white c a hc _ ih =>
    have := L.skip_white hc (a ++ i) hx
    refine ⟨fun n h => ih.1 n (this.1 n h), fun n h => ?_⟩
    obtain ⟨m, hm⟩ := ih.2 n h
    exact ⟨m+1, this.2 m hm⟩
  | line l a hl _ ih =>
    have hh : lexical (';' :: l ++ '\n' :: a ++ i) = some (some (atmD, a ++ i)) := by
      have : ';' :: l ++ '\n' :: a ++ i = ';' :: (l ++ '\n' :: (a ++ i)) := by simp
      rw [this, lexical_line, lineComment_spec hl]
    have := L.skip_atm (fun k => reader_lexical hh) hx
    refine ⟨fun n h => ih.1 n (this.1 n h), fun n h => ?_⟩
    obtain ⟨m, hm⟩ := ih.2 n h
    exact ⟨m+1, this.2 m hm⟩
  | block b a hb _ ih =>
    have hh : ∀ k, reader (k+1) [] [] (cs!"#|" ++ b ++ cs!"|#" ++ a ++ i) = .ok atmD (a ++ i) := by
      intro k
      have : cs!"#|" ++ b ++ cs!"|#" ++ a ++ i = '#' :: '|' :: (b ++ '|' :: '#' :: (a ++ i)) := by simp
      rw [this, reader_block, blockComment_body hb]
    have := L.skip_atm hh hx
    refine ⟨fun n h => ih.1 n (this.1 n h), fun n h => ?_⟩
    obtain ⟨m, hm⟩ := ih.2 n h
    exact ⟨m+1, this.2 m hm⟩

/-- atmosphere at the end of the input, which may end in a line comment -/
inductive AtmosEnd : List Char → Prop
  | full (a : List Char) : Atmos a → AtmosEnd a
  | line (a l : List Char) : Atmos a → '\n' ∉ l → AtmosEnd (a ++ ';' :: l)

theorem Loop.skip_end {a : List Char} (h : AtmosEnd a) {x : α} (hx : x ≠ L.fuel) :
    (∀ n, L.run n a = x → L.run n [] = x) ∧ (∀ n, L.run n [] = x → ∃ m, L.run m a = x) := by
  cases h with
  | full _ h => have := L.skip h [] hx; simpa using this
  | line a l h hl =>
    have hs := L.skip h (';' :: l) hx
    have h1 : ∀ k, reader (k+1) [] [] (';' :: l) = .ok eofD [] := by
      intro k
      have := lexical_line l
      rw [lineComment_end hl] at this
      rw [reader_lexical this]; rfl
    have e : ∀ k, L.run (k+2) (';' :: l) = L.run (k+2) [] := by
      intro k; rw [L.eof _ _ (h1 k), L.eof _ _ (reader_nil k)]
    refine ⟨fun n hn => ?_, fun n hn => ?_⟩
    · have := hs.1 n hn
      obtain ⟨k, rfl⟩ := L.pos this hx
      rw [e] at this; exact this
    · obtain ⟨k, rfl⟩ := L.pos hn hx
      rw [← e] at hn
      exact hs.2 _ hn

end Verif.Reader
