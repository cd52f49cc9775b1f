import Verif.Cmp.Model
import Mathlib.Data.List.Basic
import Mathlib.Order.Defs.LinearOrder
import Mathlib.Data.List.Lex
/-
Property theorems C16.
-/
namespace Verif.Cmp

/-- No embedded NUL. -/
def NulFree (s : List Char) : Prop := ∀ c ∈ s, c ≠ nul

/-- Specification: lexicographic comparison of two strings, character by character, a proper prefix being
smaller. -/
def lex : List Char → List Char → Ordering
  | [], [] => .eq
  | [], _ :: _ => .lt
  | _ :: _, [] => .gt
  | a :: s, b :: t => if a = b then lex s t else if a < b then .lt else .gt

theorem toNat_inj {a b : Char} (h : a.toNat = b.toNat) : a = b := by
  rw [← Char.ofNat_toNat a, h, Char.ofNat_toNat]

theorem nul_toNat : (nul).toNat = 0 := by decide

theorem hd_nil : hd [] = nul := by decide
theorem hd_cons (a : Char) (s : List Char) : hd (a :: s) = a := by
  unfold hd; simp only [List.headD_cons]

theorem strcmp_lex : ∀ s t : List Char, NulFree s → NulFree t → strcmp s t = lex s t := by
  intro s
  induction s with
  | nil =>
    intro t _ ht
    cases t with
    | nil => rfl
    | cons b t =>
      have : b ≠ nul := ht b (by simp)
      simp [strcmp, hd_cons, lex, this]
  | cons a s ih =>
    intro t hs ht
    have ha : a ≠ nul := hs a (by simp)
    cases t with
    | nil =>
      have h0 : 0 < a.toNat := by
        rcases Nat.eq_zero_or_pos a.toNat with h | h
        · exact absurd (toNat_inj (h.trans nul_toNat.symm)) ha
        · exact h
      simp only [strcmp, hd_nil, lex]
      rw [if_pos ha, Nat.compare_eq_gt, nul_toNat]; exact h0
    | cons b t =>
      simp only [strcmp, hd_cons, lex, List.tail_cons]
      by_cases h : a = b
      · subst h
        rw [if_neg (by simp), if_neg ha, if_pos rfl]
        exact ih t (fun c hc => hs c (by simp [hc])) (fun c hc => ht c (by simp [hc]))
      · rw [if_pos h, if_neg h]
        by_cases hlt : a < b
        · rw [if_pos hlt, Nat.compare_eq_lt]; exact hlt
        · rw [if_neg hlt, Nat.compare_eq_gt]
          have h1 : b ≤ a := Char.not_lt.1 hlt
          have h2 : b.toNat ≤ a.toNat := h1
          have h3 : b.toNat ≠ a.toNat := fun he => h (toNat_inj he).symm
          omega

theorem lex_eq : ∀ s t, lex s t = .eq ↔ s = t := by
  intro s
  induction s with
  | nil => intro t; cases t <;> simp [lex]
  | cons a s ih =>
    intro t
    cases t with
    | nil => simp [lex]
    | cons b t =>
      simp only [lex, List.cons.injEq]
      by_cases h : a = b
      · simp [h, ih]
      · by_cases h2 : a < b <;> simp [h, h2]

theorem lex_lt : ∀ s t, lex s t = .lt ↔ s < t := by
  intro s
  induction s with
  | nil => intro t; cases t <;> simp [lex]
  | cons a s ih =>
    intro t
    cases t with
    | nil => simp [lex]
    | cons b t =>
      simp only [lex, List.cons_lt_cons_iff]
      by_cases h : a = b
      · subst h; simp [ih, Char.lt_irrefl]
      · by_cases h2 : a < b <;> simp [h, h2]

theorem lex_swap : ∀ s t, lex s t = .gt ↔ lex t s = .lt := by
  intro s
  induction s with
  | nil => intro t; cases t <;> simp [lex]
  | cons a s ih =>
    intro t
    cases t with
    | nil => simp [lex]
    | cons b t =>
      simp only [lex]
      by_cases h : a = b
      · subst h; simp [ih]
      · rw [if_neg h, if_neg (Ne.symm h)]
        by_cases h2 : a < b
        · rw [if_pos h2, if_neg (Char.lt_asymm h2)]; simp
        · have h3 : b < a := Char.not_le.1 (fun hle => h2 (by
            have h4 : a.toNat ≤ b.toNat := hle
            have h5 : a.toNat ≠ b.toNat := fun he => h (toNat_inj he)
            exact (show a.toNat < b.toNat by omega)))
          rw [if_neg h2, if_pos h3]; simp

/-- C16 for strings without embedded NUL: each predicate is the one its name says, with respect to the
lexicographic order of `List Char`. -/
theorem c16_order_partial (s t : List Char) (hs : NulFree s) (ht : NulFree t) :
    (stringEq s t = true ↔ s = t) ∧ (stringLt s t = true ↔ s < t) ∧ (stringGt s t = true ↔ t < s) ∧
    (stringLe s t = true ↔ s ≤ t) ∧ (stringGe s t = true ↔ t ≤ s) := by
  have hle : ∀ a b : List Char, a ≤ b ↔ ¬ b < a := fun a b => List.not_lt.symm
  unfold stringEq stringLt stringGt stringLe stringGe
  rw [strcmp_lex s t hs ht, hle, hle]
  rw [beq_iff_eq, beq_iff_eq, beq_iff_eq, bne_iff_ne, bne_iff_ne]
  refine ⟨lex_eq s t, lex_lt s t, (lex_swap s t).trans (lex_lt t s), ?_, ?_⟩
  · rw [ne_eq, lex_swap, lex_lt]
  · rw [ne_eq, lex_lt]

/-- hence a total order: exactly one of <, =, > holds, and < is transitive. -/
theorem c16_total_partial (s t u : List Char) (hs : NulFree s) (ht : NulFree t) (hu : NulFree u) :
    ((stringLt s t = true ∧ stringEq s t = false ∧ stringGt s t = false) ∨
     (stringLt s t = false ∧ stringEq s t = true ∧ stringGt s t = false) ∨
     (stringLt s t = false ∧ stringEq s t = false ∧ stringGt s t = true)) ∧
    (stringLt s t = true → stringLt t u = true → stringLt s u = true) := by
  constructor
  · unfold stringEq stringLt stringGt
    cases strcmp s t <;> simp
  · rw [(c16_order_partial s t hs ht).2.1, (c16_order_partial t u ht hu).2.1, (c16_order_partial s u hs hu).2.1]
    exact fun h1 h2 => List.lt_trans h1 h2

example : NulFree "abc".toList ∧ NulFree "abd".toList ∧ stringLt "abc".toList "abd".toList = true := by
  unfold NulFree; decide

/-- Full statement for string=?. -/
def EqExact : Prop := ∀ s t : List Char, stringEq s t = true ↔ s = t

/-- The code violates it: characters after an embedded NUL are ignored. -/
theorem c16_counterexample : ¬ EqExact := by
  intro h
  have := (h ['a', nul, 'b'] ['a', nul, 'c']).1 (by decide)
  revert this; decide

/-- What string=? means for all strings: equality up to the first NUL. -/
theorem c16_general (s t : List Char) :
    strcmp s t = strcmp (s.takeWhile (· ≠ nul)) (t.takeWhile (· ≠ nul)) := by
  have hh : ∀ t : List Char, hd (t.takeWhile (· ≠ nul)) = hd t := by
    intro t
    cases t with
    | nil => rfl
    | cons b t =>
      by_cases h : b = nul
      · subst h; simp [hd]
      · simp [hd, List.takeWhile_cons, h]
  have ht : ∀ t : List Char, hd t ≠ nul → (t.takeWhile (· ≠ nul)).tail = t.tail.takeWhile (· ≠ nul) := by
    intro t h
    cases t with
    | nil => rfl
    | cons b t => simp [hd] at h; simp [List.takeWhile_cons, h]
  induction s generalizing t with
  | nil => simp only [strcmp, List.takeWhile_nil, hh]
  | cons a s ih =>
    by_cases h : a = nul
    · subst h
      rw [List.takeWhile_cons_of_neg (by simp)]
      simp only [strcmp, hh]
      by_cases h2 : hd t = nul
      · simp [h2]
      · rw [if_pos (Ne.symm h2), if_neg h2, Nat.compare_eq_lt, nul_toNat]
        rcases Nat.eq_zero_or_pos (hd t).toNat with h0 | h0
        · exact absurd (toNat_inj (h0.trans nul_toNat.symm)) h2
        · exact h0
    · rw [List.takeWhile_cons_of_pos (by simp [h])]
      simp only [strcmp, hh]
      by_cases h2 : a = hd t
      · rw [if_neg (by simpa using h2), if_neg h, if_neg (by simpa using h2), if_neg h, ih, ht t (h2 ▸ h)]
      · rw [if_pos h2, if_pos h2]

/-! ### case-insensitive comparison -/

/-- 7-bit characters -/
def Ascii (s : List Char) : Prop := ∀ c ∈ s, c.toNat < 128

theorem tolowerC_table : ∀ n < 128, tolowerC (Char.ofNat n) = ((tolower (Char.ofNat n)).toNat : Int) ∧
    (tolower (Char.ofNat n) = nul → Char.ofNat n = nul) := by decide +kernel

theorem tolowerC_ascii (c : Char) (h : c.toNat < 128) : tolowerC c = ((tolower c).toNat : Int) := by
  have := (tolowerC_table c.toNat h).1; rwa [Char.ofNat_toNat] at this

theorem tolower_nul (c : Char) (h : c.toNat < 128) : tolower c = nul ↔ c = nul := by
  constructor
  · have := (tolowerC_table c.toNat h).2; rwa [Char.ofNat_toNat] at this
  · rintro rfl; decide

/-- On 7-bit strings `strcmp_ci` compares the lower-cased strings with `strcmp`. -/
theorem c16_ci_partial (s t : List Char) (hs : Ascii s) (ht : Ascii t) :
    strcmpCi s t = strcmp (s.map tolower) (t.map tolower) := by
  have hhd : ∀ t : List Char, Ascii t → (hd t).toNat < 128 := by
    intro t ht
    cases t with
    | nil => decide
    | cons b t => exact ht b (by simp)
  have hm : ∀ t : List Char, hd (t.map tolower) = tolower (hd t) := by
    intro t; cases t with
    | nil => decide
    | cons b t => rfl
  have hcmp : ∀ a b : Nat, compare (a : Int) (b : Int) = compare a b := by
    intro a b
    rcases Nat.lt_trichotomy a b with h | h | h
    · rw [Nat.compare_eq_lt.2 h, Int.compare_eq_lt]; omega
    · subst h; rw [Nat.compare_eq_eq.2 rfl, Int.compare_eq_eq]
    · rw [Nat.compare_eq_gt.2 h, Int.compare_eq_gt]; omega
  induction s generalizing t with
  | nil =>
    have h0 := hhd t ht
    simp only [strcmpCi, strcmp, List.map_nil, hm, tolowerC_ascii _ h0]
    have hz : tolowerC nul = 0 := by decide
    rw [hz]
    by_cases h : tolower (hd t) = nul
    · rw [h, if_neg (by decide), if_pos rfl]
    · rw [if_neg h]
      have h1 : 0 < (tolower (hd t)).toNat := by
        rcases Nat.eq_zero_or_pos (tolower (hd t)).toNat with h0 | h0
        · exact absurd (toNat_inj (h0.trans nul_toNat.symm)) h
        · exact h0
      rw [if_pos (by omega), Int.compare_eq_lt]; omega
  | cons a s ih =>
    have h0 := hhd t ht
    have ha : a.toNat < 128 := hs a (by simp)
    simp only [strcmpCi, strcmp, List.map_cons, hm, tolowerC_ascii _ h0, tolowerC_ascii _ ha]
    by_cases h : tolower a = tolower (hd t)
    · have e1 : ¬ (((tolower a).toNat : Int) ≠ ((tolower (hd t)).toNat : Int)) := by rw [h]; simp
      have e2 : ¬ (tolower a ≠ tolower (hd t)) := not_not.2 h
      rw [if_neg e1, if_neg e2]
      by_cases h2 : a = nul
      · rw [if_neg (fun hh => hh.1 h2), if_pos ((tolower_nul a ha).2 h2)]
      · have h3 : hd t ≠ nul := fun h4 => h2 ((tolower_nul a ha).1 (h.trans ((tolower_nul _ h0).2 h4)))
        rw [if_pos ⟨h2, h3⟩, if_neg (fun h4 => h2 ((tolower_nul a ha).1 h4))]
        rw [ih t.tail (fun c hc => hs c (by simp [hc])) (fun c hc => ht c (List.mem_of_mem_tail hc)), List.map_tail]
    · rw [if_pos (fun h2 => h (toNat_inj (by omega))), if_pos h, hcmp]

example : Ascii "Hello".toList ∧ strcmpCi "Hello".toList "hELLO".toList = .eq := by unfold Ascii; decide

end Verif.Cmp
