import Verif.Width.Model
import Verif.Cmp.Props
import Verif.Num.Props
/-
Property theorems C26.
-/
namespace Verif.Width
open Verif.Cmp Verif.Num

/-- Specification: the integer denoted by a sign and digits. -/
def denotes (sign : Sign) (radix : Nat) (ds : List Char) : Int :=
  match sign with
  | .plus => value radix ds
  | .minus => -(value radix ds : Int)

/-- Specification: z fits a two's complement integer of w bits. -/
abbrev fits (w : Nat) (z : Int) : Prop := -(2:Int) ^ (w - 1) ≤ z ∧ z < (2:Int) ^ (w - 1)

/-- lower-case digits of a radix -/
def LowerDigits (r : Nat) (s : List Char) : Prop := ∀ c ∈ s, isDig r c = true ∧ ¬ ('A' ≤ c ∧ c ≤ 'Z')

/-- canonical digit sequence -/
def Canon (r : Nat) (s : List Char) : Prop := s ≠ [] ∧ LowerDigits r s ∧ (s.head? = some '0' → s = ['0'])

theorem value_lt (r : Nat) (s : List Char) (h : ∀ c ∈ s, isDig r c = true) : value r s < r ^ s.length := by
  induction s with
  | nil => simp [value]
  | cons c t ih =>
    rw [value_cons, List.length_cons, Nat.pow_succ]
    have h1 := ih (fun c hc => h c (by simp [hc]))
    have h2 := h c (by simp)
    have h3 : (digVal c).getD 0 < r := by
      unfold isDig at h2
      cases hd : digVal c with
      | none => rw [hd] at h2; simp at h2
      | some d => rw [hd] at h2; simpa using h2
    have h4 : ((digVal c).getD 0 + 1) * r ^ t.length ≤ r * r ^ t.length := Nat.mul_le_mul_right _ h3
    rw [Nat.add_mul] at h4
    rw [Nat.mul_comm (r ^ t.length) r]; omega

theorem digit_cases (r : Nat) (c : Char) (h : isDig r c = true ∧ ¬ ('A' ≤ c ∧ c ≤ 'Z')) :
    (48 ≤ c.toNat ∧ c.toNat ≤ 57 ∧ (digVal c).getD 0 = c.toNat - 48) ∨
    (97 ≤ c.toNat ∧ c.toNat ≤ 122 ∧ (digVal c).getD 0 = c.toNat - 87) := by
  obtain ⟨h1, h2⟩ := h
  unfold isDig at h1
  unfold digVal at h1 ⊢
  by_cases a : '0' ≤ c ∧ c ≤ '9'
  · left; rw [if_pos a]; exact ⟨a.1, a.2, rfl⟩
  · rw [if_neg a] at h1 ⊢
    by_cases b : 'a' ≤ c ∧ c ≤ 'z'
    · right; rw [if_pos b]
      have : (97:Nat) ≤ c.toNat := b.1
      refine ⟨b.1, b.2, ?_⟩
      simp only [Option.getD_some]; omega
    · rw [if_neg b, if_neg h2] at h1; simp at h1

theorem digit_mono (r : Nat) (c d : Char) (hc : isDig r c = true ∧ ¬ ('A' ≤ c ∧ c ≤ 'Z'))
    (hd : isDig r d = true ∧ ¬ ('A' ≤ d ∧ d ≤ 'Z')) : (digVal c).getD 0 < (digVal d).getD 0 ↔ c < d := by
  have e : c < d ↔ c.toNat < d.toNat := Iff.rfl
  rw [e]
  rcases digit_cases r c hc with ⟨a, b, h⟩ | ⟨a, b, h⟩ <;> rcases digit_cases r d hd with ⟨a', b', h'⟩ | ⟨a', b', h'⟩ <;>
    rw [h, h'] <;> omega

theorem lower_nulfree (r : Nat) (s : List Char) (h : LowerDigits r s) : NulFree s := by
  intro c hc
  rintro rfl
  have := (h _ hc).1
  revert this
  unfold isDig
  have : digVal nul = none := by decide
  rw [this]; simp

/-- equal lengths: lexicographic order is numeric order -/
theorem lex_value (r : Nat) : ∀ s t : List Char, s.length = t.length → LowerDigits r s → LowerDigits r t →
    (lex s t ≠ .gt ↔ value r s ≤ value r t) := by
  intro s
  induction s with
  | nil => intro t hl _ _; cases t with
    | nil => simp [lex]
    | cons b t => simp at hl
  | cons a s ih =>
    intro t hl hs ht
    cases t with
    | nil => simp at hl
    | cons b t =>
      simp only [List.length_cons, Nat.add_right_cancel_iff] at hl
      have hs' : LowerDigits r s := fun c hc => hs c (by simp [hc])
      have ht' : LowerDigits r t := fun c hc => ht c (by simp [hc])
      have vs := value_lt r s (fun c hc => (hs' c hc).1)
      have vt := value_lt r t (fun c hc => (ht' c hc).1)
      rw [value_cons, value_cons, lex, hl]
      rw [hl] at vs
      by_cases h : a = b
      · subst h; rw [if_pos rfl, ih t hl hs' ht']; omega
      · rw [if_neg h]
        have m1 := digit_mono r a b (hs a (by simp)) (ht b (by simp))
        have m2 := digit_mono r b a (ht b (by simp)) (hs a (by simp))
        by_cases h2 : a < b
        · rw [if_pos h2]
          have := m1.2 h2
          have h4 : ((digVal a).getD 0 + 1) * r ^ t.length ≤ (digVal b).getD 0 * r ^ t.length := Nat.mul_le_mul_right _ this
          rw [Nat.add_mul] at h4
          simp; omega
        · rw [if_neg h2]
          have h3 : b < a := by
            have : a.toNat ≠ b.toNat := fun he => h (toNat_inj he)
            have h4 : ¬ a.toNat < b.toNat := h2
            exact (show b.toNat < a.toNat by omega)
          have := m2.2 h3
          have h4 : ((digVal b).getD 0 + 1) * r ^ t.length ≤ (digVal a).getD 0 * r ^ t.length := Nat.mul_le_mul_right _ this
          rw [Nat.add_mul] at h4
          simp; omega

theorem value_ge (r : Nat) (hr : 2 ≤ r) (s : List Char) (hs : Canon r s) (h1 : 2 ≤ s.length) :
    r ^ (s.length - 1) ≤ value r s := by
  obtain ⟨hne, hl, h0⟩ := hs
  cases s with
  | nil => exact absurd rfl hne
  | cons c t =>
    rw [value_cons, List.length_cons, Nat.add_sub_cancel]
    have hc : c ≠ '0' := by
      rintro rfl
      have := h0 rfl
      rw [this] at h1; simp at h1
    have : 1 ≤ (digVal c).getD 0 := by
      have hc' : c.toNat ≠ 48 := fun he => hc (toNat_inj he)
      rcases digit_cases r c (hl c (by simp)) with ⟨a, b, h⟩ | ⟨a, b, h⟩ <;> rw [h] <;> omega
    have h4 : 1 * r ^ t.length ≤ (digVal c).getD 0 * r ^ t.length := Nat.mul_le_mul_right _ this
    omega

theorem sLe_value (r : Nat) (hr : 2 ≤ r) (s t : List Char) (hs : Canon r s) (ht : Canon r t) :
    sLe s t = true ↔ value r s ≤ value r t := by
  have ls : 0 < s.length := List.length_pos_of_ne_nil hs.1
  have lt : 0 < t.length := List.length_pos_of_ne_nil ht.1
  have vs := value_lt r s (fun c hc => (hs.2.1 c hc).1)
  have vt := value_lt r t (fun c hc => (ht.2.1 c hc).1)
  unfold sLe
  by_cases h : s.length < t.length
  · rw [if_pos h]
    have h1 := value_ge r hr t ht (by omega)
    have h2 : r ^ s.length ≤ r ^ (t.length - 1) := Nat.pow_le_pow_right (by omega) (by omega)
    simp; omega
  · rw [if_neg h]
    by_cases h' : s.length > t.length
    · rw [if_pos h']
      have h1 := value_ge r hr s hs (by omega)
      have h2 : r ^ t.length ≤ r ^ (s.length - 1) := Nat.pow_le_pow_right (by omega) (by omega)
      simp; omega
    · rw [if_neg h']
      unfold stringLe
      rw [strcmp_lex _ _ (lower_nulfree r s hs.2.1) (lower_nulfree r t ht.2.1), bne_iff_ne]
      exact lex_value r s t (by omega) hs.2.1 ht.2.1

/-- boolean form of Canon, for the table -/
def canonB (r : Nat) (s : List Char) : Bool :=
  s ≠ [] && s.all (fun c => isDig r c && !('A' ≤ c && c ≤ 'Z')) && (s.head? != some '0' || s == ['0'])

theorem canonB_iff (r : Nat) (s : List Char) (h : canonB r s = true) : Canon r s := by
  unfold canonB at h
  simp only [Bool.and_eq_true, List.all_eq_true, Bool.or_eq_true, decide_eq_true_eq, bne_iff_ne, beq_iff_eq,
    Bool.not_eq_true', ne_eq] at h
  refine ⟨h.1.1, ?_, ?_⟩
  · intro c hc
    have := h.1.2 c hc
    refine ⟨this.1, ?_⟩
    rintro ⟨h1, h2⟩
    simp [h1, h2] at this
  · intro h0; rcases h.2 with h1 | h1
    · exact absurd h0 h1
    · exact h1

/-- every row of the table is what it should be -/
theorem table_ok : ∀ r ∈ [2, 8, 10, 16], ∃ rows, table.lookup r = some rows ∧ rows.map (·.1) = [8, 16, 24, 32, 40, 48, 56, 64] ∧
    ∀ row ∈ rows, canonB r row.2.1.toList = true ∧ canonB r row.2.2.toList = true ∧
      value r row.2.1.toList = 2 ^ (row.1 - 1) ∧ value r row.2.2.toList + 1 = 2 ^ (row.1 - 1) := by
  intro r hr
  simp only [List.mem_cons, List.not_mem_nil, or_false] at hr
  rcases hr with rfl | rfl | rfl | rfl
  all_goals exact ⟨_, rfl, by decide +kernel, by decide +kernel⟩

theorem widthLoop_spec (r : Nat) (hr : 2 ≤ r) (sign : Sign) (s : List Char) (hs : Canon r s) :
    ∀ rows : List (Nat × String × String),
    (∀ row ∈ rows, canonB r row.2.1.toList = true ∧ canonB r row.2.2.toList = true ∧
      value r row.2.1.toList = 2 ^ (row.1 - 1) ∧ value r row.2.2.toList + 1 = 2 ^ (row.1 - 1)) →
    widthLoop sign s rows = (rows.map (·.1)).find? (fun w => decide (fits w (denotes sign r s))) := by
  intro rows
  induction rows with
  | nil => intro _; rfl
  | cons row rows ih =>
    intro h
    obtain ⟨w, neg, pos⟩ := row
    obtain ⟨c1, c2, v1, v2⟩ := h _ (List.mem_cons_self ..)
    simp only at c1 c2 v1 v2
    have ih' := ih (fun row hrow => h row (by simp [hrow]))
    have e1 := sLe_value r hr s neg.toList hs (canonB_iff _ _ c1)
    have e2 := sLe_value r hr s pos.toList hs (canonB_iff _ _ c2)
    have hp : ((2 ^ (w - 1) : Nat) : Int) = (2:Int) ^ (w - 1) := by push_cast; rfl
    rw [widthLoop, List.map_cons, List.find?_cons, ih']
    cases sign with
    | plus =>
      rw [if_neg (by simp)]
      have hf : fits w (denotes .plus r s) ↔ sLe s pos.toList = true := by
        rw [e2]; unfold fits denotes; simp only; rw [← hp]; omega
      by_cases hh : sLe s pos.toList = true
      · rw [if_pos ⟨rfl, hh⟩]; simp [hf.2 hh]
      · rw [if_neg (fun h => hh h.2)]
        have : ¬ fits w (denotes .plus r s) := fun h => hh (hf.1 h)
        simp [this]
    | minus =>
      have hf : fits w (denotes .minus r s) ↔ sLe s neg.toList = true := by
        rw [e1]; unfold fits denotes; simp only; rw [← hp]
        have : 0 < 2 ^ (w - 1) := Nat.pow_pos (by omega)
        omega
      by_cases hh : sLe s neg.toList = true
      · rw [if_pos ⟨rfl, hh⟩]; simp [hf.2 hh]
      · rw [if_neg (fun h => hh h.2), if_neg (by simp)]
        have : ¬ fits w (denotes .minus r s) := fun h => hh (hf.1 h)
        simp [this]

theorem width_spec (sign : Sign) (r : Nat) (hr : r ∈ [2, 8, 10, 16]) (s : List Char) (hs : Canon r s) :
    width sign s r = [8, 16, 24, 32, 40, 48, 56, 64].find? (fun w => decide (fits w (denotes sign r s))) := by
  obtain ⟨rows, h1, h2, h3⟩ := table_ok r hr
  have hr2 : 2 ≤ r := by
    simp only [List.mem_cons, List.not_mem_nil, or_false] at hr; omega
  rw [width, h1, Option.getD_some, widthLoop_spec r hr2 sign s hs rows h3, h2]

/-! ### digit reading -/

theorem position_shift (c : Char) (l : List Char) : ∀ i, position c l i = (position c l 0).map (· + i) := by
  induction l with
  | nil => intro i; rfl
  | cons d t ih =>
    intro i
    simp only [position]
    by_cases h : c = d
    · simp [h]
    · rw [if_neg h, if_neg h, ih (i + 1), ih 1, Option.map_map]
      congr 1; funext x; simp; omega

theorem position_none_of (c : Char) (l : List Char) (h : c ∉ l) : ∀ i, position c l i = none := by
  induction l with
  | nil => intro i; rfl
  | cons d t ih =>
    intro i
    rw [position, if_neg (by rintro rfl; exact h (by simp)), ih (fun hh => h (by simp [hh]))]

theorem digit_table : ∀ n < 128, position (tolower (Char.ofNat n)) "0123456789abcdefghijklmnopqrstuvwxyz".toList 0
    = digVal (Char.ofNat n) ∧ ((digVal (Char.ofNat n)).isSome → digVal (tolower (Char.ofNat n)) = digVal (Char.ofNat n) ∧
      ¬ ('A' ≤ tolower (Char.ofNat n) ∧ tolower (Char.ofNat n) ≤ 'Z')) := by
  decide +kernel

theorem big_not_digit (c : Char) (h : 128 ≤ c.toNat) : digVal c = none ∧ tolower c = c ∧
    c ∉ "0123456789abcdefghijklmnopqrstuvwxyz".toList := by
  have g : ∀ d : Char, d.toNat < 128 → ¬ c ≤ d := by
    intro d hd hle
    have : c.toNat ≤ d.toNat := hle
    omega
  refine ⟨?_, ?_, ?_⟩
  · unfold digVal
    rw [if_neg (fun hh => g _ (by decide) hh.2), if_neg (fun hh => g _ (by decide) hh.2), if_neg (fun hh => g _ (by decide) hh.2)]
  · unfold tolower; rw [if_neg (fun hh => g _ (by decide) hh.2)]
  · intro hm
    have : ∀ d ∈ "0123456789abcdefghijklmnopqrstuvwxyz".toList, d.toNat < 128 := by decide
    have := this c hm; omega

theorem position_digVal (c : Char) :
    position (tolower c) "0123456789abcdefghijklmnopqrstuvwxyz".toList 0 = digVal c := by
  by_cases h : c.toNat < 128
  · have := (digit_table c.toNat h).1; rwa [Char.ofNat_toNat] at this
  · obtain ⟨h1, h2, h3⟩ := big_not_digit c (by omega)
    rw [h1, h2]; exact position_none_of _ _ h3 0

/-- `char-digit-value` is the digit value, for every character. -/
theorem charDigitValue_spec (c : Char) (r : Nat) :
    charDigitValue c r = if isDig r c = true then digVal c else none := by
  unfold charDigitValue isDig
  rw [position_digVal]
  cases h : digVal c with
  | none => simp
  | some d =>
    by_cases hd : d < r
    · simp [hd, Nat.not_le.2 hd]
    · simp [hd, Nat.not_lt.1 hd]

theorem tolower_digit (r : Nat) (c : Char) (h : isDig r c = true) :
    digVal (tolower c) = digVal c ∧ (isDig r (tolower c) = true ∧ ¬ ('A' ≤ tolower c ∧ tolower c ≤ 'Z')) := by
  have hs : (digVal c).isSome := by
    unfold isDig at h
    cases hd : digVal c with
    | none => rw [hd] at h; simp at h
    | some d => rfl
  by_cases hc : c.toNat < 128
  · have := (digit_table c.toNat hc).2
    rw [Char.ofNat_toNat] at this
    obtain ⟨h1, h2⟩ := this hs
    refine ⟨h1, ?_, h2⟩
    unfold isDig at h ⊢; rw [h1]; exact h
  · rw [(big_not_digit c (by omega)).1] at hs; simp at hs

theorem stripZeros_spec (r : Nat) : ∀ s : List Char, s ≠ [] → LowerDigits r s →
    Canon r (stripZeros s) ∧ value r (stripZeros s) = value r s := by
  intro s
  induction s with
  | nil => intro h; exact absurd rfl h
  | cons c t ih =>
    intro _ hl
    cases t with
    | nil =>
      refine ⟨⟨by simp [stripZeros], hl, ?_⟩, rfl⟩
      intro h; simp [stripZeros] at h; simp [stripZeros, h]
    | cons d t =>
      rw [stripZeros]
      by_cases h : c = '0'
      · rw [if_pos h]
        obtain ⟨h1, h2⟩ := ih (by simp) (fun x hx => hl x (by simp [List.mem_cons.1 hx]))
        refine ⟨h1, ?_⟩
        rw [h2, value_cons r c, h]
        have : (digVal '0').getD 0 = 0 := by decide
        rw [this]; simp
      · rw [if_neg h]
        refine ⟨⟨by simp, hl, ?_⟩, rfl⟩
        intro h0; simp at h0; exact absurd h0 h

theorem subread_loop (sign : Sign) (r : Nat) : ∀ (ds rest acc : List Char), (∀ c ∈ ds, isDig r c = true) →
    (∀ c, rest.head? = some c → isDig r c = false) →
    subreadUinteger sign r (ds ++ rest) acc = (integerDatum sign ((ds.map tolower).reverse ++ acc) r).map (·, rest) := by
  intro ds
  induction ds with
  | nil =>
    intro rest acc _ hr
    cases rest with
    | nil => rfl
    | cons c rest =>
      have := hr c rfl
      simp only [List.nil_append, subreadUinteger, charDigitValue_spec, this]
      simp
  | cons c ds ih =>
    intro rest acc hd hr
    have hc := hd c (by simp)
    have hs : ∃ d, digVal c = some d := by
      unfold isDig at hc
      cases hd : digVal c with
      | none => rw [hd] at hc; simp at hc
      | some d => exact ⟨d, rfl⟩
    obtain ⟨d, hd'⟩ := hs
    simp only [List.cons_append, subreadUinteger, charDigitValue_spec, hc, if_true, hd']
    rw [ih rest _ (fun x hx => hd x (by simp [hx])) hr]
    simp

theorem value_map_lower (r : Nat) (ds : List Char) (h : ∀ c ∈ ds, isDig r c = true) :
    value r (ds.map tolower) = value r ds := by
  induction ds with
  | nil => rfl
  | cons c t ih =>
    rw [List.map_cons, value_cons, value_cons, ih (fun x hx => h x (by simp [hx])), (tolower_digit r c (h c (by simp))).1]
    simp

theorem find_least (p : Nat → Bool) : ∀ l : List Nat, l.Pairwise (· < ·) → ∀ w,
    (l.find? p = some w ↔ w ∈ l ∧ p w = true ∧ ∀ w' ∈ l, p w' = true → w ≤ w') := by
  intro l
  induction l with
  | nil => intro _ w; simp
  | cons a t ih =>
    intro hp w
    rw [List.pairwise_cons] at hp
    rw [List.find?_cons]
    cases ha : p a with
    | true =>
      simp only [Option.some.injEq]
      constructor
      · rintro rfl
        refine ⟨by simp, ha, ?_⟩
        intro w' hw' _
        rcases List.mem_cons.1 hw' with rfl | h
        · exact Nat.le_refl _
        · exact Nat.le_of_lt (hp.1 w' h)
      · rintro ⟨h1, h2, h3⟩
        rcases List.mem_cons.1 h1 with rfl | h
        · rfl
        · have := h3 a (by simp) ha
          have := hp.1 w h
          omega
    | false =>
      simp only
      rw [ih hp.2]
      constructor
      · rintro ⟨h1, h2, h3⟩
        refine ⟨by simp [h1], h2, ?_⟩
        intro w' hw' hpw
        rcases List.mem_cons.1 hw' with rfl | h
        · rw [ha] at hpw; simp at hpw
        · exact h3 w' h hpw
      · rintro ⟨h1, h2, h3⟩
        rcases List.mem_cons.1 h1 with rfl | h
        · rw [ha] at h2; simp at h2
        · exact ⟨h, h2, fun w' hw' => h3 w' (by simp [hw'])⟩

/-! ## C26 -/

/-- Reading a non-empty digit sequence (any case, leading zeros allowed) in radix 2, 8, 10 or 16 yields an integer
datum with the same value whose recorded width is the least supported width whose two's complement range
contains the number; `none` (`big`) if there is no such width. -/
theorem c26_width (sign : Sign) (r : Nat) (hr : r ∈ [2, 8, 10, 16]) (ds rest : List Char) (hne : ds ≠ [])
    (hd : ∀ c ∈ ds, isDig r c = true) (hrest : ∀ c, rest.head? = some c → isDig r c = false) :
    ∃ d : IntDatum, subreadUinteger sign r (ds ++ rest) [] = some (d, rest) ∧
      d.sign = sign ∧ d.radix = r ∧ value r d.digits = value r ds ∧
      (∀ w, d.width = some w ↔ w ∈ [8, 16, 24, 32, 40, 48, 56, 64] ∧ fits w (denotes sign r ds) ∧
        ∀ w' ∈ [8, 16, 24, 32, 40, 48, 56, 64], fits w' (denotes sign r ds) → w ≤ w') ∧
      (d.width = none ↔ ¬ fits 64 (denotes sign r ds)) := by
  rw [subread_loop sign r ds rest [] hd hrest, List.append_nil]
  have hl : LowerDigits r (ds.map tolower) := by
    intro c hc
    rw [List.mem_map] at hc
    obtain ⟨a, ha, rfl⟩ := hc
    exact (tolower_digit r a (hd a ha)).2
  have hne' : ds.map tolower ≠ [] := by simpa using hne
  have hne2 : (ds.map tolower).reverse ≠ [] := by simpa using hne
  rw [integerDatum, if_neg hne2, List.reverse_reverse]
  obtain ⟨hc, hv⟩ := stripZeros_spec r _ hne' hl
  rw [value_map_lower r ds hd] at hv
  have hden : denotes sign r (stripZeros (ds.map tolower)) = denotes sign r ds := by
    unfold denotes; rw [hv]
  refine ⟨_, rfl, rfl, rfl, hv, ?_, ?_⟩
  · intro w
    rw [width_spec sign r hr _ hc, hden, find_least _ _ (by decide)]
    simp only [decide_eq_true_eq]
  · rw [width_spec sign r hr _ hc, hden, List.find?_eq_none]
    simp only [decide_eq_true_eq]
    constructor
    · intro h; exact h 64 (by simp)
    · intro h w hw hf
      apply h
      generalize denotes sign r ds = z at hf
      unfold fits at hf ⊢
      simp only [List.mem_cons, List.not_mem_nil, or_false] at hw
      rcases hw with rfl | rfl | rfl | rfl | rfl | rfl | rfl | rfl <;> norm_num at hf ⊢ <;> omega

example : let ds := "00fF".toList
    (16:Nat) ∈ [2, 8, 10, 16] ∧ ds ≠ [] ∧ (∀ c ∈ ds, isDig 16 c = true) ∧
      (∀ c, (")".toList).head? = some c → isDig 16 c = false) := by
  refine ⟨by decide, by decide, by decide, ?_⟩
  intro c hc; cases hc; decide
example : width .minus "32768".toList 10 = some 16 ∧ width .plus "32768".toList 10 = some 24 := by decide +kernel

end Verif.Width
