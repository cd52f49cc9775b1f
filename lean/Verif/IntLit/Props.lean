import Verif.IntLit.Model
import Verif.Width.Props
/-
Property C83: integer literals reach the C compiler unchanged.
-/
namespace Verif.IntLit
open Verif.Width Verif.Num

/-! ### Specification: integer constants of C (C90 6.1.3.2), with a sign in front -/

/-- All characters are digits of the radix. -/
def digits (r : Nat) (s : List Char) : Bool := s.all (isDig r)

/-- An integer constant without suffix: hexadecimal after `0x`, octal after `0`, decimal otherwise. -/
def cConst (s : List Char) : Option Nat :=
  if s.take 2 = ['0', 'x'] then (if s.drop 2 ≠ [] ∧ digits 16 (s.drop 2) = true then some (value 16 (s.drop 2)) else none)
  else if s.head? = some '0' then (if digits 8 s.tail = true then some (value 8 s.tail) else none)
  else if s ≠ [] ∧ digits 10 s = true then some (value 10 s) else none

/-- Unary plus or minus and a constant. -/
def cExpr (s : List Char) : Option Int :=
  if s.head? = some '-' then (cConst s.tail).map fun n => -(n : Int)
  else if s.head? = some '+' then (cConst s.tail).map fun n => (n : Int)
  else (cConst s).map fun n => (n : Int)

example : cExpr "-0x1f".toList = some (-31) ∧ cExpr "+010".toList = some 8 ∧ cExpr "10".toList = some 10 ∧ cExpr "08".toList = none := by decide

/-! ### Proofs -/

theorem value_snoc (r : Nat) (s : List Char) (c : Char) : value r (s ++ [c]) = value r s * r + (digVal c).getD 0 := by
  simp [value, List.foldl_append]

theorem binary_digit (c : Char) (h : isDig 2 c = true) : c = '0' ∨ c = '1' := by
  have hu : ¬ ('A' ≤ c ∧ c ≤ 'Z') := by
    rintro ⟨h1, h2⟩
    have a1 : 65 ≤ c.toNat := h1
    have a2 : c.toNat ≤ 90 := h2
    unfold isDig digVal at h
    rw [if_neg (by rintro ⟨_, h4⟩; have : c.toNat ≤ 57 := h4; omega), if_neg (by rintro ⟨h3, _⟩; have : 97 ≤ c.toNat := h3; omega), if_pos ⟨h1, h2⟩] at h
    simp at h
    omega
  have hlt : (digVal c).getD 0 < 2 := by
    unfold isDig at h
    cases hd : digVal c with
    | none => simp
    | some d => rw [hd] at h; simpa using h
  rcases digit_cases 2 c ⟨h, hu⟩ with ⟨h1, h2, h3⟩ | ⟨h1, h2, h3⟩
  · rw [h3] at hlt
    have : c.toNat = 48 ∨ c.toNat = 49 := by omega
    rcases this with e | e
    · left; exact Char.toNat_inj.1 e
    · right; exact Char.toNat_inj.1 e
  · omega

theorem binOct_spec : ∀ (d l : List Char), (∀ c ∈ d, c = '0' ∨ c = '1') →
    ∃ o, binOct d l = some (o ++ l) ∧ digits 8 o = true ∧ value 8 o = value 2 d.reverse
  | [], l, _ => ⟨[], rfl, rfl, rfl⟩
  | [a], l, h => by
    rcases h a (by simp) with rfl | rfl
    · exact ⟨['0'], rfl, by decide, by decide⟩
    · exact ⟨['1'], rfl, by decide, by decide⟩
  | [b, a], l, h => by
    rcases h a (by simp) with rfl | rfl <;> rcases h b (by simp) with rfl | rfl
    · exact ⟨['0'], rfl, by decide, by decide⟩
    · exact ⟨['1'], rfl, by decide, by decide⟩
    · exact ⟨['2'], rfl, by decide, by decide⟩
    · exact ⟨['3'], rfl, by decide, by decide⟩
  | c :: b :: a :: d, l, h => by
    have key : ∃ x, octDigit a b c = some x ∧ isDig 8 x = true ∧
        (digVal x).getD 0 = ((digVal a).getD 0 * 2 + (digVal b).getD 0) * 2 + (digVal c).getD 0 := by
      rcases h a (by simp) with rfl | rfl <;> rcases h b (by simp) with rfl | rfl <;> rcases h c (by simp) with rfl | rfl <;>
        exact ⟨_, rfl, by decide, by decide⟩
    obtain ⟨x, h1, h2, h3⟩ := key
    obtain ⟨o, e1, e2, e3⟩ := binOct_spec d (x :: l) fun z hz => h z (by simp [hz])
    refine ⟨o ++ [x], ?_, ?_, ?_⟩
    · rw [binOct, h1]
      show binOct d (x :: l) = _
      rw [e1]; simp
    · unfold digits at e2 ⊢
      rw [List.all_append, e2]; simp [h2]
    · simp only [List.reverse_cons, value_snoc, e3, h3]
      ring

theorem digits_of {r : Nat} {s : List Char} (h : LowerDigits r s) : digits r s = true := by
  unfold digits
  rw [List.all_eq_true]
  exact fun c hc => (h c hc).1

theorem cConst_oct (s : List Char) (h : digits 8 s = true) : cConst ('0' :: s) = some (value 8 s) := by
  unfold cConst
  rw [if_neg, if_pos (by simp), if_pos (by simpa using h)]
  · rfl
  · intro e
    cases s with
    | nil => simp at e
    | cons c s =>
      simp only [List.take_succ_cons, List.take_zero, List.cons.injEq, and_true, true_and] at e
      subst e
      unfold digits at h
      rw [List.all_cons] at h
      have : isDig 8 'x' = false := by decide
      rw [this] at h
      simp at h

theorem cConst_hex (s : List Char) (hn : s ≠ []) (h : digits 16 s = true) : cConst ('0' :: 'x' :: s) = some (value 16 s) := by
  unfold cConst
  rw [if_pos (by simp), if_pos (by simpa using ⟨hn, h⟩)]
  rfl

theorem cConst_dec (s : List Char) (h : Canon 10 s) : cConst s = some (value 10 s) := by
  obtain ⟨h1, h2, h3⟩ := h
  by_cases h0 : s.head? = some '0'
  · rw [h3 h0]; decide
  · unfold cConst
    rw [if_neg, if_neg h0, if_pos ⟨h1, digits_of h2⟩]
    intro e
    apply h0
    cases s with
    | nil => exact absurd rfl h1
    | cons c s => simp at e; simp [e.1]

theorem cExpr_sign (sign : Sign) (r n : Nat) (ds s : List Char) (h : cConst s = some n) (hv : value r ds = n) :
    cExpr (signText sign ++ s) = some (denotes sign r ds) := by
  cases sign with
  | plus => simp [cExpr, signText, h, denotes, hv]
  | minus => simp [cExpr, signText, h, denotes, hv]

theorem cExpr_zero (n : Nat) (s : List Char) (h : cConst ('0' :: s) = some n) : cExpr ('0' :: s) = some (n : Int) := by
  simp [cExpr, h]

/-- A datum as the reader builds it. -/
theorem constText_spec (d : IntDatum) (hr : d.radix ∈ [2, 8, 10, 16]) (hc : Canon d.radix d.digits) (hs : small d.width = true) :
    ∃ t, constText d = some t ∧ cExpr t = some (denotes d.sign d.radix d.digits) := by
  obtain ⟨w, sg, s, r⟩ := d
  simp only at hr hc hs
  obtain ⟨c1, c2, c3⟩ := hc
  simp only [List.mem_cons, List.not_mem_nil, or_false] at hr
  rcases hr with rfl | rfl | rfl | rfl
  · obtain ⟨o, e1, e2, e3⟩ := binOct_spec s.reverse [] fun c h => binary_digit c (c2 c (by simpa using h)).1
    rw [List.reverse_reverse] at e3
    refine ⟨signText sg ++ '0' :: o, ?_, cExpr_sign sg 2 _ s _ (cConst_oct o e2) e3.symm⟩
    simp [constText, hs, e1]
  · exact ⟨_, by simp [constText, hs], cExpr_sign sg 8 _ s _ (cConst_oct s (digits_of c2)) rfl⟩
  · exact ⟨_, by simp [constText, hs], cExpr_sign sg 10 _ s _ (cConst_dec s ⟨c1, c2, c3⟩) rfl⟩
  · exact ⟨_, by simp [constText, hs], cExpr_sign sg 16 _ s _ (cConst_hex s c1 (digits_of c2)) rfl⟩

theorem constText0_spec (d : IntDatum) (hr : d.radix = 10 ∨ d.sign = .plus ∧ (d.radix = 8 ∨ d.radix = 16)) (hc : Canon d.radix d.digits)
    (hs : small d.width = true) : ∃ t, constText0 d = some t ∧ cExpr t = some (denotes d.sign d.radix d.digits) := by
  obtain ⟨w, sg, s, r⟩ := d
  simp only at hr hc hs
  obtain ⟨c1, c2, c3⟩ := hc
  rcases hr with rfl | ⟨rfl, rfl | rfl⟩
  · exact ⟨_, by simp [constText0, hs], cExpr_sign sg 10 _ s _ (cConst_dec s ⟨c1, c2, c3⟩) rfl⟩
  · exact ⟨_, by simp [constText0, hs], cExpr_zero _ _ (cConst_oct s (digits_of c2))⟩
  · exact ⟨_, by simp [constText0, hs], cExpr_zero _ _ (cConst_hex s c1 (digits_of c2))⟩

/-- What the reader builds for digits. -/
theorem reader (sign : Sign) (r : Nat) (hr : r ∈ [2, 8, 10, 16]) (ds rest : List Char) (hne : ds ≠ [])
    (hd : ∀ c ∈ ds, isDig r c = true) (hrest : ∀ c, rest.head? = some c → isDig r c = false) :
    ∃ d, subreadUinteger sign r (ds ++ rest) [] = some (d, rest) ∧ d.sign = sign ∧ d.radix = r ∧ Canon r d.digits ∧
      denotes sign r d.digits = denotes sign r ds ∧ (small d.width = true ↔ fits 24 (denotes sign r ds)) := by
  have hl : LowerDigits r (ds.map Cmp.tolower) := by
    intro c hc
    rw [List.mem_map] at hc
    obtain ⟨a, ha, rfl⟩ := hc
    exact (tolower_digit r a (hd a ha)).2
  obtain ⟨hc, _⟩ := stripZeros_spec r (ds.map Cmp.tolower) (by simpa using hne) hl
  obtain ⟨d, h1, h2, h3, h4, h5, h6⟩ := c26_width sign r hr ds rest hne hd hrest
  have hdig : d.digits = stripZeros (ds.map Cmp.tolower) := by
    rw [subread_loop sign r ds rest [] hd hrest, List.append_nil, integerDatum, if_neg (by simpa using hne), List.reverse_reverse] at h1
    simp only [Option.map_some, Option.some.injEq, Prod.mk.injEq, and_true] at h1
    rw [← h1]
  refine ⟨d, h1, h2, h3, hdig ▸ hc, ?_, ?_⟩
  · unfold denotes; rw [h4]
  · constructor
    · intro h
      simp only [small, decide_eq_true_eq] at h
      have : ∀ w, d.width = some w → w = 8 ∨ w = 16 ∨ w = 24 → fits 24 (denotes sign r ds) := by
        intro w hw hw'
        have := ((h5 w).1 hw).2.1
        unfold fits at this ⊢
        rcases hw' with rfl | rfl | rfl <;> norm_num at this ⊢ <;> omega
      rcases h with h | h | h
      · exact this _ h (by simp)
      · exact this _ h (by simp)
      · exact this _ h (by simp)
    · intro h
      cases hw : d.width with
      | none =>
        exfalso
        apply h6.1 hw
        unfold fits at h ⊢
        norm_num at h ⊢
        omega
      | some w =>
        obtain ⟨a1, _, a3⟩ := (h5 w).1 hw
        have := a3 24 (by simp) h
        simp only [List.mem_cons, List.not_mem_nil, or_false] at a1
        simp only [small, decide_eq_true_eq, Option.some.injEq]
        omega

/-- A literal in any of the four radixes, with leading zeros and in any case: if its value is a number of 24 bits, the C text emitted for it under LibL denotes that value; other
literals are rejected, never truncated. -/
theorem c83_literal (sign : Sign) (r : Nat) (hr : r ∈ [2, 8, 10, 16]) (ds rest : List Char) (hne : ds ≠ [])
    (hd : ∀ c ∈ ds, isDig r c = true) (hrest : ∀ c, rest.head? = some c → isDig r c = false) :
    ∃ d, subreadUinteger sign r (ds ++ rest) [] = some (d, rest) ∧
      (fits 24 (denotes sign r ds) → ∃ t, constText d = some t ∧ cExpr t = some (denotes sign r ds)) ∧
      (¬ fits 24 (denotes sign r ds) → constText d = none) := by
  obtain ⟨d, h1, h2, h3, h4, h5, h6⟩ := reader sign r hr ds rest hne hd hrest
  refine ⟨d, h1, fun h => ?_, fun h => ?_⟩
  · obtain ⟨t, e1, e2⟩ := constText_spec d (h3 ▸ hr) (h3 ▸ h4) (h6.2 h)
    rw [h2, h3, h5] at e2
    exact ⟨t, e1, e2⟩
  · unfold constText
    rw [if_neg fun hh => h (h6.1 hh)]

example : (∀ c ∈ "0011010".toList, isDig 2 c = true) ∧ isDig 2 ')' = false ∧ fits 24 (denotes .minus 2 "0011010".toList) ∧
    constText ⟨some 8, .minus, "11010".toList, 2⟩ = some "-032".toList ∧ cExpr "-032".toList = some (denotes .minus 2 "0011010".toList) := by
  refine ⟨by decide, by decide, ?_, by decide, ?_⟩ <;> unfold denotes <;> decide

/-- The same under the basic library, for decimal literals of any sign, and octal and hexadecimal ones with a plus or no sign. -/
theorem c83_base_partial (sign : Sign) (r : Nat) (hr : r = 10 ∨ sign = .plus ∧ (r = 8 ∨ r = 16)) (ds rest : List Char) (hne : ds ≠ [])
    (hd : ∀ c ∈ ds, isDig r c = true) (hrest : ∀ c, rest.head? = some c → isDig r c = false) :
    ∃ d, subreadUinteger sign r (ds ++ rest) [] = some (d, rest) ∧
      (fits 24 (denotes sign r ds) → ∃ t, constText0 d = some t ∧ cExpr t = some (denotes sign r ds)) ∧
      (¬ fits 24 (denotes sign r ds) → constText0 d = none) := by
  have hr' : r ∈ [2, 8, 10, 16] := by
    rcases hr with rfl | ⟨_, rfl | rfl⟩ <;> simp
  obtain ⟨d, h1, h2, h3, h4, h5, h6⟩ := reader sign r hr' ds rest hne hd hrest
  refine ⟨d, h1, fun h => ?_, fun h => ?_⟩
  · obtain ⟨t, e1, e2⟩ := constText0_spec d (by rw [h2, h3]; exact hr) (h3 ▸ h4) (h6.2 h)
    rw [h2, h3, h5] at e2
    exact ⟨t, e1, e2⟩
  · unfold constText0
    rw [if_neg fun hh => h (h6.1 hh)]

/-- The full claim for the basic library. -/
def C83Full : Prop := ∀ (sign : Sign) (r : Nat) (ds : List Char), r ∈ [2, 8, 10, 16] → ds ≠ [] → (∀ c ∈ ds, isDig r c = true) →
  fits 24 (denotes sign r ds) → ∃ d t, subreadUinteger sign r ds [] = some (d, []) ∧ constText0 d = some t ∧ cExpr t = some (denotes sign r ds)

/-- Under the basic library there is no template for any binary literal, nor for any negative octal or hexadecimal one. -/
theorem c83_base_counterexample (w : Option Nat) (s : List Char) (sign : Sign) :
    constText0 ⟨w, sign, s, 2⟩ = none ∧ constText0 ⟨w, .minus, s, 8⟩ = none ∧ constText0 ⟨w, .minus, s, 16⟩ = none := by
  refine ⟨?_, ?_, ?_⟩ <;> simp [constText0]

/-- Whatever text the basic library emits for a literal denotes the value of the literal. -/
theorem c83_base_sound (sign : Sign) (r : Nat) (hr : r ∈ [2, 8, 10, 16]) (ds rest : List Char) (hne : ds ≠ [])
    (hd : ∀ c ∈ ds, isDig r c = true) (hrest : ∀ c, rest.head? = some c → isDig r c = false) :
    ∃ d, subreadUinteger sign r (ds ++ rest) [] = some (d, rest) ∧ ∀ t, constText0 d = some t → cExpr t = some (denotes sign r ds) := by
  obtain ⟨d, h1, h2, h3, h4, h5, h6⟩ := reader sign r hr ds rest hne hd hrest
  refine ⟨d, h1, fun t ht => ?_⟩
  have hs : small d.width = true := by
    by_contra hs
    unfold constText0 at ht
    rw [if_neg hs] at ht
    cases ht
  have hcase : r = 10 ∨ sign = .plus ∧ (r = 8 ∨ r = 16) := by
    by_contra hn
    have hz : constText0 d = none := by
      simp only [List.mem_cons, List.not_mem_nil, or_false] at hr
      unfold constText0
      rw [if_pos hs, h2, h3, if_neg (by tauto), if_neg (by tauto), if_neg (by tauto)]
    rw [hz] at ht
    cases ht
  obtain ⟨t', e1, e2⟩ := constText0_spec d (by rw [h2, h3]; exact hcase) (h3 ▸ h4) hs
  rw [ht] at e1
  cases e1
  rw [h2, h3, h5] at e2
  exact e2

example : constText0 ⟨some 8, .plus, "17".toList, 8⟩ = some "017".toList ∧ cExpr "017".toList = some (denotes .plus 8 "17".toList) := by
  refine ⟨by decide, ?_⟩
  unfold denotes
  decide

theorem c83_counterexample : ¬ C83Full := by
  intro h
  obtain ⟨d, t, h1, h2, _⟩ := h .plus 2 ['1'] (by simp) (by simp) (by decide) (by unfold denotes; decide)
  have e : subreadUinteger .plus 2 ['1'] [] = some (⟨width .plus ['1'] 2, .plus, ['1'], 2⟩, []) := rfl
  rw [e] at h1
  simp only [Option.some.injEq, Prod.mk.injEq, and_true] at h1
  rw [← h1, (c83_base_counterexample _ _ _).1] at h2
  cases h2

theorem signedWidth_spec (x : Int) : small (signedWidth x) = true ↔ fits 24 x := by
  unfold signedWidth fits
  simp only [signedWidthLoop]
  norm_num
  split
  · simp [small]; omega
  · split
    · simp [small]; omega
    · split
      · simp [small]; omega
      · simp [small]; omega

/-- A fixnum that a macro computes: under either library the C text denotes the fixnum. -/
theorem c83_fixnum (x : Int) (h : fits 24 x) :
    ∃ d t t0, decomposeFixnum x = some d ∧ constText d = some t ∧ cExpr t = some x ∧ constText0 d = some t0 ∧ cExpr t0 = some x := by
  have hb : x.natAbs < 10 ^ 34 := by
    unfold fits at h
    norm_num at h ⊢
    omega
  obtain ⟨ds, e, hne, _, hall, hval, hz⟩ := digitsLoop_spec 10 (by omega) (by omega) 34 x.natAbs [] hb (by omega)
  rw [List.append_nil] at e
  have hf : fixnumToString x.natAbs 10 = some ds := by
    unfold fixnumToString
    rw [Int.natAbs_natCast, e]
    simp
  have hc : Canon 10 ds := ⟨hne, fun c hc => ⟨(hall c hc).1, (hall c hc).2.1⟩, hz⟩
  have hd : decomposeFixnum x = some ⟨signedWidth x, if x < 0 then .minus else .plus, ds, 10⟩ := by
    unfold decomposeFixnum
    rw [hf]; rfl
  have hx : denotes (if x < 0 then .minus else .plus) 10 ds = x := by
    split
    · simp only [denotes, hval]; omega
    · simp only [denotes, hval]; omega
  obtain ⟨t, a1, a2⟩ := constText_spec ⟨signedWidth x, if x < 0 then .minus else .plus, ds, 10⟩ (by simp) hc ((signedWidth_spec x).2 h)
  obtain ⟨t0, b1, b2⟩ := constText0_spec ⟨signedWidth x, if x < 0 then .minus else .plus, ds, 10⟩ (.inl rfl) hc ((signedWidth_spec x).2 h)
  exact ⟨_, t, t0, hd, a1, a2.trans (congrArg some hx), b1, b2.trans (congrArg some hx)⟩

example : fits 24 (-8388608) ∧ fits 24 8388607 := by decide

/-- A fixnum of more than 24 bits has no C text. -/
theorem c83_wide (x : Int) (h : ¬ fits 24 x) (d : IntDatum) (hd : decomposeFixnum x = some d) : constText d = none ∧ constText0 d = none := by
  have hw : d.width = signedWidth x := by
    unfold decomposeFixnum at hd
    cases hs : fixnumToString x.natAbs 10 with
    | none => rw [hs] at hd; cases hd
    | some s => rw [hs] at hd; cases hd; rfl
  have hn : ¬ small d.width = true := by rw [hw, signedWidth_spec]; exact h
  exact ⟨by unfold constText; rw [if_neg hn], by unfold constText0; rw [if_neg hn]⟩

example : ¬ fits 24 8388608 ∧ (decomposeFixnum 8388608).isSome := by decide +kernel

end Verif.IntLit
