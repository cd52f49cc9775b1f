import Verif.Imm.Props
import Verif.Chars.Model
/-
Property C79: characters of LibL.
-/
namespace Verif.Chars
open Verif.Imm

/-! ### Specification -/

/-- An argument stands for the character with code `n`: unboxed, or a word that `char?` accepts and that was boxed from `n`. -/
def Denotes (x : Arg) (n : Nat) : Prop := x = .char n ∨ ∃ o, objFromCharL n = some o ∧ x = .obj o

/-- An argument stands for the number `n`. -/
def DenotesInt (x : Arg) (n : Int) : Prop := x = .fixnum n ∨ x = .obj (objFromFixL n)

/-- The full claim: what `integer->char` accepts is a character that stands for the number given, in whatever way it is passed on; every
Unicode character has a case conversion; and every Unicode character can be written as a constant. -/
def C79Full : Prop :=
  (∀ (n : Int) (x y z : Arg), -536870912 ≤ n → n < 536870912 → DenotesInt x n → integerToChar x = some y →
    (z = y ∨ ∃ o, toObj y = some o ∧ z = .obj o) → charToInteger z = some (.fixnum n)) ∧
  (∀ n, n < 1114112 → ∃ y, charUpcase (.char n) = some y) ∧
  (∀ n, n < 1114112 → ∃ y, constChar (charDatum n) = some y ∧ Denotes y n)

/-! ### Boxing -/

theorem mkimmL_mkimm (i : BitVec 32) : mkimmL i 2 = mkimm i 4 := rfl

theorem ofInt_toNat (n : Nat) (h : n < 8388608) : (BitVec.ofInt 32 (n : Int)).toNat = n := by
  rw [BitVec.toNat_ofInt]; omega

theorem unbox_box (i : Int) (o : Obj) (h : objFromCharL i = some o) : charFromObjL o = i % 16777216 := by
  unfold objFromCharL at h
  split at h
  · obtain rfl := Option.some.inj h
    unfold charFromObjL getimmuL
    rw [mkimmL_mkimm, payload_mkimm _ _ (by decide)]
    simp only [BitVec.toNat_setWidth, BitVec.toNat_ofInt]
    omega
  · cases h

theorem box_some (n : Nat) (h : n < 8388608) : ∃ o, objFromCharL n = some o :=
  ⟨_, if_pos (by omega)⟩

theorem box_char (i : Int) (o : Obj) (h : objFromCharL i = some o) : isCharL o = true := by
  unfold objFromCharL at h
  split at h
  · obtain rfl := Option.some.inj h
    have := lowbyte_mkimm (BitVec.ofInt 32 i) 4 (by decide)
    rw [mkimmL_mkimm]
    simp only [isCharL, isimmL, this]; decide
  · cases h

theorem charFrom_char (c : Int) : charFrom (.char c) = some c := rfl

theorem denotes_from {x : Arg} {n : Nat} (hn : n < 8388608) (h : Denotes x n) : charFrom x = some (n : Int) := by
  rcases h with rfl | ⟨o, ho, rfl⟩
  · rfl
  · simp only [charFrom, unbox_box _ _ ho, Option.some.injEq]; omega

/-- Every character below 2^23 has a word; that word is a character for `char?`, gives the code back, belongs to no other character,
and passes no other type test for immediate objects. -/
theorem c79_box (n : Nat) (h : n < 8388608) :
    ∃ o, objFromCharL n = some o ∧ isCharL o = true ∧ charFromObjL o = n ∧
      (∀ m : Nat, m < 8388608 → objFromCharL m = some o → m = n) ∧
      isFixnumL o = false ∧ isSymbolL o = false ∧ isNullL o = false ∧ isEofL o = false ∧ isVoidL o = false ∧ isBool o = false := by
  obtain ⟨o, ho⟩ := box_some n h
  have hc := box_char _ _ ho
  have hu := unbox_box _ _ ho
  have hlow : o &&& 0xff#64 = 9#64 := by
    simpa [isCharL, isimmL] using hc
  refine ⟨o, ho, hc, by rw [hu]; omega, fun m hm hmo => ?_, ?_, ?_, ?_, ?_, ?_, ?_⟩
  · have := unbox_box _ _ hmo
    omega
  · have h3 : o &&& 3#64 = (o &&& 0xff#64) &&& 3#64 := by rw [BitVec.and_assoc]; rfl
    simp only [isFixnumL, isim0, h3, hlow]; decide
  · simp only [isSymbolL, isimmL, hlow]; decide
  · refine beq_eq_false_iff_ne.2 fun e => ?_
    rw [e] at hlow; revert hlow; decide
  · refine beq_eq_false_iff_ne.2 fun e => ?_
    rw [e] at hlow; revert hlow; decide
  · refine beq_eq_false_iff_ne.2 fun e => ?_
    rw [e] at hlow; revert hlow; decide
  · cases hb : isBool o with
    | false => rfl
    | true =>
      rcases low_isBool hb with rfl | rfl <;> revert hlow <;> decide

example : (0x10ffff : Nat) < 8388608 := by decide
example : objFromCharL 65 = some 0x4109#64 := by decide

/-! ### Conversions -/

theorem fix_unbox (n : Int) (h : -536870912 ≤ n ∧ n < 536870912) : fixFromObjL (objFromFixL n) = n := by
  have hi : (BitVec.ofInt 64 n).toInt = n := by
    rw [BitVec.toInt_ofInt]
    apply Int.bmod_eq_of_le <;> omega
  unfold fixFromObjL objFromFixL
  rw [c01_fixnum30_exact _ (by omega), hi]

theorem denotesInt_from {x : Arg} {n : Int} (hn : -536870912 ≤ n ∧ n < 536870912) (h : DenotesInt x n) : fixnumFrom x = some n := by
  rcases h with rfl | rfl
  · rfl
  · simp only [fixnumFrom, fix_unbox n hn]

/-- `integer->char` of a code below 2^23, however it is passed, gives the character with that code, and `char->integer` of this character, boxed or
not, gives the number back; the number fits a fixnum. -/
theorem c79_convert_partial (n : Nat) (h : n < 8388608) (x : Arg) (hx : DenotesInt x n) :
    (∃ y, integerToChar x = some y ∧ Denotes y n ∧ isCharArg y = true) ∧
    (∀ z, Denotes z n → isCharArg z = true ∧ ∃ r, charToInteger z = some r ∧ DenotesInt r n ∧
      ∃ o, toObj r = some o ∧ isFixnumL o = true ∧ fixFromObjL o = n) := by
  constructor
  · refine ⟨.char n, ?_, .inl rfl, rfl⟩
    unfold integerToChar
    rw [denotesInt_from (by omega) hx]
    simp only [Option.map_some, Option.some.injEq, Arg.char.injEq]
    apply Int.bmod_eq_of_le <;> omega
  · intro z hz
    refine ⟨?_, .fixnum n, ?_, .inl rfl, objFromFixL n, rfl, ?_, fix_unbox _ (by omega)⟩
    · rcases hz with rfl | ⟨o, ho, rfl⟩
      · rfl
      · exact box_char _ _ ho
    · unfold charToInteger
      rw [denotes_from h hz]; rfl
    · exact c01_fixnum30_tag _

example : DenotesInt (.obj (objFromFixL 955)) 955 := .inr rfl

/-! ### Comparisons -/

/-- The five comparisons compare codes, for all representations of the operands. -/
theorem c79_compare (a b : Nat) (ha : a < 8388608) (hb : b < 8388608) (x y : Arg) (hx : Denotes x a) (hy : Denotes y b) :
    charEq x y = some (decide (a = b)) ∧ charLt x y = some (decide (a < b)) ∧ charGt x y = some (decide (b < a)) ∧
    charLe x y = some (decide (a ≤ b)) ∧ charGe x y = some (decide (b ≤ a)) := by
  simp only [charEq, charLt, charGt, charLe, charGe, cmpPrim, denotes_from ha hx, denotes_from hb hy, Option.bind_eq_bind, Option.bind_some,
    opEq, opLt, opGt, opLe, opGe, Option.some.injEq, decide_eq_decide]
  omega

/-- For characters of one byte the comparisons without regard to case compare the lower case characters. -/
theorem c79_compare_ci (a b : Nat) (ha : a < 256) (hb : b < 256) (x y : Arg) (hx : Denotes x a) (hy : Denotes y b) :
    ∃ x' y', charDowncase x = some x' ∧ charDowncase y = some y' ∧
      charCiEq x y = charEq x' y' ∧ charCiLt x y = charLt x' y' ∧ charCiGt x y = charGt x' y' ∧
      charCiLe x y = charLe x' y' ∧ charCiGe x y = charGe x' y' := by
  have h1 : ctype tolower (a : Int) = some (tolower a) := if_pos (by omega)
  have h2 : ctype tolower (b : Int) = some (tolower b) := if_pos (by omega)
  refine ⟨.char (tolower a), .char (tolower b), ?_, ?_, ?_⟩
  · simp only [charDowncase, denotes_from (by omega) hx, Option.bind_some, h1, Option.map_some]
  · simp only [charDowncase, denotes_from (by omega) hy, Option.bind_some, h2, Option.map_some]
  · simp only [charCiEq, charCiLt, charCiGt, charCiLe, charCiGe, charEq, charLt, charGt, charLe, charGe, ciPrim, cmpPrim,
      denotes_from (show a < 8388608 by omega) hx, denotes_from (show b < 8388608 by omega) hy, Option.bind_eq_bind, Option.bind_some, h1, h2, charFrom_char, and_self]

example : charCiEq (.char 65) (.obj 0x6109#64) = some true := by decide

/-! ### Classes -/

/-- The classes of all ASCII characters are those of Lean's library (white space: the six characters of C), and case conversion is that of
Lean's library. -/
theorem c79_ascii (n : Nat) (h : n < 128) (x : Arg) (hx : Denotes x n) :
    charAlphabetic x = some (Char.ofNat n).isAlpha ∧
    charNumeric x = some (Char.ofNat n).isDigit ∧
    charUpperCase x = some (Char.ofNat n).isUpper ∧
    charLowerCase x = some (Char.ofNat n).isLower ∧
    charWhitespace x = some (decide (n ∈ [9, 10, 11, 12, 13, 32])) ∧
    charUpcase x = some (.char (Char.ofNat n).toUpper.toNat) ∧
    charDowncase x = some (.char (Char.ofNat n).toLower.toNat) := by
  have key : ∀ n : Fin 128, 
      isalpha (n.val : Int) = (Char.ofNat n.val).isAlpha ∧ isdigit (n.val : Int) = (Char.ofNat n.val).isDigit ∧
      isupper (n.val : Int) = (Char.ofNat n.val).isUpper ∧ islower (n.val : Int) = (Char.ofNat n.val).isLower ∧
      isspace (n.val : Int) = decide (n.val ∈ [9, 10, 11, 12, 13, 32]) ∧
      toupper (n.val : Int) = ((Char.ofNat n.val).toUpper.toNat : Int) ∧ tolower (n.val : Int) = ((Char.ofNat n.val).toLower.toNat : Int) := by
    decide
  obtain ⟨k1, k2, k3, k4, k5, k6, k7⟩ := key ⟨n, h⟩
  have hc : ∀ {α : Type} (f : Int → α), ctype f (n : Int) = some (f n) := fun f => if_pos (by omega)
  simp only [charAlphabetic, charNumeric, charUpperCase, charLowerCase, charWhitespace, charUpcase, charDowncase,
    denotes_from (show n < 8388608 by omega) hx, Option.bind_some, hc, Option.map_some]
  simp only at k1 k2 k3 k4 k5 k6 k7
  rw [k1, k2, k3, k4, k5, k6, k7]
  exact ⟨rfl, rfl, rfl, rfl, rfl, rfl, rfl⟩

example : charUpcase (.obj 0x6109#64) = some (.char 65) := by decide

/-- The other characters of one byte belong to no class and have no case. -/
theorem c79_high (n : Nat) (h1 : 128 ≤ n) (h2 : n < 256) (x : Arg) (hx : Denotes x n) :
    charAlphabetic x = some false ∧ charNumeric x = some false ∧ charUpperCase x = some false ∧ charLowerCase x = some false ∧
    charWhitespace x = some false ∧ charUpcase x = some (.char n) ∧ charDowncase x = some (.char n) := by
  have hc : ∀ {α : Type} (f : Int → α), ctype f (n : Int) = some (f n) := fun f => if_pos (by omega)
  have hu : isupper (n : Int) = false := decide_eq_false (by omega)
  have hl : islower (n : Int) = false := decide_eq_false (by omega)
  have hd : isdigit (n : Int) = false := decide_eq_false (by omega)
  have hs : isspace (n : Int) = false := decide_eq_false (by omega)
  simp [charAlphabetic, charNumeric, charUpperCase, charLowerCase, charWhitespace, charUpcase, charDowncase,
    denotes_from (show n < 8388608 by omega) hx, hc, isalpha, toupper, tolower, hu, hl, hd, hs]

/-- Above one byte every one of these primitives has undefined behaviour. -/
theorem c79_undefined (n : Nat) (h1 : 256 ≤ n) (h2 : n < 8388608) (x : Arg) (hx : Denotes x n) :
    charAlphabetic x = none ∧ charNumeric x = none ∧ charUpperCase x = none ∧ charLowerCase x = none ∧
    charWhitespace x = none ∧ charUpcase x = none ∧ charDowncase x = none ∧ charCiEq x x = none := by
  have hc : ∀ {α : Type} (f : Int → α), ctype f (n : Int) = none := fun f => if_neg (by omega)
  simp [charAlphabetic, charNumeric, charUpperCase, charLowerCase, charWhitespace, charUpcase, charDowncase, charCiEq, ciPrim,
    denotes_from h2 hx, hc]

example : (256 : Nat) ≤ 955 ∧ 955 < 8388608 := by decide

/-- Case conversion of one-byte characters: both conversions are idempotent, each cancels the other up to case, exactly letters change, and the
result has the case asked for. -/
theorem c79_case (n : Nat) (h : n < 256) (x : Arg) (hx : Denotes x n) :
    ∃ u d : Nat, u < 256 ∧ d < 256 ∧ charUpcase x = some (.char u) ∧ charDowncase x = some (.char d) ∧
      charUpcase (.char u) = some (.char u) ∧ charDowncase (.char d) = some (.char d) ∧
      charUpcase (.char d) = some (.char u) ∧ charDowncase (.char u) = some (.char d) ∧
      (charLowerCase x = some true ↔ u ≠ n) ∧ (charUpperCase x = some true ↔ d ≠ n) ∧
      (charAlphabetic x = some true ↔ u ≠ d) := by
  have key : ∀ n : Fin 256, ∃ u d : Fin 256, toupper (n.val : Int) = u.val ∧ tolower (n.val : Int) = d.val ∧
      toupper (u.val : Int) = u.val ∧ tolower (d.val : Int) = d.val ∧ toupper (d.val : Int) = u.val ∧ tolower (u.val : Int) = d.val ∧
      (islower (n.val : Int) = true ↔ u.val ≠ n.val) ∧ (isupper (n.val : Int) = true ↔ d.val ≠ n.val) ∧
      (isalpha (n.val : Int) = true ↔ u.val ≠ d.val) := by
    intro n
    have hn := n.isLt
    by_cases hl : 97 ≤ n.val ∧ n.val ≤ 122
    · refine ⟨⟨n.val - 32, by omega⟩, n, ?_⟩
      simp only [toupper, tolower, isalpha, islower, isupper, decide_eq_true_eq, Bool.or_eq_true]
      refine ⟨?_, ?_, ?_, ?_, ?_, ?_, ?_, ?_, ?_⟩ <;> (try split) <;> omega
    · by_cases hu : 65 ≤ n.val ∧ n.val ≤ 90
      · refine ⟨n, ⟨n.val + 32, by omega⟩, ?_⟩
        simp only [toupper, tolower, isalpha, islower, isupper, decide_eq_true_eq, Bool.or_eq_true]
        refine ⟨?_, ?_, ?_, ?_, ?_, ?_, ?_, ?_, ?_⟩ <;> (try split) <;> omega
      · refine ⟨n, n, ?_⟩
        simp only [toupper, tolower, isalpha, islower, isupper, decide_eq_true_eq, Bool.or_eq_true]
        refine ⟨?_, ?_, ?_, ?_, ?_, ?_, ?_, ?_, ?_⟩ <;> (try split) <;> omega
  obtain ⟨u, d, k1, k2, k3, k4, k5, k6, k7, k8, k9⟩ := key ⟨n, h⟩
  have hc : ∀ {α : Type} (f : Int → α) (m : Nat), m < 256 → ctype f (m : Int) = some (f m) := fun f m hm => if_pos (by omega)
  refine ⟨u, d, u.isLt, d.isLt, ?_⟩
  simp only [charAlphabetic, charUpperCase, charLowerCase, charUpcase, charDowncase,
    denotes_from (show n < 8388608 by omega) hx, charFrom_char, Option.bind_some, hc _ n h, hc _ u.val u.isLt, hc _ d.val d.isLt, Option.map_some, Option.some.injEq, Arg.char.injEq]
  exact ⟨k1, k2, k3, k4, k5, k6, k7, k8, k9⟩

/-- `digit-value` is defined for all characters and gives a number exactly for the ten digits. -/
theorem c79_digit (n : Nat) (h : n < 8388608) (x : Arg) (hx : Denotes x n) :
    ∃ r, digitValue x = some r ∧ (∀ d : Int, r = some d ↔ 0 ≤ d ∧ d ≤ 9 ∧ (n : Int) = 48 + d) := by
  have hf := denotes_from h hx
  simp only [digitValue, charLe, cmpPrim, hf, charFrom_char, Option.bind_eq_bind, Option.bind_some, opLe, decide_eq_true_eq]
  by_cases h1 : (48 : Int) ≤ n
  · rw [if_pos h1]
    refine ⟨_, rfl, fun d => ?_⟩
    by_cases h2 : (n : Int) ≤ 57
    · simp only [h2, decide_true, if_true, Option.some.injEq]; omega
    · simp only [h2, decide_false, Bool.false_eq_true, if_false]
      constructor
      · intro e; cases e
      · omega
  · rw [if_neg h1]
    refine ⟨_, rfl, fun d => ?_⟩
    simp only [Bool.false_eq_true, if_false]
    constructor
    · intro e; cases e
    · omega

example : digitValue (.char 55) = some (some 7) ∧ digitValue (.obj 0x4109#64) = some none := by decide

/-! ### Constants -/

/-- A character constant of one byte compiles to the character with its code; a constant with a larger code is refused. -/
theorem c79_constant (n : Nat) :
    (n < 256 → constChar (charDatum n) = some (.char n)) ∧ (256 ≤ n → constChar (charDatum n) = none) := by
  constructor
  · intro h
    unfold charDatum
    have hb : byteWidth n = 8 := if_pos (by omega)
    split
    · next hs =>
      simp only [hb, safeCp, Bool.and_eq_true, decide_eq_true_eq, bne_iff_ne, ne_eq, beq_self_eq_true, true_and] at hs
      have : cCharLiteral n = some (n : Int) := if_pos (by omega)
      simp only [constChar, this, Option.map_some]
    · simp only [constChar, hb, if_true]
  · intro h
    have hb : byteWidth n ≠ 8 := by
      unfold byteWidth
      rw [if_neg (by omega)]
      split
      · decide
      · split <;> decide
    unfold charDatum
    rw [if_neg (by simp [hb])]
    simp only [constChar, if_neg hb]

example : constChar (charDatum 39) = some (.char 39) := by decide

/-! ### Refutation -/

/-- `(char->integer (integer->char 16777281))` is 16777281 if the character stays unboxed between the two calls, 65 if it goes through
an object. -/
theorem c79_unboxed_counterexample :
    ∃ y o, integerToChar (.fixnum 16777281) = some y ∧ charToInteger y = some (.fixnum 16777281) ∧
      toObj y = some o ∧ charToInteger (.obj o) = some (.fixnum 65) :=
  ⟨.char 16777281, 0x4109#64, by decide, by decide, by decide, by decide⟩

theorem c79_counterexample : ¬ C79Full := by
  intro h
  have := h.1 16777281 (.fixnum 16777281) (.char 16777281) (.obj 0x4109#64) (by decide) (by decide) (.inl rfl) (by decide)
    (.inr ⟨_, by decide, rfl⟩)
  revert this
  decide

/-- … the other two parts fail as well: the Greek letter lambda. -/
theorem c79_lambda_counterexample :
    ¬ (∃ y, charUpcase (.char 955) = some y) ∧ ¬ ∃ y, constChar (charDatum 955) = some y := by
  constructor
  · rintro ⟨y, hy⟩
    rw [(c79_undefined 955 (by decide) (by decide) (.char 955) (.inl rfl)).2.2.2.2.2.1] at hy
    cases hy
  · rintro ⟨y, hy⟩
    rw [(c79_constant 955).2 (by decide)] at hy
    cases hy

end Verif.Chars
