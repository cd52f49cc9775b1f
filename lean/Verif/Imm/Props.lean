import Verif.Imm.Lemmas
/-
Property theorems C01 and C02 (object words).
-/
namespace Verif.Imm

theorem getimms_mkimm_toInt (i t : BitVec 32) (ht : t.toNat < 128) :
    (getimms (mkimm i t)).toInt = i.toInt.bmod (2^24) := by
  unfold getimms
  rw [payload_mkimm _ _ ht]
  have hx : ((i.setWidth 24).setWidth 64 : BitVec 64).toNat = i.toNat % 2^24 := by
    simp only [BitVec.toNat_setWidth]; omega
  have := xorsub 23 (by omega) ((i.setWidth 24).setWidth 64) (by rw [hx]; omega)
  rw [hx] at this
  rw [show (0x800000#64) = BitVec.ofNat 64 (2^23) from rfl, BitVec.toInt_setWidth]
  generalize ((i.setWidth 24).setWidth 64 ^^^ BitVec.ofNat 64 (2^23)) - BitVec.ofNat 64 (2^23) = z at *
  have h1 := BitVec.toInt_eq_toNat_bmod z
  have h2 : (z.toNat : Int).bmod (2^32) = z.toInt.bmod (2^32) := by
    rw [h1, Int.bmod_bmod_of_dvd (by decide)]
  rw [h2, this]
  have h3 : (((i.toNat % 2^24 : Nat) : Int)).bmod (2^(23+1)) = i.toInt.bmod (2^24) := by
    rw [BitVec.toInt_eq_toNat_bmod, Int.bmod_bmod_of_dvd (by decide)]
    rw [Int.natCast_mod]; exact Int.emod_bmod _ _
  rw [h3]
  have := Int.bmod_lt (x := i.toInt) (m := 2^24) (by decide)
  have := Int.le_bmod (x := i.toInt) (m := 2^24) (by decide)
  apply Int.bmod_eq_of_le <;> omega

/-! ## C01 -/

/-- Reading back a stored `int` gives the value reduced to 24-bit two's complement: every payload. -/
theorem c01_fixnum24_roundtrip (i : BitVec 32) :
    (fixnumFromObj (objFromFixnum i)).toInt = i.toInt.bmod (2^24) :=
  getimms_mkimm_toInt i FIXNUM_ITAG (by decide)

/-- … so in-range values come back unchanged. -/
theorem c01_fixnum24_exact (i : BitVec 32) (h : -8388608 ≤ i.toInt ∧ i.toInt ≤ 8388607) :
    fixnumFromObj (objFromFixnum i) = i := by
  apply BitVec.eq_of_toInt_eq
  rw [c01_fixnum24_roundtrip]
  apply Int.bmod_eq_of_le <;> omega

example : -8388608 ≤ (-8388608#32).toInt ∧ (-8388608#32).toInt ≤ 8388607 := by decide
example : fixnumFromObj (objFromFixnum 8388608#32) = -8388608#32 := by decide

/-- Object equality (`eq?`) of two boxed `int`s is equality of the 24-bit values they hold. -/
theorem c01_fixnum24_eq (i j : BitVec 32) :
    objFromFixnum i = objFromFixnum j ↔ i.toInt.bmod (2^24) = j.toInt.bmod (2^24) := by
  constructor
  · intro h
    rw [← c01_fixnum24_roundtrip i, ← c01_fixnum24_roundtrip j, h]
  · intro h
    have hh : i.setWidth 24 = j.setWidth 24 := by
      apply BitVec.eq_of_toInt_eq
      rw [BitVec.toInt_setWidth, BitVec.toInt_setWidth]
      rw [BitVec.toInt_eq_toNat_bmod, BitVec.toInt_eq_toNat_bmod] at h
      rwa [Int.bmod_bmod_of_dvd (by decide), Int.bmod_bmod_of_dvd (by decide)] at h
    have : i &&& 0xffffff#32 = j &&& 0xffffff#32 := by
      apply BitVec.eq_of_getLsbD_eq
      intro k hk
      rw [BitVec.getLsbD_and, BitVec.getLsbD_and, m24_32]
      have := congrArg (fun v => v.getLsbD k) hh
      simp only [BitVec.getLsbD_setWidth] at this
      by_cases h24 : k < 24
      · simpa only [h24, decide_true, Bool.true_and, Bool.and_true] using this
      · simp only [h24, decide_false, Bool.and_false]
    simp only [objFromFixnum, mkimm, this]

/-- The object made by the fixnum constructor is recognised as a fixnum. -/
theorem c01_fixnum24_tag (i : BitVec 32) : isFixnum (objFromFixnum i) = true := by
  have := lowbyte_mkimm i FIXNUM_ITAG (by decide)
  simp only [isFixnum, isimm, objFromFixnum, this]
  decide

/-- DEFECT in the code: the `long` payload of `fxabs` is boxed without sign extension, so
`(fxabs -8388608)` is a word that unboxes to -8388608 yet is not the word every other operation
produces for -8388608: `eq?` and `fx=?` disagree. -/
theorem c01_fxabs_counterexample :
    let m := objFromFixnum (-8388608#32)
    isFixnum (fxabsObj m) = true ∧ fixnumFromObj (fxabsObj m) = fixnumFromObj m ∧ fxabsObj m ≠ m := by
  decide

theorem payload_mkim0 (o : BitVec 64) :
    ((mkim0 o).sshiftRight 2 &&& 0x3fffffff#64) = (o.setWidth 30).setWidth 64 := by
  apply BitVec.eq_of_getLsbD_eq
  intro i hi
  simp only [mkim0, BitVec.getLsbD_and, m30_64, BitVec.getLsbD_sshiftRight,
    BitVec.getLsbD_or, BitVec.getLsbD_shiftLeft, BitVec.getLsbD_setWidth, m2_64]
  by_cases h : i < 30
  · have h1 : 2 + i < 64 := by omega
    have h3 : ¬ (64 ≤ i) := by omega
    simp [h, h1, h3, hi]
  · simp [h]

/-- LibL (30-bit): reading back a stored `long` gives the value reduced to 30-bit two's complement. -/
theorem c01_fixnum30_roundtrip (i : BitVec 64) :
    (getim0s (mkim0 i)).toInt = i.toInt.bmod (2^30) := by
  unfold getim0s
  rw [payload_mkim0]
  have hx : ((i.setWidth 30).setWidth 64 : BitVec 64).toNat = i.toNat % 2^30 := by
    simp only [BitVec.toNat_setWidth]; omega
  have := xorsub 29 (by omega) ((i.setWidth 30).setWidth 64) (by rw [hx]; omega)
  rw [hx] at this
  rw [show (0x20000000#64) = BitVec.ofNat 64 (2^29) from rfl, this]
  rw [BitVec.toInt_eq_toNat_bmod, Int.bmod_bmod_of_dvd (by decide)]
  rw [Int.natCast_mod]; exact Int.emod_bmod _ _

theorem c01_fixnum30_exact (i : BitVec 64) (h : -536870912 ≤ i.toInt ∧ i.toInt ≤ 536870911) :
    getim0s (mkim0 i) = i := by
  apply BitVec.eq_of_toInt_eq
  rw [c01_fixnum30_roundtrip]
  apply Int.bmod_eq_of_le <;> omega

example : -536870912 ≤ (-536870912#64).toInt ∧ (-536870912#64).toInt ≤ 536870911 := by decide
example : getim0s (mkim0 536870912#64) = -536870912#64 := by decide

theorem c01_fixnum30_eq (i j : BitVec 64) :
    mkim0 i = mkim0 j ↔ i.toInt.bmod (2^30) = j.toInt.bmod (2^30) := by
  constructor
  · intro h
    rw [← c01_fixnum30_roundtrip i, ← c01_fixnum30_roundtrip j, h]
  · intro h
    have hh : i.setWidth 30 = j.setWidth 30 := by
      apply BitVec.eq_of_toInt_eq
      rw [BitVec.toInt_setWidth, BitVec.toInt_setWidth]
      rw [BitVec.toInt_eq_toNat_bmod, BitVec.toInt_eq_toNat_bmod] at h
      rwa [Int.bmod_bmod_of_dvd (by decide), Int.bmod_bmod_of_dvd (by decide)] at h
    have : i &&& 0x3fffffff#64 = j &&& 0x3fffffff#64 := by
      apply BitVec.eq_of_getLsbD_eq
      intro k hk
      rw [BitVec.getLsbD_and, BitVec.getLsbD_and, m30_64]
      have := congrArg (fun v => v.getLsbD k) hh
      simp only [BitVec.getLsbD_setWidth] at this
      by_cases h24 : k < 30
      · simpa only [h24, decide_true, Bool.true_and, Bool.and_true] using this
      · simp only [h24, decide_false, Bool.and_false]
    simp only [mkim0, this]

theorem c01_fixnum30_tag (i : BitVec 64) : isFixnumL (mkim0 i) = true := by
  simp only [isFixnumL, isim0, beq_iff_eq]
  apply BitVec.eq_of_getLsbD_eq
  intro k hk
  simp only [mkim0, BitVec.getLsbD_and, BitVec.getLsbD_or, BitVec.getLsbD_shiftLeft, m2_64, m30_64]
  by_cases h : k < 2 <;> simp [h]

/-! ## C02 -/

/-- The type tests of the 24-bit runtime, as a table. -/
def tests24 : List (Obj → Bool) := [isBool, isFixnum, isChar, isNull, isSymbol, isEof]
/-- The type tests of LibL, as a table. -/
def testsL : List (Obj → Bool) := [isBool, isFixnumL, isVoidL, isCharL, isNullL, isSymbolL, isEofL]

theorem low_isBool {o : Obj} (h : isBool o = true) : o = 0 ∨ o = 1 := by
  simp only [isBool, beq_iff_eq] at h
  have h2 : ∀ k, 1 ≤ k → k < 64 → o.getLsbD k = false := by
    intro k h1 hk
    have := congrArg (fun v => v.getLsbD k) h
    have hz : (1#64).getLsbD k = false := by
      rw [BitVec.getLsbD_one]; simp; omega
    simpa only [BitVec.getLsbD_and, BitVec.getLsbD_not, hk, hz, decide_true, Bool.true_and,
      Bool.not_false, Bool.and_true] using this.trans BitVec.getLsbD_zero
  by_cases h0 : o.getLsbD 0
  · right
    apply BitVec.eq_of_getLsbD_eq
    intro i hi
    by_cases hi0 : i = 0
    · subst hi0; simpa using h0
    · rw [h2 i (by omega) hi]; simp [BitVec.getLsbD_one]; omega
  · left
    apply BitVec.eq_of_getLsbD_eq
    intro i hi
    by_cases hi0 : i = 0
    · subst hi0; simpa using h0
    · rw [h2 i (by omega) hi]; simp

/-- Which test a low byte can satisfy (proof device). -/
def cls24 (w : Obj) : Nat :=
  if w = 0 ∨ w = 1 then 0 else if w = 3 then 1 else if w = 5 then 2 else if w = 7 then 3
  else if w = 9 then 4 else if w = 255 then 5 else 6

theorem testlow24 (o : Obj) : ∀ k : Nat, ∀ t, tests24[k]? = some t → t o = true →
    cls24 (o &&& 0xff#64) = k := by
  intro k t ht ho
  match k, ht with
  | 0, ht => simp [tests24] at ht; subst ht; rcases low_isBool ho with rfl | rfl <;> decide
  | 1, ht => simp [tests24] at ht; subst ht; simp only [isFixnum, isimm, beq_iff_eq] at ho; rw [ho]; decide
  | 2, ht => simp [tests24] at ht; subst ht; simp only [isChar, isimm, beq_iff_eq] at ho; rw [ho]; decide
  | 3, ht =>
    simp [tests24] at ht; subst ht; simp only [isNull, beq_iff_eq] at ho; subst ho; decide
  | 4, ht => simp [tests24] at ht; subst ht; simp only [isSymbol, isimm, beq_iff_eq] at ho; rw [ho]; decide
  | 5, ht =>
    simp [tests24] at ht; subst ht; simp only [isEof, beq_iff_eq] at ho; subst ho; decide
  | k+6, ht => simp [tests24] at ht

/-- At most one of boolean?, fixnum?, char?, null?, symbol?, eof-object? holds of any word. -/
theorem c02_disjoint24 (o : Obj) (j k : Nat) (s t : Obj → Bool)
    (hs : tests24[j]? = some s) (ht : tests24[k]? = some t) (h1 : s o = true) (h2 : t o = true) :
    j = k := by
  rw [← testlow24 o j s hs h1, ← testlow24 o k t ht h2]

example : tests24[1]? = some isFixnum ∧ isFixnum (objFromFixnum 7) = true := ⟨rfl, by decide⟩

theorem low1_of_isaptr {o : Obj} (h : isaptr o = true) : o.getLsbD 0 = false := by
  simp only [isaptr, beq_iff_eq] at h
  have := congrArg (fun v => v.getLsbD 0) h
  simpa [BitVec.getLsbD_and] using this

/-- No pointer (even, non-zero word) satisfies any immediate type test. -/
theorem c02_pointers24 (o : Obj) (hp : isaptr o = true) (hz : o ≠ 0) :
    ∀ t ∈ tests24, t o = false := by
  intro t ht
  by_contra hc
  have hc : t o = true := by simpa using hc
  have h0 := low1_of_isaptr hp
  have hb : (o &&& 0xff#64).getLsbD 0 = false := by rw [BitVec.getLsbD_and, h0]; rfl
  simp only [tests24, List.mem_cons, List.not_mem_nil, or_false] at ht
  rcases ht with rfl | rfl | rfl | rfl | rfl | rfl
  · rcases low_isBool hc with rfl | rfl
    · exact hz rfl
    · revert h0; decide
  all_goals
    first
    | (simp only [isFixnum, isChar, isSymbol, isimm, beq_iff_eq] at hc; rw [hc] at hb; revert hb; decide)
    | (simp only [isNull, isEof, beq_iff_eq] at hc; subst hc; revert hb; decide)

example : isaptr 0x7f0000001000#64 = true ∧ (0x7f0000001000#64 : Obj) ≠ 0 := by decide

/-- `#f` is exactly the word 0, `#t` is a boolean different from it, and every word but `#f`
counts as true. -/
theorem c02_bool24 (o : Obj) :
    (truthy o = false ↔ o = objFromBool false) ∧
    (isBool o = true ↔ o = objFromBool false ∨ o = objFromBool true) ∧
    objFromBool true ≠ objFromBool false := by
  refine ⟨by simp [truthy, objFromBool], ⟨fun h => ?_, fun h => ?_⟩, by decide⟩
  · rcases low_isBool h with rfl | rfl
    · left; decide
    · right; decide
  · rcases h with rfl | rfl <;> decide

/-- Characters (any code point below 2^23) survive boxing and are recognised as characters. -/
theorem c02_char24 (i : BitVec 32) (h : i.toNat < 2^23) :
    charFromObj (objFromChar i) = i ∧ isChar (objFromChar i) = true := by
  constructor
  · apply BitVec.eq_of_toInt_eq
    have := getimms_mkimm_toInt i CHAR_ITAG (by decide)
    simp only [charFromObj, objFromChar]
    rw [this]
    have hi : i.toInt = i.toNat := BitVec.toInt_eq_toNat_of_lt (by omega)
    rw [hi]
    apply Int.bmod_eq_of_le <;> omega
  · have := lowbyte_mkimm i CHAR_ITAG (by decide)
    simp only [isChar, isimm, objFromChar, this]; decide

example : (0x10ffff#32).toNat < 2^23 := by decide

/-- Symbols: any index below 2^24 survives boxing and is recognised as a symbol. -/
theorem c02_symbol24 (i : BitVec 32) (h : i.toNat < 2^24) :
    getsymbol (mksymbol i) = i ∧ isSymbol (mksymbol i) = true := by
  constructor
  · simp only [getsymbol, getimmu, mksymbol]
    rw [payload_mkimm _ _ (by decide)]
    apply BitVec.eq_of_toNat_eq
    simp only [BitVec.toNat_setWidth]
    omega
  · have := lowbyte_mkimm i SYMBOL_ITAG (by decide)
    simp only [isSymbol, isimm, mksymbol, this]; decide

example : (0xffffff#32).toNat < 2^24 := by decide

/-! ### LibL -/

@[inherit_doc cls24] def clsL (w : Obj) : Nat :=
  if w &&& 3 = 3 then 1 else
  if w = 0 ∨ w = 1 then 0 else if w = 5 then 2 else if w = 9 then 3 else if w = 13 then 4
  else if w = 17 then 5 else if w = 29 then 6 else 7

theorem testlowL (o : Obj) : ∀ k : Nat, ∀ t, testsL[k]? = some t → t o = true →
    clsL (o &&& 0xff#64) = k := by
  intro k t ht ho
  match k, ht with
  | 0, ht => simp [testsL] at ht; subst ht; rcases low_isBool ho with rfl | rfl <;> decide
  | 1, ht =>
    simp [testsL] at ht; subst ht; simp only [isFixnumL, isim0, beq_iff_eq] at ho
    have : (o &&& 0xff#64) &&& 3 = 3 := by
      rw [BitVec.and_assoc, show (0xff#64 &&& 3) = 3#64 by decide]; exact ho
    simp only [clsL]; rw [if_pos this]
  | 2, ht =>
    simp [testsL] at ht; subst ht; simp only [isVoidL, beq_iff_eq] at ho; subst ho; decide
  | 3, ht => simp [testsL] at ht; subst ht; simp only [isCharL, isimmL, beq_iff_eq] at ho; rw [ho]; decide
  | 4, ht =>
    simp [testsL] at ht; subst ht; simp only [isNullL, beq_iff_eq] at ho; subst ho; decide
  | 5, ht => simp [testsL] at ht; subst ht; simp only [isSymbolL, isimmL, beq_iff_eq] at ho; rw [ho]; decide
  | 6, ht =>
    simp [testsL] at ht; subst ht; simp only [isEofL, beq_iff_eq] at ho; subst ho; decide
  | k+7, ht => simp [testsL] at ht

/-- LibL: at most one of the type tests holds of any word. -/
theorem c02_disjointL (o : Obj) (j k : Nat) (s t : Obj → Bool)
    (hs : testsL[j]? = some s) (ht : testsL[k]? = some t) (h1 : s o = true) (h2 : t o = true) :
    j = k := by
  rw [← testlowL o j s hs h1, ← testlowL o k t ht h2]

example : testsL[1]? = some isFixnumL ∧ isFixnumL (mkim0 7) = true := ⟨rfl, by decide⟩

/-- LibL: no pointer satisfies any immediate type test. -/
theorem c02_pointersL (o : Obj) (hp : isaptr o = true) (hz : o ≠ 0) :
    ∀ t ∈ testsL, t o = false := by
  intro t ht
  by_contra hc
  have hc : t o = true := by simpa using hc
  have h0 := low1_of_isaptr hp
  have hb : (o &&& 0xff#64).getLsbD 0 = false := by rw [BitVec.getLsbD_and, h0]; rfl
  have hb3 : (o &&& 3#64).getLsbD 0 = false := by rw [BitVec.getLsbD_and, h0]; rfl
  simp only [testsL, List.mem_cons, List.not_mem_nil, or_false] at ht
  rcases ht with rfl | rfl | rfl | rfl | rfl | rfl | rfl
  · rcases low_isBool hc with rfl | rfl
    · exact hz rfl
    · revert h0; decide
  all_goals
    first
    | (simp only [isCharL, isSymbolL, isimmL, beq_iff_eq] at hc; rw [hc] at hb; revert hb; decide)
    | (simp only [isFixnumL, isim0, beq_iff_eq] at hc; rw [hc] at hb3; revert hb3; decide)
    | (simp only [isNullL, isEofL, isVoidL, beq_iff_eq] at hc; subst hc; revert hb; decide)

example : isaptr 0x7f0000001000#64 = true ∧ (0x7f0000001000#64 : Obj) ≠ 0 := by decide

/-! ### Block headers (used by the collector) -/

/-- A block header is an odd word that gives the size back, for every `int` size. -/
theorem c02_header (n : BitVec 32) :
    sizeFromObj (objFromSize n) = n ∧ isaptr (objFromSize n) = false := by
  constructor
  · apply BitVec.eq_of_getLsbD_eq
    intro i hi
    simp only [sizeFromObj, objFromSize, BitVec.getLsbD_setWidth, BitVec.getLsbD_sshiftRight,
      BitVec.getLsbD_or, BitVec.getLsbD_shiftLeft, BitVec.getLsbD_signExtend, BitVec.getLsbD_one]
    have h1 : 1 + i < 64 := by omega
    have h3 : ¬ (64 ≤ i) := by omega
    have h4 : i < 64 := by omega
    simp [h1, h3, hi, h4]
  · simp only [isaptr, beq_eq_false_iff_ne, ne_eq]
    intro hc
    have := congrArg (fun v => v.getLsbD 0) hc
    simp [objFromSize] at this

example : sizeFromObj (objFromSize 131072) = 131072 := by decide

end Verif.Imm
