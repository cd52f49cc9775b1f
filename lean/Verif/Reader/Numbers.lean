import Verif.Reader.Atoms
import Mathlib.Algebra.Order.Field.Rat
import Mathlib.Tactic.FieldSimp
import Mathlib.Tactic.Ring
import Mathlib.Tactic.NormNum
/-
Property C28: rectangular complex literals denote what they say.
-/
namespace Verif.Reader
open Verif.Num Verif.Cmp Verif.Width

/-! ## Specification: literals and the numbers they denote -/

/-- the digits of a radix, any number of them -/
def Digits (r : Nat) (s : List Char) : Prop := ∀ c ∈ s, isDig r c = true

instance (r : Nat) (s : List Char) : Decidable (Digits r s) := by unfold Digits; infer_instance

/-- a sign in front of a number -/
inductive SignText : List Char → Sign → Prop
  | none : SignText [] .plus
  | plus : SignText ['+'] .plus
  | minus : SignText ['-'] .minus

/-- `x` or `-x` -/
def Sign.app (s : Sign) (x : ℚ) : ℚ := match s with | .plus => x | .minus => -x

/-- exponent part: nothing, or a marker, an optional sign and digits -/
inductive Expo : List Char → ℤ → Prop
  | none : Expo [] 0
  | some {c sg s ds} : c ∈ cs!"esfdlESFDL" → SignText sg s → ds ≠ [] → Digits 10 ds →
      Expo (c :: (sg ++ ds)) (match s with | .plus => (value 10 ds : ℤ) | .minus => -(value 10 ds : ℤ))

/-- unsigned real literals and their values: integers, fractions, and decimals (radix ten only) -/
inductive UReal (r : Nat) : List Char → ℚ → Prop
  | int {ds} : ds ≠ [] → Digits r ds → UReal r ds (value r ds)
  | ratio {n d} : n ≠ [] → Digits r n → d ≠ [] → Digits r d →
      UReal r (n ++ '/' :: d) ((value r n : ℚ) / value r d)
  | point {ip fp ex e} : r = 10 → Digits 10 ip → Digits 10 fp → (ip ≠ [] ∨ fp ≠ []) → Expo ex e →
      UReal r (ip ++ '.' :: (fp ++ ex)) (((value 10 ip : ℚ) + (value 10 fp : ℚ) / 10 ^ fp.length) * 10 ^ e)
  | exp {ip ex e} : r = 10 → ip ≠ [] → Digits 10 ip → ex ≠ [] → Expo ex e →
      UReal r (ip ++ ex) ((value 10 ip : ℚ) * 10 ^ e)

/-- real literals: an optional sign and an unsigned real -/
inductive RealLit (r : Nat) : List Char → ℚ → Prop
  | mk {sg s u q} : SignText sg s → UReal r u q → RealLit r (sg ++ u) (Sign.app s q)

/-- the sign symbols in a datum -/
def signed (s : Sign) (n : ℕ) : ℤ := match s with | .plus => n | .minus => -n

/-- integer data and their values -/
inductive IntDenotes : SX → ℤ → Prop
  | mk {w s ds} {r : Nat} : IntDenotes (datum cs!"integer" [w, signSX s, .str ds, .num r]) (signed s (value r ds))

/-- real data and their values: `(integer w sign digits radix)`, `(ratio n d)`,
`(decimal rep sign int frac expsign exp)` -/
inductive RealDenotes : SX → ℚ → Prop
  | int {d n} : IntDenotes d n → RealDenotes d n
  | ratio {a b n m} : IntDenotes a n → IntDenotes b m → RealDenotes (datum cs!"ratio" [a, b]) ((n : ℚ) / m)
  | decimal {rep s ip fp es ep} :
      RealDenotes (datum cs!"decimal" [rep, signSX s, .str ip, .str fp, signSX es, .str ep])
        (Sign.app s (((value 10 ip : ℚ) + (value 10 fp : ℚ) / 10 ^ fp.length) * 10 ^ signed es (value 10 ep)))

/-- rectangular literals and the complex numbers they denote -/
inductive RectLit (r : Nat) : List Char → ℚ → ℚ → Prop
  /-- `a+bi` -/
  | full {s x sg t u y} : RealLit r s x → SignText sg t → sg ≠ [] → UReal r u y →
      RectLit r (s ++ (sg ++ (u ++ ['i']))) x (Sign.app t y)
  /-- `+bi` -/
  | imag {sg t u y} : SignText sg t → sg ≠ [] → UReal r u y → RectLit r (sg ++ (u ++ ['i'])) 0 (Sign.app t y)
  /-- `a+i` -/
  | unit {s x sg t} : RealLit r s x → SignText sg t → sg ≠ [] → RectLit r (s ++ (sg ++ ['i'])) x (Sign.app t 1)
  /-- `+i` -/
  | pureUnit {sg t} : SignText sg t → sg ≠ [] → RectLit r (sg ++ ['i']) 0 (Sign.app t 1)

/-- Full statement of C28: every rectangular literal is read as the rectangular number it denotes. -/
def C28Full : Prop :=
  ∀ s x y rest, RectLit 10 s x y → inputDelimited rest = true →
    ∃ a b, lexical (s ++ rest) = some (some (datum cs!"rectangular" [a, b], rest)) ∧
      RealDenotes a x ∧ RealDenotes b y

/-! ## Characters -/

theorem digit_char {r : Nat} {c : Char} (hr : r ≤ 16) (h : isDig r c = true) :
    c ≠ 'i' ∧ c ≠ 'n' ∧ c ≠ '+' ∧ c ≠ '-' ∧ c ≠ '.' ∧ c ≠ '/' ∧ c ≠ '@' ∧ c ≠ '#' ∧ c ≠ '>' ∧ c ≠ ';' ∧
    isspace c = false ∧ charDelimiter c = false ∧ c.toNat < 128 := by
  have h16 : isDig 16 c = true := by
    unfold isDig at h ⊢
    split at h
    · simp at h ⊢; omega
    · cases h
  by_cases hb : c.toNat < 128
  · have : ∀ n < 128, isDig 16 (Char.ofNat n) = true → Char.ofNat n ∉ cs!"in+-./@#>;" ∧
      isspace (Char.ofNat n) = false ∧ charDelimiter (Char.ofNat n) = false := by
      decide +kernel
    have := this c.toNat hb
    rw [Char.ofNat_toNat] at this
    obtain ⟨h1, h2, h3⟩ := this h16
    simp only [List.mem_cons, List.not_mem_nil, or_false, not_or] at h1
    obtain ⟨a1, a2, a3, a4, a5, a6, a7, a8, a9, a10⟩ := h1
    exact ⟨a1, a2, a3, a4, a5, a6, a7, a8, a9, a10, h2, h3, hb⟩
  · obtain ⟨h1, -⟩ := big_not_digit c (by omega)
    unfold isDig at h16
    rw [h1] at h16
    cases h16

theorem digit10 {c : Char} (h : isDig 10 c = true) : isdigit c = true ∧ charInitial c = false ∧
    charNumberInitial c = true ∧ charExponentMarker c = false := by
  have hb := (digit_char (by omega) h).2.2.2.2.2.2.2.2.2.2.2.2
  have : ∀ n < 128, isDig 10 (Char.ofNat n) = true → isdigit (Char.ofNat n) = true ∧ charInitial (Char.ofNat n) = false ∧
    charNumberInitial (Char.ofNat n) = true ∧ charExponentMarker (Char.ofNat n) = false := by decide +kernel
  have := this c.toNat hb
  rw [Char.ofNat_toNat] at this
  exact this h

/-- the input does not go on with a character that could continue a real number -/
def Stop (r : Nat) (i : List Char) : Prop :=
  ∀ c, i.head? = some c → isDig r c = false ∧ c ≠ '/' ∧ c ≠ '.' ∧ charExponentMarker c = false

theorem prefix_ne {c h : Char} (i hs : List Char) (hc : c ≠ h) : inputPrefix (c :: i) (h :: hs) = none := by
  simp [inputPrefix, hc]

theorem prefix_one (i : List Char) {h : Char} (hc : i.head? ≠ some h) : inputPrefix i [h] = none := by
  cases i with
  | nil => rfl
  | cons c i => exact prefix_ne _ _ (fun e => hc (by simp [e]))

theorem prefix_hit (i : List Char) (h : Char) : inputPrefix (h :: i) [h] = some i := by
  cases i <;> simp [inputPrefix]

/-! ## Unsigned integers, exponents, fractions -/

theorem readUinteger_spec (sg : Sign) {r : Nat} (hr : r ∈ [2, 8, 10, 16]) {ds rest : List Char} (hne : ds ≠ [])
    (hd : Digits r ds) (hrest : ∀ c, rest.head? = some c → isDig r c = false) :
    ∃ w ds', readUinteger (ds ++ rest) sg r =
        some (datum cs!"integer" [w, signSX sg, .str ds', .num r], rest) ∧ value r ds' = value r ds := by
  obtain ⟨d, h1, h2, h3, h4, -⟩ := c26_width sg r hr ds rest hne hd hrest
  refine ⟨match d.width with | some w => .num w | none => .sym cs!"big", d.digits, ?_, h4⟩
  rw [readUinteger, h1, Option.map_some, intDatum, h2, h3]
  rfl

theorem readInteger_spec {sg : List Char} {s : Sign} (hs : SignText sg s) {r : Nat} (hr : r ∈ [2, 8, 10, 16])
    {ds rest : List Char} (hne : ds ≠ [])
    (hd : Digits r ds) (hrest : ∀ c, rest.head? = some c → isDig r c = false) :
    ∃ w ds', readInteger (sg ++ (ds ++ rest)) r =
        some (datum cs!"integer" [w, signSX s, .str ds', .num r], rest) ∧ value r ds' = value r ds := by
  have hr16 : r ≤ 16 := by simp only [List.mem_cons, List.not_mem_nil, or_false] at hr; omega
  obtain ⟨w, ds', h1, h2⟩ := readUinteger_spec s hr hne hd hrest
  refine ⟨w, ds', ?_, h2⟩
  unfold readInteger
  cases hs with
  | none =>
    obtain ⟨c, t, rfl⟩ := List.exists_cons_of_ne_nil hne
    obtain ⟨-, -, g1, g2, -⟩ := digit_char hr16 (hd c (by simp))
    rw [List.nil_append, List.cons_append, prefix_ne _ _ g1, prefix_ne _ _ g2]
    exact h1
  | plus =>
    rw [List.cons_append, List.nil_append, prefix_hit]
    exact h1
  | minus =>
    rw [List.cons_append, List.nil_append, prefix_ne _ _ (by decide), prefix_hit]
    exact h1

theorem markers {c : Char} (h : c ∈ cs!"esfdlESFDL") : charExponentMarker c = true ∧ isDig 10 c = false ∧
    c ≠ '/' ∧ c ≠ '.' := by
  have : ∀ c ∈ cs!"esfdlESFDL", charExponentMarker c = true ∧ isDig 10 c = false ∧ c ≠ '/' ∧ c ≠ '.' := by
    decide +kernel
  exact this c h

theorem suffix_spec (d1 d2 : SX) {ex : List Char} {e : ℤ} (he : Expo ex e) {rest : List Char} (hs : Stop 10 rest) :
    ∃ rep w es ep, readDecimalSuffix d1 d2 (ex ++ rest) 10 =
        some (decimalDatum rep d1 d2 (datum cs!"integer" [w, signSX es, .str ep, .num 10]), rest) ∧
      signed es (value 10 ep) = e := by
  cases he with
  | none =>
    refine ⟨cs!"e", .num 8, .plus, cs!"0", ?_, rfl⟩
    cases rest with
    | nil => rfl
    | cons c rest =>
      have := (hs c rfl).2.2.2
      simp [readDecimalSuffix, this, zeroDatum]
  | @some c sg s ds hc hsg hne hd =>
    obtain ⟨w, ep, h1, h2⟩ := readInteger_spec hsg (r := 10) (by decide) hne hd (fun c hc => (hs c hc).1)
    refine ⟨[tolower c], w, s, ep, ?_, ?_⟩
    · rw [List.cons_append, List.append_assoc, readDecimalSuffix, if_pos (markers hc).1, h1]
      rfl
    · rw [h2]; cases s <;> rfl

theorem value_zero_end (s : List Char) : value 10 (s ++ ['0']) = value 10 s * 10 := by
  rw [value_append]; simp [value, digVal]

theorem stripRev_spec : ∀ s : List Char, s ≠ [] →
    (value 10 (stripRev s).reverse : ℚ) / 10 ^ (stripRev s).reverse.length = (value 10 s.reverse : ℚ) / 10 ^ s.reverse.length
  | [], h => absurd rfl h
  | [c], _ => by simp [stripRev]
  | c :: d :: t, _ => by
    rw [stripRev]
    split
    · rename_i hc
      subst hc
      rw [stripRev_spec (d :: t) (by simp), List.reverse_cons (a := '0'), value_zero_end, List.length_append,
        List.length_singleton, pow_succ]
      push_cast
      rw [mul_div_mul_right _ _ (by norm_num)]
    · rfl

theorem readFraction_spec : ∀ (fp rest acc : List Char), Digits 10 fp →
    (∀ c, rest.head? = some c → isDig 10 c = false) →
    readFraction (fp ++ rest) acc = (fractionDatum (fp.reverse ++ acc)).map (·, rest)
  | [], rest, acc, _, hr => by
    cases rest with
    | nil => rfl
    | cons c rest =>
      have := hr c rfl
      rw [List.nil_append, readFraction, charDigitValue_spec, this]
      rfl
  | c :: fp, rest, acc, hd, hr => by
    have hc := hd c (by simp)
    have : ∃ v, charDigitValue c 10 = some v := by
      rw [charDigitValue_spec, if_pos hc]
      unfold isDig at hc
      split at hc
      · rename_i v hv; exact ⟨v, hv⟩
      · cases hc
    obtain ⟨v, hv⟩ := this
    rw [List.cons_append, readFraction, hv]
    simp only
    rw [readFraction_spec fp rest _ (fun c hc => hd c (by simp [hc])) hr]
    simp

/-- the number a decimal datum built from its parts stands for -/
theorem decimal_denotes {rep : List Char} {w w2 w3 w4 : SX} {s es : Sign} {ip fp ep : List Char} {r : Nat} (x : SX) :
    RealDenotes (decimalDatum rep (datum cs!"integer" [w, signSX s, .str ip, .num r])
        (datum cs!"integer" [w2, x, .str fp, w3])
        (datum cs!"integer" [w4, signSX es, .str ep, .num 10]))
      (Sign.app s (((value 10 ip : ℚ) + (value 10 fp : ℚ) / 10 ^ fp.length) * 10 ^ signed es (value 10 ep))) :=
  .decimal

theorem readDecimal_point (s : Sign) (w : SX) (ip : List Char) {fp ex : List Char} {e : ℤ} (hf : Digits 10 fp) (he : Expo ex e)
    {rest : List Char} (hs : Stop 10 rest) :
    ∃ d, readDecimal (datum cs!"integer" [w, signSX s, .str ip, .num 10]) ('.' :: (fp ++ (ex ++ rest))) 10 =
        some (d, rest) ∧
      RealDenotes d (Sign.app s (((value 10 ip : ℚ) + (value 10 fp : ℚ) / 10 ^ fp.length) * 10 ^ e)) := by
  have hstop : ∀ c, (ex ++ rest).head? = some c → isDig 10 c = false := by
    intro c hc
    cases he with
    | none => exact (hs c hc).1
    | some hm _ _ _ => cases hc; exact (markers hm).2.1
  unfold readDecimal
  rw [prefix_hit]
  simp only
  cases fp with
  | nil =>
    have hh : (((([] : List Char) ++ (ex ++ rest)).head?).map isdigit).getD false = false := by
      cases h : (ex ++ rest).head? with
      | none => simp only [List.nil_append, h]; rfl
      | some c =>
        have := hstop c h
        simp only [List.nil_append, h, Option.map_some, Option.getD_some]
        cases hd : isdigit c with
        | false => rfl
        | true =>
          exfalso
          have hn : 48 ≤ c.toNat ∧ c.toNat ≤ 57 := by
            have h' : '0' ≤ c ∧ c ≤ '9' := by simpa [isdigit] using hd
            exact h'
          have : ∀ n < 58, 48 ≤ n → isDig 10 (Char.ofNat n) = true := by decide +kernel
          have := this c.toNat (by omega) hn.1
          rw [Char.ofNat_toNat] at this
          simp_all
    rw [hh, if_neg (by decide), List.nil_append]
    obtain ⟨rep, w', es, ep, h1, h2⟩ := suffix_spec (datum cs!"integer" [w, signSX s, .str ip, .num 10]) (zeroDatum .plus) he hs
    refine ⟨_, h1, ?_⟩
    have := decimal_denotes (rep := rep) (w := w) (w2 := .num 8) (w3 := .num 10) (w4 := w') (s := s) (es := es) (ip := ip)
      (fp := cs!"0") (ep := ep) (r := 10) (signSX .plus)
    rw [h2] at this
    have e1 : (value 10 cs!"0" : ℚ) / 10 ^ (cs!"0").length = (value 10 [] : ℚ) / 10 ^ ([] : List Char).length := by
      simp [value, digVal]
    rw [e1] at this
    exact this
  | cons c t =>
    have hc := hf c (by simp)
    rw [List.cons_append, List.head?_cons, Option.map_some, Option.getD_some, (digit10 hc).1, if_pos rfl,
      ← List.cons_append, readFraction_spec (c :: t) (ex ++ rest) [] hf hstop, List.append_nil, fractionDatum,
      if_neg (by simp)]
    simp only [Option.map_some, Option.bind_some]
    obtain ⟨rep, w', es, ep, h1, h2⟩ := suffix_spec (datum cs!"integer" [w, signSX s, .str ip, .num 10])
      (datum cs!"integer" [.sym cs!"?", .sym cs!"?", .str (stripRev (c :: t).reverse).reverse, .sym cs!"?"]) he hs
    refine ⟨_, h1, ?_⟩
    have := decimal_denotes (rep := rep) (w := w) (w2 := .sym cs!"?") (w3 := .sym cs!"?") (w4 := w') (s := s) (es := es) (ip := ip)
      (fp := (stripRev (c :: t).reverse).reverse) (ep := ep) (r := 10) (.sym cs!"?")
    rw [h2, stripRev_spec _ (by simp), List.reverse_reverse] at this
    exact this

theorem readDecimal_exp (s : Sign) (w : SX) (ip : List Char) {ex : List Char} {e : ℤ} (he : Expo ex e) (hex : ex ≠ [])
    {rest : List Char} (hs : Stop 10 rest) :
    ∃ d, readDecimal (datum cs!"integer" [w, signSX s, .str ip, .num 10]) (ex ++ rest) 10 = some (d, rest) ∧
      RealDenotes d (Sign.app s ((value 10 ip : ℚ) * 10 ^ e)) := by
  have hp : inputPrefix (ex ++ rest) cs!"." = none := by
    apply prefix_one
    cases he with
    | none => exact absurd rfl hex
    | some hm _ _ _ =>
      intro h
      cases h
      exact (markers hm).2.2.2 rfl
  unfold readDecimal
  rw [hp]
  simp only
  obtain ⟨rep, w', es, ep, h1, h2⟩ := suffix_spec (datum cs!"integer" [w, signSX s, .str ip, .num 10]) (zeroDatum .plus) he hs
  refine ⟨_, h1, ?_⟩
  have := decimal_denotes (rep := rep) (w := w) (w2 := .num 8) (w3 := .num 10) (w4 := w') (s := s) (es := es) (ip := ip)
    (fp := cs!"0") (ep := ep) (r := 10) (signSX .plus)
  rw [h2] at this
  have e1 : (value 10 cs!"0" : ℚ) / 10 ^ (cs!"0").length = 0 := by
    simp [value, digVal]
  rw [e1, add_zero] at this
  exact this

/-! ## Real numbers -/

theorem app_signed (s : Sign) (n : ℕ) : ((signed s n : ℤ) : ℚ) = Sign.app s (n : ℚ) := by
  cases s <;> simp [signed, Sign.app]

theorem stop_atExponent {r : Nat} {i : List Char} (h : Stop r i) : atExponent i = false := by
  cases i with
  | nil => rfl
  | cons c i => exact (h c rfl).2.2.2

theorem stop_prefix {r : Nat} {i : List Char} (h : Stop r i) : inputPrefix i cs!"/" = none ∧ inputPrefix i cs!"." = none := by
  constructor
  · exact prefix_one _ (fun e => (h _ e).2.1 rfl)
  · exact prefix_one _ (fun e => (h _ e).2.2.1 rfl)

/-- reading a real literal whose digits start before any period -/
theorem readReal_spec {r : Nat} (hr : r ∈ [2, 8, 10, 16]) {sg u : List Char} {s : Sign} {q : ℚ} (hsg : SignText sg s)
    (hu : UReal r u q) (hnp : u.head? ≠ some '.') {rest : List Char} (hs : Stop r rest) :
    ∃ d, readReal (sg ++ (u ++ rest)) r = some (d, rest) ∧ RealDenotes d (Sign.app s q) := by
  have hr16 : r ≤ 16 := by simp only [List.mem_cons, List.not_mem_nil, or_false] at hr; omega
  cases hu with
  | int hne hd =>
    obtain ⟨w, ds', h1, h2⟩ := readInteger_spec hsg hr hne hd (fun c hc => (hs c hc).1)
    refine ⟨datum cs!"integer" [w, signSX s, .str ds', .num r], ?_, ?_⟩
    · unfold readReal
      rw [h1]
      simp only [Option.bind_some, (stop_prefix hs).1, (stop_prefix hs).2, stop_atExponent hs]
      simp
    · rw [← app_signed, ← h2]
      exact .int .mk
  | @ratio n d hn hnd hd hdd =>
    obtain ⟨w, ds', h1, h2⟩ := readInteger_spec (rest := '/' :: (d ++ rest)) hsg hr hn hnd (fun c hc => by
      cases hc
      cases h : isDig r '/' with
      | false => rfl
      | true => exact absurd rfl (digit_char hr16 h).2.2.2.2.2.1)
    obtain ⟨w', es', g1, g2⟩ := readUinteger_spec .plus hr hd hdd (fun c hc => (hs c hc).1)
    refine ⟨datum cs!"ratio" [datum cs!"integer" [w, signSX s, .str ds', .num r],
      datum cs!"integer" [w', signSX .plus, .str es', .num r]], ?_, ?_⟩
    · unfold readReal
      rw [List.append_assoc, List.cons_append, h1]
      simp only [Option.bind_some, prefix_hit, g1, Option.map_some]
    · have := RealDenotes.ratio (IntDenotes.mk (w := w) (s := s) (ds := ds') (r := r))
        (IntDenotes.mk (w := w') (s := .plus) (ds := es') (r := r))
      rw [h2, g2, app_signed, app_signed] at this
      have e : Sign.app s (value r n : ℚ) / Sign.app .plus (value r d : ℚ) = Sign.app s ((value r n : ℚ) / value r d) := by
        cases s <;> simp [Sign.app, neg_div]
      rw [e] at this
      exact this
  | @point ip fp ex e h10 hip hfp hne hex =>
    subst h10
    have hipne : ip ≠ [] := by rintro rfl; exact hnp rfl
    obtain ⟨w, ds', h1, h2⟩ := readInteger_spec (rest := '.' :: (fp ++ (ex ++ rest))) hsg hr hipne hip (fun c hc => by
      cases hc; decide)
    obtain ⟨d, g1, g2⟩ := readDecimal_point s w ds' hfp hex hs
    rw [h2] at g2
    refine ⟨d, ?_, g2⟩
    unfold readReal
    rw [List.append_assoc, List.cons_append, List.append_assoc, h1]
    simp only [Option.bind_some, prefix_hit, prefix_ne _ _ (show '.' ≠ '/' by decide)]
    rw [if_neg (by rintro ⟨-, h⟩; revert h; show ¬ (charExponentMarker '.' = true); decide), if_pos (by simp)]
    exact g1
  | @exp ip ex e h10 hne hip hexne hex =>
    subst h10
    obtain ⟨c, t, hc⟩ : ∃ c t, ex = c :: t ∧ c ∈ cs!"esfdlESFDL" := by
      cases hex with
      | none => exact absurd rfl hexne
      | some hm _ _ _ => exact ⟨_, _, rfl, hm⟩
    obtain ⟨w, ds', h1, h2⟩ := readInteger_spec (rest := ex ++ rest) hsg hr hne hip (fun c' hc' => by
      rw [hc.1] at hc'; cases hc'; exact (markers hc.2).2.1)
    obtain ⟨d, g1, g2⟩ := readDecimal_exp s w ds' hex hexne hs
    rw [h2] at g2
    refine ⟨d, ?_, g2⟩
    have e1 : inputPrefix (ex ++ rest) cs!"/" = none := by
      rw [hc.1]; exact prefix_ne _ _ (markers hc.2).2.2.1
    have e2 : atExponent (ex ++ rest) = true := by
      rw [hc.1]; exact (markers hc.2).1
    unfold readReal
    rw [List.append_assoc, h1]
    simp only [Option.bind_some, e1, e2]
    rw [if_pos (by simp)]
    exact g1

/-- what an unsigned real can start with -/
theorem ureal_head {r : Nat} {u : List Char} {q : ℚ} (hr : r ≤ 16) (hu : UReal r u q) :
    ∃ c t, u = c :: t ∧ (isDig r c = true ∨ (c = '.' ∧ r = 10)) := by
  have key : ∀ (ds tl : List Char), ds ≠ [] → Digits r ds →
      ∃ c t, ds ++ tl = c :: t ∧ (isDig r c = true ∨ (c = '.' ∧ r = 10)) := by
    intro ds tl hne hd
    obtain ⟨c, t, rfl⟩ := List.exists_cons_of_ne_nil hne
    exact ⟨c, t ++ tl, rfl, .inl (hd c (by simp))⟩
  cases hu with
  | int hne hd => simpa using key _ [] hne hd
  | ratio hne hd _ _ => exact key _ _ hne hd
  | @point ip fp ex e h10 hip hfp hne hex =>
    subst h10
    by_cases h : ip = []
    · subst h; exact ⟨_, _, rfl, .inr ⟨rfl, rfl⟩⟩
    · exact key _ _ h hip
  | exp h10 hne hip _ _ => subst h10; exact key _ _ hne hip

/-- an unsigned real does not start with a letter that would make it an infinity, a NaN or the imaginary unit -/
theorem ureal_head' {r : Nat} {u : List Char} {q : ℚ} (hr : r ≤ 16) (hu : UReal r u q) :
    ∃ c t, u = c :: t ∧ c ≠ 'i' ∧ c ≠ 'n' ∧ c ≠ '+' ∧ c ≠ '-' ∧ c ≠ '#' ∧ c ≠ '>' ∧ c ≠ ';' ∧ isspace c = false ∧
      charDelimiter c = false ∧ (c = '.' ∨ isDig r c = true) := by
  obtain ⟨c, t, rfl, h | ⟨rfl, h⟩⟩ := ureal_head hr hu
  · obtain ⟨h1, h2, h3, h4, -, -, -, h5, h6, h7, h8, h9, -⟩ := digit_char hr h
    exact ⟨c, t, rfl, h1, h2, h3, h4, h5, h6, h7, h8, h9, .inr h⟩
  · refine ⟨_, t, rfl, ?_⟩
    refine ⟨by decide, by decide, by decide, by decide, by decide, by decide, by decide, by decide, by decide, .inl rfl⟩

/-- the fixed special literals do not match a real literal -/
theorem special_none {r : Nat} (hr : r ≤ 16) {sg u : List Char} {s : Sign} {q : ℚ} (hsg : SignText sg s)
    (hu : UReal r u q) (rest : List Char) (x y : Char) (p : List Char) (hx : x = '+' ∨ x = '-') (hy : y = 'n' ∨ y = 'i') :
    inputDelimitedPrefix (sg ++ (u ++ rest)) (x :: y :: p) = none := by
  obtain ⟨c, t, rfl, h1, h2, h3, h4, -⟩ := ureal_head' hr hu
  have hcx : c ≠ x := by rcases hx with rfl | rfl <;> assumption
  have hcy : c ≠ y := by rcases hy with rfl | rfl <;> assumption
  unfold inputDelimitedPrefix
  cases hsg with
  | none => rw [List.nil_append, List.cons_append, prefix_ne _ _ hcx]; rfl
  | plus =>
    rw [List.cons_append, List.nil_append, inputPrefix]
    split
    · rw [List.cons_append, prefix_ne _ _ hcy]; rfl
    · rfl
  | minus =>
    rw [List.cons_append, List.nil_append, inputPrefix]
    split
    · rw [List.cons_append, prefix_ne _ _ hcy]; rfl
    · rfl

theorem readRealNaninf_spec {r : Nat} (hr : r ∈ [2, 8, 10, 16]) {s : List Char} {q : ℚ} (hq : RealLit r s q)
    {rest : List Char} (hs : Stop r rest) :
    ∃ d, readRealNaninf (s ++ rest) r = some (d, rest) ∧ RealDenotes d q := by
  have hr16 : r ≤ 16 := by simp only [List.mem_cons, List.not_mem_nil, or_false] at hr; omega
  cases hq with
  | @mk sg t u q hsg hu =>
  rw [List.append_assoc]
  unfold readRealNaninf
  rw [special_none hr16 hsg hu _ _ _ _ (.inr rfl) (.inl rfl), special_none hr16 hsg hu _ _ _ _ (.inl rfl) (.inl rfl),
    special_none hr16 hsg hu _ _ _ _ (.inr rfl) (.inr rfl), special_none hr16 hsg hu _ _ _ _ (.inl rfl) (.inr rfl)]
  simp only
  by_cases hp : u.head? = some '.'
  · have : ∃ fp ex e, r = 10 ∧ u = '.' :: (fp ++ ex) ∧ Digits 10 fp ∧ Expo ex e ∧
        q = ((value 10 [] : ℚ) + (value 10 fp : ℚ) / 10 ^ fp.length) * 10 ^ e := by
      cases hu with
      | int hne hd =>
        obtain ⟨c, t, rfl⟩ := List.exists_cons_of_ne_nil hne
        cases hp
        exact absurd rfl (digit_char hr16 (hd _ (by simp))).2.2.2.2.1
      | ratio hne hd _ _ =>
        obtain ⟨c, t, rfl⟩ := List.exists_cons_of_ne_nil hne
        cases hp
        exact absurd rfl (digit_char hr16 (hd _ (by simp))).2.2.2.2.1
      | exp h10 hne hd _ _ =>
        obtain ⟨c, t, rfl⟩ := List.exists_cons_of_ne_nil hne
        cases hp
        exact absurd rfl (digit_char (by omega) (hd _ (by simp))).2.2.2.2.1
      | @point ip fp ex e h10 hip hfp hne hex =>
        cases ip with
        | nil => exact ⟨fp, ex, e, h10, rfl, hfp, hex, rfl⟩
        | cons c t =>
          cases hp
          exact absurd rfl (digit_char (by omega) (hip _ (by simp))).2.2.2.2.1
    obtain ⟨fp, ex, e, rfl, rfl, hfp, hex, rfl⟩ := this
    have hz : zeroDatum t = datum cs!"integer" [.num 8, signSX t, .str cs!"0", .num 10] := rfl
    obtain ⟨d, g1, g2⟩ := readDecimal_point t (.num 8) cs!"0" hfp hex hs
    have e0 : value 10 cs!"0" = value 10 [] := by simp [value, digVal]
    rw [e0] at g2
    refine ⟨d, ?_, g2⟩
    rw [← hz] at g1
    cases hsg with
    | none =>
      rw [if_pos ⟨rfl, by simp [inputPrefix]⟩]
      rw [List.nil_append, List.cons_append, List.append_assoc]
      exact g1
    | plus =>
      rw [if_neg (by simp [inputPrefix]), if_pos ⟨rfl, by simp [inputPrefix]⟩]
      simp only [List.cons_append, List.nil_append, List.tail_cons, List.append_assoc]
      exact g1
    | minus =>
      rw [if_neg (by simp [inputPrefix]), if_neg (by simp [inputPrefix]), if_pos ⟨rfl, by simp [inputPrefix]⟩]
      simp only [List.cons_append, List.nil_append, List.tail_cons, List.append_assoc]
      exact g1
  · have : ∀ x, inputPrefix (u ++ rest) ('.' :: x) = none := by
      intro x
      obtain ⟨c, v, rfl, -⟩ := ureal_head hr16 hu
      exact prefix_ne _ _ (fun h => hp (by simp [h]))
    obtain ⟨c, v, hc, -, -, hc1, hc2, -⟩ := ureal_head' hr16 hu
    have n1 : inputPrefix (sg ++ (u ++ rest)) cs!"." = none := by
      cases hsg with
      | none => exact this _
      | plus => exact prefix_ne _ _ (by decide)
      | minus => exact prefix_ne _ _ (by decide)
    have n2 : inputPrefix (sg ++ (u ++ rest)) cs!"+." = none := by
      cases hsg with
      | none => rw [hc]; exact prefix_ne _ _ hc1
      | plus => rw [List.cons_append, inputPrefix, if_pos rfl]; exact this _
      | minus => exact prefix_ne _ _ (by decide)
    have n3 : inputPrefix (sg ++ (u ++ rest)) cs!"-." = none := by
      cases hsg with
      | none => rw [hc]; exact prefix_ne _ _ hc2
      | plus => exact prefix_ne _ _ (by decide)
      | minus => rw [List.cons_append, inputPrefix, if_pos rfl]; exact this _
    rw [n1, n2, n3, if_neg (by simp), if_neg (by simp), if_neg (by simp)]
    exact readReal_spec hr hsg hu hp hs

/-! ## Complex numbers -/

theorem stop_of {r : Nat} (hr : r ≤ 16) {i : List Char}
    (h : ∀ c, i.head? = some c → c = '+' ∨ c = '-' ∨ c = 'i' ∨ c = '@' ∨ charDelimiter c = true) : Stop r i := by
  intro c hc
  have hd : isDig r c = false := by
    cases hd : isDig r c with
    | false => rfl
    | true =>
      exfalso
      obtain ⟨h1, -, h2, h3, -, -, h4, -, -, -, -, h5, -⟩ := digit_char hr hd
      rcases h c hc with h | h | h | h | h
      · exact h2 h
      · exact h3 h
      · exact h1 h
      · exact h4 h
      · rw [h5] at h; cases h
  refine ⟨hd, ?_⟩
  rcases h c hc with rfl | rfl | rfl | rfl | h
  · decide
  · decide
  · decide
  · decide
  · have h1 : c ≠ '/' := by rintro rfl; revert h; decide
    have h2 : c ≠ '.' := by rintro rfl; revert h; decide
    refine ⟨h1, h2, ?_⟩
    cases hm : charExponentMarker c with
    | false => rfl
    | true =>
      exfalso
      by_cases hb : c.toNat < 128
      · have : ∀ n < 128, charExponentMarker (Char.ofNat n) = true → charDelimiter (Char.ofNat n) = false := by
          decide +kernel
        have := this c.toNat hb
        rw [Char.ofNat_toNat] at this
        rw [this hm] at h; cases h
      · obtain ⟨-, h1, -⟩ := big_not_digit c (by omega)
        unfold charExponentMarker at hm
        rw [h1] at hm
        have : ∀ c ∈ cs!"esfdl", c.toNat < 128 := by decide
        exact hb (this c (by simpa using hm))

theorem realLit_ureal {r : Nat} {s : List Char} {q : ℚ} (h : RealLit r s q) :
    ∃ sg t u v, SignText sg t ∧ UReal r u v ∧ s = sg ++ u := by
  cases h with
  | mk h1 h2 => exact ⟨_, _, _, _, h1, h2, rfl⟩

theorem complex_special {r : Nat} (hr : r ≤ 16) {s : List Char} {q : ℚ} (h : RealLit r s q) (rest : List Char) :
    inputDelimitedPrefix (s ++ rest) cs!"+i" = none ∧ inputDelimitedPrefix (s ++ rest) cs!"-i" = none := by
  obtain ⟨sg, t, u, v, h1, h2, rfl⟩ := realLit_ureal h
  rw [List.append_assoc]
  exact ⟨special_none hr h1 h2 _ _ _ _ (.inl rfl) (.inr rfl), special_none hr h1 h2 _ _ _ _ (.inr rfl) (.inr rfl)⟩

theorem sign_cases {sg : List Char} {t : Sign} (h : SignText sg t) (hne : sg ≠ []) :
    (sg = ['+'] ∧ t = .plus) ∨ (sg = ['-'] ∧ t = .minus) := by
  cases h with
  | none => exact absurd rfl hne
  | plus => exact .inl ⟨rfl, rfl⟩
  | minus => exact .inr ⟨rfl, rfl⟩

/-- `a+bi` -/
theorem readComplex_full {r : Nat} (hr : r ∈ [2, 8, 10, 16]) {s sg u : List Char} {x y : ℚ} {t : Sign}
    (hs : RealLit r s x) (hsg : SignText sg t) (hne : sg ≠ []) (hu : UReal r u y) (rest : List Char) :
    ∃ a b, readComplex (s ++ (sg ++ (u ++ ('i' :: rest)))) r = some (datum cs!"rectangular" [a, b], rest) ∧
      RealDenotes a x ∧ RealDenotes b (Sign.app t y) := by
  have hr16 : r ≤ 16 := by simp only [List.mem_cons, List.not_mem_nil, or_false] at hr; omega
  have hst1 : Stop r (sg ++ (u ++ ('i' :: rest))) := stop_of hr16 (fun c hc => by
    rcases sign_cases hsg hne with ⟨rfl, -⟩ | ⟨rfl, -⟩ <;> cases hc <;> simp)
  have hst2 : Stop r ('i' :: rest) := stop_of hr16 (fun c hc => by cases hc; simp)
  obtain ⟨a, h1, h2⟩ := readRealNaninf_spec hr hs hst1
  obtain ⟨b, h3, h4⟩ := readRealNaninf_spec hr (.mk hsg hu) hst2
  refine ⟨a, b, ?_, h2, h4⟩
  obtain ⟨g1, g2⟩ := complex_special hr16 hs (sg ++ (u ++ ('i' :: rest)))
  unfold readComplex
  rw [g1, g2]
  simp only [h1, Option.bind_some]
  rw [List.append_assoc] at h3
  have n1 : inputPrefix (sg ++ (u ++ ('i' :: rest))) cs!"@" = none := by
    rcases sign_cases hsg hne with ⟨rfl, -⟩ | ⟨rfl, -⟩ <;> exact prefix_ne _ _ (by decide)
  have n2 : inputPrefix (sg ++ (u ++ ('i' :: rest))) cs!"i" = none := by
    rcases sign_cases hsg hne with ⟨rfl, -⟩ | ⟨rfl, -⟩ <;> exact prefix_ne _ _ (by decide)
  have n3 : (inputPrefix (sg ++ (u ++ ('i' :: rest))) cs!"+").isSome = true ∨
      (inputPrefix (sg ++ (u ++ ('i' :: rest))) cs!"-").isSome = true := by
    rcases sign_cases hsg hne with ⟨rfl, -⟩ | ⟨rfl, -⟩
    · left; rw [List.cons_append, prefix_hit]; rfl
    · right; rw [List.cons_append, prefix_hit]; rfl
  simp only [n1, n2]
  rw [if_pos n3, h3]
  simp [prefix_hit]

/-- `+bi` -/
theorem readComplex_imag {r : Nat} (hr : r ∈ [2, 8, 10, 16]) {sg u : List Char} {y : ℚ} {t : Sign}
    (hsg : SignText sg t) (hu : UReal r u y) (rest : List Char) :
    ∃ a b, readComplex (sg ++ (u ++ ('i' :: rest))) r = some (datum cs!"rectangular" [a, b], rest) ∧
      RealDenotes a 0 ∧ RealDenotes b (Sign.app t y) := by
  have hr16 : r ≤ 16 := by simp only [List.mem_cons, List.not_mem_nil, or_false] at hr; omega
  have hst2 : Stop r ('i' :: rest) := stop_of hr16 (fun c hc => by cases hc; simp)
  have hl := RealLit.mk hsg hu
  obtain ⟨b, h3, h4⟩ := readRealNaninf_spec hr hl hst2
  have h0 : RealDenotes (zeroDatum .plus) 0 := by
    have := RealDenotes.int (IntDenotes.mk (w := .num 8) (s := .plus) (ds := cs!"0") (r := 10))
    simpa [signed, value, digVal, zeroDatum] using this
  refine ⟨zeroDatum .plus, b, ?_, h0, h4⟩
  obtain ⟨g1, g2⟩ := complex_special hr16 hl ('i' :: rest)
  rw [← List.append_assoc]
  unfold readComplex
  rw [g1, g2]
  simp only [h3, Option.bind_some, prefix_ne _ _ (show 'i' ≠ '@' by decide), prefix_hit]

/-! ## Entering the number branch of the reader -/

theorem lexical_num2 {c d : Char} (i : List Char) (hc : charNumberInitial c = true) (hd : charDelimiter d = false)
    (h1 : d ≠ '>') (h2 : d ≠ '.' ∨ c ≠ '.') :
    lexical (c :: d :: i) = some (readNumber (c :: d :: i) none 10) := by
  have hl : tolower d ≠ tolower '>' := by
    intro hh
    apply h1
    unfold tolower at hh
    split at hh
    · rename_i hc
      exfalso
      have h1 : d.toNat ≤ 90 := hc.2
      have h2 : 65 ≤ d.toNat := hc.1
      have h3 : (Char.ofNat (d.toNat + 32)).toNat = d.toNat + 32 := toNat_ofNat_small (by omega)
      rw [hh] at h3
      rw [if_neg (by decide)] at h3
      have : ('>' : Char).toNat = 62 := rfl
      omega
    · rw [hh]; rfl
  have m : c ∈ cs!"0123456789+-." := by simpa [charNumberInitial] using hc
  have e0 : isspace c = false ∧ c ≠ ';' ∧ charInitial c = false := by
    have : ∀ c ∈ cs!"0123456789+-.", isspace c = false ∧ c ≠ ';' ∧ charInitial c = false := by decide +kernel
    exact this c m
  have e1 : inputPrefixCi (c :: d :: i) cs!"->" = none := by
    rw [inputPrefixCi]
    split
    · simp [inputPrefixCi, hl]
    · rfl
  have dl : ∀ x, inputDelimitedPrefix (c :: d :: i) [x] = none := by
    intro x
    simp only [inputDelimitedPrefix, inputPrefix]
    split
    · simp [checkDelimited, inputDelimited, hd]
    · rfl
  have e5 : inputDelimitedPrefix (c :: d :: i) cs!"..." = none := by
    simp only [inputDelimitedPrefix]
    rw [inputPrefix]
    split
    · rename_i hcd
      subst hcd
      have : d ≠ '.' := by rcases h2 with h | h; exact h; exact absurd rfl h
      rw [prefix_ne _ _ this]; rfl
    · rfl
  have e6 : inputDelimitedPrefixCi (c :: d :: i) cs!"#t" = none ∧ inputDelimitedPrefixCi (c :: d :: i) cs!"#f" = none ∧
      findPrefix (c :: d :: i) = none := by
    simp only [List.mem_cons, List.not_mem_nil, or_false] at m
    rcases m with rfl | rfl | rfl | rfl | rfl | rfl | rfl | rfl | rfl | rfl | rfl | rfl | rfl <;> exact ⟨rfl, rfl, rfl⟩
  unfold lexical
  simp only
  rw [if_neg (by simp [e0.1]), if_neg e0.2.1, if_neg (by simp [e0.2.2])]
  simp only [e1, dl, e5, e6.1, e6.2.1, e6.2.2]
  rw [if_pos hc]

theorem lexical_num1 {c : Char} (i : List Char) (hc : isDig 10 c = true) :
    lexical (c :: i) = some (readNumber (c :: i) none 10) := by
  have hb := digit10 hc
  obtain ⟨-, -, k1, k2, k3, -, -, k4, k5, k6, k7, -⟩ := digit_char (by omega) hc
  have m : c ∈ cs!"0123456789+-." := by simpa [charNumberInitial] using hb.2.2.1
  simp only [List.mem_cons, List.not_mem_nil, or_false] at m
  have e6 : inputPrefixCi (c :: i) cs!"->" = none ∧ inputDelimitedPrefixCi (c :: i) cs!"#t" = none ∧
      inputDelimitedPrefixCi (c :: i) cs!"#f" = none ∧ findPrefix (c :: i) = none := by
    rcases m with rfl | rfl | rfl | rfl | rfl | rfl | rfl | rfl | rfl | rfl | rfl | rfl | rfl
    all_goals first
      | exact ⟨rfl, rfl, rfl, rfl⟩
      | exact absurd rfl k2
  have dl : ∀ x p, x ≠ c → inputDelimitedPrefix (c :: i) (x :: p) = none := by
    intro x p hx
    rw [inputDelimitedPrefix, prefix_ne _ _ hx.symm]; rfl
  unfold lexical
  simp only
  rw [if_neg (by simp [k7]), if_neg k6, if_neg (by simp [hb.2.1])]
  simp only [e6.1, e6.2.1, e6.2.2.1, e6.2.2.2, dl _ _ k1.symm, dl _ _ k2.symm, dl _ _ k3.symm]
  rw [if_pos hb.2.2.1]

/-- a real literal with something after it is taken as a number -/
theorem lexical_real {sg u : List Char} {t : Sign} {y : ℚ} (hsg : SignText sg t) (hu : UReal 10 u y) (rest : List Char) :
    lexical (sg ++ (u ++ rest)) = some (readNumber (sg ++ (u ++ rest)) none 10) := by
  obtain ⟨c, v, hcv, -, -, -, -, -, h1, -, -, h2, h3⟩ := ureal_head' (by omega) hu
  have hsign : ∀ x, (x = '+' ∨ x = '-') →
      lexical (x :: (u ++ rest)) = some (readNumber (x :: (u ++ rest)) none 10) := by
    intro x hx
    rw [hcv, List.cons_append]
    rcases hx with rfl | rfl
    · exact lexical_num2 _ (by decide) h2 h1 (.inr (by decide))
    · exact lexical_num2 _ (by decide) h2 h1 (.inr (by decide))
  cases hsg with
  | plus => exact hsign _ (.inl rfl)
  | minus => exact hsign _ (.inr rfl)
  | none =>
    rw [List.nil_append]
    rcases h3 with rfl | h3
    · have : ∃ d w, v = d :: w ∧ isDig 10 d = true := by
        cases hu with
        | int hne hd =>
          subst hcv
          exact absurd rfl (digit_char (by omega) (hd _ (by simp))).2.2.2.2.1
        | ratio hne hd _ _ =>
          obtain ⟨c, t, rfl⟩ := List.exists_cons_of_ne_nil hne
          cases hcv
          exact absurd rfl (digit_char (by omega) (hd _ (by simp))).2.2.2.2.1
        | exp h10 hne hd _ _ =>
          obtain ⟨c, t, rfl⟩ := List.exists_cons_of_ne_nil hne
          cases hcv
          exact absurd rfl (digit_char (by omega) (hd _ (by simp))).2.2.2.2.1
        | @point ip fp ex e h10 hip hfp hne hex =>
          cases ip with
          | nil =>
            cases hcv
            cases fp with
            | nil => rcases hne with h | h <;> exact absurd rfl h
            | cons d w => exact ⟨d, _, rfl, hfp d (by simp)⟩
          | cons c t =>
            cases hcv
            exact absurd rfl (digit_char (by omega) (hip _ (by simp))).2.2.2.2.1
      obtain ⟨d, w, rfl, hd⟩ := this
      rw [hcv]
      obtain ⟨-, -, -, -, k3, -, -, -, k5, -, -, k7, -⟩ := digit_char (by omega) hd
      exact lexical_num2 _ (by decide) k7 k5 (.inl k3)
    · rw [hcv]; exact lexical_num1 _ h3

/-! ## C28 -/

/-- Every rectangular literal whose imaginary part has digits, in any of the four radices after the prefix has been
read, is read as the complex number it denotes. -/
theorem c28_radix_partial {r : Nat} (hr : r ∈ [2, 8, 10, 16]) {s sg u : List Char} {x y : ℚ} {t : Sign}
    (hs : s = [] ∧ x = 0 ∨ RealLit r s x) (hsg : SignText sg t) (hne : sg ≠ []) (hu : UReal r u y) (rest : List Char)
    (hrest : inputDelimited rest = true) :
    ∃ a b, readNumber (s ++ (sg ++ (u ++ ('i' :: rest)))) none r = some (datum cs!"rectangular" [a, b], rest) ∧
      RealDenotes a x ∧ RealDenotes b (Sign.app t y) := by
  rcases hs with ⟨rfl, rfl⟩ | hs
  · obtain ⟨a, b, h1, h2⟩ := readComplex_imag hr hsg hu rest
    refine ⟨a, b, ?_, h2⟩
    rw [List.nil_append, readNumber, h1]
    simp [checkDelimited, hrest]
  · obtain ⟨a, b, h1, h2⟩ := readComplex_full hr hs hsg hne hu rest
    refine ⟨a, b, ?_, h2⟩
    rw [readNumber, h1]
    simp [checkDelimited, hrest]

theorem tolower_hash {c : Char} (h : c ≠ '#') : tolower c ≠ '#' := by
  intro hh
  apply h
  unfold tolower at hh
  split at hh
  · rename_i hc
    exfalso
    have h1 : c.toNat ≤ 90 := hc.2
    have h2 : 65 ≤ c.toNat := hc.1
    have h3 : (Char.ofNat (c.toNat + 32)).toNat = c.toNat + 32 := toNat_ofNat_small (by omega)
    rw [hh] at h3
    have : ('#' : Char).toNat = 35 := rfl
    omega
  · exact hh

/-- The same after one of the prefixes `#b`, `#o`, `#d`, `#x`. -/
theorem c28_prefixed_partial {p : Char} {r : Nat} (hp : (p, r) ∈ [('b', 2), ('o', 8), ('d', 10), ('x', 16)])
    {s sg u : List Char} {x y : ℚ} {t : Sign}
    (hs : s = [] ∧ x = 0 ∨ RealLit r s x) (hsg : SignText sg t) (hne : sg ≠ []) (hu : UReal r u y) (rest : List Char)
    (hrest : inputDelimited rest = true) :
    ∃ a b, lexical ('#' :: p :: (s ++ (sg ++ (u ++ ('i' :: rest))))) =
        some (some (datum cs!"rectangular" [a, b], rest)) ∧
      RealDenotes a x ∧ RealDenotes b (Sign.app t y) := by
  have hr : r ∈ [2, 8, 10, 16] := by
    simp only [List.mem_cons, Prod.mk.injEq, List.not_mem_nil, or_false] at hp ⊢
    rcases hp with ⟨-, h⟩ | ⟨-, h⟩ | ⟨-, h⟩ | ⟨-, h⟩ <;> simp [h]
  have hr16 : r ≤ 16 := by simp only [List.mem_cons, List.not_mem_nil, or_false] at hr; omega
  obtain ⟨a, b, h1, h2⟩ := c28_radix_partial hr hs hsg hne hu rest hrest
  refine ⟨a, b, ?_, h2⟩
  rw [← h1]
  have hh : ∃ c i, s ++ (sg ++ (u ++ ('i' :: rest))) = c :: i ∧ c ≠ '#' := by
    rcases hs with ⟨rfl, -⟩ | hs
    · rcases sign_cases hsg hne with ⟨rfl, -⟩ | ⟨rfl, -⟩ <;> exact ⟨_, _, rfl, by decide⟩
    · obtain ⟨sg', t', u', v, k1, k2, rfl⟩ := realLit_ureal hs
      obtain ⟨c, w, rfl, -, -, -, -, k, -⟩ := ureal_head' hr16 k2
      cases k1 with
      | none => exact ⟨_, _, rfl, k⟩
      | plus => exact ⟨_, _, rfl, by decide⟩
      | minus => exact ⟨_, _, rfl, by decide⟩
  obtain ⟨c, i, e, hc⟩ := hh
  rw [e]
  have ht := tolower_hash hc
  have hf : findPrefix ('#' :: p :: c :: i) = some (c :: i, none, r) := by
    have hash : tolower '#' = '#' := rfl
    simp only [List.mem_cons, Prod.mk.injEq, List.not_mem_nil, or_false] at hp
    rcases hp with ⟨rfl, rfl⟩ | ⟨rfl, rfl⟩ | ⟨rfl, rfl⟩ | ⟨rfl, rfl⟩ <;>
      simp [findPrefix, numPrefixes, inputPrefixCi, hash, ht, show tolower 'b' = 'b' from rfl, show tolower 'i' = 'i' from rfl,
        show tolower 'e' = 'e' from rfl, show tolower 'o' = 'o' from rfl, show tolower 'd' = 'd' from rfl,
        show tolower 'x' = 'x' from rfl]
  have e1 : inputPrefixCi ('#' :: p :: c :: i) cs!"->" = none := rfl
  have e2 : inputDelimitedPrefix ('#' :: p :: c :: i) cs!"." = none := rfl
  have e3 : inputDelimitedPrefix ('#' :: p :: c :: i) cs!"+" = none := rfl
  have e4 : inputDelimitedPrefix ('#' :: p :: c :: i) cs!"-" = none := rfl
  have e5 : inputDelimitedPrefix ('#' :: p :: c :: i) cs!"..." = none := rfl
  have e6 : inputDelimitedPrefixCi ('#' :: p :: c :: i) cs!"#t" = none ∧
      inputDelimitedPrefixCi ('#' :: p :: c :: i) cs!"#f" = none := by
    simp only [List.mem_cons, Prod.mk.injEq, List.not_mem_nil, or_false] at hp
    rcases hp with ⟨rfl, rfl⟩ | ⟨rfl, rfl⟩ | ⟨rfl, rfl⟩ | ⟨rfl, rfl⟩ <;> exact ⟨rfl, rfl⟩
  unfold lexical
  simp only
  rw [if_neg (by decide), if_neg (by decide), if_neg (by decide)]
  simp only [e1, e2, e3, e4, e5, e6.1, e6.2, hf]

/-- Every literal `a+bi`, `a-bi`, `+bi`, `-bi` with digits in its imaginary part, and the literal `-i`, is read as
the complex number it denotes.  Missing from `C28Full`: `+i`, `a+i` and `a-i`, for which it is false. -/
theorem c28_partial {s : List Char} {x y : ℚ} (h : RectLit 10 s x y)
    (hd : (∃ s' c, s = s' ++ [c, 'i'] ∧ c ≠ '+' ∧ c ≠ '-') ∨ s = cs!"-i") (rest : List Char)
    (hrest : inputDelimited rest = true) :
    ∃ a b, lexical (s ++ rest) = some (some (datum cs!"rectangular" [a, b], rest)) ∧
      RealDenotes a x ∧ RealDenotes b y := by
  have bad : ∀ (l : List Char) (z : Char), (z = '+' ∨ z = '-') →
      (∃ s' c, l ++ [z, 'i'] = s' ++ [c, 'i'] ∧ c ≠ '+' ∧ c ≠ '-') → False := by
    rintro l z hz ⟨s', c, h, h1, h2⟩
    have := (List.append_inj' h rfl).2
    cases this
    rcases hz with rfl | rfl
    · exact h1 rfl
    · exact h2 rfl
  cases h with
  | @full s x sg t u y hs hsg hne hu =>
    obtain ⟨sg', t', u', v, k1, k2, rfl⟩ := realLit_ureal hs
    obtain ⟨a, b, h1, h2⟩ := c28_radix_partial (r := 10) (by decide) (.inr hs) hsg hne hu rest hrest
    refine ⟨a, b, ?_, h2⟩
    have e : (sg' ++ u' ++ (sg ++ (u ++ ['i']))) ++ rest = sg' ++ (u' ++ (sg ++ (u ++ ('i' :: rest)))) := by simp
    rw [e, lexical_real k1 k2, ← List.append_assoc, h1]
  | @imag sg t u y hsg hne hu =>
    obtain ⟨a, b, h1, h2⟩ := c28_radix_partial (r := 10) (by decide) (.inl ⟨rfl, rfl⟩) hsg hne hu rest hrest
    refine ⟨a, b, ?_, h2⟩
    have e : (sg ++ (u ++ ['i'])) ++ rest = sg ++ (u ++ ('i' :: rest)) := by simp
    rw [List.nil_append] at h1
    rw [e, lexical_real hsg hu, h1]
  | @unit s x sg t hs hsg hne =>
    exfalso
    rcases hd with hd | hd
    · rcases sign_cases hsg hne with ⟨rfl, -⟩ | ⟨rfl, -⟩
      · exact bad s '+' (.inl rfl) hd
      · exact bad s '-' (.inr rfl) hd
    · obtain ⟨sg', t', u', v, k1, k2, rfl⟩ := realLit_ureal hs
      obtain ⟨c, w, rfl, -⟩ := ureal_head (by omega) k2
      have := congrArg List.length hd
      have h1 : sg.length > 0 := List.length_pos_of_ne_nil hne
      simp at this
      omega
  | @pureUnit sg t hsg hne =>
    rcases hd with hd | hd
    · exfalso
      rcases sign_cases hsg hne with ⟨rfl, -⟩ | ⟨rfl, -⟩
      · exact bad [] '+' (.inl rfl) hd
      · exact bad [] '-' (.inr rfl) hd
    · have hsg' : sg = ['-'] := (List.append_inj' (t₁ := ['i']) (s₂ := ['-']) hd rfl).1
      subst hsg'
      cases hsg
      have h0 : RealDenotes (zeroDatum .plus) 0 := by
        have := RealDenotes.int (IntDenotes.mk (w := .num 8) (s := .plus) (ds := cs!"0") (r := 10))
        simpa [signed, value, digVal, zeroDatum] using this
      have h1 : RealDenotes (datum cs!"integer" [.num 8, .sym cs!"-", .str cs!"1", .num 10]) (Sign.app .minus 1) := by
        have := RealDenotes.int (IntDenotes.mk (w := .num 8) (s := .minus) (ds := cs!"1") (r := 10))
        simpa [signed, value, digVal, Sign.app, signSX] using this
      refine ⟨_, _, ?_, h0, h1⟩
      show lexical ('-' :: 'i' :: rest) = _
      rw [lexical_num2 _ (by decide) (by decide) (by decide) (.inl (by decide))]
      have e1 : inputDelimitedPrefix ('-' :: 'i' :: rest) cs!"+i" = none := rfl
      have e2 : inputDelimitedPrefix ('-' :: 'i' :: rest) cs!"-i" = some rest := by
        simp [inputDelimitedPrefix, inputPrefix, checkDelimited, hrest]
      simp [readNumber, readComplex, e1, e2, checkDelimited, hrest]

theorem not_denotes {s : Sign} {ds : List Char} {n : Nat} {q : ℚ}
    (h : RealDenotes (datum cs!"integer" [.num 8, signSX s, .str ds, .num n]) q) : q = (signed s (value n ds) : ℤ) := by
  cases h with
  | int h =>
    generalize hd : datum cs!"integer" [.num 8, signSX s, .str ds, .num n] = d at h
    cases h with
    | @mk w s' ds' r =>
      simp [datum, SX.list] at hd
      obtain ⟨-, h1, rfl, h2⟩ := hd
      have : s = s' := by cases s <;> cases s' <;> first | rfl | (simp [signSX] at h1)
      subst this
      have : n = r := by omega
      subst this
      rfl

/-- `+i` is read as `-1+1i`, so `C28Full` does not hold. -/
theorem c28_counterexample : ¬ C28Full := by
  intro h
  obtain ⟨a, b, h1, h2, -⟩ := h cs!"+i" 0 (Sign.app .plus 1) [] (.pureUnit .plus (by simp)) rfl
  have h3 : lexical (cs!"+i" ++ []) = some (some (datum cs!"rectangular"
    [datum cs!"integer" [.num 8, .sym cs!"-", .str cs!"1", .num 10],
     datum cs!"integer" [.num 8, .sym cs!"+", .str cs!"1", .num 10]], [])) := by decide +kernel
  rw [h3] at h1
  simp only [datum, SX.list, Option.some.injEq, Prod.mk.injEq, SX.cons.injEq, true_and, and_true] at h1
  rw [← h1.1] at h2
  have := not_denotes (s := .minus) (n := 10) h2
  simp [signed, value, digVal] at this

/-- `1+i` and `1-i` are rejected. -/
theorem c28_unit_counterexample : lexical cs!"1+i" = some none ∧ lexical cs!"1-i" = some none := by decide +kernel

/-- the literal `-3/4+12.50e-1i` -/
example : RectLit 10 cs!"-3/4+12.50e-1i" (-(3 / 4)) (5 / 4) := by
  have h1 : RealLit 10 cs!"-3/4" (Sign.app .minus ((value 10 cs!"3" : ℚ) / value 10 cs!"4")) :=
    .mk (sg := cs!"-") .minus (.ratio (n := cs!"3") (by simp) (by decide +kernel) (by simp) (by decide +kernel))
  have h2 : UReal 10 cs!"12.50e-1" _ :=
    .point (ip := cs!"12") (fp := cs!"50") (ex := cs!"e-1") rfl (by decide +kernel) (by decide +kernel) (.inl (by simp))
      (.some (sg := cs!"-") (ds := cs!"1") (by decide) .minus (by simp) (by decide +kernel))
  have := RectLit.full h1 .plus (by simp) h2
  have v1 : value 10 cs!"3" = 3 := by decide +kernel
  have v2 : value 10 cs!"4" = 4 := by decide +kernel
  have v3 : value 10 cs!"12" = 12 := by decide +kernel
  have v4 : value 10 cs!"50" = 50 := by decide +kernel
  have v5 : value 10 cs!"1" = 1 := by decide +kernel
  rw [v1, v2, v3, v4, v5] at this
  convert this using 1
  · norm_num [Sign.app]
  · norm_num [Sign.app]
  · show (5 / 4 : ℚ) = (((12 : ℕ) : ℚ) + ((50 : ℕ) : ℚ) / 10 ^ 2) * 10 ^ (-((1 : ℕ) : ℤ))
    norm_num

/-- and what the reader makes of it -/
example : lexical cs!"-3/4+12.50e-1i)" = some (some (datum cs!"rectangular"
    [datum cs!"ratio" [datum cs!"integer" [.num 8, .sym cs!"-", .str cs!"3", .num 10],
                       datum cs!"integer" [.num 8, .sym cs!"+", .str cs!"4", .num 10]],
     datum cs!"decimal" [.sym cs!"e", .sym cs!"+", .str cs!"12", .str cs!"5", .sym cs!"-", .str cs!"1"]], cs!")")) := by
  decide +kernel

end Verif.Reader
