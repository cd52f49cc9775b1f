import Verif.DecLit.Model
import Verif.Reader.Numbers
import Verif.IntLit.Props
/-
Property C84: decimal literals reach the C compiler unchanged.
-/
namespace Verif.DecLit
open Verif.Reader Verif.Width Verif.Num

/-- Specification: floating constants of C (C90 6.1.3.1) with a point and an exponent, and a sign in front, and their values. -/
inductive CFloat : List Char → ℚ → Prop
  | mk {sg esg ip fp ep s es} : SignText sg s → SignText esg es → Digits 10 ip → Digits 10 fp → (ip ≠ [] ∨ fp ≠ []) → ep ≠ [] → Digits 10 ep →
      CFloat (sg ++ (ip ++ '.' :: (fp ++ 'e' :: (esg ++ ep))))
        (Sign.app s (((value 10 ip : ℚ) + (value 10 fp : ℚ) / 10 ^ fp.length) * 10 ^ signed es (value 10 ep)))

theorem split_digits {c : Char} (hc : isDig 10 c = false) : ∀ (a b x y : List Char), Digits 10 a → Digits 10 b → a ++ c :: x = b ++ c :: y → a = b ∧ x = y
  | [], [], x, y, _, _, h => ⟨rfl, by simpa using h⟩
  | [], d :: b, x, y, _, hb, h => by
    have e : c = d := by simp at h; exact h.1
    have := hb d (by simp)
    rw [← e, hc] at this
    cases this
  | d :: a, [], x, y, ha, _, h => by
    have e : d = c := by simp at h; exact h.1
    have := ha d (by simp)
    rw [e, hc] at this
    cases this
  | d :: a, d' :: b, x, y, ha, hb, h => by
    simp only [List.cons_append, List.cons.injEq] at h
    obtain ⟨h1, h2⟩ := split_digits hc a b x y (fun z hz => ha z (by simp [hz])) (fun z hz => hb z (by simp [hz])) h.2
    exact ⟨by rw [h.1, h1], h2⟩

/-- A sign is told from what follows it, as that starts with no sign. -/
theorem split_sign {sg sg' : List Char} {s s' : Sign} (h : SignText sg s) (h' : SignText sg' s') {x y : List Char}
    (hx : x.head? ≠ some '+' ∧ x.head? ≠ some '-') (hy : y.head? ≠ some '+' ∧ y.head? ≠ some '-') (e : sg ++ x = sg' ++ y) : s = s' ∧ x = y := by
  cases h <;> cases h' <;> simp only [List.nil_append, List.cons_append, List.cons.injEq] at e
  · exact ⟨rfl, e⟩
  · exact absurd (by rw [e]; rfl) hx.1
  · exact absurd (by rw [e]; rfl) hx.2
  · exact absurd (by rw [← e]; rfl) hy.1
  · exact ⟨rfl, e.2⟩
  · exact absurd e.1 (by decide)
  · exact absurd (by rw [← e]; rfl) hy.2
  · exact absurd e.1 (by decide)
  · exact ⟨rfl, e.2⟩

theorem digits_head {ip : List Char} (h : Digits 10 ip) (x : List Char) (hx : x.head? ≠ some '+' ∧ x.head? ≠ some '-') :
    (ip ++ x).head? ≠ some '+' ∧ (ip ++ x).head? ≠ some '-' := by
  cases ip with
  | nil => exact hx
  | cons c ip =>
    have hc := h c (by simp)
    have hp : isDig 10 '+' = false := by decide
    have hm : isDig 10 '-' = false := by decide
    constructor
    · intro e
      simp at e
      rw [e, hp] at hc
      cases hc
    · intro e
      simp at e
      rw [e, hm] at hc
      cases hc

/-- The specification is a function: no text is a floating constant in two ways. -/
theorem c84_unambiguous {t : List Char} {q q' : ℚ} (h : CFloat t q) (h' : CFloat t q') : q = q' := by
  obtain ⟨h1, h2, h3, h4, -, -, h7⟩ := h
  rename_i sg esg ip fp ep s es
  generalize ht : sg ++ (ip ++ '.' :: (fp ++ 'e' :: (esg ++ ep))) = t at h'
  obtain ⟨k1, k2, k3, k4, -, -, k7⟩ := h'
  rename_i sg' esg' ip' fp' ep' s' es'
  obtain ⟨rfl, e1⟩ := split_sign h1 k1 (digits_head h3 _ (by simp)) (digits_head k3 _ (by simp)) ht
  obtain ⟨rfl, e2⟩ := split_digits (by decide) _ _ _ _ h3 k3 e1
  obtain ⟨rfl, e3⟩ := split_digits (by decide) _ _ _ _ h4 k4 e2
  have n1 := digits_head h7 [] (by simp)
  have n2 := digits_head k7 [] (by simp)
  rw [List.append_nil] at n1 n2
  obtain ⟨rfl, rfl⟩ := split_sign h2 k2 n1 n2 e3
  rfl

theorem readUint_digits (sg : Sign) {ds rest : List Char} (hne : ds ≠ []) (hd : Digits 10 ds) (hrest : ∀ c, rest.head? = some c → isDig 10 c = false) :
    ∃ w ds', readUinteger (ds ++ rest) sg 10 = some (datum cs!"integer" [w, signSX sg, .str ds', .num 10], rest) ∧ value 10 ds' = value 10 ds ∧
      ds' ≠ [] ∧ Digits 10 ds' := by
  obtain ⟨d, h1, h2, h3, h4, h5, -⟩ := IntLit.reader sg 10 (by simp) ds rest hne hd hrest
  refine ⟨match d.width with | some w => .num w | none => .sym cs!"big", d.digits, ?_, ?_, h4.1, fun c hc => (h4.2.1 c hc).1⟩
  · rw [readUinteger, h1, Option.map_some, intDatum, h2, h3]
    rfl
  · cases sg <;> simpa [denotes] using h5

theorem readInt_digits {sg : List Char} {s : Sign} (hs : SignText sg s) {ds rest : List Char} (hne : ds ≠ [])
    (hd : Digits 10 ds) (hrest : ∀ c, rest.head? = some c → isDig 10 c = false) :
    ∃ w ds', readInteger (sg ++ (ds ++ rest)) 10 = some (datum cs!"integer" [w, signSX s, .str ds', .num 10], rest) ∧ value 10 ds' = value 10 ds ∧
      ds' ≠ [] ∧ Digits 10 ds' := by
  obtain ⟨w, ds', h1, h2⟩ := readUint_digits s hne hd hrest
  refine ⟨w, ds', ?_, h2⟩
  unfold readInteger
  cases hs with
  | none =>
    obtain ⟨c, t, rfl⟩ := List.exists_cons_of_ne_nil hne
    obtain ⟨-, -, g1, g2, -⟩ := digit_char (r := 10) (by omega) (hd c (by simp))
    rw [List.nil_append, List.cons_append, prefix_ne _ _ g1, prefix_ne _ _ g2]
    exact h1
  | plus =>
    rw [List.cons_append, List.nil_append, prefix_hit]
    exact h1
  | minus =>
    rw [List.cons_append, List.nil_append, prefix_ne _ _ (by decide), prefix_hit]
    exact h1

/-- An exponent part that is missing or has the marker `e` or `E`. -/
def ExpoE (ex : List Char) (e : ℤ) : Prop := Expo ex e ∧ ∀ c, ex.head? = some c → c = 'e' ∨ c = 'E'

theorem suffix_digits (d1 d2 : SX) {ex : List Char} {e : ℤ} (he : ExpoE ex e) {rest : List Char} (hs : Stop 10 rest) :
    ∃ w es ep, readDecimalSuffix d1 d2 (ex ++ rest) 10 =
        some (decimalDatum cs!"e" d1 d2 (datum cs!"integer" [w, signSX es, .str ep, .num 10]), rest) ∧
      signed es (value 10 ep) = e ∧ ep ≠ [] ∧ Digits 10 ep := by
  obtain ⟨he, hm⟩ := he
  cases he with
  | none =>
    refine ⟨.num 8, .plus, cs!"0", ?_, rfl, by simp, by decide⟩
    cases rest with
    | nil => rfl
    | cons c rest =>
      have := (hs c rfl).2.2.2
      simp [readDecimalSuffix, this, zeroDatum]
  | @some c sg s ds hc hsg hne hd =>
    obtain ⟨w, ep, h1, h2, h3⟩ := readInt_digits hsg hne hd (fun c hc => (hs c hc).1)
    have hl : [Cmp.tolower c] = cs!"e" := by
      rcases hm c rfl with rfl | rfl <;> decide
    refine ⟨w, s, ep, ?_, ?_, h3⟩
    · rw [List.cons_append, List.append_assoc, readDecimalSuffix, if_pos (markers hc).1, h1, ← hl]
      rfl
    · rw [h2]; cases s <;> rfl

theorem strip_digits : ∀ s : List Char, s ≠ [] → Digits 10 s → stripRev s ≠ [] ∧ Digits 10 (stripRev s)
  | [], h, _ => absurd rfl h
  | [c], _, hd => ⟨by simp [stripRev], hd⟩
  | c :: d :: t, _, hd => by
    rw [stripRev]
    split
    · exact strip_digits (d :: t) (by simp) fun x hx => hd x (List.mem_cons_of_mem _ hx)
    · exact ⟨by simp, hd⟩

theorem signText_sign (s : Sign) : ∃ x, signSX s = .sym x ∧ SignText x s := by
  cases s
  · exact ⟨_, rfl, .plus⟩
  · exact ⟨_, rfl, .minus⟩

theorem decText_datum (s es : Sign) (w w2 w3 w4 x : SX) (ip fp ep : List Char) (hip : ip ≠ []) (hi : Digits 10 ip) (hf : Digits 10 fp) (hep : ep ≠ [])
    (he : Digits 10 ep) :
    ∃ t, decText (decimalDatum cs!"e" (datum cs!"integer" [w, signSX s, .str ip, .num 10]) (datum cs!"integer" [w2, x, .str fp, w3])
        (datum cs!"integer" [w4, signSX es, .str ep, .num 10])) = some t ∧
      CFloat t (Sign.app s (((value 10 ip : ℚ) + (value 10 fp : ℚ) / 10 ^ fp.length) * 10 ^ signed es (value 10 ep))) := by
  obtain ⟨a, ha, hs⟩ := signText_sign s
  obtain ⟨b, hb, hes⟩ := signText_sign es
  refine ⟨a ++ (ip ++ '.' :: (fp ++ 'e' :: (b ++ ep))), ?_, .mk hs hes hi hf (.inl hip) hep he⟩
  rw [ha, hb]
  rfl

theorem zero_fraction : (value 10 cs!"0" : ℚ) / 10 ^ (cs!"0").length = 0 := by simp [value, digVal]

/-- The part of a literal after the digits before the point: the datum has a C text with the value. -/
theorem decimal_point (s : Sign) (w : SX) (ip : List Char) (hip : ip ≠ []) (hi : Digits 10 ip) {fp ex : List Char} {e : ℤ} (hf : Digits 10 fp)
    (he : ExpoE ex e) {rest : List Char} (hs : Stop 10 rest) :
    ∃ d t, readDecimal (datum cs!"integer" [w, signSX s, .str ip, .num 10]) ('.' :: (fp ++ (ex ++ rest))) 10 = some (d, rest) ∧
      decText d = some t ∧ CFloat t (Sign.app s (((value 10 ip : ℚ) + (value 10 fp : ℚ) / 10 ^ fp.length) * 10 ^ e)) := by
  have hstop : ∀ c, (ex ++ rest).head? = some c → isDig 10 c = false := by
    intro c hc
    cases he.1 with
    | none => exact (hs c hc).1
    | some hm _ _ _ => cases hc; exact (markers hm).2.1
  unfold readDecimal
  rw [prefix_hit]
  simp only
  cases fp with
  | nil =>
    have hh : (((([] : List Char) ++ (ex ++ rest)).head?).map isdigit).getD false = false := by
      cases h : (ex ++ rest).head? with
      | none => simp only [List.nil_append, h]; rfl
      | some c =>
        have := hstop c h
        simp only [List.nil_append, h, Option.map_some, Option.getD_some]
        cases hd : isdigit c with
        | false => rfl
        | true =>
          exfalso
          have hn : 48 ≤ c.toNat ∧ c.toNat ≤ 57 := by
            have h' : '0' ≤ c ∧ c ≤ '9' := by simpa [isdigit] using hd
            exact h'
          have : ∀ n < 58, 48 ≤ n → isDig 10 (Char.ofNat n) = true := by decide +kernel
          have := this c.toNat (by omega) hn.1
          rw [Char.ofNat_toNat] at this
          simp_all
    rw [hh, if_neg (by decide), List.nil_append]
    obtain ⟨w', es, ep, h1, h2, h3, h4⟩ := suffix_digits (datum cs!"integer" [w, signSX s, .str ip, .num 10]) (zeroDatum .plus) he hs
    obtain ⟨t, g1, g2⟩ := decText_datum s es w (.num 8) (.num 10) w' (signSX .plus) ip cs!"0" ep hip hi (by decide) h3 h4
    refine ⟨_, t, h1, g1, ?_⟩
    rw [h2, zero_fraction] at g2
    simpa [value] using g2
  | cons c u =>
    have hc := hf c (by simp)
    rw [List.cons_append, List.head?_cons, Option.map_some, Option.getD_some, (digit10 hc).1, if_pos rfl,
      ← List.cons_append, readFraction_spec (c :: u) (ex ++ rest) [] hf hstop, List.append_nil, fractionDatum,
      if_neg (by simp)]
    simp only [Option.map_some, Option.bind_some]
    obtain ⟨w', es, ep, h1, h2, h3, h4⟩ := suffix_digits (datum cs!"integer" [w, signSX s, .str ip, .num 10])
      (datum cs!"integer" [.sym cs!"?", .sym cs!"?", .str (stripRev (c :: u).reverse).reverse, .sym cs!"?"]) he hs
    have hd := (strip_digits (c :: u).reverse (by simp) fun x hx => hf x (List.mem_reverse.1 hx)).2
    obtain ⟨t, g1, g2⟩ := decText_datum s es w (.sym cs!"?") (.sym cs!"?") w' (.sym cs!"?") ip (stripRev (c :: u).reverse).reverse ep hip hi
      (fun x hx => hd x (List.mem_reverse.1 hx)) h3 h4
    refine ⟨_, t, h1, g1, ?_⟩
    rw [h2, stripRev_spec _ (by simp), List.reverse_reverse] at g2
    exact g2

/-- A decimal literal with a point, at least one digit before it, and no exponent or an exponent marked `e`: the C text emitted for it denotes its value.  Literals without a point and
literals that start with the point are `c84_exponent_partial` and `c84_point_partial`; literals with other exponent markers are refuted. -/
theorem c84_decimal_partial {sg ip fp ex rest : List Char} {s : Sign} {e : ℤ} (hsg : SignText sg s) (hip : ip ≠ []) (hi : Digits 10 ip)
    (hf : Digits 10 fp) (he : ExpoE ex e) (hs : Stop 10 rest) :
    ∃ d t, readReal (sg ++ (ip ++ '.' :: (fp ++ (ex ++ rest)))) 10 = some (d, rest) ∧ decText d = some t ∧
      CFloat t (Sign.app s (((value 10 ip : ℚ) + (value 10 fp : ℚ) / 10 ^ fp.length) * 10 ^ e)) := by
  obtain ⟨w, ds', h1, h2, h3, h4⟩ := readInt_digits (rest := '.' :: (fp ++ (ex ++ rest))) hsg hip hi (fun c hc => by cases hc; decide)
  obtain ⟨d, t, g1, g2, g3⟩ := decimal_point s w ds' h3 h4 hf he hs
  rw [h2] at g3
  refine ⟨d, t, ?_, g2, g3⟩
  unfold readReal
  rw [h1]
  simp only [Option.bind_some, prefix_hit, prefix_ne _ _ (show '.' ≠ '/' by decide)]
  rw [if_neg (by rintro ⟨-, h⟩; revert h; show ¬ (charExponentMarker '.' = true); decide), if_pos (by simp)]
  exact g1

/-- The same for literals with an exponent and no point. -/
theorem c84_exponent_partial {sg ip ex rest : List Char} {s : Sign} {e : ℤ} (hsg : SignText sg s) (hip : ip ≠ []) (hi : Digits 10 ip)
    (he : ExpoE ex e) (hex : ex ≠ []) (hs : Stop 10 rest) :
    ∃ d t, readReal (sg ++ (ip ++ (ex ++ rest))) 10 = some (d, rest) ∧ decText d = some t ∧ CFloat t (Sign.app s ((value 10 ip : ℚ) * 10 ^ e)) := by
  obtain ⟨c, u, hc⟩ : ∃ c u, ex = c :: u ∧ c ∈ cs!"esfdlESFDL" := by
    cases he.1 with
    | none => exact absurd rfl hex
    | some hm _ _ _ => exact ⟨_, _, rfl, hm⟩
  obtain ⟨w, ds', h1, h2, h3, h4⟩ := readInt_digits (rest := ex ++ rest) hsg hip hi (fun c' hc' => by
    rw [hc.1] at hc'; cases hc'; exact (markers hc.2).2.1)
  obtain ⟨w', es, ep, k1, k2, k3, k4⟩ := suffix_digits (datum cs!"integer" [w, signSX s, .str ds', .num 10]) (zeroDatum .plus) he hs
  obtain ⟨t, g1, g2⟩ := decText_datum s es w (.num 8) (.num 10) w' (signSX .plus) ds' cs!"0" ep h3 h4 (by decide) k3 k4
  rw [k2, zero_fraction, add_zero, h2] at g2
  refine ⟨_, t, ?_, g1, g2⟩
  have e1 : inputPrefix (ex ++ rest) cs!"/" = none := by
    rw [hc.1]; exact prefix_ne _ _ (markers hc.2).2.2.1
  have e2 : atExponent (ex ++ rest) = true := by
    rw [hc.1]; exact (markers hc.2).1
  have e3 : inputPrefix (ex ++ rest) cs!"." = none := by
    rw [hc.1]; exact prefix_ne _ _ (markers hc.2).2.2.2
  unfold readReal
  rw [h1]
  simp only [Option.bind_some, e1, e2]
  rw [if_pos (by simp)]
  unfold readDecimal
  rw [e3]
  exact k1

/-- The same for literals that start with the point. -/
theorem c84_point_partial {sg fp ex rest : List Char} {s : Sign} {e : ℤ} (hsg : SignText sg s) (hne : fp ≠ []) (hf : Digits 10 fp)
    (he : ExpoE ex e) (hs : Stop 10 rest) :
    ∃ d t, readRealNaninf (sg ++ ('.' :: (fp ++ (ex ++ rest)))) 10 = some (d, rest) ∧ decText d = some t ∧
      CFloat t (Sign.app s (((value 10 fp : ℚ) / 10 ^ fp.length) * 10 ^ e)) := by
  have hu := UReal.point (r := 10) (ip := []) rfl (by intro c hc; cases hc) hf (.inr hne) he.1
  have hassoc : sg ++ ('.' :: (fp ++ (ex ++ rest))) = sg ++ (([] ++ '.' :: (fp ++ ex)) ++ rest) := by simp
  obtain ⟨d, t, g1, g2, g3⟩ := decimal_point s (.num 8) cs!"0" (by simp) (by decide) hf he hs
  have e0 : (value 10 cs!"0" : ℚ) = 0 := by simp [value, digVal]
  rw [e0, zero_add] at g3
  refine ⟨d, t, ?_, g2, g3⟩
  have hz : zeroDatum s = datum cs!"integer" [.num 8, signSX s, .str cs!"0", .num 10] := rfl
  rw [← hz] at g1
  rw [hassoc]
  unfold readRealNaninf
  rw [special_none (by omega) hsg hu _ _ _ _ (.inr rfl) (.inl rfl), special_none (by omega) hsg hu _ _ _ _ (.inl rfl) (.inl rfl),
    special_none (by omega) hsg hu _ _ _ _ (.inr rfl) (.inr rfl), special_none (by omega) hsg hu _ _ _ _ (.inl rfl) (.inr rfl), ← hassoc]
  simp only
  cases hsg with
  | none =>
    rw [if_pos ⟨trivial, by simp [inputPrefix]⟩]
    exact g1
  | plus =>
    rw [if_neg (by simp [inputPrefix]), if_pos ⟨trivial, by simp [inputPrefix]⟩]
    exact g1
  | minus =>
    rw [if_neg (by simp [inputPrefix]), if_neg (by simp [inputPrefix]), if_pos ⟨trivial, by simp [inputPrefix]⟩]
    exact g1

example : ExpoE cs!"E-03" (-3) ∧ SignText cs!"-" .minus ∧ Digits 10 cs!"0012" ∧ Digits 10 cs!"500" ∧ Stop 10 cs!")" ∧
    (readReal cs!"-0012.500E-03)" 10).bind (fun p => decText p.1) = some cs!"-12.5e-3" := by
  refine ⟨⟨?_, ?_⟩, .minus, by decide, by decide, ?_, by decide +kernel⟩
  · exact Expo.some (c := 'E') (sg := ['-']) (s := .minus) (ds := cs!"03") (by decide) .minus (by decide) (by decide)
  · intro c h; cases h; exact .inr rfl
  · intro c h; cases h; decide

/-- The full claim: every real literal of radix ten that is no fraction and no integer has a C text with its value. -/
def C84Full : Prop := ∀ (sg ip fp ex : List Char) (s : Sign) (e : ℤ), SignText sg s → Digits 10 ip → Digits 10 fp → (ip ≠ [] ∨ fp ≠ []) → Expo ex e →
  ∃ d t, readRealNaninf (sg ++ (ip ++ '.' :: (fp ++ ex))) 10 = some (d, []) ∧ decText d = some t ∧
    CFloat t (Sign.app s (((value 10 ip : ℚ) + (value 10 fp : ℚ) / 10 ^ fp.length) * 10 ^ e))

/-- `1.5d0` is read, but has no template, and so have all data with other exponent markers. -/
theorem c84_marker_counterexample (rep : List Char) (h : rep ≠ cs!"e") (a b c : SX) : decText (decimalDatum rep a b c) = none := by
  unfold decText
  split
  · rename_i ty rep' _ _ _ _ _ h1 h2 _ _ _ _ _
    have : rep' = rep := by
      have h2' : SX.sym rep = .sym rep' := h2
      exact (SX.sym.inj h2').symm
    rw [if_neg]
    rintro ⟨_, hr⟩
    exact h (this ▸ hr)
  · rfl

theorem c84_counterexample : ¬ C84Full := by
  intro h
  obtain ⟨d, t, h1, h2, _⟩ := h [] cs!"1" cs!"5" cs!"d0" .plus 0 .none (by decide) (by decide) (.inl (by decide))
    (Expo.some (c := 'd') (sg := []) (s := .plus) (ds := cs!"0") (by decide) .none (by decide) (by decide))
  have e : (readRealNaninf cs!"1.5d0" 10).bind (fun p => decText p.1) = none := by decide +kernel
  have h1' : readRealNaninf cs!"1.5d0" 10 = some (d, []) := h1
  rw [h1'] at e
  simp only [Option.bind_some] at e
  rw [e] at h2
  cases h2

end Verif.DecLit
