import Verif.Reader.Here
import Verif.Reader.Atoms
import Verif.Num.Props
import Verif.Width.Props
/-
C54: string literals and character constants.
-/
namespace Verif.Reader
open Verif.Num Verif.Cmp Verif.Width

/-! ## Specification -/

/-- Specification: the escapes of one character, and the code points they stand for. -/
def escapes : List (Char × Nat) :=
  [('\\', 92), ('"', 34), ('|', 124), ('a', 7), ('b', 8), ('t', 9), ('n', 10), ('v', 11), ('f', 12), ('r', 13)]

/-- Specification: a hexadecimal number of at most 23 bits. -/
structure HexScalar (ds : List Char) (n : Nat) : Prop where
  ne : ds ≠ []
  digits : ∀ c ∈ ds, isDig 16 c = true
  value : value 16 ds = n
  small : n ≤ 8388607

/-- Specification: an element of a string literal and the code point it stands for. -/
inductive Elem : List Char → Nat → Prop
  | plain {c : Char} : c ≠ '"' → c ≠ '\\' → Elem [c] c.toNat
  | escape {c : Char} {n : Nat} : (c, n) ∈ escapes → Elem ['\\', c] n
  | hex {ds : List Char} {n : Nat} : HexScalar ds n → Elem ('\\' :: 'x' :: (ds ++ [';'])) n

/-- Specification: the elements of a string literal. -/
inductive Elems : List Char → List Nat → Prop
  | nil : Elems [] []
  | cons {t u : List Char} {n : Nat} {ns : List Nat} : Elem t n → Elems u ns → Elems (t ++ u) (n :: ns)

/-- Specification: the named characters. -/
def charCodes : List (List Char × Nat) :=
  [(cs!"null", 0), (cs!"alarm", 7), (cs!"backspace", 8), (cs!"tab", 9), (cs!"newline", 10), (cs!"linefeed", 10), (cs!"vtab", 11),
   (cs!"page", 12), (cs!"return", 13), (cs!"escape", 27), (cs!"space", 32), (cs!"delete", 127)]

/-- Specification: what may follow `#\`, and the code point it stands for. -/
inductive CharText : List Char → Nat → Prop
  | char (c : Char) : CharText [c] c.toNat
  | hex {ds : List Char} {n : Nat} : HexScalar ds n → CharText ('x' :: ds) n
  | name {s : List Char} {n : Nat} : (s, n) ∈ charCodes → CharText s n

/-- Specification: the code point a `char` datum stands for (the datum formats of 1.sf:106-107). -/
def charOf : SX → Option Nat
  | .cons (.sym t) (.cons (.str [c]) .nil) => if t = cs!"char" then some c.toNat else none
  | .cons (.sym t) (.cons (.num _) (.cons (.num n) .nil)) => if t = cs!"char" then some n.toNat else none
  | _ => none

/-! ## Hexadecimal numbers -/

theorem hexDigits_spec : ∀ (ds rest acc : List Char), (∀ c ∈ ds, isDig 16 c = true) → (∀ c, rest.head? = some c → isDig 16 c = false) →
    hexDigits (ds ++ rest) acc = ((ds.map tolower).reverse ++ acc, rest) := by
  intro ds
  induction ds with
  | nil =>
    intro rest acc _ hr
    cases rest with
    | nil => rfl
    | cons c rest => simp [hexDigits, charDigitValue_spec, hr c rfl]
  | cons c ds ih =>
    intro rest acc hd hr
    have hc := hd c (List.mem_cons_self ..)
    have hd' : ∃ v, digVal c = some v := by
      unfold isDig at hc
      cases h : digVal c with
      | none => rw [h] at hc; cases hc
      | some v => exact ⟨v, rfl⟩
    obtain ⟨v, hv⟩ := hd'
    rw [List.cons_append, hexDigits, charDigitValue_spec, if_pos hc, hv]
    simp only
    rw [ih _ _ (fun c h => hd c (List.mem_cons_of_mem _ h)) hr]
    simp

/-- every input is a sequence of digits and a rest. -/
theorem split_digits (i : List Char) : ∃ ds rest, i = ds ++ rest ∧ (∀ c ∈ ds, isDig 16 c = true) ∧ (∀ c, rest.head? = some c → isDig 16 c = false) := by
  refine ⟨i.takeWhile (isDig 16), i.dropWhile (isDig 16), (List.takeWhile_append_dropWhile ..).symm, ?_, ?_⟩
  · intro c hc; induction i with
    | nil => cases hc
    | cons a i ih =>
      rw [List.takeWhile_cons] at hc
      split at hc
      · rename_i ha
        rcases List.mem_cons.1 hc with rfl | h
        · exact ha
        · exact ih h
      · cases hc
  · intro c hc
    cases h : i.dropWhile (isDig 16) with
    | nil => rw [h] at hc; cases hc
    | cons a l =>
      rw [h] at hc
      injection hc with hc
      subst hc
      have := List.head_dropWhile_not (isDig 16) (l := i) (by rw [h]; simp)
      simpa [h] using this

theorem fits_24 (v : Nat) (h : v ≤ 8388607) : ∃ w, [8, 16, 24, 32, 40, 48, 56, 64].find? (fun w => decide (fits w (v : Int))) = some w ∧ ¬ w > 24 := by
  have h24 : fits 24 (v : Int) := by
    unfold fits
    constructor
    · have : (0 : Int) ≤ 2 ^ (24 - 1) := by positivity
      omega
    · have : (2 : Int) ^ (24 - 1) = 8388608 := by norm_num
      omega
  cases hf : [8, 16, 24, 32, 40, 48, 56, 64].find? (fun w => decide (fits w (v : Int))) with
  | none => exact absurd h24 (by simpa using List.find?_eq_none.1 hf 24 (by simp))
  | some w =>
    refine ⟨w, rfl, fun hw => ?_⟩
    have := (find_least _ _ (by decide) w).1 hf
    have := this.2.2 24 (by simp) (decide_eq_true h24)
    omega

theorem fits_no (v : Nat) (h : ¬ v ≤ 8388607) (w : Nat) (hf : [8, 16, 24, 32, 40, 48, 56, 64].find? (fun w => decide (fits w (v : Int))) = some w) : w > 24 := by
  have h1 := List.find?_some hf
  have h2 := List.mem_of_find?_eq_some hf
  simp only [decide_eq_true_eq] at h1
  obtain ⟨_, h1⟩ := h1
  simp only [List.mem_cons, List.not_mem_nil, or_false] at h2
  by_contra hw
  have h3 : (2 : Int) ^ (w - 1) ≤ 8388608 := by
    rcases h2 with rfl | rfl | rfl | rfl | rfl | rfl | rfl | rfl <;> first | (exact absurd (by decide) hw) | norm_num
  omega

theorem readHexScalar_spec {ds rest : List Char} (hd : ∀ c ∈ ds, isDig 16 c = true) (hr : ∀ c, rest.head? = some c → isDig 16 c = false) :
    readHexScalar (ds ++ rest) = if ds ≠ [] ∧ value 16 ds ≤ 8388607 then some (value 16 ds, rest) else none := by
  unfold readHexScalar
  rw [hexDigits_spec ds rest [] hd hr]
  simp only [List.append_nil]
  by_cases hne : ds = []
  · subst hne; simp
  · have hne2 : (ds.map tolower).reverse ≠ [] := by simpa using hne
    have hne' : ds.map tolower ≠ [] := by simpa using hne
    rw [if_neg hne2, List.reverse_reverse]
    have hl : LowerDigits 16 (ds.map tolower) := by
      intro c hc
      rw [List.mem_map] at hc
      obtain ⟨a, ha, rfl⟩ := hc
      exact (tolower_digit 16 a (hd a ha)).2
    obtain ⟨hc, hv⟩ := stripZeros_spec 16 _ hne' hl
    rw [value_map_lower 16 ds hd] at hv
    generalize stripZeros (ds.map tolower) = s at hc hv
    have hw := width_spec .plus 16 (by decide) s hc
    have hden : denotes .plus 16 s = (value 16 ds : Int) := by unfold denotes; simp only; rw [hv]
    rw [hden] at hw
    by_cases hsm : value 16 ds ≤ 8388607
    · rw [if_pos ⟨hne, hsm⟩]
      have hw24 := fits_24 _ hsm
      rw [← hw] at hw24
      obtain ⟨w, hw1, hw2⟩ := hw24
      rw [hw1]
      simp only [if_neg hw2]
      have hfix : stringToFixnum s 16 = some (value 16 ds : Int) := by
        refine (c08_string_to_number s 16 _).2 ⟨s, 16, Or.inr ⟨?_, rfl, rfl⟩, ⟨[], [], [], s, rfl, by simp, by simp, by simp, hc.1, fun c h => (hc.2.1 c h).1, by simp [hv]⟩, by omega, by omega⟩
        intro c cs h
        have := (hc.2.1 '#' (by rw [h]; simp)).1
        exact absurd this (by decide)
      rw [hfix]
      simp
    · rw [if_neg (fun h => hsm h.2)]
      have hno : ∀ w, width .plus s 16 = some w → w > 24 := by
        intro w h
        rw [hw] at h
        exact fits_no _ hsm w h
      cases h : width .plus s 16 with
      | none => rfl
      | some w => simp only [if_pos (hno w h)]

theorem hexScalar_read {ds rest : List Char} {n : Nat} (h : HexScalar ds n) (hr : ∀ c, rest.head? = some c → isDig 16 c = false) :
    readHexScalar (ds ++ rest) = some (n, rest) := by
  rw [readHexScalar_spec h.digits hr, if_pos ⟨h.ne, h.value ▸ h.small⟩, h.value]

theorem read_hexScalar {i rest : List Char} {n : Nat} (h : readHexScalar i = some (n, rest)) :
    ∃ ds, i = ds ++ rest ∧ HexScalar ds n := by
  obtain ⟨ds, r, rfl, hd, hr⟩ := split_digits i
  rw [readHexScalar_spec hd hr] at h
  split at h
  · rename_i hc
    injection h with h
    injection h with h1 h2
    subst h1; subst h2
    exact ⟨ds, rfl, hc.1, hd, rfl, hc.2⟩
  · cases h

/-! ## Strings -/

theorem readEscape_spec {c : Char} {n : Nat} (h : (c, n) ∈ escapes) (i : List Char) : readEscape (c :: i) = some (n, i) := by
  simp only [escapes, List.mem_cons, List.not_mem_nil, or_false, Prod.mk.injEq] at h
  rcases h with ⟨rfl, rfl⟩ | ⟨rfl, rfl⟩ | ⟨rfl, rfl⟩ | ⟨rfl, rfl⟩ | ⟨rfl, rfl⟩ | ⟨rfl, rfl⟩ | ⟨rfl, rfl⟩ | ⟨rfl, rfl⟩ | ⟨rfl, rfl⟩ | ⟨rfl, rfl⟩ <;> rfl

theorem readEscape_elem {i rest : List Char} {n : Nat} (h : readEscape i = some (n, rest)) : ∃ t, Elem ('\\' :: t) n ∧ i = t ++ rest := by
  cases i with
  | nil => cases h
  | cons c i =>
    simp only [readEscape] at h
    by_cases hx : c = 'x'
    · subst hx
      simp only [show ('x' : Char) ≠ '\\' by decide, show ('x' : Char) ≠ '"' by decide, show ('x' : Char) ≠ '|' by decide, show ('x' : Char) ≠ 'a' by decide,
        show ('x' : Char) ≠ 'b' by decide, show ('x' : Char) ≠ 't' by decide, show ('x' : Char) ≠ 'n' by decide, show ('x' : Char) ≠ 'v' by decide,
        show ('x' : Char) ≠ 'f' by decide, show ('x' : Char) ≠ 'r' by decide, if_false, if_true] at h
      split at h
      · rename_i cp j hj
        injection h with h
        injection h with h1 h2
        subst h1; subst h2
        obtain ⟨ds, rfl, hds⟩ := read_hexScalar hj
        exact ⟨'x' :: (ds ++ [';']), .hex hds, by simp⟩
      · cases h
    · have key : ∀ m, (c, m) ∈ escapes → some (m, i) = some (n, rest) → ∃ t, Elem ('\\' :: t) n ∧ c :: i = t ++ rest := by
        intro m hm he
        injection he with he
        injection he with h1 h2
        subst h1; subst h2
        exact ⟨[c], .escape hm, rfl⟩
      split at h
      · rename_i e; subst e; exact key _ (by decide) h
      split at h
      · rename_i e; subst e; exact key _ (by decide) h
      split at h
      · rename_i e; subst e; exact key _ (by decide) h
      split at h
      · rename_i e; subst e; exact key _ (by decide) h
      split at h
      · rename_i e; subst e; exact key _ (by decide) h
      split at h
      · rename_i e; subst e; exact key _ (by decide) h
      split at h
      · rename_i e; subst e; exact key _ (by decide) h
      split at h
      · rename_i e; subst e; exact key _ (by decide) h
      split at h
      · rename_i e; subst e; exact key _ (by decide) h
      split at h
      · rename_i e; subst e; exact key _ (by decide) h
      cases h

theorem stringLoop_of_elems {t : List Char} {cps : List Nat} (h : Elems t cps) (rest : List Char) : ∀ (n : Nat) (lst : List Nat),
    t.length < n → readStringLoop n (t ++ '"' :: rest) lst = some (charsDatum cs!"string" (lst.reverse ++ cps), rest) := by
  induction h with
  | nil =>
    intro n lst hn
    obtain ⟨m, rfl⟩ : ∃ m, n = m + 1 := ⟨n - 1, by simp at hn; omega⟩
    simp [readStringLoop]
  | @cons t u k ns he _ ih =>
    intro n lst hn
    rw [List.length_append] at hn
    obtain ⟨m, rfl⟩ : ∃ m, n = m + 1 := ⟨n - 1, by omega⟩
    have hl : 0 < t.length := by cases he <;> simp
    have hi := ih m (k :: lst) (by omega)
    rw [List.append_assoc]
    rw [List.reverse_cons, List.append_assoc, List.singleton_append] at hi
    cases he with
    | plain h1 h2 => rw [List.singleton_append, readStringLoop, if_neg h1, if_neg h2, hi]
    | escape hm =>
      rw [List.cons_append, readStringLoop, if_neg (by decide), if_pos rfl, List.singleton_append, readEscape_spec hm]
      exact hi
    | @hex ds _ hx =>
      rw [List.cons_append, readStringLoop, if_neg (by decide), if_pos rfl, List.cons_append]
      have : readEscape ('x' :: (ds ++ [';'] ++ (u ++ '"' :: rest))) = some (k, u ++ '"' :: rest) := by
        show (match readHexScalar (ds ++ [';'] ++ (u ++ '"' :: rest)) with | some (cp, ';' :: i) => some (cp, i) | _ => none) = _
        rw [List.append_assoc, hexScalar_read hx (by intro c hc; simp at hc; subst hc; decide)]
        rfl
      rw [this]
      exact hi

theorem elems_of_stringLoop : ∀ (n : Nat) (i : List Char) (lst : List Nat) (d : SX) (rest : List Char), readStringLoop n i lst = some (d, rest) →
    ∃ t cps, Elems t cps ∧ i = t ++ '"' :: rest ∧ d = charsDatum cs!"string" (lst.reverse ++ cps) := by
  intro n
  induction n with
  | zero => intro i lst d rest h; cases h
  | succ n ih =>
    intro i lst d rest h
    cases i with
    | nil => cases h
    | cons c i =>
      rw [readStringLoop] at h
      split at h
      · rename_i e; subst e
        injection h with h
        injection h with h1 h2
        subst h1; subst h2
        exact ⟨[], [], .nil, rfl, by simp⟩
      · rename_i hq
        split at h
        · rename_i e; subst e
          split at h
          · rename_i cp j hj
            obtain ⟨t, ht, rfl⟩ := readEscape_elem hj
            obtain ⟨u, cps, hu, rfl, rfl⟩ := ih _ _ _ _ h
            exact ⟨'\\' :: t ++ u, cp :: cps, .cons ht hu, by simp, by simp⟩
          · cases h
        · rename_i hb
          obtain ⟨u, cps, hu, rfl, rfl⟩ := ih _ _ _ _ h
          exact ⟨[c] ++ u, c.toNat :: cps, .cons (.plain hq hb) hu, by simp, by simp⟩

theorem lexical_quote (i : List Char) : lexical ('"' :: i) = some (readStringLoop (i.length + 1) i []) := by
  have e1 : inputPrefixCi ('"' :: i) cs!"->" = none := by cases i <;> rfl
  have e2 : inputDelimitedPrefix ('"' :: i) cs!"." = none := rfl
  have e3 : inputDelimitedPrefix ('"' :: i) cs!"+" = none := rfl
  have e4 : inputDelimitedPrefix ('"' :: i) cs!"-" = none := rfl
  have e5 : inputDelimitedPrefix ('"' :: i) cs!"..." = none := rfl
  have e6 : inputDelimitedPrefixCi ('"' :: i) cs!"#t" = none := rfl
  have e7 : inputDelimitedPrefixCi ('"' :: i) cs!"#f" = none := rfl
  have e8 : findPrefix ('"' :: i) = none := rfl
  have e9 : inputPrefix ('"' :: i) cs!"#\\" = none := rfl
  unfold lexical
  simp only
  rw [if_neg (by decide), if_neg (by decide), if_neg (by decide)]
  simp only [e1, e2, e3, e4, e5, e6, e7, e8, e9]
  rw [if_neg (by decide)]
  simp only [readString, inputPrefix, if_pos]

theorem lexical_of_readTop {i rest : List Char} {d : SX} {o : Option (SX × List Char)} (hl : lexical i = some o) (h : readTop 2 [] i = .ok d rest [])
    (ho : ∀ x, o = some x → x.1.type ≠ .sym cs!"atmosphere" ∧ x.1.type ≠ .sym cs!"read-as" ∧ x.1.type ≠ .sym cs!"terminator") : o = some (d, rest) := by
  rw [readTop, reader, initialReader, hl] at h
  cases o with
  | none => simp [Res.ofOption] at h
  | some x =>
    obtain ⟨h1, h2, h3⟩ := ho x rfl
    simp only [Res.ofOption] at h
    rw [if_neg h1, if_neg h2, if_neg h3] at h
    injection h with h h'
    subst h; subst h'; rfl

/-- **C54**, strings: the reader accepts exactly the string literals made of ordinary characters, the escapes of one
character and hexadecimal escapes, and returns their code points. -/
theorem c54_strings (i rest : List Char) (cps : List Nat) :
    (∃ d, (∀ n ≥ 2, readTop n [] ('"' :: i) = .ok d rest []) ∧ stringOf d = some cps) ↔ ∃ t, Elems t cps ∧ i = t ++ '"' :: rest := by
  have ho : ∀ x, readStringLoop (i.length + 1) i [] = some x → x.1.type ≠ .sym cs!"atmosphere" ∧ x.1.type ≠ .sym cs!"read-as" ∧ x.1.type ≠ .sym cs!"terminator" := by
    rintro ⟨d, r⟩ hx
    obtain ⟨t, cps, _, _, rfl⟩ := elems_of_stringLoop _ _ _ _ _ hx
    rw [charsDatum_type]
    decide
  constructor
  · rintro ⟨d, h, hs⟩
    have := lexical_of_readTop (lexical_quote i) (h 2 (by omega)) ho
    obtain ⟨t, cps', ht, rfl, rfl⟩ := elems_of_stringLoop _ _ _ _ _ this
    rw [List.reverse_nil, List.nil_append, stringOf_charsDatum] at hs
    injection hs with hs
    subst hs
    exact ⟨t, ht, rfl⟩
  · rintro ⟨t, ht, rfl⟩
    refine ⟨charsDatum cs!"string" cps, ?_, stringOf_charsDatum _⟩
    intro n hn
    obtain ⟨m, rfl⟩ : ∃ m, n = m + 2 := ⟨n - 2, by omega⟩
    have hl := lexical_quote (t ++ '"' :: rest)
    rw [stringLoop_of_elems ht rest _ [] (by simp; omega)] at hl
    refine readTop_lexical hl ?_ ?_ ?_ m <;> rw [List.reverse_nil, List.nil_append, charsDatum_type] <;> decide

/-- `"a\n\x3bb;"`. -/
example : Elems ['a', '\\', 'n', '\\', 'x', '3', 'b', 'B', ';'] [97, 10, 955] :=
  .cons (t := ['a']) (.plain (by decide) (by decide)) (.cons (t := ['\\', 'n']) (.escape (by decide))
    (.cons (t := ['\\', 'x', '3', 'b', 'B', ';']) (u := []) (.hex (ds := ['3', 'b', 'B']) ⟨by decide, by decide, by decide, by decide⟩) .nil))

/-! ## Characters -/

theorem charOf_charDatum {n : Nat} : charOf (charDatum n) = some n := by
  unfold charDatum
  split
  · rename_i h
    have := stringSafe_le h.2
    show (if cs!"char" = cs!"char" then some _ else none) = _
    rw [if_pos rfl, toNat_ofNat_small (by omega)]
  · rfl

theorem charDatum_type (n : Nat) : (charDatum n).type = .sym cs!"char" := by unfold charDatum; split <;> rfl

theorem hex_not_delimiter {c : Char} (h : isDig 16 c = true) : charDelimiter c = false := by
  have : ∀ n, n < 128 → isDig 16 (Char.ofNat n) = true → charDelimiter (Char.ofNat n) = false := by decide +kernel
  by_cases hc : c.toNat < 128
  · have := this c.toNat hc; rw [Char.ofNat_toNat] at this; exact this h
  · unfold isDig at h; rw [(big_not_digit c (by omega)).1] at h; cases h

theorem delimited_not_digit {rest : List Char} (h : inputDelimited rest = true) : ∀ c, rest.head? = some c → isDig 16 c = false := by
  intro c hc
  cases rest with
  | nil => cases hc
  | cons a l =>
    injection hc with hc
    subst hc
    cases hd : isDig 16 a with
    | false => rfl
    | true => rw [inputDelimited, hex_not_delimiter hd] at h; cases h

theorem names_ok : ∀ p ∈ charCodes, ∃ a b t, p.1 = a :: b :: t ∧ a ≠ 'x' ∧ (∀ c ∈ p.1, isalpha c = true) ∧
    ∃ d, charNames.lookup p.1 = some d ∧ charOf d = some p.2 := by
  intro p hp
  have : ∀ p ∈ charCodes, (match p.1 with | a :: _ :: _ => a != 'x' | _ => false) = true ∧ p.1.all isalpha = true ∧ (charNames.lookup p.1).bind charOf = some p.2 := by
    decide +kernel
  obtain ⟨h1, h2, h3⟩ := this p hp
  obtain ⟨s, n⟩ := p
  simp only at h1 h2 h3 ⊢
  cases hl : charNames.lookup s with
  | none => rw [hl] at h3; cases h3
  | some d =>
    rw [hl] at h3
    match s, h1 with
    | a :: b :: t, h1 => exact ⟨a, b, t, rfl, by simpa using h1, fun c hc => List.all_eq_true.1 h2 c hc, d, rfl, h3⟩

theorem lookup_mem {α β : Type} [BEq α] [LawfulBEq α] {l : List (α × β)} {a : α} {b : β} (h : l.lookup a = some b) : (a, b) ∈ l := by
  induction l with
  | nil => cases h
  | cons p l ih =>
    obtain ⟨x, y⟩ := p
    rw [List.lookup_cons] at h
    split at h
    · rename_i e
      injection h with h
      rw [eq_of_beq e, h]
      exact List.mem_cons_self ..
    · exact List.mem_cons_of_mem _ (ih h)

theorem codes_ok : ∀ p ∈ charNames, ∃ n, charOf p.2 = some n ∧ (p.1, n) ∈ charCodes ∧ p.2.type = .sym cs!"char" := by
  intro p hp
  have : ∀ p ∈ charNames, (match charOf p.2 with | some n => charCodes.contains (p.1, n) | none => false) = true ∧ p.2.type = .sym cs!"char" := by decide +kernel
  obtain ⟨h1, h2⟩ := this p hp
  split at h1
  · rename_i n hn; exact ⟨n, hn, by simpa using h1, h2⟩
  · cases h1

theorem readChar_of_text {t : List Char} {n : Nat} (h : CharText t n) {rest : List Char} (hr : inputDelimited rest = true) :
    ∃ d, readChar (t ++ rest) = some (d, rest) ∧ charOf d = some n := by
  cases h with
  | char c => exact ⟨charDatum c.toNat, by rw [List.singleton_append, readChar, if_pos hr], charOf_charDatum⟩
  | @hex ds _ hx =>
    refine ⟨charDatum n, ?_, charOf_charDatum⟩
    have hnd : inputDelimited (ds ++ rest) = false := by
      cases ds with
      | nil => exact absurd rfl hx.ne
      | cons a l => exact hex_not_delimiter (hx.digits a (List.mem_cons_self ..))
    rw [List.cons_append, readChar, if_neg (by rw [hnd]; simp), if_pos rfl, hexScalar_read hx (delimited_not_digit hr)]
    simp [checkDelimited, hr]
  | name hm =>
    obtain ⟨a, b, u, ht, ha, hal, d, hd, hc⟩ := names_ok _ hm
    simp only at ht hal hd hc
    refine ⟨d, ?_, hc⟩
    obtain ⟨g1, g2⟩ := takeWhile_sub t rest isalpha hal (fun c => alpha_not_delimiter) hr
    subst ht
    have hb : inputDelimited (b :: (u ++ rest)) = false := alpha_not_delimiter (hal b (by simp))
    have e : a :: (b :: (u ++ rest)) = a :: b :: u ++ rest := rfl
    show readChar (a :: (b :: (u ++ rest))) = _
    rw [readChar, if_neg (by rw [hb]; simp), if_neg ha]
    simp only [e, g1, g2, checkDelimited, hr, hd]
    rfl

theorem text_of_readChar {i rest : List Char} {d : SX} (h : readChar i = some (d, rest)) :
    inputDelimited rest = true ∧ d.type = .sym cs!"char" ∧ ∃ t n, CharText t n ∧ i = t ++ rest ∧ charOf d = some n := by
  cases i with
  | nil => cases h
  | cons c i =>
    rw [readChar] at h
    split at h
    · rename_i hd
      injection h with h
      injection h with h1 h2
      subst h1; subst h2
      exact ⟨hd, charDatum_type _, [c], _, .char c, rfl, charOf_charDatum⟩
    · split at h
      · rename_i e; subst e
        cases hh : readHexScalar i with
        | none => rw [hh] at h; cases h
        | some p =>
          obtain ⟨n, r⟩ := p
          obtain ⟨ds, rfl, hx⟩ := read_hexScalar hh
          rw [hh] at h
          simp only [Option.bind_some, checkDelimited] at h
          split at h
          · rename_i hr
            simp only [Option.map_some, Option.some.injEq, Prod.mk.injEq] at h
            obtain ⟨rfl, rfl⟩ := h
            exact ⟨hr, charDatum_type _, 'x' :: ds, n, .hex hx, rfl, charOf_charDatum⟩
          · cases h
      · simp only [checkDelimited] at h
        split at h
        · rename_i hr
          simp only [Option.bind_some, Option.map_eq_some_iff, Prod.mk.injEq] at h
          obtain ⟨d', hl, rfl, rfl⟩ := h
          obtain ⟨n, h1, h2, h3⟩ := codes_ok _ (lookup_mem hl)
          exact ⟨hr, h3, _, n, .name h2, (List.takeWhile_append_dropWhile ..).symm, h1⟩
        · cases h

/-- **C54**, characters: the reader accepts exactly the character constants made of one character, a name or `x` and a
hexadecimal number, followed by a delimiter, and returns the code point. -/
theorem c54_chars (i rest : List Char) (cp : Nat) :
    (∃ d, (∀ n ≥ 2, readTop n [] ('#' :: '\\' :: i) = .ok d rest []) ∧ charOf d = some cp) ↔
      inputDelimited rest = true ∧ ∃ t, CharText t cp ∧ i = t ++ rest := by
  have hty : ∀ d : SX, d.type = .sym cs!"char" → d.type ≠ .sym cs!"atmosphere" ∧ d.type ≠ .sym cs!"read-as" ∧ d.type ≠ .sym cs!"terminator" := by
    intro d h; rw [h]; decide
  constructor
  · rintro ⟨d, h, hs⟩
    have := lexical_of_readTop (lexical_hashchar i) (h 2 (by omega)) (fun x hx => hty x.1 (text_of_readChar (d := x.1) (rest := x.2) hx).2.1)
    obtain ⟨hr, _, t, n, ht, rfl, hn⟩ := text_of_readChar this
    rw [hn] at hs
    injection hs with hs
    subst hs
    exact ⟨hr, t, ht, rfl⟩
  · rintro ⟨hr, t, ht, rfl⟩
    obtain ⟨d, hd, hc⟩ := readChar_of_text ht hr
    refine ⟨d, fun n hn => ?_, hc⟩
    obtain ⟨m, rfl⟩ : ∃ m, n = m + 2 := ⟨n - 2, by omega⟩
    obtain ⟨h1, h2, h3⟩ := hty d (text_of_readChar hd).2.1
    exact readTop_lexical (by rw [lexical_hashchar, hd]) h1 h2 h3 m

example : CharText ['x', '3', 'b', 'b'] 955 ∧ CharText cs!"newline" 10 ∧ CharText ['x'] 120 ∧ inputDelimited [')'] = true :=
  ⟨.hex ⟨by decide, by decide, by decide, by decide⟩, .name (by decide), .char 'x', rfl⟩

end Verif.Reader
