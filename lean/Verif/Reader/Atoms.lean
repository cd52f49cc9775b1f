import Verif.Reader.Tokens
import Verif.Reader.Here
import Verif.Width.Props
/-
The atoms the writer produces, as the reader sees them.
-/
namespace Verif.Reader
open Verif.Num Verif.Cmp Verif.Width

/-! ## Conversion to host values -/

theorem sexp_null : sexp (datum cs!"null" []) = .nil := by
  rw [sexp.eq_def]; simp [SX.list, SX.isList, SX.elems]

theorem sexp_pair (a b : SX) : sexp (datum cs!"pair" [a, b]) = .pair (sexp a) (sexp b) := by
  rw [sexp.eq_def]; simp [SX.list, SX.isList, SX.elems]

theorem sexp_box (a : SX) : sexp (datum cs!"box" [a]) = .box (sexp a) := by
  rw [sexp.eq_def]; simp [SX.list, SX.isList, SX.elems]

theorem isList_list (l : List SX) : (SX.list l).isList = true := by
  induction l with
  | nil => rfl
  | cons a l ih => exact ih

theorem sexp_vector (l : List SX) : sexp (.cons (.sym cs!"vector") (SX.list l)) = .vec (l.map sexp) := by
  rw [sexp.eq_def]; simp [isList_list, elems_list]

theorem sexp_bool (b : Bool) : sexp (datum cs!"boolean" [.num (if b then 1 else 0)]) = .bool b := by
  rw [sexp.eq_def]; cases b <;> simp [SX.list, SX.isList, SX.elems]

theorem sexp_integer (w s d r : SX) : sexp (datum cs!"integer" [w, s, d, r]) = sexpInteger (datum cs!"integer" [w, s, d, r]) := by
  rw [sexp.eq_def]; simp [SX.list, SX.isList, SX.elems]

theorem map_ofNat_toNat (s : List Char) : (s.map Char.toNat).map Char.ofNat = s := by
  rw [List.map_map]
  conv => rhs; rw [← List.map_id s]
  apply List.map_congr_left
  intro c _
  exact Char.ofNat_toNat c

theorem bytes_spec (s : List Char) (h : ∀ c ∈ s, c.toNat ≤ 255) :
    bytes ((s.map Char.toNat).map fun (n : Nat) => SX.num n) = some s := by
  induction s with
  | nil => rfl
  | cons c s ih =>
    have := h c (by simp)
    rw [List.map_cons, List.map_cons, bytes, if_pos (by omega), ih (fun c hc => h c (by simp [hc]))]
    simp [Char.ofNat_toNat]

theorem maxWidth_bytes (s : List Char) (h : ∀ c ∈ s, c.toNat ≤ 255) : maxWidth (s.map Char.toNat) = 8 := by
  unfold maxWidth
  induction s with
  | nil => rfl
  | cons c s ih =>
    have := h c (by simp)
    rw [List.map_cons, List.map_cons, List.foldl_cons, byteWidth, if_pos this]
    exact ih (fun c hc => h c (by simp [hc]))

theorem sexp_chars (s : List Char) (h : ∀ c ∈ s, c.toNat ≤ 255) :
    sexp (charsDatum cs!"string" (s.map Char.toNat)) = .str s ∧
    sexp (charsDatum cs!"symbol" (s.map Char.toNat)) = .sym s := by
  have e : ∀ (mk : List Char → Val) (t : List Char),
      sexpChars mk (charsDatum t (s.map Char.toNat)) = mk s := by
    intro mk t
    unfold charsDatum
    split
    · rw [map_ofNat_toNat]; rfl
    · rw [maxWidth_bytes s h]
      have hb := bytes_spec s h
      generalize (s.map Char.toNat).map (fun (n : Nat) => SX.num n) = l at hb
      simp only [sexpChars, SX.elems, elems_list]
      cases l with
      | nil => simp [hb]
      | cons a l => simp [hb]
  have hl : ∀ t, ∃ rest, charsDatum t (s.map Char.toNat) = .cons (.sym t) rest ∧ rest.isList = true ∧
      rest.elems ≠ [] := by
    intro t
    unfold charsDatum
    split
    · exact ⟨_, rfl, rfl, by simp [SX.list, SX.elems]⟩
    · exact ⟨_, rfl, by simp [SX.isList, isList_list], by simp [SX.elems]⟩
  constructor
  · have := e .str cs!"string"
    obtain ⟨rest, h1, h2, h3⟩ := hl cs!"string"
    rw [h1] at this ⊢
    rw [sexp.eq_def]
    simp [h2, this]
    exact h3
  · have := e .sym cs!"symbol"
    obtain ⟨rest, h1, h2, h3⟩ := hl cs!"symbol"
    rw [h1] at this ⊢
    rw [sexp.eq_def]
    simp [h2, this]
    exact h3

theorem sexp_char (c : Char) (h : c.toNat ≤ 255) : sexp (charDatum c.toNat) = .char c := by
  unfold charDatum
  split
  · rw [Char.ofNat_toNat, sexp.eq_def]
    simp [SX.list, SX.isList, SX.elems, sexpChar]
  · rw [byteWidth, if_pos h, sexp.eq_def]
    simp [SX.list, SX.isList, SX.elems, sexpChar, Char.ofNat_toNat]
    omega

/-! ## Delimiters -/

theorem subsequent_not_delimiter {c : Char} (h : charSubsequent c = true) : charDelimiter c = false := by
  have : ∀ c ∈ cs!"ABCDEFGHIJKLMNOPQRSTUVWXYZabcdefghijklmnopqrstuvwxyz!$%&*/:<=>?^_~0123456789+-.@",
      charDelimiter c = false := by decide
  exact this c (by simpa [charSubsequent] using h)

theorem initial_facts {c : Char} (h : charInitial c = true) : isspace c = false ∧ c ≠ ';' := by
  have : ∀ c ∈ cs!"ABCDEFGHIJKLMNOPQRSTUVWXYZabcdefghijklmnopqrstuvwxyz!$%&*/:<=>?^_~",
      isspace c = false ∧ c ≠ ';' := by decide
  exact this c (by simpa [charInitial] using h)

theorem takeWhile_sub (s rest : List Char) (p : Char → Bool) (hs : ∀ c ∈ s, p c = true)
    (hp : ∀ c, p c = true → charDelimiter c = false) (hr : inputDelimited rest = true) :
    (s ++ rest).takeWhile p = s ∧ (s ++ rest).dropWhile p = rest := by
  induction s with
  | nil =>
    cases rest with
    | nil => exact ⟨rfl, rfl⟩
    | cons c r =>
      have : p c = false := by
        cases hc : p c with
        | false => rfl
        | true => have := hp c hc; rw [inputDelimited] at hr; rw [hr] at this; cases this
      simp [this]
  | cons c s ih =>
    have h1 := hs c (by simp)
    have h2 := ih (fun c hc => hs c (by simp [hc]))
    simp [h1, h2]

/-! ## Symbols -/

/-- Specification: the symbol names with an external representation (R5RS identifiers and `->…`). -/
def SymName (s : List Char) : Prop :=
  s = cs!"+" ∨ s = cs!"-" ∨ s = cs!"..." ∨
  (∃ c t, s = c :: t ∧ charInitial c = true ∧ ∀ x ∈ t, charSubsequent x = true) ∨
  (∃ t, s = '-' :: '>' :: t ∧ ∀ x ∈ t, charSubsequent x = true)

theorem lexical_symbol {s rest : List Char} (h : SymName s) (hr : inputDelimited rest = true) :
    lexical (s ++ rest) = some (some (charsDatum cs!"symbol" (s.map Char.toNat), rest)) := by
  rcases h with rfl | rfl | rfl | ⟨c, t, rfl, hc, ht⟩ | ⟨t, rfl, ht⟩
  · have e1 : inputPrefixCi ('+' :: rest) cs!"->" = none := by cases rest <;> rfl
    have e2 : inputDelimitedPrefix ('+' :: rest) cs!"." = none := rfl
    have e3 : inputDelimitedPrefix ('+' :: rest) cs!"+" = some rest := by
      simp [inputDelimitedPrefix, inputPrefix, checkDelimited, hr]
    show lexical ('+' :: rest) = _
    unfold lexical
    simp only
    rw [if_neg (by decide), if_neg (by decide), if_neg (by decide)]
    simp only [e1, e2, e3]
    rfl
  · have e1 : inputPrefixCi ('-' :: rest) cs!"->" = none := by
      cases rest with
      | nil => rfl
      | cons c r =>
        have : tolower c ≠ tolower '>' := by
          intro hh
          have : c = '>' := by
            unfold tolower at hh
            split at hh
            · rename_i hc
              exfalso
              have h1 : c.toNat ≤ 90 := hc.2
              have h2 : 65 ≤ c.toNat := hc.1
              have h3 : (Char.ofNat (c.toNat + 32)).toNat = c.toNat + 32 := toNat_ofNat_small (by omega)
              rw [hh] at h3
              rw [if_neg (by decide)] at h3
              have : ('>' : Char).toNat = 62 := rfl
              omega
            · rw [hh]; rfl
          subst this
          revert hr; show ¬ (charDelimiter '>' = true); decide
        simp [inputPrefixCi, this]
    have e2 : inputDelimitedPrefix ('-' :: rest) cs!"." = none := rfl
    have e3 : inputDelimitedPrefix ('-' :: rest) cs!"+" = none := rfl
    have e4 : inputDelimitedPrefix ('-' :: rest) cs!"-" = some rest := by
      simp [inputDelimitedPrefix, inputPrefix, checkDelimited, hr]
    show lexical ('-' :: rest) = _
    unfold lexical
    simp only
    rw [if_neg (by decide), if_neg (by decide), if_neg (by decide)]
    simp only [e1, e2, e3, e4]
    rfl
  · have e1 : inputPrefixCi ('.' :: '.' :: '.' :: rest) cs!"->" = none := rfl
    have e2 : inputDelimitedPrefix ('.' :: '.' :: '.' :: rest) cs!"." = none := rfl
    have e3 : inputDelimitedPrefix ('.' :: '.' :: '.' :: rest) cs!"+" = none := rfl
    have e4 : inputDelimitedPrefix ('.' :: '.' :: '.' :: rest) cs!"-" = none := rfl
    have e5 : inputDelimitedPrefix ('.' :: '.' :: '.' :: rest) cs!"..." = some rest := by
      simp [inputDelimitedPrefix, inputPrefix, checkDelimited, hr]
    show lexical ('.' :: '.' :: '.' :: rest) = _
    unfold lexical
    simp only
    rw [if_neg (by decide), if_neg (by decide), if_neg (by decide)]
    simp only [e1, e2, e3, e4, e5]
    rfl
  · obtain ⟨h1, h2⟩ := initial_facts hc
    obtain ⟨g1, g2⟩ := takeWhile_sub t rest charSubsequent ht (fun c => subsequent_not_delimiter) hr
    rw [List.cons_append]
    unfold lexical
    simp only
    rw [if_neg (by simp [h1]), if_neg h2, if_pos hc, g1, g2]
  · obtain ⟨g1, g2⟩ := takeWhile_sub t rest charSubsequent ht (fun c => subsequent_not_delimiter) hr
    have e1 : inputPrefixCi ('-' :: '>' :: (t ++ rest)) cs!"->" = some (t ++ rest) := by
      simp [inputPrefixCi]
    show lexical ('-' :: '>' :: (t ++ rest)) = _
    unfold lexical
    simp only
    rw [if_neg (by decide), if_neg (by decide), if_neg (by decide)]
    simp only [e1, g1, g2]

theorem symName_byte {s : List Char} (h : SymName s) : ∀ c ∈ s, c.toNat ≤ 255 := by
  have hs : ∀ c, charSubsequent c = true → c.toNat ≤ 255 := by
    intro c hc
    have : ∀ c ∈ cs!"ABCDEFGHIJKLMNOPQRSTUVWXYZabcdefghijklmnopqrstuvwxyz!$%&*/:<=>?^_~0123456789+-.@",
      c.toNat ≤ 255 := by decide
    exact this c (by simpa [charSubsequent] using hc)
  have hi : ∀ c, charInitial c = true → c.toNat ≤ 255 := by
    intro c hc
    have : ∀ c ∈ cs!"ABCDEFGHIJKLMNOPQRSTUVWXYZabcdefghijklmnopqrstuvwxyz!$%&*/:<=>?^_~",
      c.toNat ≤ 255 := by decide
    exact this c (by simpa [charInitial] using hc)
  rcases h with rfl | rfl | rfl | ⟨c, t, rfl, hc, ht⟩ | ⟨t, rfl, ht⟩
  · decide
  · decide
  · decide
  · intro x hx
    rcases List.mem_cons.1 hx with rfl | hx
    · exact hi _ hc
    · exact hs _ (ht x hx)
  · intro x hx
    rcases List.mem_cons.1 hx with rfl | hx
    · decide
    · rcases List.mem_cons.1 hx with rfl | hx
      · decide
      · exact hs _ (ht x hx)

/-! ## Booleans -/

theorem lexical_bool (b : Bool) (rest : List Char) (hr : inputDelimited rest = true) :
    lexical ((if b then cs!"#t" else cs!"#f") ++ rest) =
      some (some (datum cs!"boolean" [.num (if b then 1 else 0)], rest)) := by
  cases b
  · show lexical ('#' :: 'f' :: rest) = _
    unfold lexical
    simp only
    rw [if_neg (by decide), if_neg (by decide), if_neg (by decide)]
    have e1 : inputPrefixCi ('#' :: 'f' :: rest) cs!"->" = none := rfl
    have e2 : inputDelimitedPrefix ('#' :: 'f' :: rest) cs!"." = none := rfl
    have e3 : inputDelimitedPrefix ('#' :: 'f' :: rest) cs!"+" = none := rfl
    have e4 : inputDelimitedPrefix ('#' :: 'f' :: rest) cs!"-" = none := rfl
    have e5 : inputDelimitedPrefix ('#' :: 'f' :: rest) cs!"..." = none := rfl
    have e6 : inputDelimitedPrefixCi ('#' :: 'f' :: rest) cs!"#t" = none := rfl
    have e7 : inputDelimitedPrefixCi ('#' :: 'f' :: rest) cs!"#f" = some rest := by
      simp [inputDelimitedPrefixCi, inputPrefixCi, checkDelimited, hr]
    simp only [e1, e2, e3, e4, e5, e6, e7]
    rfl
  · show lexical ('#' :: 't' :: rest) = _
    unfold lexical
    simp only
    rw [if_neg (by decide), if_neg (by decide), if_neg (by decide)]
    have e1 : inputPrefixCi ('#' :: 't' :: rest) cs!"->" = none := rfl
    have e2 : inputDelimitedPrefix ('#' :: 't' :: rest) cs!"." = none := rfl
    have e3 : inputDelimitedPrefix ('#' :: 't' :: rest) cs!"+" = none := rfl
    have e4 : inputDelimitedPrefix ('#' :: 't' :: rest) cs!"-" = none := rfl
    have e5 : inputDelimitedPrefix ('#' :: 't' :: rest) cs!"..." = none := rfl
    have e6 : inputDelimitedPrefixCi ('#' :: 't' :: rest) cs!"#t" = some rest := by
      simp [inputDelimitedPrefixCi, inputPrefixCi, checkDelimited, hr]
    simp only [e1, e2, e3, e4, e5, e6]
    rfl

/-! ## Characters -/

theorem lexical_hashchar (i : List Char) : lexical ('#' :: '\\' :: i) = some (readChar i) := by
  have e1 : inputPrefixCi ('#' :: '\\' :: i) cs!"->" = none := rfl
  have e2 : inputDelimitedPrefix ('#' :: '\\' :: i) cs!"." = none := rfl
  have e3 : inputDelimitedPrefix ('#' :: '\\' :: i) cs!"+" = none := rfl
  have e4 : inputDelimitedPrefix ('#' :: '\\' :: i) cs!"-" = none := rfl
  have e5 : inputDelimitedPrefix ('#' :: '\\' :: i) cs!"..." = none := rfl
  have e6 : inputDelimitedPrefixCi ('#' :: '\\' :: i) cs!"#t" = none := rfl
  have e7 : inputDelimitedPrefixCi ('#' :: '\\' :: i) cs!"#f" = none := rfl
  have e8 : findPrefix ('#' :: '\\' :: i) = none := rfl
  have e9 : inputPrefix ('#' :: '\\' :: i) cs!"#\\" = some i := by cases i <;> rfl
  unfold lexical
  simp only
  rw [if_neg (by decide), if_neg (by decide), if_neg (by decide)]
  simp only [e1, e2, e3, e4, e5, e6, e7, e8, e9]
  rw [if_neg (by decide)]

theorem alpha_not_delimiter {c : Char} (h : isalpha c = true) : charDelimiter c = false := by
  have hn : (97 ≤ c.toNat ∧ c.toNat ≤ 122) ∨ (65 ≤ c.toNat ∧ c.toNat ≤ 90) := by
    have h' : ('a' ≤ c ∧ c ≤ 'z') ∨ ('A' ≤ c ∧ c ≤ 'Z') := by simpa [isalpha] using h
    exact h'
  have : ∀ n < 123, 65 ≤ n → (n ≤ 90 ∨ 97 ≤ n) → charDelimiter (Char.ofNat n) = false := by decide +kernel
  have := this c.toNat (by omega) (by omega) (by omega)
  rwa [Char.ofNat_toNat] at this

theorem lexical_char (c : Char) (rest : List Char) (hr : inputDelimited rest = true) :
    ∃ d, lexical (wrChar c ++ rest) = some (some (d, rest)) ∧ d.type = .sym cs!"char" ∧
      (c.toNat ≤ 255 → sexp d = .char c) := by
  unfold wrChar
  split
  · rename_i hc
    subst hc
    refine ⟨datum cs!"char" [.num 8, .num 10], ?_, rfl, fun _ => ?_⟩
    · show lexical ('#' :: '\\' :: (cs!"newline" ++ rest)) = _
      rw [lexical_hashchar]
      obtain ⟨g1, g2⟩ := takeWhile_sub cs!"newline" rest isalpha (by decide) (fun c => alpha_not_delimiter) hr
      show some (readChar ('n' :: (cs!"ewline" ++ rest))) = _
      rw [readChar, if_neg (fun h => Bool.noConfusion h), if_neg (by decide)]
      have e : 'n' :: (cs!"ewline" ++ rest) = cs!"newline" ++ rest := rfl
      simp only [e, g1, g2, checkDelimited, hr]
      rfl
    · rw [sexp.eq_def]; simp [SX.list, SX.isList, SX.elems, sexpChar]
  · split
    · rename_i hc
      subst hc
      refine ⟨datum cs!"char" [.str cs!" "], ?_, rfl, fun _ => ?_⟩
      · show lexical ('#' :: '\\' :: (cs!"space" ++ rest)) = _
        rw [lexical_hashchar]
        obtain ⟨g1, g2⟩ := takeWhile_sub cs!"space" rest isalpha (by decide) (fun c => alpha_not_delimiter) hr
        show some (readChar ('s' :: (cs!"pace" ++ rest))) = _
        rw [readChar, if_neg (fun h => Bool.noConfusion h), if_neg (by decide)]
        have e : 's' :: (cs!"pace" ++ rest) = cs!"space" ++ rest := rfl
        simp only [e, g1, g2, checkDelimited, hr]
        rfl
      · rw [sexp.eq_def]; simp [SX.list, SX.isList, SX.elems, sexpChar]
    · refine ⟨charDatum c.toNat, ?_, ?_, sexp_char c⟩
      · show lexical ('#' :: '\\' :: c :: rest) = _
        rw [lexical_hashchar, readChar, if_pos hr]
      · unfold charDatum; split <;> rfl

/-! ## Strings -/

theorem readStringLoop_spec (s rest : List Char) : ∀ (n : Nat) (lst : List Nat),
    ((s.flatMap fun c => if c = '"' ∨ c = '\\' then ['\\', c] else [c]) ++ '"' :: rest).length < n →
    readStringLoop n ((s.flatMap fun c => if c = '"' ∨ c = '\\' then ['\\', c] else [c]) ++ '"' :: rest) lst =
      some (charsDatum cs!"string" (lst.reverse ++ s.map Char.toNat), rest) := by
  induction s with
  | nil =>
    intro n lst hn
    obtain ⟨m, rfl⟩ : ∃ m, n = m + 1 := ⟨n - 1, by omega⟩
    simp [readStringLoop]
  | cons c s ih =>
    intro n lst hn
    obtain ⟨m, rfl⟩ : ∃ m, n = m + 1 := ⟨n - 1, by omega⟩
    rw [List.flatMap_cons] at hn ⊢
    by_cases hc : c = '"' ∨ c = '\\'
    · rw [if_pos hc] at hn ⊢
      simp only [List.cons_append, List.nil_append, List.length_cons] at hn ⊢
      rw [readStringLoop, if_neg (by decide), if_pos rfl]
      have he : ∀ i, readEscape (c :: i) = some (c.toNat, i) := by
        intro i
        rcases hc with rfl | rfl <;> rfl
      rw [he]
      simp only
      rw [ih m _ (by omega)]
      simp
    · rw [if_neg hc] at hn ⊢
      simp only [List.cons_append, List.nil_append, List.length_cons] at hn ⊢
      rw [not_or] at hc
      rw [readStringLoop, if_neg hc.1, if_neg hc.2, ih m _ (by omega)]
      simp

theorem lexical_string (s rest : List Char) :
    lexical (wrString s ++ rest) = some (some (charsDatum cs!"string" (s.map Char.toNat), rest)) := by
  have e : wrString s ++ rest =
      '"' :: ((s.flatMap fun c => if c = '"' ∨ c = '\\' then ['\\', c] else [c]) ++ '"' :: rest) := by
    simp [wrString]
  rw [e]
  have hs := readStringLoop_spec s rest _ [] (Nat.lt_succ_self _)
  generalize (s.flatMap fun c => if c = '"' ∨ c = '\\' then ['\\', c] else [c]) ++ '"' :: rest = i at hs
  have e1 : inputPrefixCi ('"' :: i) cs!"->" = none := by cases i <;> rfl
  have e2 : inputDelimitedPrefix ('"' :: i) cs!"." = none := rfl
  have e3 : inputDelimitedPrefix ('"' :: i) cs!"+" = none := rfl
  have e4 : inputDelimitedPrefix ('"' :: i) cs!"-" = none := rfl
  have e5 : inputDelimitedPrefix ('"' :: i) cs!"..." = none := rfl
  have e6 : inputDelimitedPrefixCi ('"' :: i) cs!"#t" = none := rfl
  have e7 : inputDelimitedPrefixCi ('"' :: i) cs!"#f" = none := rfl
  have e8 : findPrefix ('"' :: i) = none := rfl
  have e9 : inputPrefix ('"' :: i) cs!"#\\" = none := rfl
  unfold lexical
  simp only
  rw [if_neg (by decide), if_neg (by decide), if_neg (by decide)]
  simp only [e1, e2, e3, e4, e5, e6, e7, e8, e9]
  rw [if_neg (by decide)]
  simp only [readString, inputPrefix, if_pos]
  rw [hs]; rfl

end Verif.Reader
