import Verif.Reader.Mono
/-
Property theorems C29: here-strings.
-/
namespace Verif.Reader
open Verif.Num Verif.Cmp

/-- Specification: the code points a `string` datum stands for (the datum formats of 1.sf:108-109). -/
def stringOf : SX → Option (List Nat)
  | .cons (.sym t) (.cons (.str s) .nil) => if t = cs!"string" then some (s.map Char.toNat) else none
  | .cons (.sym t) (.cons (.num _) l) =>
    if t = cs!"string" then l.elems.mapM fun x => match x with | .num n => some n.toNat | _ => none else none
  | _ => none

theorem elems_list (l : List SX) : (SX.list l).elems = l := by
  induction l with
  | nil => rfl
  | cons a l ih => simp [SX.list, SX.elems, ih]

theorem toNat_ofNat_small {n : Nat} (h : n < 0xd800) : (Char.ofNat n).toNat = n := by
  have hv : n.isValidChar := .inl h
  unfold Char.ofNat
  rw [dif_pos hv]
  show (UInt32.ofNatLT n _).toNat = n
  rfl

theorem stringSafe_le {n : Nat} (h : stringSafe n = true) : n ≤ 126 := by
  simp [stringSafe] at h; exact h.1

theorem map_safe (cps : List Nat) (h : cps.all stringSafe = true) : (cps.map Char.ofNat).map Char.toNat = cps := by
  rw [List.map_map]
  conv => rhs; rw [← List.map_id cps]
  apply List.map_congr_left
  intro n hn
  have := stringSafe_le (List.all_eq_true.1 h n hn)
  exact toNat_ofNat_small (by omega)

theorem stringOf_charsDatum (cps : List Nat) : stringOf (charsDatum cs!"string" cps) = some cps := by
  unfold charsDatum
  split
  · rename_i h
    show (if cs!"string" = cs!"string" then some _ else none) = _
    rw [if_pos rfl, map_safe cps h.2]
  · simp only [stringOf, if_pos]
    rw [elems_list]
    generalize hm : maxWidth cps = w
    clear hm
    rename_i h; clear h
    induction cps with
    | nil => rfl
    | cons a l ih =>
      rw [List.map_cons, List.mapM_cons, ih]
      rfl

theorem charsDatum_type (t : List Char) (cps : List Nat) : (charsDatum t cps).type = .sym t := by
  unfold charsDatum; split <;> rfl

/-- reading the characters of a line -/
theorem hereLines_line (rtag l i lst res : List Char) (h : '\n' ∉ l) :
    hereLines rtag (l ++ i) lst res = hereLines rtag i (l.reverse ++ lst) res := by
  induction l generalizing lst with
  | nil => rfl
  | cons c l ih =>
    simp only [List.mem_cons, not_or] at h
    rw [List.cons_append, hereLines, if_neg (Ne.symm h.1), ih _ h.2]
    simp

/-- what the code makes of the lines -/
def joinLoop (res : List Char) : List (List Char) → List Char
  | [] => res
  | l :: ls => joinLoop (if res = [] then l else res ++ '\n' :: l) ls

theorem hereLines_spec (tag rest : List Char) (hr : rest = [] ∨ ∃ r, rest = '\n' :: r) (ht : '\n' ∉ tag) :
    ∀ (lines : List (List Char)) (res : List Char), (∀ l ∈ lines, '\n' ∉ l ∧ l ≠ tag) →
    hereLines tag.reverse (lines.flatMap (· ++ ['\n']) ++ (tag ++ rest)) [] res.reverse =
      some (charsDatum cs!"string" ((joinLoop res lines).map Char.toNat), rest) := by
  intro lines
  induction lines with
  | nil =>
    intro res _
    rw [List.flatMap_nil, List.nil_append, hereLines_line _ _ _ _ _ ht, joinLoop, List.append_nil]
    rcases hr with rfl | ⟨r, rfl⟩
    · simp [hereLines]
    · simp [hereLines]
  | cons l ls ih =>
    intro res h
    have hl := h l (by simp)
    rw [List.flatMap_cons, List.append_assoc, List.append_assoc, hereLines_line _ _ _ _ _ hl.1,
      List.append_nil, List.singleton_append, hereLines, if_pos rfl, if_neg (by simpa using hl.2), joinLoop,
      ← ih _ (fun x hx => h x (by simp [hx]))]
    congr 1
    by_cases hres : res = []
    · simp [hres]
    · simp [hres]

theorem joinLoop_ne (lines : List (List Char)) : ∀ res, res ≠ [] →
    joinLoop res lines = List.intercalate ['\n'] (res :: lines) := by
  induction lines with
  | nil => intro res _; simp [joinLoop, List.intercalate]
  | cons l ls ih =>
    intro res h
    rw [joinLoop, if_neg h, ih _ (by simp)]
    cases ls <;> simp [List.intercalate]

theorem joinLoop_spec (lines : List (List Char)) :
    joinLoop [] lines = List.intercalate ['\n'] (lines.dropWhile (· = [])) := by
  induction lines with
  | nil => rfl
  | cons l ls ih =>
    rw [joinLoop, if_pos rfl]
    by_cases h : l = []
    · subst h; rw [ih]; simp
    · rw [joinLoop_ne _ _ h, List.dropWhile_cons_of_neg (by simpa using h)]

theorem hereTag_spec (tag i lst : List Char) (h : '\n' ∉ tag) (hne : tag ++ lst ≠ []) :
    hereTag (tag ++ '\n' :: i) lst = some (tag.reverse ++ lst, i) := by
  induction tag generalizing lst with
  | nil => simp only [List.nil_append, hereTag]; rw [if_neg (by simp), if_neg (by simpa using hne)]; rfl
  | cons c t ih =>
    simp only [List.mem_cons, not_or] at h
    rw [List.cons_append, hereTag, if_pos (Ne.symm h.1), ih _ h.2 (by simp)]
    simp

/-- Text of a here-string: tag line, lines, closing tag. -/
def hereText (tag : List Char) (lines : List (List Char)) : List Char :=
  cs!"#<<" ++ tag ++ '\n' :: lines.flatMap (· ++ ['\n']) ++ tag

/-- A proper here-string: the tag is not empty; tag and lines contain no newline; no line equals the tag. -/
structure HereOk (tag : List Char) (lines : List (List Char)) : Prop where
  tag_ne : tag ≠ []
  tag_line : '\n' ∉ tag
  lines_ok : ∀ l ∈ lines, '\n' ∉ l ∧ l ≠ tag

theorem lexical_here (tag : List Char) (lines : List (List Char)) (rest : List Char) (h : HereOk tag lines)
    (hr : rest = [] ∨ ∃ r, rest = '\n' :: r) :
    lexical (hereText tag lines ++ rest) =
      some (some (charsDatum cs!"string" ((joinLoop [] lines).map Char.toNat), rest)) := by
  have e : hereText tag lines ++ rest =
      '#' :: '<' :: '<' :: (tag ++ '\n' :: (lines.flatMap (· ++ ['\n']) ++ (tag ++ rest))) := by
    simp [hereText]
  rw [e]
  have hp : findPrefix ('#' :: '<' :: '<' :: (tag ++ '\n' :: (lines.flatMap (· ++ ['\n']) ++ (tag ++ rest)))) = none := by
    simp only [findPrefix, numPrefixes, List.findSome?, inputPrefixCi, Option.map]
    rfl
  unfold lexical
  simp only
  rw [if_neg (by decide), if_neg (by decide), if_neg (by decide)]
  simp only [inputPrefixCi, inputDelimitedPrefix, inputDelimitedPrefixCi, inputPrefix]
  rw [hp]
  simp only [show charNumberInitial '#' = false by decide, Bool.false_eq_true,
    show tolower '#' ≠ tolower '-' by decide, show tolower '<' ≠ tolower 't' by decide,
    show tolower '<' ≠ tolower 'f' by decide, if_false, if_true, Option.bind,
    show ('#' : Char) ≠ '.' by decide, show ('#' : Char) ≠ '+' by decide, show ('#' : Char) ≠ '-' by decide,
    show ('<' : Char) ≠ '\\' by decide, show ('#' : Char) ≠ '"' by decide]
  rw [hereTag_spec _ _ _ h.tag_line (by simpa using h.tag_ne)]
  simp only [List.append_nil]
  have := hereLines_spec tag rest hr h.tag_line lines [] h.lines_ok
  rw [List.reverse_nil] at this
  rw [this]

theorem readTop_lexical {i rest : List Char} {d : SX} (h : lexical i = some (some (d, rest)))
    (h1 : d.type ≠ .sym cs!"atmosphere") (h2 : d.type ≠ .sym cs!"read-as") (h3 : d.type ≠ .sym cs!"terminator")
    (n : Nat) : readTop (n+2) [] i = .ok d rest [] := by
  rw [readTop, reader, initialReader, h]
  simp only [Res.ofOption]
  rw [if_neg h1, if_neg h2, if_neg h3]

/-- C29: a here-string denotes exactly its lines joined by newlines. -/
def C29Full : Prop :=
  ∀ (tag : List Char) (lines : List (List Char)) (rest : List Char), HereOk tag lines →
    (rest = [] ∨ ∃ r, rest = '\n' :: r) →
    ∃ d, (∀ n ≥ 2, readTop n [] (hereText tag lines ++ rest) = .ok d rest []) ∧
      stringOf d = some ((List.intercalate ['\n'] lines).map Char.toNat)

/-- What the code computes, for all line sequences: leading empty lines are lost. -/
theorem c29_lines (tag : List Char) (lines : List (List Char)) (rest : List Char) (h : HereOk tag lines)
    (hr : rest = [] ∨ ∃ r, rest = '\n' :: r) :
    ∃ d, (∀ n ≥ 2, readTop n [] (hereText tag lines ++ rest) = .ok d rest []) ∧
      stringOf d = some ((List.intercalate ['\n'] (lines.dropWhile (· = []))).map Char.toNat) := by
  refine ⟨_, ?_, stringOf_charsDatum _⟩
  intro n hn
  obtain ⟨m, rfl⟩ : ∃ m, n = m + 2 := ⟨n - 2, by omega⟩
  rw [← joinLoop_spec]
  refine readTop_lexical (lexical_here tag lines rest h hr) ?_ ?_ ?_ m <;> rw [charsDatum_type] <;> decide

/-- C29, for here-strings that do not begin with an empty line (`c29_counterexample` shows why).  Missing from
the full statement: here-strings beginning with an empty line. -/
theorem c29_partial (tag : List Char) (lines : List (List Char)) (rest : List Char) (h : HereOk tag lines)
    (hr : rest = [] ∨ ∃ r, rest = '\n' :: r) (hf : lines.head? ≠ some []) :
    ∃ d, (∀ n ≥ 2, readTop n [] (hereText tag lines ++ rest) = .ok d rest []) ∧
      stringOf d = some ((List.intercalate ['\n'] lines).map Char.toNat) := by
  have e : lines.dropWhile (· = []) = lines := by
    cases lines with
    | nil => rfl
    | cons l ls => rw [List.dropWhile_cons_of_neg]; simpa using hf
  have := c29_lines tag lines rest h hr
  rwa [e] at this

/-- Two lines, the first empty, read as the second line only. -/
theorem c29_counterexample : ¬ C29Full := by
  intro h
  have hok : HereOk cs!"E" [[], cs!"a"] := ⟨by decide, by decide, by decide⟩
  obtain ⟨d, hd, hs⟩ := h _ _ [] hok (.inl rfl)
  obtain ⟨d', hd', hs'⟩ := c29_lines _ _ [] hok (.inl rfl)
  have e := (hd 2 (by omega)).symm.trans (hd' 2 (by omega))
  injection e with e1 _ _
  rw [e1] at hs
  rw [hs'] at hs
  revert hs
  decide

/-- An instance of the hypotheses: the lines "ab", "" and " c" with the tag END. -/
example : HereOk cs!"END" [cs!"ab", [], cs!" c"] ∧ [cs!"ab", [], cs!" c"].head? ≠ some [] :=
  ⟨⟨by decide, by decide, by decide⟩, by decide⟩

end Verif.Reader
