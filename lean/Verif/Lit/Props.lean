import Verif.Lit.Spec
import Mathlib.Data.List.Forall2
import Mathlib.Order.Basic
/-
C44: string (symbol, character) constants reach the C compiler unchanged — partly.
-/
namespace Verif.Lit
open Spec

/-! ### string-forest->string is concatenation -/

mutual
/-- The leaves of a forest, left to right. -/
def Forest.leaves : Forest → List (List Char)
  | .str s => [s]
  | .nil => []
  | .pair a d => a.leaves ++ d.leaves
  | .vec xs => Forest.leavesAll xs
/-- for a vector. -/
def Forest.leavesAll : List Forest → List (List Char)
  | [] => []
  | x :: xs => x.leaves ++ Forest.leavesAll xs
end

mutual
theorem len_eq : ∀ x : Forest, x.len = x.leaves.flatten.length
  | .str s => by simp [Forest.len, Forest.leaves]
  | .nil => by simp [Forest.len, Forest.leaves]
  | .pair a d => by simp only [Forest.len, Forest.leaves, List.flatten_append, List.length_append, len_eq a, len_eq d]
  | .vec xs => by simp only [Forest.len, Forest.leaves, lenAll_eq xs]
theorem lenAll_eq : ∀ xs : List Forest, Forest.lenAll xs = (Forest.leavesAll xs).flatten.length
  | [] => by simp [Forest.lenAll, Forest.leavesAll]
  | x :: xs => by
    simp only [Forest.lenAll, Forest.leavesAll, List.flatten_append, List.length_append, len_eq x, lenAll_eq xs]
end

theorem copyStr_spec : ∀ (s a m b : List Char), m.length = s.length →
    copyStr s a.length (a ++ m ++ b) = some (a ++ s ++ b, a.length + s.length)
  | [], a, m, b, h => by
    have : m = [] := List.eq_nil_of_length_eq_zero h
    subst this
    simp [copyStr]
  | c :: cs, a, [], b, h => by simp at h
  | c :: cs, a, d :: m, b, h => by
    have e : (a ++ d :: m ++ b).set a.length c = (a ++ [c]) ++ m ++ b := by
      simp
    have ih := copyStr_spec cs (a ++ [c]) m b (by simpa using h)
    have hl : a.length < (a ++ d :: m ++ b).length := by simp
    simp only [copyStr, setAt, if_pos hl, e]
    simp only [List.length_append, List.length_cons, List.length_nil, Nat.zero_add] at ih
    rw [ih]
    simp
    omega

mutual
theorem copy_spec : ∀ (x : Forest) (a m b : List Char), m.length = x.leaves.flatten.length →
    copy x a.length (a ++ m ++ b) = some (a ++ x.leaves.flatten ++ b, a.length + x.leaves.flatten.length)
  | .str s, a, m, b, h => by
    simp only [Forest.leaves, List.flatten_cons, List.flatten_nil, List.append_nil] at h ⊢
    rw [copy, copyStr_spec s a m b h]
  | .nil, a, m, b, h => by
    have : m = [] := List.eq_nil_of_length_eq_zero (by simpa [Forest.leaves] using h)
    subst this
    simp [copy, Forest.leaves]
  | .pair x d, a, m, b, h => by
    simp only [Forest.leaves, List.flatten_append, List.length_append] at h
    have e : a ++ m ++ b = a ++ m.take x.leaves.flatten.length ++ (m.drop x.leaves.flatten.length ++ b) := by
      generalize x.leaves.flatten.length = k
      rw [List.append_assoc, List.append_assoc, ← List.append_assoc (m.take k), List.take_append_drop]
    have h1 := copy_spec x a (m.take x.leaves.flatten.length) (m.drop x.leaves.flatten.length ++ b)
      (by simp only [List.length_take]; omega)
    have h2 := copy_spec d (a ++ x.leaves.flatten) (m.drop x.leaves.flatten.length) b
      (by simp only [List.length_drop]; omega)
    rw [copy, e, h1]
    simp only [Forest.leaves, List.flatten_append, List.length_append]
    rw [List.length_append] at h2
    rw [← List.append_assoc, h2]
    simp [Nat.add_assoc]
  | .vec xs, a, m, b, h => by
    simp only [Forest.leaves] at h ⊢
    rw [copy, copyAll_spec xs a m b h]
theorem copyAll_spec : ∀ (xs : List Forest) (a m b : List Char),
    m.length = (Forest.leavesAll xs).flatten.length →
    copyAll xs a.length (a ++ m ++ b) =
      some (a ++ (Forest.leavesAll xs).flatten ++ b, a.length + (Forest.leavesAll xs).flatten.length)
  | [], a, m, b, h => by
    have : m = [] := List.eq_nil_of_length_eq_zero (by simpa [Forest.leavesAll] using h)
    subst this
    simp [copyAll, Forest.leavesAll]
  | x :: d, a, m, b, h => by
    simp only [Forest.leavesAll, List.flatten_append, List.length_append] at h
    have e : a ++ m ++ b = a ++ m.take x.leaves.flatten.length ++ (m.drop x.leaves.flatten.length ++ b) := by
      generalize x.leaves.flatten.length = k
      rw [List.append_assoc, List.append_assoc, ← List.append_assoc (m.take k), List.take_append_drop]
    have h1 := copy_spec x a (m.take x.leaves.flatten.length) (m.drop x.leaves.flatten.length ++ b)
      (by simp only [List.length_take]; omega)
    have h2 := copyAll_spec d (a ++ x.leaves.flatten) (m.drop x.leaves.flatten.length) b
      (by simp only [List.length_drop]; omega)
    rw [copyAll, e, h1]
    simp only [Forest.leavesAll, List.flatten_append, List.length_append]
    rw [List.length_append] at h2
    rw [← List.append_assoc, h2]
    simp [Nat.add_assoc]
end

/-- C49: assembling a text from a forest never writes outside the string allocated for it, fills it
exactly, and gives the concatenation of the leaves from left to right. -/
theorem c49_string_forest (x : Forest) : forestToString x = some x.leaves.flatten := by
  have h := copy_spec x [] (List.replicate x.len ' ') [] (by simp [len_eq])
  simp only [List.length_nil, List.nil_append, List.append_nil] at h
  rw [forestToString, h]

example : forestToString (.pair (.str "ab".toList) (.pair (.vec [.str "c".toList, .nil]) (.str "d".toList))) =
    some "abcd".toList := by rw [c49_string_forest]; decide

/-! ### formatting -/

/-- `t` is formatted to `out`. -/
def Fmt (l r t out : List Char) : Prop := ∀ fuel, t.length < fuel → format l r fuel t = some out

theorem Fmt.nil (l r : List Char) : Fmt l r [] [] := by
  intro fuel h
  cases fuel with
  | zero => simp at h
  | succ n => rfl

theorem Fmt.cons {l r t out : List Char} {c : Char} (hc : c ≠ '$') (h : Fmt l r t out) :
    Fmt l r (c :: t) (c :: out) := by
  intro fuel hf
  cases fuel with
  | zero => simp at hf
  | succ n =>
    simp only [format, if_pos hc, ne_eq]
    rw [h n (by simpa using hf)]

theorem Fmt.append {l r t out : List Char} : ∀ (a : List Char), (∀ c ∈ a, c ≠ '$') → Fmt l r t out →
    Fmt l r (a ++ t) (a ++ out)
  | [], _, h => h
  | c :: cs, ha, h => Fmt.cons (ha c (by simp)) (Fmt.append cs (fun d hd => ha d (by simp [hd])) h)

theorem Fmt.live {l r t out : List Char} {c : Char} (hc : alnum c = false) (h : Fmt l r (c :: t) out) :
    Fmt l r ("$live".toList ++ c :: t) (l ++ out) := by
  intro fuel hf
  cases fuel with
  | zero => simp at hf
  | succ n =>
    have e : matchName ("live".toList ++ c :: t) "live".toList = some (c :: t) := by
      simp [matchName, hc]
    have e2 : "$live".toList ++ c :: t = '$' :: ("live".toList ++ c :: t) := rfl
    have h2 := h n (by simp at hf ⊢; omega)
    rw [e2]
    simp only [format, ne_eq, not_true_eq_false, if_false, e, h2]

/-- The destination text and cast. -/
def dest (r : List Char) : List Char :=
  (returnText r).1 ++ (if (returnText r).2 then [] else "obj(".toList)

theorem Fmt.ret {l r t out : List Char} (h : Fmt l r t out) :
    Fmt l r ("$return obj(".toList ++ t) (dest r ++ out) := by
  intro fuel hf
  cases fuel with
  | zero => simp at hf
  | succ n =>
    have e2 : "$return obj(".toList ++ t = '$' :: ("return obj(".toList ++ t) := rfl
    have e1 : matchName ("return obj(".toList ++ t) "live".toList = none := by simp [matchName]
    have e : matchName ("return obj(".toList ++ t) "return".toList = some (" obj(".toList ++ t) := by
      simp [matchName, alnum]
    have e3 : (" obj(".toList ++ t).dropWhile Num.isspace = "obj(".toList ++ t := by
      simp [Num.isspace, List.dropWhile]
    have hp : "obj(".toList <+: "obj(".toList ++ t := List.prefix_append _ _
    rw [e2]
    simp only [format, ne_eq, not_true_eq_false, if_false, e, e1, e3, if_pos hp]
    have hn : t.length + 4 < n := by simp at hf; omega
    cases hc : (returnText r).2 with
    | true =>
      have : ("obj(".toList ++ t).drop 4 = t := rfl
      simp only [if_true, this, h n (by omega), dest, hc, List.append_nil]
    | false =>
      have h2 : Fmt l r ("obj(".toList ++ t) ("obj(".toList ++ out) := Fmt.append _ (by simp) h
      simp only [Bool.false_eq_true, if_false, h2 n (by simp; omega), dest, hc, List.append_assoc]

theorem matchName_sound : ∀ (s n r : List Char), matchName s n = some r → s = n ++ r
  | [], [], r, h => by simp [matchName] at h; simp [h]
  | c :: cs, [], r, h => by
    simp only [matchName] at h
    split at h
    · cases h
    · injection h
  | [], _ :: _, r, h => by simp [matchName] at h
  | c :: cs, d :: ds, r, h => by
    simp only [matchName] at h
    split at h
    · next e => rw [e, matchName_sound cs ds r h]; rfl
    · cases h

/-- What may stand for the destination `r`: the destination followed by the cast `obj(`, or — if the
destination already ends in a cast from `obj` — a simplified form. -/
def Dest (r d : List Char) : Prop :=
  d = r ++ "obj(".toList ∨
  (∃ p, r = p ++ "obj_from_".toList ∧ d = p ++ "(".toList) ∨
  (∃ p, r = p ++ "void_from_".toList ∧ d = p ++ "(void)(".toList)

theorem dest_spec (r : List Char) : Dest r (dest r) := by
  unfold dest returnText
  cases h1 : matchName r.reverse "obj_from_".toList.reverse with
  | some p =>
    have e := congrArg List.reverse (matchName_sound _ _ _ h1)
    rw [List.reverse_reverse, List.reverse_append, List.reverse_reverse] at e
    exact Or.inr (Or.inl ⟨p.reverse, e, by simp⟩)
  | none =>
    cases h2 : matchName r.reverse "void_from_".toList.reverse with
    | some p =>
      have e := congrArg List.reverse (matchName_sound _ _ _ h2)
      rw [List.reverse_reverse, List.reverse_append, List.reverse_reverse] at e
      exact Or.inr (Or.inr ⟨p.reverse, e, by simp⟩)
    | none => exact Or.inl (by simp)

theorem dest_noq {r : List Char} (h : '?' ∉ r) : '?' ∉ dest r := by
  rcases dest_spec r with e | ⟨p, e1, e⟩ | ⟨p, e1, e⟩ <;> rw [e] <;> intro hm
  · rw [List.mem_append] at hm
    rcases hm with hm | hm
    · exact h hm
    · revert hm; decide
  all_goals
    rw [List.mem_append] at hm
    rcases hm with hm | hm
    · exact h (e1 ▸ List.mem_append_left _ hm)
    · revert hm; decide

/-! ### C lexical rules -/

theorem phase1_cons {c : Char} (hc : c ≠ '?') (t : List Char) : phase1 (c :: t) = c :: phase1 t := by
  rw [phase1.eq_2]
  intro _ _ h
  exact absurd h hc

theorem phase1_plain : ∀ (a t : List Char), '?' ∉ a → phase1 (a ++ t) = a ++ phase1 t
  | [], _, _ => rfl
  | c :: a, t, h => by
    simp only [List.mem_cons, not_or] at h
    rw [List.cons_append, phase1_cons (fun e => h.1 e.symm), phase1_plain a t h.2]
    rfl

theorem phase1_id (a : List Char) (h : '?' ∉ a) : phase1 a = a := by
  have := phase1_plain a [] h
  simpa [phase1] using this

theorem HasTrigraph.cons {s : List Char} (c : Char) (h : HasTrigraph s) : HasTrigraph (c :: s) := by
  obtain ⟨a, b, d, e, hd⟩ := h
  exact ⟨c :: a, b, d, by rw [e]; rfl, hd⟩

theorem phase1_quote (q : Char) (hq : trigraph q = none) (hq2 : q ≠ '?') :
    ∀ (s t : List Char), ¬ HasTrigraph s → phase1 (s ++ q :: t) = s ++ q :: phase1 t
  | [], t, _ => phase1_cons hq2 t
  | c :: s, t, h => by
    have ih := phase1_quote q hq hq2 s t (fun h2 => h (HasTrigraph.cons c h2))
    by_cases hc : c = '?'
    · subst hc
      match s, h, ih with
      | [], h, ih =>
        simp only [List.cons_append, List.nil_append] at ih ⊢
        rw [phase1.eq_2, ih]
        rintro c' r - e
        injection e with e1 _
        exact hq2 e1
      | [d], h, ih =>
        by_cases hd : d = '?'
        · subst hd
          simp only [List.cons_append, List.nil_append] at ih ⊢
          rw [phase1.eq_1, hq]
          simp only [ih]
        · simp only [List.cons_append, List.nil_append] at ih ⊢
          rw [phase1.eq_2, ih]
          rintro c' r - e
          injection e with e1 _
          exact hd e1
      | d :: d2 :: s, h, ih =>
        by_cases hd : d = '?'
        · subst hd
          have hn : trigraph d2 = none := by
            cases ht : trigraph d2 with
            | none => rfl
            | some x => exact absurd ⟨[], s, d2, rfl, by simp [ht]⟩ h
          simp only [List.cons_append] at ih ⊢
          rw [phase1.eq_1, hn]
          simp only [ih]
        · simp only [List.cons_append] at ih ⊢
          rw [phase1.eq_2, ih]
          rintro c' r - e
          injection e with e1 _
          exact hd e1
    · rw [List.cons_append, phase1_cons hc, ih]
      rfl

theorem strip_append (p s : List Char) : strip p (p ++ s) = some s := by
  induction p with
  | nil => cases s <;> rfl
  | cons c p ih => simp [strip, ih]

theorem lexLit_safe (q : Char) : ∀ (s t : List Char), (∀ c ∈ s, c ≠ q ∧ c ≠ '\n' ∧ c ≠ '\\') →
    lexLit q (s ++ q :: t) = some (s.map Char.toNat, t)
  | [], t, _ => by rw [List.nil_append, lexLit.eq_def]; simp
  | c :: s, t, h => by
    have ih := lexLit_safe q s t (fun d hd => h d (by simp [hd]))
    obtain ⟨h1, h2, h3⟩ := h c (by simp)
    rw [List.cons_append, lexLit.eq_def]
    simp only [if_neg h1, if_neg h2, if_neg h3, ih, List.map_cons]

/-- decimal numerals of bytes: digits only, and read back by C. -/
def NumOk (n : Nat) (t : List Char) : Prop :=
  num n = some t ∧ t ≠ [] ∧ (∀ c ∈ t, digit c ≠ none) ∧ intConst t = some n

theorem num_ok (n : Nat) (h : n < 256) : ∃ t, NumOk n t := by
  have key : ∀ n < 256, (num n).any
      (fun t => decide (t ≠ [] ∧ (∀ c ∈ t, digit c ≠ none) ∧ intConst t = some n)) = true := by
    decide +kernel
  have k := key n h
  cases e : num n with
  | none => rw [e] at k; simp at k
  | some t =>
    rw [e, Option.any_some, decide_eq_true_eq] at k
    exact ⟨t, e, k⟩

theorem digit_ne {c : Char} (h : digit c ≠ none) (d : Char) (hd : digit d = none) : c ≠ d := by
  rintro rfl; exact h hd

theorem initList_tok (r : List Char) : ∀ (t tok : List Char), (∀ c ∈ t, digit c ≠ none) →
    initList (t ++ r) tok = initList r (t.reverse ++ tok)
  | [], tok, _ => rfl
  | c :: t, tok, h => by
    have hc := h c (by simp)
    rw [List.cons_append, initList]
    simp only [if_neg (digit_ne hc ' ' (by decide)), if_neg (digit_ne hc ',' (by decide)),
      if_neg (digit_ne hc '}' (by decide))]
    rw [initList_tok r t _ (fun d hd => h d (by simp [hd]))]
    simp

/-- The initializer items for the codes. -/
def itemsText (ts : List (List Char)) : List Char := (ts.map (· ++ ", ".toList)).flatten

theorem initList_items (rest : List Char) : ∀ (ns : List Nat) (ts : List (List Char)),
    List.Forall₂ NumOk ns ts →
    initList (itemsText ts ++ ("0 }".toList ++ rest)) [] = some (ns ++ [0], rest)
  | [], _, .nil => by simp [itemsText, initList, intConst, value]
  | n :: ns, t :: ts, .cons ⟨_, hne, hd, hv⟩ hr => by
    have ih := initList_items rest ns ts hr
    have e : itemsText (t :: ts) ++ ("0 }".toList ++ rest) =
        t ++ (',' :: ' ' :: (itemsText ts ++ ("0 }".toList ++ rest))) := by
      simp [itemsText]
    rw [e, initList_tok _ t [] hd, List.append_nil, initList]
    simp only [if_neg (show ',' ≠ ' ' by decide), if_true, List.reverse_reverse, hv]
    rw [initList]
    simp only [if_true, true_or, ih, List.cons_append]

theorem width_byte {n : Nat} (h : n < 256) : width n = some 8 := by
  unfold width; rw [if_pos (by omega)]

theorem width_ge {n : Nat} (h : 256 ≤ n) : width n = none ∨ ∃ w, width n = some w ∧ 8 < w := by
  unfold width
  rw [if_neg (by omega)]
  split
  · exact Or.inr ⟨_, rfl, by omega⟩
  · split
    · exact Or.inr ⟨_, rfl, by omega⟩
    · exact Or.inl rfl

theorem foldMax_bytes : ∀ (l : List Nat), (∀ n ∈ l, n < 256) → foldMax (some 8) (l.map width) = some 8
  | [], _ => rfl
  | n :: l, h => by
    simp only [List.map_cons, width_byte (h n (by simp)), foldMax, Nat.max_self]
    exact foldMax_bytes l (fun m hm => h m (by simp [hm]))

theorem foldMax_none (l : List (Option Nat)) : foldMax none l = none := by
  induction l with
  | nil => rfl
  | cons a l ih => simp only [foldMax]; exact ih

theorem foldMax_big (b : Nat) (hb : 8 < b) : ∀ l : List (Option Nat), foldMax (some b) l ≠ some 8
  | [] => by simp [foldMax]; omega
  | none :: l => by simp [foldMax, foldMax_none]
  | some n :: l => by
    simp only [foldMax]
    exact foldMax_big _ (Nat.lt_of_lt_of_le hb (Nat.le_max_left _ _)) l

theorem foldMax_wide : ∀ (l : List Nat) (b : Nat), 8 ≤ b → (∃ n ∈ l, 256 ≤ n) →
    foldMax (some b) (l.map width) ≠ some 8
  | [], _, _, ⟨n, hn, _⟩ => by simp at hn
  | m :: l, b, hb, ⟨n, hn, h⟩ => by
    simp only [List.map_cons, foldMax]
    by_cases hm : 256 ≤ m
    · rcases width_ge hm with e | ⟨w, e, hw⟩
      · rw [e]; simp [foldMax_none]
      · rw [e]; exact foldMax_big _ (Nat.lt_of_lt_of_le hw (Nat.le_max_right _ _)) _
    · rw [width_byte (by omega)]
      refine foldMax_wide l _ (Nat.le_trans hb (Nat.le_max_left _ _)) ⟨n, ?_, h⟩
      simp only [List.mem_cons] at hn
      rcases hn with rfl | hn
      · omega
      · exact hn

theorem numAll_bytes : ∀ (l : List Nat), (∀ n ∈ l, n < 256) →
    ∃ ts, numAll l = some ts ∧ List.Forall₂ NumOk l ts
  | [], _ => ⟨[], rfl, .nil⟩
  | n :: l, h => by
    obtain ⟨t, ht⟩ := num_ok n (h n (by simp))
    obtain ⟨ts, e, hr⟩ := numAll_bytes l (fun m hm => h m (by simp [hm]))
    exact ⟨t :: ts, by simp only [numAll, ht.1, e], .cons ht hr⟩

theorem leaves_ofList (xs : List Forest) : (Forest.ofList xs).leaves = Forest.leavesAll xs := by
  induction xs with
  | nil => rfl
  | cons x xs ih => simp only [Forest.ofList, Forest.leaves, Forest.leavesAll, ih]

theorem leavesAll_append (xs ys : List Forest) :
    Forest.leavesAll (xs ++ ys) = Forest.leavesAll xs ++ Forest.leavesAll ys := by
  induction xs with
  | nil => rfl
  | cons x xs ih => simp only [List.cons_append, Forest.leavesAll, ih, List.append_assoc]

theorem leavesAll_items (ts : List (List Char)) :
    (Forest.leavesAll (items ts)).flatten = itemsText ts := by
  induction ts with
  | nil => rfl
  | cons t ts ih =>
    have e : items (t :: ts) = Forest.ofList [.str t, .str [',', ' ']] :: items ts := rfl
    rw [e, Forest.leavesAll, List.flatten_append, ih]
    simp [itemsText, leaves_ofList, Forest.leavesAll, Forest.leaves]

theorem safe_spec {c : Char} (h : charSafe c = true) :
    c ≠ '\\' ∧ c ≠ '"' ∧ c ≠ '\'' ∧ c ≠ '$' ∧ c ≠ '\n' ∧ 32 ≤ c.toNat ∧ c.toNat ≤ 126 := by
  simp only [charSafe, Bool.and_eq_true, decide_eq_true_eq, bne_iff_ne] at h
  obtain ⟨⟨⟨⟨⟨h1, h2⟩, h3⟩, h4⟩, h5⟩, h6⟩ := h
  refine ⟨h3, h4, h5, h6, ?_, by omega, by omega⟩
  rintro rfl
  simp at h2

theorem cString_id (l : List Nat) (h : ∀ n ∈ l, n < 256 ∧ n ≠ 0) : cString (l ++ [0]) = l := by
  unfold cString
  have e : l.map (· % 256) = l := by
    induction l with
    | nil => rfl
    | cons n l ih =>
      simp only [List.map_cons, Nat.mod_eq_of_lt (h n (by simp)).1]
      rw [ih (fun m hm => h m (by simp [hm]))]
  rw [List.map_append, e]
  clear e
  induction l with
  | nil => rfl
  | cons n l ih =>
    have := (h n (by simp)).2
    simp only [List.cons_append, List.takeWhile_cons, this, ne_eq, not_false_eq_true, decide_true, if_true]
    rw [ih (fun m hm => h m (by simp [hm]))]

theorem digits_noq {ns : List Nat} {ts : List (List Char)} (h : List.Forall₂ NumOk ns ts) :
    (∀ c ∈ itemsText ts, c ≠ '?' ∧ c ≠ '$') := by
  induction h with
  | nil => intro c hc; simp [itemsText] at hc
  | cons hn _ ih =>
    intro c hc
    simp only [itemsText, List.map_cons, List.flatten_cons, List.mem_append] at hc
    rcases hc with (hc | hc) | hc
    · exact ⟨digit_ne (hn.2.2.1 c hc) _ (by decide), digit_ne (hn.2.2.1 c hc) _ (by decide)⟩
    · revert hc; revert c; decide
    · exact ih c hc

/-- every character of a piece of emitted text is a newline or printable ASCII. -/
theorem plain_append {a b : List Char} (h1 : ∀ c ∈ a, PlainC c) (h2 : ∀ c ∈ b, PlainC c) :
    ∀ c ∈ a ++ b, PlainC c := by
  intro c hc
  rcases List.mem_append.mp hc with h | h
  · exact h1 c h
  · exact h2 c h

theorem plain_cons {x : Char} {b : List Char} (h1 : PlainC x) (h2 : ∀ c ∈ b, PlainC c) :
    ∀ c ∈ x :: b, PlainC c := by
  intro c hc
  rcases List.mem_cons.mp hc with h | h
  · exact h ▸ h1
  · exact h2 c h

theorem plain_digit {c : Char} (h : digit c ≠ none) : PlainC c := by
  unfold digit at h
  split at h
  · right; omega
  · exact absurd rfl h

theorem plain_items {ns : List Nat} {ts : List (List Char)} (h : List.Forall₂ NumOk ns ts) :
    (∀ c ∈ itemsText ts, PlainC c) := by
  induction h with
  | nil => intro c hc; simp [itemsText] at hc
  | cons hn _ ih =>
    intro c hc
    simp only [itemsText, List.map_cons, List.flatten_cons, List.mem_append] at hc
    rcases hc with (hc | hc) | hc
    · exact plain_digit (hn.2.2.1 c hc)
    · revert hc; revert c; decide
    · exact ih c hc

theorem notMem_append {c : Char} {a b : List Char} (h1 : c ∉ a) (h2 : c ∉ b) : c ∉ a ++ b := by
  simp [h1, h2]

/-- the literal shape denotes the string. -/
theorem argument_lit (pre post decl dst s : List Char) (hpre : '?' ∉ pre) (hpost : '?' ∉ post)
    (hs : ∀ c ∈ s, charSafe c = true) (ht : ¬ HasTrigraph s) :
    argument pre post decl dst (pre ++ '"' :: (s ++ '"' :: post)) = some (s.map Char.toNat) := by
  have e1 : phase1 (pre ++ '"' :: (s ++ '"' :: post)) = (pre ++ ['"']) ++ (s ++ '"' :: post) := by
    rw [phase1_plain _ _ hpre, phase1_cons (by decide), phase1_quote '"' (by decide) (by decide) s post ht,
      phase1_id post hpost]
    simp
  unfold argument
  simp only [e1, strip_append]
  rw [lexLit_safe '"' s post (fun c hc => by
    have := safe_spec (hs c hc); exact ⟨this.2.1, this.2.2.2.2.1, this.1⟩)]
  simp only [if_true]
  rw [cString_id]
  intro n hn
  obtain ⟨c, hc, rfl⟩ := List.mem_map.mp hn
  refine ⟨Nat.lt_of_le_of_lt (safe_spec (hs c hc)).2.2.2.2.2.2 (by decide), ?_⟩
  have := hs c hc
  simp only [charSafe, Bool.and_eq_true, decide_eq_true_eq] at this
  omega

/-- the array shape denotes the string. -/
theorem argument_arr (pre post decl dst : List Char) (hne : ∀ t, strip (pre ++ ['"']) (decl ++ t) = none)
    (hdecl : '?' ∉ decl) (hdst : phase1 dst = dst) (ns : List Nat) (ts : List (List Char))
    (h : List.Forall₂ NumOk ns ts) (h0 : ∀ n ∈ ns, n < 256 ∧ n ≠ 0) :
    argument pre post decl dst (decl ++ "{ ".toList ++ itemsText ts ++ ("0 }".toList ++ dst)) = some ns := by
  have hq : phase1 (decl ++ "{ ".toList ++ itemsText ts ++ ("0 }".toList ++ dst)) =
      decl ++ "{ ".toList ++ itemsText ts ++ ("0 }".toList ++ dst) := by
    rw [phase1_plain _ _ (notMem_append (notMem_append hdecl (by decide))
      (fun hc => (digits_noq h _ hc).1 rfl)), phase1_plain _ _ (by decide), hdst]
  unfold argument
  simp only [hq]
  have e : decl ++ "{ ".toList ++ itemsText ts ++ ("0 }".toList ++ dst) =
      (decl ++ ['{']) ++ (' ' :: (itemsText ts ++ ("0 }".toList ++ dst))) := by simp
  have e2 : decl ++ "{ ".toList ++ itemsText ts ++ ("0 }".toList ++ dst) =
      decl ++ ("{ ".toList ++ itemsText ts ++ ("0 }".toList ++ dst)) := by simp
  rw [e2, hne, ← e2, e, strip_append]
  simp only [initList, if_true, true_or]
  rw [initList_items dst ns ts h]
  simp only [if_true]
  rw [cString_id ns h0]

theorem decompose_safe {s : List Char} (h : s.all charSafe = true) : decompose s = some (.text s) := by
  unfold decompose; simp only [h, if_true]

theorem decompose_bytes {s : List Char} (h : s.all charSafe = false) (hb : ∀ c ∈ s, c.toNat < 256) :
    ∃ ts, decompose s = some (.codes (some 8) ts) ∧ List.Forall₂ NumOk (s.map Char.toNat) ts := by
  have hb' : ∀ n ∈ s.map Char.toNat, n < 256 := by
    intro n hn
    obtain ⟨c, hc, rfl⟩ := List.mem_map.mp hn
    exact hb c hc
  obtain ⟨ts, e, hr⟩ := numAll_bytes _ hb'
  refine ⟨ts, ?_, hr⟩
  unfold decompose
  simp only [h, Bool.false_eq_true, if_false, e, foldMax_bytes _ hb']

theorem emit_of_fmt {f : Forest} {l r out : List Char} (h : Fmt l r f.leaves.flatten out) :
    emit (some f) l r = some out := by
  unfold emit
  simp only [c49_string_forest]
  exact h _ (by omega)

/-- Full claim: whenever text is emitted for a string constant, it denotes exactly the string.  Refuted
below. -/
def C44Full : Prop :=
  ∀ (s l r text : List Char), '?' ∉ l → '?' ∉ r → emitString s l r = some text →
    ∃ d, Dest r d ∧ stringDenotes l d text = some (s.map Char.toNat)

/-- C44 (partial): a string of byte-sized characters without NUL and without a trigraph is emitted as C
text that denotes exactly its bytes — whatever quotes, backslashes, dollar signs, control or non-ASCII
characters it contains, and whatever the live-register text and destination text are (they are produced by
the compiler and contain no question mark).  The text consists of printable ASCII and newlines if those two
do.  What is missing: strings with NUL or with a trigraph, for
which the claim is false. -/
theorem c44_string_partial (s l r : List Char) (hl : '?' ∉ l) (hr : '?' ∉ r)
    (hb : ∀ c ∈ s, c.toNat < 256 ∧ c.toNat ≠ 0) (ht : ¬ HasTrigraph s) :
    ∃ text d, emitString s l r = some text ∧ Dest r d ∧ stringDenotes l d text = some (s.map Char.toNat) ∧
      ((∀ c ∈ l, PlainC c) → (∀ c ∈ d, PlainC c) → ∀ c ∈ text, PlainC c) := by
  cases hs : s.all charSafe with
  | true =>
    have hs' : ∀ c ∈ s, charSafe c = true := by simpa using hs
    refine ⟨("obj(hpushstr(".toList ++ l ++ ", newstring(".toList) ++ '"' :: (s ++ '"' :: ")))".toList),
      dest r, ?_, dest_spec r, ?_, ?_⟩
    · unfold emitString
      rw [decompose_safe hs]
      apply emit_of_fmt
      have f1 : Fmt l r ("\")))".toList) ("\")))".toList) := by
        have := Fmt.append "\")))".toList (by decide) (Fmt.nil l r)
        simpa using this
      have f2 := Fmt.append s (fun c hc => (safe_spec (hs' c hc)).2.2.2.1) f1
      have f3 := Fmt.append ", newstring(\"".toList (by decide) f2
      have f4 := Fmt.append "obj(hpushstr(".toList (by decide)
        (Fmt.live (c := ',') (t := " newstring(\"".toList ++ (s ++ "\")))".toList)) (by decide) f3)
      simpa [leaves_ofList, Forest.leavesAll, Forest.leaves] using f4
    · exact argument_lit _ _ _ _ s (notMem_append (notMem_append (by decide) hl) (by decide)) (by decide) hs' ht
    · intro pl pd
      exact plain_append (plain_append (plain_append (by decide) pl) (by decide)) (plain_cons (by decide)
        (plain_append (fun c hc => Or.inr (safe_spec (hs' c hc)).2.2.2.2.2) (by decide)))
  | false =>
    obtain ⟨ts, e, hts⟩ := decompose_bytes hs (fun c hc => (hb c hc).1)
    refine ⟨"{ static char s[] = ".toList ++ "{ ".toList ++ itemsText ts ++ ("0 }".toList ++
      (";\n    ".toList ++ dest r ++ "hpushstr(".toList ++ l ++ ", newstring(s))); }".toList)),
      dest r, ?_, dest_spec r, ?_, ?_⟩
    · unfold emitString
      rw [e]
      apply emit_of_fmt
      have f1 := Fmt.append (l := l) (r := r) ", newstring(s))); }".toList (by decide) (Fmt.nil l r)
      have f2 := Fmt.append "hpushstr(".toList (by decide)
        (Fmt.live (c := ',') (t := " newstring(s))); }".toList) (by decide) f1)
      have f3 := Fmt.append "0 };\n    ".toList (by decide) (Fmt.ret f2)
      have f4 := Fmt.append (itemsText ts) (fun c hc => (digits_noq hts c hc).2) f3
      have f5 := Fmt.append "{ static char s[] = { ".toList (by decide) f4
      simpa [leaves_ofList, Forest.leavesAll, Forest.leaves, leavesAll_append, leavesAll_items] using f5
    · refine argument_arr _ _ _ _ (fun t => ?_) (by decide) ?_ _ ts hts ?_
      · simp [strip]
      · exact phase1_id _ (notMem_append (notMem_append (notMem_append (notMem_append (by decide) (dest_noq hr))
          (by decide)) hl) (by decide))
      · intro n hn
        obtain ⟨c, hc, rfl⟩ := List.mem_map.mp hn
        exact hb c hc
    · intro pl pd
      exact plain_append (plain_append (by decide) (plain_items hts)) (plain_append (by decide)
        (plain_append (plain_append (plain_append (plain_append (by decide) pd) (by decide)) pl) (by decide)))

/-- C44 (partial): the same for symbol constants (`internsym` is given exactly the bytes of the name). -/
theorem c44_symbol_partial (s l r : List Char) (hr : '?' ∉ r)
    (hb : ∀ c ∈ s, c.toNat < 256 ∧ c.toNat ≠ 0) (ht : ¬ HasTrigraph s) :
    ∃ text d, emitSymbol s l r = some text ∧ Dest r d ∧ symbolDenotes d text = some (s.map Char.toNat) ∧
      ((∀ c ∈ l, PlainC c) → (∀ c ∈ d, PlainC c) → ∀ c ∈ text, PlainC c) := by
  cases hs : s.all charSafe with
  | true =>
    have hs' : ∀ c ∈ s, charSafe c = true := by simpa using hs
    refine ⟨"obj(mksymbol(internsym(".toList ++ '"' :: (s ++ '"' :: ")))".toList),
      dest r, ?_, dest_spec r, ?_, ?_⟩
    · unfold emitSymbol
      rw [decompose_safe hs]
      apply emit_of_fmt
      have f1 : Fmt l r ("\")))".toList) ("\")))".toList) := by
        have := Fmt.append "\")))".toList (by decide) (Fmt.nil l r)
        simpa using this
      have f2 := Fmt.append s (fun c hc => (safe_spec (hs' c hc)).2.2.2.1) f1
      have f3 := Fmt.append "obj(mksymbol(internsym(\"".toList (by decide) f2
      simpa [leaves_ofList, Forest.leavesAll, Forest.leaves] using f3
    · exact argument_lit _ _ _ _ s (by decide) (by decide) hs' ht
    · intro pl pd
      exact plain_append (by decide) (plain_cons (by decide)
        (plain_append (fun c hc => Or.inr (safe_spec (hs' c hc)).2.2.2.2.2) (by decide)))
  | false =>
    obtain ⟨ts, e, hts⟩ := decompose_bytes hs (fun c hc => (hb c hc).1)
    refine ⟨"{ static obj o = 0; static char s[] = ".toList ++ "{ ".toList ++ itemsText ts ++ ("0 }".toList ++
      (";\n    ".toList ++ dest r ++ "o ? o : (o = mksymbol(internsym(s)))); }".toList)),
      dest r, ?_, dest_spec r, ?_, ?_⟩
    · unfold emitSymbol
      rw [e]
      apply emit_of_fmt
      have f1 := Fmt.append (l := l) (r := r) "o ? o : (o = mksymbol(internsym(s)))); }".toList (by decide)
        (Fmt.nil l r)
      have f3 := Fmt.append "0 };\n    ".toList (by decide) (Fmt.ret f1)
      have f4 := Fmt.append (itemsText ts) (fun c hc => (digits_noq hts c hc).2) f3
      have f5 := Fmt.append "{ static obj o = 0; static char s[] = { ".toList (by decide) f4
      simpa [leaves_ofList, Forest.leavesAll, Forest.leaves, leavesAll_append, leavesAll_items] using f5
    · refine argument_arr _ _ _ _ (fun t => ?_) (by decide) ?_ _ ts hts ?_
      · simp [strip]
      · rw [phase1_plain _ _ (notMem_append (by decide) (dest_noq hr))]
        congr 1
        decide +kernel
      · intro n hn
        obtain ⟨c, hc, rfl⟩ := List.mem_map.mp hn
        exact hb c hc
    · intro pl pd
      exact plain_append (plain_append (by decide) (plain_items hts)) (plain_append (by decide)
        (plain_append (plain_append (by decide) pd) (by decide)))

/-- C44: a character constant with a code below 256 is emitted as C text whose value is exactly that
code. -/
theorem c44_char (c : Char) (l r : List Char) (hb : c.toNat < 256) :
    ∃ text, emitChar c l r = some text ∧ charDenotes text = some c.toNat ∧ ∀ x ∈ text, PlainC x := by
  cases hs : charSafe c with
  | true =>
    refine ⟨"char('".toList ++ (c :: "')".toList), ?_, ?_, plain_append (by decide)
      (plain_cons (Or.inr (safe_spec hs).2.2.2.2.2) (by decide))⟩
    · unfold emitChar decomposeChar
      rw [if_pos hs]
      apply emit_of_fmt
      have f1 : Fmt l r ("')".toList) ("')".toList) := by
        have := Fmt.append "')".toList (by decide) (Fmt.nil l r)
        simpa using this
      have f2 := Fmt.append "char('".toList (by decide) (Fmt.cons (safe_spec hs).2.2.2.1 f1)
      simpa [leaves_ofList, Forest.leavesAll, Forest.leaves] using f2
    · have ht : ¬ HasTrigraph [c] := by
        rintro ⟨a, b, d, e, _⟩
        have := congrArg List.length e
        simp at this
        omega
      have e1 : phase1 ("char('".toList ++ (c :: "')".toList)) =
          "char(".toList ++ ('\'' :: ([c] ++ '\'' :: ")".toList)) := by
        rw [phase1_plain _ _ (by decide)]
        by_cases hq : c = '?'
        · subst hq; decide +kernel
        · rw [phase1_cons hq, phase1_id _ (by decide)]; rfl
      unfold charDenotes
      rw [e1, strip_append]
      simp only
      rw [lexLit_safe '\'' [c] ")".toList (fun d hd => by
        have := safe_spec hs
        simp only [List.mem_singleton] at hd
        subst hd
        exact ⟨this.2.2.1, this.2.2.2.2.1, this.1⟩)]
      simp
  | false =>
    obtain ⟨t, e, hne, hd, hv⟩ := num_ok c.toNat hb
    have hq : '?' ∉ "char(".toList ++ (t ++ ")".toList) := by
      refine notMem_append (by decide) (notMem_append (fun h => ?_) (by decide))
      exact digit_ne (hd _ h) '?' (by decide) rfl
    refine ⟨"char(".toList ++ (t ++ ")".toList), ?_, ?_, plain_append (by decide)
      (plain_append (fun c hc => plain_digit (hd c hc)) (by decide))⟩
    · unfold emitChar decomposeChar
      rw [if_neg (by simp [hs])]
      simp only [e, width_byte hb]
      apply emit_of_fmt
      have f1 : Fmt l r (")".toList) (")".toList) := by
        have := Fmt.append ")".toList (by decide) (Fmt.nil l r)
        simpa using this
      have f2 := Fmt.append "char(".toList (by decide)
        (Fmt.append t (fun c hc => digit_ne (hd c hc) '$' (by decide)) f1)
      simpa [leaves_ofList, Forest.leavesAll, Forest.leaves] using f2
    · unfold charDenotes
      rw [phase1_id _ hq, strip_append]
      cases t with
      | nil => exact absurd rfl hne
      | cons d t =>
        have hd' : d ≠ '\'' := digit_ne (hd d (by simp)) _ (by decide)
        have e3 : (d :: t ++ ")".toList).reverse = ')' :: (d :: t).reverse := by simp
        simp only [List.cons_append] at e3 ⊢
        split
        · next h => cases h
        · next h => injection h with h; injection h with h1 _; exact absurd h1 hd'
        · next r' _ h => 
          injection h with h
          rw [← h, e3]
          simp only [List.reverse_reverse]
          exact hv

/-- C44: a constant with a character code above 255 is rejected by the compiler; no C text is emitted. -/
theorem c44_rejected (s l r : List Char) (h : ∃ c ∈ s, 256 ≤ c.toNat) :
    emitString s l r = none ∧ emitSymbol s l r = none := by
  obtain ⟨c, hc, h256⟩ := h
  have hs : s.all charSafe = false := by
    cases e : s.all charSafe with
    | false => rfl
    | true =>
      have := safe_spec (List.all_eq_true.mp e c hc)
      omega
  have key : ∀ k, decompose s = some k → stringForest k = none ∧ symbolForest k = none := by
    intro k hk
    unfold decompose at hk
    simp only [hs, Bool.false_eq_true, if_false] at hk
    split at hk
    · injection hk with hk
      subst hk
      have hw := foldMax_wide (s.map Char.toNat) 8 (Nat.le_refl _) ⟨c.toNat, List.mem_map_of_mem hc, h256⟩
      cases hf : foldMax (some 8) ((s.map Char.toNat).map width) with
      | none => exact ⟨rfl, rfl⟩
      | some w =>
        have : w ≠ 8 := fun e => hw (by rw [hf, e])
        constructor
        · unfold stringForest; split <;> simp_all
        · unfold symbolForest; split <;> simp_all
    · cases hk
  unfold emitString emitSymbol
  cases e : decompose s with
  | none => exact ⟨rfl, rfl⟩
  | some k =>
    obtain ⟨h1, h2⟩ := key k e
    simp only [h1, h2, emit]
    exact ⟨trivial, trivial⟩

/-- The bytes of the counterexample's text never change what is wrong: `"??="` is emitted verbatim and
read by C as `"#"`; a string holding a NUL is cut short by `newstring`. -/
theorem c44_counterexample : ¬ C44Full ∧
    emitString "??=".toList "1".toList "r[0] = obj_from_".toList =
      some "obj(hpushstr(1, newstring(\"??=\")))".toList ∧
    stringDenotes "1".toList "r[0] = (".toList "obj(hpushstr(1, newstring(\"??=\")))".toList = some [35] ∧
    (∃ text, emitString ['a', '\x00', 'b'] "1".toList "r[0] = obj_from_".toList = some text ∧
      stringDenotes "1".toList "r[0] = (".toList text = some [97]) := by
  refine ⟨fun h => ?_, by decide +kernel, by decide +kernel, ⟨_, by rfl, by decide +kernel⟩⟩
  obtain ⟨d, _, e⟩ := h "??=".toList "1".toList "r[0] = obj_from_".toList
    "obj(hpushstr(1, newstring(\"??=\")))".toList (by decide) (by decide) (by decide +kernel)
  have key : stringDenotes "1".toList d "obj(hpushstr(1, newstring(\"??=\")))".toList = some [35] := by
    unfold stringDenotes argument
    have : phase1 "obj(hpushstr(1, newstring(\"??=\")))".toList =
        ("obj(hpushstr(".toList ++ "1".toList ++ ", newstring(".toList ++ ['"']) ++ "#\")))".toList := by
      decide +kernel
    simp only [this, strip_append]
    decide +kernel
  rw [key] at e
  revert e
  decide +kernel

/-- A string with a quote, a backslash, a dollar sign, a newline and a byte above 127. -/
example : ∃ text d, emitString ['"', '\\', '$', '\n', 'é', '?', '?'] "2".toList "r[1] = obj_from_".toList = some text ∧
    Dest "r[1] = obj_from_".toList d ∧
    stringDenotes "2".toList d text = some [34, 92, 36, 10, 233, 63, 63] ∧
    ((∀ c ∈ "2".toList, PlainC c) → (∀ c ∈ d, PlainC c) → ∀ c ∈ text, PlainC c) :=
  c44_string_partial _ _ _ (by decide) (by decide) (by decide) (by
    rintro ⟨a, b, c, e, hc⟩
    have hl := congrArg List.length e
    simp only [List.length_append, List.length_cons, List.length_nil] at hl
    match a, e, hl with
    | [], e, _ => cases e
    | [_], e, _ => cases e
    | [_, _], e, _ => cases e
    | [_, _, _], e, _ => cases e
    | [_, _, _, _], e, _ => cases e
    | _ :: _ :: _ :: _ :: _ :: _, e, hl => simp at hl; omega)

example : emitString "a\nb".toList "2".toList "r[1] = obj_from_".toList =
    some "{ static char s[] = { 97, 10, 98, 0 };\n    r[1] = (hpushstr(2, newstring(s))); }".toList := by
  decide +kernel

example : emitChar '\'' [] [] = some "char(39)".toList ∧ emitChar 'a' [] [] = some "char('a')".toList := by
  decide +kernel

end Verif.Lit
