import Verif.Reader.Numbers
/-
Property C25: what `write` prints, `read` reads back.
-/
namespace Verif.Reader
open Verif.Num Verif.Cmp Verif.Width

/-! ## Specification -/

/-- Specification: the data with an external representation.  Characters are bytes; fixnums have 24 bits; the names
of symbols are identifiers. -/
inductive External : Val → Prop
  | nil : External .nil
  | bool (b : Bool) : External (.bool b)
  | char (c : Char) : c.toNat ≤ 255 → External (.char c)
  | str (s : List Char) : (∀ c ∈ s, c.toNat ≤ 255) → External (.str s)
  | fix (n : Int) : -8388608 ≤ n → n ≤ 8388607 → External (.fix n)
  | sym (s : List Char) : SymName s → External (.sym s)
  | pair (a d : Val) : External a → External d → External (.pair a d)
  | vec (l : List Val) : (∀ v ∈ l, External v) → External (.vec l)
  | box (v : Val) : External v → External (.box v)

/-- the least fixnum occurs nowhere in the datum -/
inductive NoLeast : Val → Prop
  | nil : NoLeast .nil
  | bool (b : Bool) : NoLeast (.bool b)
  | char (c : Char) : NoLeast (.char c)
  | str (s : List Char) : NoLeast (.str s)
  | fix (n : Int) : n ≠ -8388608 → NoLeast (.fix n)
  | sym (s : List Char) : NoLeast (.sym s)
  | pair (a d : Val) : NoLeast a → NoLeast d → NoLeast (.pair a d)
  | vec (l : List Val) : (∀ v ∈ l, NoLeast v) → NoLeast (.vec l)
  | box (v : Val) : NoLeast v → NoLeast (.box v)

/-- Reading the text `i` gives the value `v` and leaves `rest`. -/
def Reads (i : List Char) (v : Val) (rest : List Char) : Prop :=
  ∃ d n, (∀ m ≥ n, readTop m [] i = .ok d rest []) ∧ sexp d = v

/-- Full statement of C25: every datum with an external representation is read back from its written form, up to
a following delimiter. -/
def C25Full : Prop :=
  ∀ v rest, External v → inputDelimited rest = true → Reads (write v ++ rest) v rest

/-! ## Fixnums -/

theorem wrFix_spec (n : Int) (h1 : -8388608 ≤ n) (h2 : n ≤ 8388607) :
    ∃ ds, wrFix n = (if n < 0 then '-' :: ds else ds) ∧ ds ≠ [] ∧ Digits 10 ds ∧ value 10 ds = n.natAbs := by
  have hb : n.natAbs < 10 ^ 33 := by omega
  obtain ⟨ds, e, hne, hl, hall, hval, hz⟩ := digitsLoop_spec 10 (by omega) (by omega) 33 n.natAbs [] hb (by omega)
  have mono : ∀ room num acc out, digitsLoop 10 room num acc = some out → digitsLoop 10 (room+1) num acc = some out := by
    intro room
    induction room with
    | zero => intro num acc out h; simp [digitsLoop] at h
    | succ room ih =>
      intro num acc out h
      rw [digitsLoop] at h ⊢
      split at h
      · rename_i h0; simpa [h0] using h
      · rename_i h0; simp only [h0, if_false]; exact ih _ _ _ h
  have e' := mono _ _ _ _ e
  rw [List.append_nil] at e'
  refine ⟨ds, ?_, hne, fun c hc => (hall c hc).1, hval⟩
  rw [wrFix, fixnumToString, e']
  simp only
  split
  · rw [if_pos (by omega)]; rfl
  · rfl

theorem readUinteger_exact (sg : Sign) {ds rest : List Char} (hne : ds ≠ []) (hd : Digits 10 ds)
    (hrest : ∀ c, rest.head? = some c → isDig 10 c = false) :
    ∃ D, readUinteger (ds ++ rest) sg 10 = some (intDatum ⟨width sg D 10, sg, D, 10⟩, rest) ∧ Canon 10 D ∧
      value 10 D = value 10 ds := by
  have hl : LowerDigits 10 (ds.map tolower) := by
    intro c hc
    rw [List.mem_map] at hc
    obtain ⟨a, ha, rfl⟩ := hc
    exact (tolower_digit 10 a (hd a ha)).2
  have hne' : ds.map tolower ≠ [] := by simpa using hne
  have hne2 : (ds.map tolower).reverse ≠ [] := by simpa using hne
  obtain ⟨hc, hv⟩ := stripZeros_spec 10 _ hne' hl
  rw [value_map_lower 10 ds hd] at hv
  refine ⟨stripZeros (ds.map tolower), ?_, hc, hv⟩
  rw [readUinteger, subread_loop sg 10 ds rest [] hd hrest, List.append_nil, integerDatum, if_neg hne2,
    List.reverse_reverse]
  rfl

theorem readNumber_int {sg : List Char} {s : Sign} (hs : SignText sg s) {ds rest : List Char} {d : SX} (hne : ds ≠ [])
    (hd : Digits 10 ds) (hr : inputDelimited rest = true)
    (h : readUinteger (ds ++ rest) s 10 = some (d, rest)) :
    readNumber (sg ++ (ds ++ rest)) none 10 = some (d, rest) := by
  have hdel : ∀ c, rest.head? = some c → charDelimiter c = true := by
    intro c hc
    cases rest with
    | nil => cases hc
    | cons a r => cases hc; exact hr
  have hst : Stop 10 rest := stop_of (by omega) (fun c hc => by simp [hdel c hc])
  have hu : UReal 10 ds (value 10 ds) := .int hne hd
  have hint : readInteger (sg ++ (ds ++ rest)) 10 = some (d, rest) := by
    unfold readInteger
    obtain ⟨c, t, rfl⟩ := List.exists_cons_of_ne_nil hne
    obtain ⟨-, -, g1, g2, -⟩ := digit_char (by omega) (hd c (by simp))
    cases hs with
    | none =>
      rw [List.nil_append, List.cons_append, prefix_ne _ _ g1, prefix_ne _ _ g2]
      exact h
    | plus => rw [List.cons_append, List.nil_append, prefix_hit]; exact h
    | minus => rw [List.cons_append, List.nil_append, prefix_ne _ _ (by decide), prefix_hit]; exact h
  have hreal : readReal (sg ++ (ds ++ rest)) 10 = some (d, rest) := by
    unfold readReal
    rw [hint]
    simp only [Option.bind_some, (stop_prefix hst).1, (stop_prefix hst).2, stop_atExponent hst]
    simp
  have hnan : readRealNaninf (sg ++ (ds ++ rest)) 10 = some (d, rest) := by
    unfold readRealNaninf
    rw [special_none (by omega) hs hu _ _ _ _ (.inr rfl) (.inl rfl), special_none (by omega) hs hu _ _ _ _ (.inl rfl) (.inl rfl),
      special_none (by omega) hs hu _ _ _ _ (.inr rfl) (.inr rfl), special_none (by omega) hs hu _ _ _ _ (.inl rfl) (.inr rfl)]
    simp only
    obtain ⟨c, t, rfl⟩ := List.exists_cons_of_ne_nil hne
    obtain ⟨-, -, g1, g2, g3, -⟩ := digit_char (by omega) (hd c (by simp))
    have n1 : inputPrefix (sg ++ (c :: t ++ rest)) cs!"." = none := by
      cases hs with
      | none => exact prefix_ne _ _ g3
      | plus => exact prefix_ne _ _ (by decide)
      | minus => exact prefix_ne _ _ (by decide)
    have n2 : inputPrefix (sg ++ (c :: t ++ rest)) cs!"+." = none := by
      cases hs with
      | none => exact prefix_ne _ _ g1
      | plus => rw [List.cons_append, inputPrefix, if_pos rfl]; exact prefix_ne _ _ g3
      | minus => exact prefix_ne _ _ (by decide)
    have n3 : inputPrefix (sg ++ (c :: t ++ rest)) cs!"-." = none := by
      cases hs with
      | none => exact prefix_ne _ _ g2
      | plus => exact prefix_ne _ _ (by decide)
      | minus => rw [List.cons_append, inputPrefix, if_pos rfl]; exact prefix_ne _ _ g3
    rw [n1, n2, n3, if_neg (by simp), if_neg (by simp), if_neg (by simp)]
    exact hreal
  have np : ∀ x, charDelimiter x = false → inputPrefix rest [x] = none := by
    intro x hx
    apply prefix_one
    intro h
    rw [hdel x h] at hx
    cases hx
  unfold readNumber readComplex
  rw [special_none (by omega) hs hu _ _ _ _ (.inl rfl) (.inr rfl), special_none (by omega) hs hu _ _ _ _ (.inr rfl) (.inr rfl)]
  simp only [hnan, Option.bind_some, np '@' (by decide), np 'i' (by decide), np '+' (by decide), np '-' (by decide)]
  simp [checkDelimited, hr]

theorem width_small {s : Sign} {D : List Char} (hc : Canon 10 D) (hv : value 10 D ≤ 8388607) :
    width s D 10 = some 8 ∨ width s D 10 = some 16 ∨ width s D 10 = some 24 := by
  rw [width_spec s 10 (by decide) D hc]
  have hf : fits 24 (denotes s 10 D) := by
    unfold fits denotes
    cases s <;> simp <;> omega
  simp only [List.find?_cons]
  cases decide (fits 8 (denotes s 10 D)) with
  | true => simp
  | false =>
    cases decide (fits 16 (denotes s 10 D)) with
    | true => simp
    | false => simp only [decide_eq_true hf]; simp

theorem lexical_fix (n : Int) (h1 : -8388608 < n) (h2 : n ≤ 8388607) (rest : List Char) (hr : inputDelimited rest = true) :
    ∃ d, lexical (wrFix n ++ rest) = some (some (d, rest)) ∧ d.type = .sym cs!"integer" ∧ sexp d = .fix n := by
  obtain ⟨ds, hw, hne, hd, hv⟩ := wrFix_spec n (by omega) h2
  have hdel : ∀ c, rest.head? = some c → isDig 10 c = false := by
    intro c hc
    cases rest with
    | nil => cases hc
    | cons a r =>
      cases hc
      cases h : isDig 10 c with
      | false => rfl
      | true =>
        have := (digit_char (by omega) h).2.2.2.2.2.2.2.2.2.2.2.1
        rw [inputDelimited] at hr
        rw [hr] at this; cases this
  have hsg : ∃ sg s, SignText sg s ∧ wrFix n = sg ++ ds ∧ n = signed s (value 10 ds) := by
    rw [hw, hv]
    by_cases hn : n < 0
    · refine ⟨_, _, .minus, ?_, ?_⟩
      · rw [if_pos hn]; rfl
      · show n = -((n.natAbs : ℕ) : ℤ); omega
    · refine ⟨_, _, .none, ?_, ?_⟩
      · rw [if_neg hn]; rfl
      · show n = ((n.natAbs : ℕ) : ℤ); omega
  obtain ⟨sg, s, hs, hw', hn⟩ := hsg
  obtain ⟨D, g1, g2, g3⟩ := readUinteger_exact s hne hd hdel
  refine ⟨intDatum ⟨width s D 10, s, D, 10⟩, ?_, rfl, ?_⟩
  · rw [hw', List.append_assoc, lexical_real hs (.int hne hd), readNumber_int hs hne hd hr g1]
  · have hD : value 10 D ≤ 8388607 := by rw [g3, hv]; omega
    have hnum : stringToFixnum D 10 = some (value 10 D : ℤ) := by
      rw [c08_string_to_number]
      refine ⟨D, 10, .inr ⟨?_, rfl, rfl⟩, ?_, by omega, by omega⟩
      · intro c cs h
        have := (g2.2.1 '#' (by rw [h]; simp)).1
        exact absurd rfl (isDig_not_space this).2.2.2
      · exact ⟨[], [], [], D, rfl, by simp, by simp, by simp, g2.1, fun c hc => (g2.2.1 c hc).1, by simp⟩
    show sexp (datum cs!"integer" _) = _
    have hw3 := width_small (s := s) g2 hD
    have e10 : ((10 : ℕ) : ℤ).toNat = 10 := rfl
    have fin : (value 10 D : ℤ) * (if signSX s = .sym cs!"-" then -1 else 1) = n := by
      rw [g3, hn]
      cases s
      · rw [if_neg (by decide)]; simp [signed]
      · rw [if_pos (by decide)]; simp [signed]
    rw [sexp_integer]
    simp only [sexpInteger, SX.elems, SX.list, e10, hnum]
    rw [if_pos (by rcases hw3 with h | h | h <;> rw [h] <;> simp), fin]

/-! ## The loop over list elements -/

/-- `subread-to-terminator` for a closing parenthesis succeeds -/
def Term (dotted pairs : Bool) (lim : Option Int) (i : List Char) (d : SX) (rest : List Char) : Prop :=
  ∃ n, toTerm n [] ')' dotted true pairs lim i = .ok d rest

theorem Term.space {a b : Bool} {lim : Option Int} {i : List Char} {d : SX} {rest : List Char} (h : Term a b lim i d rest) :
    Term a b lim (' ' :: i) d rest := by
  obtain ⟨n, hn⟩ := h
  exact ⟨n+1, ((termLoop ')' a true b lim).skip_white (c := ' ') (by decide) i (x := .ok d rest) (by simp [termLoop])).2 n hn⟩

theorem Term.elem {a b : Bool} {lim : Option Int} {i j k : List Char} {d d1 : SX} {n : Nat}
    (hr : reader n [] [] i = .ok d j) (hd : d.normal) (h : Term a b (lim.map (· - 1)) j d1 k) :
    Term a b lim i (if lim = some 1 then d else if b then datum cs!"pair" [d, d1] else .cons d d1) k := by
  obtain ⟨m, hm⟩ := h
  refine ⟨max n m + 1, ?_⟩
  rw [toTerm, reader_stable hr (by simp) (Nat.le_max_left n m)]
  simp only [Res.bind]
  rw [if_neg hd.1, if_neg hd.2.1, if_neg hd.2.2.1, if_neg (fun h => hd.2.2.2 h.1), if_neg (fun h => hd.2.2.2 h.1),
    if_neg hd.2.2.2, toTerm_stable hm (by simp) (Nat.le_max_right n m)]

theorem Term.close {a b : Bool} {lim : Option Int} (h : lim = none ∨ lim = some 0) (rest : List Char) :
    Term a b lim (')' :: rest) (if b then datum cs!"null" [] else .nil) rest := by
  refine ⟨2, ?_⟩
  rw [toTerm, reader_close (.inl rfl)]
  simp only [Res.bind]
  rw [if_neg (by simp [SX.type]), if_neg (by simp [SX.type]), if_neg (by simp [SX.type]), if_neg (by simp [SX.nth, SX.list]),
    if_pos (by simp [SX.nth, SX.list, SX.type]), if_pos h]

theorem Term.dot {b : Bool} {lim : Option Int} {i : List Char} {d : SX} {rest : List Char} (hi : inputDelimited i = true)
    (h : Term true b (some 1) i d rest) : Term true b lim ('.' :: i) d rest := by
  obtain ⟨m, hm⟩ := h
  refine ⟨m + 2, ?_⟩
  rw [toTerm, reader_lexical (lexical_dot i hi)]
  simp only [Res.ofOption, Res.bind]
  rw [if_neg (by simp [SX.type]), if_neg (by simp [SX.type]), if_neg (by simp [SX.type]),
    if_pos (by simp [SX.nth, SX.list, SX.type])]
  exact toTerm_stable hm (by simp) (by omega)

/-! ## The invariant -/

/-- one call of the reader takes in the text -/
def RW (v : Val) : Prop :=
  ∀ rest, inputDelimited rest = true →
    ∃ d n, reader n [] [] (write v ++ rest) = .ok d rest ∧ d.normal ∧ sexp d = v

/-- the tail of a list -/
def RT (v : Val) : Prop :=
  ∀ rest, ∃ d, Term true true none (wrTail v ++ rest) d rest ∧ d.normal ∧ sexp d = v

theorem normal_type {d : SX} {t : List Char} (h : d.type = .sym t) (ht : t ∉ [cs!"eof", cs!"atmosphere", cs!"read-as", cs!"terminator"]) :
    d.normal := by
  simp only [List.mem_cons, List.not_mem_nil, or_false, not_or] at ht
  unfold SX.normal
  rw [h]
  simp only [ne_eq, SX.sym.injEq]
  exact ht

theorem rt_of_rw {v : Val} (h : wrTail v = cs!" . " ++ write v ++ [')']) (hw : RW v) : RT v := by
  intro rest
  obtain ⟨d, n, h1, h2, h3⟩ := hw (')' :: rest) rfl
  refine ⟨d, ?_, h2, h3⟩
  have e : wrTail v ++ rest = ' ' :: '.' :: ' ' :: (write v ++ ')' :: rest) := by rw [h]; simp
  rw [e]
  refine Term.space (Term.dot rfl (Term.space ?_))
  have := Term.elem (lim := some 1) h1 h2 (Term.close (a := true) (b := true) (.inr rfl) rest)
  simpa using this

theorem rw_of_lexical {v : Val} {t : List Char} (ht : t ∉ [cs!"eof", cs!"atmosphere", cs!"read-as", cs!"terminator"])
    (h : ∀ rest, inputDelimited rest = true → ∃ d, lexical (write v ++ rest) = some (some (d, rest)) ∧ d.type = .sym t ∧ sexp d = v) :
    RW v := by
  intro rest hr
  obtain ⟨d, h1, h2, h3⟩ := h rest hr
  exact ⟨d, 1, reader_lexical h1, normal_type h2 ht, h3⟩

theorem chars_type (t : List Char) (l : List Nat) : (charsDatum t l).type = .sym t := by
  unfold charsDatum; split <;> rfl

/-- the elements of a vector -/
theorem elems_spec : ∀ (l : List Val), l ≠ [] → (∀ v ∈ l, RW v) → ∀ rest,
    ∃ ds, Term false false none (wrElems l ++ rest) (SX.list ds) rest ∧ ds.map sexp = l
  | [], h, _, _ => absurd rfl h
  | [v], _, h, rest => by
    obtain ⟨d, n, h1, h2, h3⟩ := h v (by simp) (')' :: rest) rfl
    refine ⟨[d], ?_, by simp [h3]⟩
    have e : wrElems [v] ++ rest = write v ++ ')' :: rest := by simp [wrElems]
    rw [e]
    exact Term.elem (lim := none) h1 h2 (Term.close (a := false) (b := false) (.inl rfl) rest)
  | v :: w :: l, _, h, rest => by
    obtain ⟨ds, g1, g2⟩ := elems_spec (w :: l) (by simp) (fun x hx => h x (by simp [hx])) rest
    obtain ⟨d, n, h1, h2, h3⟩ := h v (by simp) (' ' :: (wrElems (w :: l) ++ rest)) rfl
    refine ⟨d :: ds, ?_, by simp [h3, g2]⟩
    have e : wrElems (v :: w :: l) ++ rest = write v ++ ' ' :: (wrElems (w :: l) ++ rest) := by simp [wrElems]
    rw [e]
    exact Term.elem (lim := none) h1 h2 (Term.space g1)

theorem invariant {v : Val} (h : External v) : NoLeast v → RW v ∧ RT v := by
  induction h with
  | nil =>
    intro _
    constructor
    · intro rest _
      refine ⟨datum cs!"null" [], 3, ?_, normal_type rfl (by decide), sexp_null⟩
      show reader 3 [] [] ('(' :: ')' :: rest) = _
      rw [reader_opn_paren, toTerm, reader_close (.inl rfl)]
      simp [Res.bind, SX.type, SX.nth, SX.list]
    · intro rest
      exact ⟨_, Term.close (.inl rfl) rest, normal_type rfl (by decide), sexp_null⟩
  | bool b =>
    intro _
    have hw : RW (.bool b) := rw_of_lexical (t := cs!"boolean") (by decide) (fun rest hr =>
      ⟨_, lexical_bool b rest hr, rfl, sexp_bool b⟩)
    exact ⟨hw, rt_of_rw (by simp [wrTail, write]) hw⟩
  | char c hc =>
    intro _
    have hw : RW (.char c) := rw_of_lexical (t := cs!"char") (by decide) (fun rest hr => by
      obtain ⟨d, h1, h2, h3⟩ := lexical_char c rest hr
      exact ⟨d, h1, h2, h3 hc⟩)
    exact ⟨hw, rt_of_rw (by simp [wrTail, write]) hw⟩
  | str s hs =>
    intro _
    have hw : RW (.str s) := rw_of_lexical (t := cs!"string") (by decide) (fun rest hr =>
      ⟨_, lexical_string s rest, chars_type _ _, (sexp_chars s hs).1⟩)
    exact ⟨hw, rt_of_rw (by simp [wrTail, write]) hw⟩
  | fix n h1 h2 =>
    intro hl
    have hn : n ≠ -8388608 := by cases hl; assumption
    have hw : RW (.fix n) := rw_of_lexical (t := cs!"integer") (by decide) (fun rest hr =>
      lexical_fix n (by omega) h2 rest hr)
    exact ⟨hw, rt_of_rw (by simp [wrTail, write]) hw⟩
  | sym s hs =>
    intro _
    have hw : RW (.sym s) := rw_of_lexical (t := cs!"symbol") (by decide) (fun rest hr =>
      ⟨_, lexical_symbol hs hr, chars_type _ _, (sexp_chars s (symName_byte hs)).2⟩)
    exact ⟨hw, rt_of_rw (by simp [wrTail, write]) hw⟩
  | pair a d _ _ iha ihd =>
    intro hl
    obtain ⟨hla, hld⟩ : NoLeast a ∧ NoLeast d := by cases hl; constructor <;> assumption
    have wa := (iha hla).1
    have td := (ihd hld).2
    have hdel : ∀ rest, inputDelimited (wrTail d ++ rest) = true := by
      intro rest; cases d <;> (rw [wrTail]; rfl)
    have key : ∀ rest, ∃ x, Term true true none (write a ++ (wrTail d ++ rest)) x rest ∧ x.normal ∧ sexp x = .pair a d := by
      intro rest
      obtain ⟨x, n, h1, h2, h3⟩ := wa _ (hdel rest)
      obtain ⟨y, g1, g2, g3⟩ := td rest
      exact ⟨_, Term.elem (lim := none) h1 h2 g1, normal_type rfl (by decide), by
        simp only [reduceCtorEq, if_false, if_true]; rw [sexp_pair, h3, g3]⟩
    constructor
    · intro rest _
      obtain ⟨x, ⟨n, h1⟩, h2, h3⟩ := key rest
      refine ⟨x, n+1, ?_, h2, h3⟩
      have e : write (.pair a d) ++ rest = '(' :: (write a ++ (wrTail d ++ rest)) := by simp [write]
      rw [e, reader_opn_paren, h1]
    · intro rest
      obtain ⟨x, h1, h2, h3⟩ := key rest
      refine ⟨x, ?_, h2, h3⟩
      have e : wrTail (.pair a d) ++ rest = ' ' :: (write a ++ (wrTail d ++ rest)) := by simp [wrTail]
      rw [e]
      exact h1.space
  | vec l _ ih =>
    intro hl
    have hll : ∀ v ∈ l, NoLeast v := by cases hl; assumption
    have hw : RW (.vec l) := by
      intro rest _
      have : ∃ ds, Term false false none (wrElems l ++ rest) (SX.list ds) rest ∧ ds.map sexp = l := by
        cases l with
        | nil => exact ⟨[], Term.close (.inl rfl) rest, rfl⟩
        | cons v l => exact elems_spec _ (by simp) (fun x hx => (ih x hx (hll x hx)).1) rest
      obtain ⟨ds, ⟨n, h1⟩, h2⟩ := this
      refine ⟨.cons (.sym cs!"vector") (SX.list ds), n+1, ?_, normal_type rfl (by decide), by rw [sexp_vector, h2]⟩
      have e : write (.vec l) ++ rest = '#' :: '(' :: (wrElems l ++ rest) := by simp [write]
      rw [e, reader_vec, h1]
      rfl
    exact ⟨hw, rt_of_rw (by simp [wrTail, write]) hw⟩
  | box v _ ih =>
    intro hl
    have hlv : NoLeast v := by cases hl; assumption
    have hw : RW (.box v) := by
      intro rest hr
      obtain ⟨d, n, h1, h2, h3⟩ := (ih hlv).1 rest hr
      refine ⟨datum cs!"box" [d], n+2, ?_, normal_type rfl (by decide), by rw [sexp_box, h3]⟩
      have e : write (.box v) ++ rest = '#' :: '&' :: (write v ++ rest) := by simp [write]
      rw [e, reader_box, subread, h1]
      simp only [Res.bind]
      rw [if_neg h2.1, if_neg h2.2.1, if_neg h2.2.2.1, if_neg h2.2.2.2]
    exact ⟨hw, rt_of_rw (by simp [wrTail, write]) hw⟩

/-! ## C25 -/

/-- Every datum with an external representation in which the least fixnum does not occur is read back from its
written form. -/
theorem c25_partial (v : Val) (rest : List Char) (h : External v) (hl : NoLeast v) (hr : inputDelimited rest = true) :
    Reads (write v ++ rest) v rest := by
  obtain ⟨d, n, h1, h2, h3⟩ := (invariant h hl).1 rest hr
  refine ⟨d, n+1, fun m hm => ?_, h3⟩
  obtain ⟨k, rfl⟩ : ∃ k, m = k + 1 := ⟨m - 1, by omega⟩
  rw [readTop, reader_stable h1 (by simp) (show n ≤ k by omega)]
  simp only
  rw [if_neg h2.2.1, if_neg h2.2.2.1, if_neg h2.2.2.2]

/-- The least fixnum is written as `-8388608`, but reading that gives a procedure. -/
theorem c25_counterexample : ¬ C25Full := by
  intro h
  obtain ⟨d, n, h1, h2⟩ := h (.fix (-8388608)) [] (.fix _ (by omega) (by omega)) rfl
  have hw : write (.fix (-8388608)) ++ [] = cs!"-8388608" := by decide +kernel
  rw [hw] at h1
  have h3 := h1 (n+2) (by omega)
  have hlex : lexical cs!"-8388608" =
      some (some (datum cs!"integer" [.num 24, .sym cs!"-", .str cs!"8388608", .num 10], [])) := by decide +kernel
  have h4 : readTop (n+2) [] cs!"-8388608" =
      .ok (datum cs!"integer" [.num 24, .sym cs!"-", .str cs!"8388608", .num 10]) [] [] := by
    rw [readTop, reader_lexical hlex]
    simp [Res.ofOption, SX.type]
  rw [h4] at h3
  cases h3
  rw [sexp_integer] at h2
  have h5 : stringToFixnum cs!"8388608" 10 = none := by decide +kernel
  simp only [sexpInteger, SX.elems, SX.list] at h2
  rw [show (10 : Int).toNat = 10 from rfl, h5] at h2
  simp at h2

/-- `(quote #("a\"b" #\newline . ...))`-like nested datum: `(- . #(#\space "a\"" #&-17 ()))` -/
example : External (.pair (.sym cs!"-") (.vec [.char ' ', .str cs!"a\"", .box (.fix (-17)), .nil])) ∧
    NoLeast (.pair (.sym cs!"-") (.vec [.char ' ', .str cs!"a\"", .box (.fix (-17)), .nil])) ∧
    write (.pair (.sym cs!"-") (.vec [.char ' ', .str cs!"a\"", .box (.fix (-17)), .nil])) =
      cs!"(- . #(#\\space \"a\\\"\" #&-17 ()))" := by
  refine ⟨.pair _ _ (.sym _ (.inr (.inl rfl))) (.vec _ ?_), .pair _ _ (.sym _) (.vec _ ?_), by decide +kernel⟩
  · intro v hv
    simp only [List.mem_cons, List.not_mem_nil, or_false] at hv
    rcases hv with rfl | rfl | rfl | rfl
    · exact .char _ (by decide)
    · exact .str _ (by decide)
    · exact .box _ (.fix _ (by omega) (by omega))
    · exact .nil
  · intro v hv
    simp only [List.mem_cons, List.not_mem_nil, or_false] at hv
    rcases hv with rfl | rfl | rfl | rfl
    · exact .char _
    · exact .str _
    · exact .box _ (.fix _ (by omega))
    · exact .nil

/-! ## Tokens of C27 -/

/-- Symbols, strings and fixnums are atoms in the sense of C27. -/
theorem sym_tok {s : List Char} (h : SymName s) :
    (Tok.atom s (charsDatum cs!"symbol" (s.map Char.toNat)) (fun rest => inputDelimited rest = true)).Ok :=
  ⟨normal_type (chars_type _ _) (by decide), fun _ hr => lexical_symbol h hr⟩

theorem str_tok (s : List Char) :
    (Tok.atom (wrString s) (charsDatum cs!"string" (s.map Char.toNat)) (fun _ => True)).Ok :=
  ⟨normal_type (chars_type _ _) (by decide), fun rest _ => lexical_string s rest⟩

/-- the token `car` -/
def carTok : Tok := .atom cs!"car" (charsDatum cs!"symbol" (cs!"car".map Char.toNat)) (fun rest => inputDelimited rest = true)

theorem carTok_ok : carTok.Ok := sym_tok (.inr (.inr (.inr (.inl ⟨'c', cs!"ar", rfl, by decide, by decide⟩))))

/-- the tokens `(` `car` `)` with a nested block comment and a line comment between them, and without -/
example : Render [.opn '(', carTok, .close ')'] cs!"( #|a #|(|# b|# car;)\n)" ∧
    Render [.opn '(', carTok, .close ')'] cs!"(car)" := by
  have body : Body cs!"a #|(|# b" := by
    refine .char _ _ (.char _ _ (.nest cs!"(" cs!" b" (.char _ _ .nil (by decide) (by decide))
      (.char _ _ (.char _ _ .nil (by decide) (by decide)) (by decide) (by decide))) (by decide) (by decide)) (by decide) (by decide)
  constructor
  · refine .cons [] (.opn '(') _ cs!" #|a #|(|# b|# car;)\n)" .nil (.inl rfl) trivial ?_
    refine .cons cs!" #|a #|(|# b|# " carTok _ cs!";)\n)" ?_ carTok_ok (show inputDelimited _ = true by decide) ?_
    · exact .white ' ' _ (by decide) (.block cs!"a #|(|# b" cs!" " body (.white ' ' _ (by decide) .nil))
    · refine .cons cs!";)\n" (.close ')') _ [] ?_ (.inl rfl) trivial (.nil _ (.full _ .nil))
      exact .line cs!")" [] (by decide) .nil
  · refine .cons [] (.opn '(') _ cs!"car)" .nil (.inl rfl) trivial ?_
    refine .cons [] carTok _ cs!")" .nil carTok_ok (show inputDelimited _ = true by decide) ?_
    exact .cons [] (.close ')') _ [] .nil (.inl rfl) trivial (.nil _ (.full _ .nil))

/-- an unterminated comment: one closing bar is missing -/
example : ∀ b rest, Body b → cs!" #| |# " ≠ b ++ cs!"|#" ++ rest := by
  intro b rest hb he
  have := (blockComment_iff cs!" #| |# " rest).2 ⟨b, hb, he⟩
  revert this
  simp [blockComment]

end Verif.Reader
