import Verif.Fmt.Strings
/-
The formatter writes the text a template stands for, except for conversions.
-/
namespace Verif.Fmt

/-- text of a reversed buffer. -/
def fl (cur : List Text) : List Char := flats cur.reverse

theorem fl_cons (a : Text) (cur : List Text) : fl (a :: cur) = fl cur ++ a.flat := by
  simp [fl, flats_append, flats]
theorem fl_append (a b : List Text) : fl (a ++ b) = fl b ++ fl a := by
  simp [fl, flats_append]
theorem fl_ch (cs : List Char) : fl (cs.reverse.map Text.ch) = cs := by
  simp [fl, ← List.map_reverse, flats_ch]

/-- the end of the buffer, at which matching stops. -/
def Bot (s : Bool) (cur base : List Text) : Prop :=
  (s = true ∧ base = []) ∨ (∃ a l, base = a :: l ∧ a.char? = none) ∨ (base = [] ∧ ∃ cur0 c, cur = cur0 ++ [.ch c] ∧ identChar c = false)

theorem Bot.cons {s : Bool} {cur base : List Text} (h : Bot s cur base) (a : Text) : Bot s (a :: cur) base := by
  rcases h with h | h | ⟨h, cur0, c, rfl, h'⟩
  · exact .inl h
  · exact .inr (.inl h)
  · exact .inr (.inr ⟨h, a :: cur0, c, by simp, h'⟩)

theorem alnum_ident {c : Char} (h : identChar c = false) : alnum c = false := by
  simp only [identChar, alnum, Bool.or_eq_false_iff] at *; exact h.1

theorem Edge.weaken {s : Bool} {p : List Char} (h : Edge identChar s p) : Edge alnum s p := by
  rcases h with h | ⟨q, c, h, h'⟩
  · exact .inl h
  · exact .inr ⟨q, c, h, alnum_ident h'⟩

/-- a name found at the end of the buffer. -/
theorem match_buf {s : Bool} {cur base sbuf : List Text} {nm : List Char} (hb : Bot s cur base)
    (hm : matchName Text.char? (cur ++ base) nm.reverse = some sbuf) (hnm : ∀ c ∈ nm, identChar c = true) :
    ∃ cur1, sbuf = cur1 ++ base ∧ fl cur = fl cur1 ++ nm ∧ Edge alnum s (fl cur1) ∧ Bot s cur1 base := by
  obtain ⟨⟨pre, h1, h2⟩, h3⟩ := (matchName_iff _ _ _ _).mp hm
  have hpre := char_map h2
  subst hpre
  have key : ∃ c', cur = nm.reverse.map Text.ch ++ c' ∧ sbuf = c' ++ base := by
    rcases List.append_eq_append_iff.mp h1 with ⟨a', e1, e2⟩ | ⟨c', e1, e2⟩
    · cases a' with
      | nil => exact ⟨[], by simpa using e1.symm, by simpa using e2.symm⟩
      | cons x a' =>
        exfalso
        have hx : x ∈ nm.reverse.map Text.ch := by rw [e1]; simp
        obtain ⟨c, _, rfl⟩ := List.mem_map.mp hx
        rcases hb with ⟨_, h⟩ | ⟨a, l, h, h'⟩ | ⟨h, _⟩
        · rw [h] at e2; simp at e2
        · rw [h] at e2; simp at e2; rw [e2.1] at h'; simp [Text.char?] at h'
        · rw [h] at e2; simp at e2
    · exact ⟨c', e1, e2⟩
  obtain ⟨c', e1, e2⟩ := key
  refine ⟨c', e2, by rw [e1, fl_append, fl_ch], ?_, ?_⟩
  · cases c' with
    | nil =>
      simp only [List.append_nil, List.nil_append] at e1 e2
      left
      refine ⟨rfl, ?_⟩
      rcases hb with ⟨h, _⟩ | ⟨a, l, h, h'⟩ | ⟨_, cur0, c, h, h'⟩
      · exact h
      · exfalso
        rw [e2, h] at h3
        rcases h3 with h3 | ⟨_, _, c, h3, h4, _⟩
        · simp at h3
        · simp only [List.cons.injEq] at h3; rw [← h3.1, h'] at h4; simp at h4
      · exfalso
        have : Text.ch c ∈ nm.reverse.map Text.ch := by rw [← e1, h]; simp
        obtain ⟨d, hd, e⟩ := List.mem_map.mp this
        simp only [Text.ch.injEq] at e
        subst e
        rw [hnm d (by simpa using hd)] at h'; simp at h'
    | cons a c'' =>
      right
      rw [e2] at h3
      rcases h3 with h3 | ⟨a', _, c, h3, h4, h5⟩
      · simp at h3
      · simp only [List.cons_append, List.cons.injEq] at h3
        obtain ⟨rfl, _⟩ := h3
        refine ⟨fl c'', c, ?_, h5⟩
        cases a <;> simp [Text.char?] at h4
        subst h4
        rw [fl_cons]; rfl
  · rcases hb with h | h | ⟨hbase, cur0, c, h, h'⟩
    · exact .inl h
    · exact .inr (.inl h)
    · right; right
      refine ⟨hbase, ?_⟩
      rcases List.eq_nil_or_concat c' with rfl | ⟨c0, x, rfl⟩
      · exfalso
        simp only [List.append_nil] at e1
        have : Text.ch c ∈ nm.reverse.map Text.ch := by rw [← e1, h]; simp
        obtain ⟨d, hd, e⟩ := List.mem_map.mp this
        simp only [Text.ch.injEq] at e
        subst e
        rw [hnm d (by simpa using hd)] at h'; simp at h'
      · refine ⟨c0, c, ?_, h'⟩
        rw [List.concat_eq_append] at e1 ⊢
        rw [h, ← List.append_assoc] at e1
        have := (List.append_inj' e1 rfl).2
        simp only [List.cons.injEq, and_true] at this
        rw [this]

theorem ident_from {T : List Char} (h : ∀ c ∈ T, identChar c = true) : ∀ c ∈ T ++ "_from_".toList, identChar c = true := by
  intro c hc
  rcases List.mem_append.mp hc with hc | hc
  · exact h c hc
  · have key : ∀ c ∈ "_from_".toList, identChar c = true := by decide
    exact key c hc
theorem ident_void : ∀ c ∈ "void_from_".toList, identChar c = true := by decide

/-- not after a letter or digit. -/
def Sep (x : List Char) : Prop := x = [] ∨ ∃ q c, x = q ++ [c] ∧ alnum c = false

theorem Edge.sep {s : Bool} {p : List Char} (h : Edge alnum s p) : Sep p := by
  rcases h with ⟨h, _⟩ | h
  · exact .inl h
  · exact .inr h

/-- if both names match, the type is `void`. -/
theorem both {x1 x2 T : List Char} (h1 : Sep x1) (h2 : Sep x2) (hT : ∀ c ∈ T, identChar c = true) (hv : ¬ "_void".toList <:+ T)
    (e : x1 ++ (T ++ "_from_".toList) = x2 ++ "void_from_".toList) : T = "void".toList ∧ x1 = x2 := by
  have e' : x1 ++ T = x2 ++ "void".toList := by
    have h0 : "void_from_".toList = "void".toList ++ "_from_".toList := by decide
    rw [h0, ← List.append_assoc, ← List.append_assoc] at e
    exact (List.append_inj' e rfl).1
  have main : ∀ y, (x2 = x1 ++ y ∧ T = y ++ "void".toList) ∨ (x1 = x2 ++ y ∧ "void".toList = y ++ T) → T = "void".toList ∧ x1 = x2 := by
    intro y
    rcases List.eq_nil_or_concat y with rfl | ⟨y0, c, rfl⟩
    · rintro (⟨a, b⟩ | ⟨a, b⟩)
      · simp only [List.append_nil, List.nil_append] at a b; exact ⟨b, a.symm⟩
      · simp only [List.append_nil, List.nil_append] at a b; exact ⟨b.symm, a⟩
    · rw [List.concat_eq_append]
      rintro (⟨a, b⟩ | ⟨a, b⟩)
      · exfalso
        rcases h2 with h2 | ⟨q, d, h2, h3⟩
        · rw [h2] at a; simp at a
        · rw [h2, ← List.append_assoc] at a
          have := (List.append_inj' a rfl).2
          simp only [List.cons.injEq, and_true] at this
          subst this
          have hc := hT d (by rw [b]; simp)
          have : d = '_' := by
            simp only [identChar, alnum] at hc h3
            rw [h3] at hc; simpa using hc
          subst this
          apply hv
          rw [b]
          exact ⟨y0, by simp⟩
      · exfalso
        rcases h1 with h1 | ⟨q, d, h1, h3⟩
        · rw [h1] at a; simp at a
        · rw [h1, ← List.append_assoc] at a
          have := (List.append_inj' a rfl).2
          simp only [List.cons.injEq, and_true] at this
          subst this
          have hd : d ∈ "void".toList := by rw [b]; simp
          have key : ∀ c ∈ "void".toList, alnum c = true := by decide
          rw [key d hd] at h3; simp at h3
  rcases List.append_eq_append_iff.mp e' with ⟨a, e1, e2⟩ | ⟨a, e1, e2⟩
  · exact main a (.inl ⟨e1, e2⟩)
  · exact main a (.inr ⟨e1, e2⟩)

/-- the C type of the argument is not called `…_void`. -/
def ArgOk (a : Text) : Prop := ∀ s T, a = .str s → primexpCtype s = some T → ¬ "_void".toList <:+ T

/-- `(void)(` or `(`. -/
def par (v : Bool) : Text := if v then .str "(void)(".toList else .ch '('

theorem par_step {s : Bool} {p nm T lv x : List Char} {v : Bool} (hp : Edge alnum s p) (hT : ∀ c ∈ T, identChar c = true) (hl : Level lv)
    (h : if v = true then nm = "void_from_".toList else nm = T ++ "_from_".toList) :
    Step alnum s (p ++ (nm ++ (T ++ ('(' :: (lv ++ x))))) (p ++ ((par v).flat ++ x)) := by
  cases v
  · simp only [Bool.false_eq_true, if_false] at h; subst h
    simpa [par, Text.flat] using Step.same (x := x) hp hT hl
  · simp only [if_true] at h; subst h
    simpa [par, Text.flat] using Step.void (x := x) hp hT hl

theorem putArg_spec {s : Bool} {cur base : List Text} {a : Text} (hb : Bot s cur base) (ha : ArgOk a) :
    ∃ cur', putArg a (cur ++ base) = cur' ++ base ∧ Steps alnum s (fl cur ++ a.flat) (fl cur') ∧ Bot s cur' base := by
  have base_case : ∃ cur', a :: (cur ++ base) = cur' ++ base ∧ Steps alnum s (fl cur ++ a.flat) (fl cur') ∧ Bot s cur' base :=
    ⟨a :: cur, rfl, by rw [fl_cons]; exact .refl _, hb.cons a⟩
  cases a with
  | str str =>
    simp only [putArg]
    cases hT : primexpCtype str with
    | none => exact base_case
    | some T =>
      obtain ⟨⟨r, rfl⟩, hTi⟩ := (primexp_iff _ _).mp hT
      have hv := ha _ T rfl hT
      have hafter : after (T ++ '(' :: r) (T ++ ['(']) = some r := by
        have := after_self (T ++ ['(']) r
        simpa using this
      simp only [hafter]
      obtain ⟨lv, hl, hr⟩ := dropLevel_spec r
      have fin : ∀ (v : Bool) (nm : List Char) (cur1 : List Text), (if v = true then nm = "void_from_".toList else nm = T ++ "_from_".toList) →
          fl cur = fl cur1 ++ nm → Edge alnum s (fl cur1) → Bot s cur1 base →
          ∃ cur', Text.str (dropLevel r) :: (if v = true then Text.str "(void)(".toList else Text.ch '(') :: (cur1 ++ base) = cur' ++ base ∧
            Steps alnum s (fl cur ++ (Text.str (T ++ '(' :: r)).flat) (fl cur') ∧ Bot s cur' base := by
        intro v nm cur1 hnm e1 he hb1
        refine ⟨.str (dropLevel r) :: par v :: cur1, rfl, ?_, (hb1.cons _).cons _⟩
        have := par_step (x := dropLevel r) he hTi hl hnm
        rw [← hr] at this
        rw [e1, fl_cons, fl_cons, List.append_assoc, List.append_assoc]
        exact .step this (.refl _)
      cases hmt : matchName Text.char? (cur ++ base) (T ++ "_from_".toList).reverse with
      | some b1 =>
        obtain ⟨c1, rfl, e1, he1, hb1⟩ := match_buf hb hmt (ident_from hTi)
        simp only [Option.some_or]
        cases hmv : matchName Text.char? (cur ++ base) "void_from_".toList.reverse with
        | none => exact fin false _ c1 (by simp) e1 he1 hb1
        | some b2 =>
          obtain ⟨c2, rfl, e2, he2, hb2⟩ := match_buf hb hmv ident_void
          obtain ⟨rfl, _⟩ := both he1.sep he2.sep hTi hv (by rw [← e1, ← e2])
          exact fin true _ c1 (by simp) e1 he1 hb1
      | none =>
        simp only [Option.none_or]
        cases hmv : matchName Text.char? (cur ++ base) "void_from_".toList.reverse with
        | none => exact base_case
        | some b2 =>
          obtain ⟨c2, rfl, e2, he2, hb2⟩ := match_buf hb hmv ident_void
          exact fin true _ c2 (by simp) e2 he2 hb2
  | _ => exact base_case

theorem match_str {r b nm : List Char} (h : matchName some r.reverse nm.reverse = some b) : r = b.reverse ++ nm ∧ Sep b.reverse := by
  obtain ⟨⟨pre, h1, h2⟩, h3⟩ := (matchName_iff _ _ _ _).mp h
  have h4 : pre = nm.reverse := by
    have : List.map some pre = List.map some nm.reverse := h2
    exact (List.map_inj_right (by simp)).mp this
  subst h4
  refine ⟨?_, ?_⟩
  · have := congrArg List.reverse h1
    simpa using this
  · rcases h3 with rfl | ⟨a, r', c, rfl, h4, h5⟩
    · exact .inl rfl
    · simp only [Option.some.injEq] at h4
      subst h4
      exact .inr ⟨r'.reverse, a, by simp, h5⟩

theorem putReturn_spec {s : Bool} {cur : List Text} (base : List Text) {R : Text} {w : List Char} (he : Edge identChar s (fl cur))
    (hv : ∀ T, primexpCtype w = some T → ¬ "_void".toList <:+ T) :
    putReturn R w (cur ++ base) = (w, R :: (cur ++ base)) ∨ ∃ T lv w2 pre v, w = T ++ '(' :: (lv ++ w2) ∧ (∀ c ∈ T, identChar c = true) ∧ Level lv ∧
      putReturn R w (cur ++ base) = (w2, par v :: pre :: (cur ++ base)) ∧
      ∀ x, Step alnum s (fl cur ++ (R.flat ++ (T ++ '(' :: (lv ++ x)))) (fl (par v :: pre :: cur) ++ x) := by
  cases R with
  | str r =>
    simp only [putReturn]
    cases hT : primexpCtype w with
    | none => exact .inl rfl
    | some T =>
      obtain ⟨⟨x, rfl⟩, hTi⟩ := (primexp_iff _ _).mp hT
      have hv := hv T hT
      have hafter : after (T ++ '(' :: x) (T ++ ['(']) = some x := by
        have := after_self (T ++ ['(']) x
        simpa using this
      simp only [hafter]
      obtain ⟨lv, hl, hr⟩ := dropLevel_spec x
      have fin : ∀ (v : Bool) (nm b : List Char), (if v = true then nm = "void_from_".toList else nm = T ++ "_from_".toList) →
          r = b.reverse ++ nm → Sep b.reverse → ∃ T' lv w2 pre v', T ++ '(' :: x = T' ++ '(' :: (lv ++ w2) ∧ (∀ c ∈ T', identChar c = true) ∧ Level lv ∧
            (dropLevel x, (if v = true then Text.str "(void)(".toList else Text.ch '(') :: Text.lst (b.reverse.map Text.ch) :: (cur ++ base)) =
              (w2, par v' :: pre :: (cur ++ base)) ∧
            ∀ x, Step alnum s (fl cur ++ ((Text.str r).flat ++ (T' ++ '(' :: (lv ++ x)))) (fl (par v' :: pre :: cur) ++ x) := by
        intro v nm b hnm hr' hs
        refine ⟨T, lv, dropLevel x, .lst (b.reverse.map Text.ch), v, by rw [← hr], hTi, hl, rfl, ?_⟩
        intro y
        have hedge : Edge alnum s (fl cur ++ b.reverse) := by
          rcases hs with hs | ⟨q, c, hs, hc⟩
          · rw [hs, List.append_nil]; exact he.weaken
          · exact .inr ⟨fl cur ++ q, c, by rw [hs]; simp, hc⟩
        have := par_step (x := y) hedge hTi hl hnm
        rw [fl_cons, fl_cons]
        simp only [Text.flat, flats_ch]
        rw [hr']
        simpa only [List.append_assoc] using this
      cases hmt : matchName some r.reverse (T ++ "_from_".toList).reverse with
      | some b1 =>
        obtain ⟨e1, s1⟩ := match_str hmt
        simp only [Option.some_or]
        cases hmv : matchName some r.reverse "void_from_".toList.reverse with
        | none => exact .inr (fin false _ b1 (by simp) e1 s1)
        | some b2 =>
          obtain ⟨e2, s2⟩ := match_str hmv
          obtain ⟨rfl, _⟩ := both s1 s2 hTi hv (by rw [← e1, ← e2])
          exact .inr (fin true _ b1 (by simp) e1 s1)
      | none =>
        simp only [Option.none_or]
        cases hmv : matchName some r.reverse "void_from_".toList.reverse with
        | none => exact .inl rfl
        | some b2 =>
          obtain ⟨e2, s2⟩ := match_str hmv
          exact .inr (fin true _ b2 (by simp) e2 s2)
  | _ => exact .inl rfl

end Verif.Fmt
