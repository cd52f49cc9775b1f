import Verif.Reader.RoundTrip
/-
Property C51: dots in lists.
-/
namespace Verif.Reader

/-- Specification: from `i` on the text consists of the data `ds` (and atmosphere), up to `j`. -/
inductive Items : List SX → List Char → List Char → Prop
  | nil (i : List Char) : Items [] i i
  | atm (ds : List SX) (i i' j : List Char) : (∃ n, reader n [] [] i = .ok atmD i') → Items ds i' j → Items ds i j
  | cons (d : SX) (ds : List SX) (i i' j : List Char) : (∃ n, reader n [] [] i = .ok d i') → d.normal → Items ds i' j →
      Items (d :: ds) i j

/-- Specification: the list datum with the elements `ds` and the given tail. -/
def improper : List SX → SX → SX
  | [], t => t
  | d :: ds, t => datum cs!"pair" [d, improper ds t]

/-- the reader finally returns the result, for every sufficient fuel -/
def Ends (i : List Char) (x : Res) : Prop := ∃ n, ∀ m ≥ n, reader m [] [] i = x

/-- Full statement of C51: a parenthesised text consisting of the data `ds`, a dot, the data `es` and possibly more
dots and data is a list with a tail only if there is one dot, something before it and exactly one datum
after it; otherwise it is an error. -/
def C51Full : Prop :=
  ∀ ds es fs i j k l rest, Items ds i ('.' :: j) → inputDelimited j = true → Items es j k →
    (k = ')' :: rest →
      Ends ('(' :: i) (if es.length = 1 ∧ ds ≠ [] then .ok (improper ds (es.headD .nil)) rest else .err)) ∧
    (k = '.' :: l → inputDelimited l = true → Items fs l (')' :: rest) → Ends ('(' :: i) .err)

theorem toTerm_items {ds : List SX} {i j : List Char} (h : Items ds i j) : ∀ (lim : Option Int) (x : Res), x ≠ .fuel →
    (∀ lim', ds ≠ [] → lim' = lim.map (· - (ds.length : Int)) → (∃ n, toTerm n [] ')' true true true lim' j = x) →
      match x with
      | .ok d k => lim = none → ∃ n, toTerm n [] ')' true true true lim i = .ok (improper ds d) k
      | _ => ∃ n, toTerm n [] ')' true true true lim i = x) ∧
    (ds = [] → (∃ n, toTerm n [] ')' true true true lim j = x) → ∃ n, toTerm n [] ')' true true true lim i = x) := by
  induction h with
  | nil i => intro lim x _; exact ⟨fun _ h => absurd rfl h, fun _ h => h⟩
  | atm ds i i' j hr _ ih =>
    intro lim x hx
    obtain ⟨m, hm⟩ := hr
    have step : ∀ y : Res, y ≠ .fuel → (∃ n, toTerm n [] ')' true true true lim i' = y) →
        ∃ n, toTerm n [] ')' true true true lim i = y := by
      rintro y hy ⟨n, hn⟩
      refine ⟨max m n + 1, ?_⟩
      rw [toTerm, reader_stable hm (by simp) (Nat.le_max_left m n)]
      simp only [Res.bind]
      rw [if_neg (by simp [SX.type]), if_pos (by simp [SX.type])]
      exact toTerm_stable hn hy (Nat.le_max_right m n)
    constructor
    · intro lim' hne hl hj
      have := (ih lim x hx).1 lim' hne hl hj
      cases x with
      | ok d k => exact fun hl => step _ (by simp) (this hl)
      | err => exact step _ (by simp) this
      | fuel => exact absurd rfl hx
    · intro he hj
      exact step x hx ((ih lim x hx).2 he hj)
  | cons d ds i i' j hr hd _ ih =>
    intro lim x hx
    obtain ⟨m, hm⟩ := hr
    refine ⟨?_, fun h => by cases h⟩
    intro lim' _ hl hj
    have hlim : lim' = (lim.map (· - 1)).map (· - (ds.length : Int)) := by
      rw [hl]; cases lim with
      | none => rfl
      | some v => simp; omega
    have hi' : match x with
      | .ok d k => lim = none → ∃ n, toTerm n [] ')' true true true (lim.map (· - 1)) i' = .ok (improper ds d) k
      | _ => ∃ n, toTerm n [] ')' true true true (lim.map (· - 1)) i' = x := by
      cases ds with
      | nil =>
        have : lim' = lim.map (· - 1) := by rw [hlim]; cases lim <;> simp
        rw [this] at hj
        have := (ih (lim.map (· - 1)) x hx).2 rfl hj
        cases x with
        | ok d k => exact fun _ => this
        | err => exact this
        | fuel => exact absurd rfl hx
      | cons e es =>
        have := (ih (lim.map (· - 1)) x hx).1 lim' (by simp) hlim hj
        cases x with
        | ok d k => exact fun h => this (by rw [h]; rfl)
        | err => exact this
        | fuel => exact absurd rfl hx
    cases x with
    | fuel => exact absurd rfl hx
    | err =>
      obtain ⟨n, hn⟩ := hi'
      refine ⟨max m n + 1, ?_⟩
      rw [toTerm, reader_stable hm (by simp) (Nat.le_max_left m n)]
      simp only [Res.bind]
      rw [if_neg hd.1, if_neg hd.2.1, if_neg hd.2.2.1, if_neg (fun h => hd.2.2.2 h.1), if_neg (fun h => hd.2.2.2 h.1),
        if_neg hd.2.2.2, toTerm_stable hn (by simp) (Nat.le_max_right m n)]
    | ok d1 k =>
      intro hnone
      obtain ⟨n, hn⟩ := hi' hnone
      subst hnone
      have := Term.elem (lim := none) hm hd ⟨n, hn⟩
      simpa [improper, Term] using this

theorem toTerm_close (lim : Option Int) (rest : List Char) (n : Nat) :
    toTerm (n+2) [] ')' true true true lim (')' :: rest) =
      if lim = none ∨ lim = some 0 then .ok (datum cs!"null" []) rest else .err := by
  rw [toTerm, reader_close (.inl rfl)]
  simp only [Res.bind]
  rw [if_neg (by simp [SX.type]), if_neg (by simp [SX.type]), if_neg (by simp [SX.type]), if_neg (by simp [SX.nth, SX.list]),
    if_pos (by simp [SX.nth, SX.list, SX.type])]
  rfl

theorem ends_paren {i : List Char} {x : Res} (hx : x ≠ .fuel) (h : ∃ n, toTerm n [] ')' true true true none i = x) :
    Ends ('(' :: i) x := by
  obtain ⟨n, hn⟩ := h
  refine ⟨n+1, fun m hm => ?_⟩
  obtain ⟨k, rfl⟩ : ∃ k, m = k + 1 := ⟨m - 1, by omega⟩
  rw [reader_opn_paren]
  exact toTerm_stable hn hx (by omega)

/-- A parenthesised sequence of data without a dot is the proper list of them. -/
theorem c51_proper (ds : List SX) (i rest : List Char) (h : Items ds i (')' :: rest)) :
    Ends ('(' :: i) (.ok (improper ds (datum cs!"null" [])) rest) := by
  apply ends_paren (by simp)
  have hc : ∃ n, toTerm n [] ')' true true true none (')' :: rest) = .ok (datum cs!"null" []) rest :=
    ⟨2, by rw [toTerm_close, if_pos (.inl rfl)]⟩
  by_cases hd : ds = []
  · have := (toTerm_items h none _ (by simp)).2 hd hc
    subst hd
    exact this
  · exact (toTerm_items h none (.ok (datum cs!"null" []) rest) (by simp)).1 none hd rfl hc rfl

/-- With one dot, the text is a list exactly if a single datum follows the dot; that datum becomes the tail.
Missing from `C51Full`: a dot at the very beginning and more than one dot, which the reader accepts. -/
theorem c51_partial (ds es : List SX) (i j rest : List Char) (h : Items ds i ('.' :: j)) (hj : inputDelimited j = true)
    (hes : Items es j (')' :: rest)) :
    Ends ('(' :: i) (if es.length = 1 then .ok (improper ds (es.headD .nil)) rest else .err) := by
  -- after the dot
  have dot : ∀ x : Res, x ≠ .fuel → (∃ n, toTerm n [] ')' true true true (some 1) j = x) →
      ∃ n, toTerm n [] ')' true true true none ('.' :: j) = x := by
    rintro x hx ⟨m, hm⟩
    refine ⟨m + 2, ?_⟩
    rw [toTerm, reader_lexical (lexical_dot j hj)]
    simp only [Res.ofOption, Res.bind]
    rw [if_neg (by simp [SX.type]), if_neg (by simp [SX.type]), if_neg (by simp [SX.type]),
      if_pos (by simp [SX.nth, SX.list, SX.type])]
    exact toTerm_stable hm hx (by omega)
  -- before the dot
  have front : ∀ x : Res, x ≠ .fuel → (∃ n, toTerm n [] ')' true true true none ('.' :: j) = x) →
      Ends ('(' :: i) (match x with | .ok d k => .ok (improper ds d) k | y => y) := by
    intro x hx hh
    by_cases hd : ds = []
    · have := (toTerm_items h none x hx).2 hd hh
      subst hd
      cases x with
      | ok d k => exact ends_paren (by simp) this
      | err => exact ends_paren (by simp) this
      | fuel => exact absurd rfl hx
    · have := (toTerm_items h none x hx).1 none hd rfl hh
      cases x with
      | ok d k => exact ends_paren (by simp) (this rfl)
      | err => exact ends_paren (by simp) this
      | fuel => exact absurd rfl hx
  by_cases h1 : es.length = 1
  · rw [if_pos h1]
    obtain ⟨e, rfl⟩ := List.length_eq_one_iff.1 h1
    -- walk to the datum
    have walk : ∀ (l : List SX) (a b : List Char), Items l a b → l = [e] → b = ')' :: rest →
        ∃ n, toTerm n [] ')' true true true (some 1) a = .ok e rest := by
      intro l a b hl
      induction hl with
      | nil i => intro h; cases h
      | atm ds i i' j hr _ ih =>
        intro h1 h2
        obtain ⟨n, hn⟩ := ih h1 h2
        obtain ⟨m, hm⟩ := hr
        refine ⟨max m n + 1, ?_⟩
        rw [toTerm, reader_stable hm (by simp) (Nat.le_max_left m n)]
        simp only [Res.bind]
        rw [if_neg (by simp [SX.type]), if_pos (by simp [SX.type])]
        exact toTerm_stable hn (by simp) (Nat.le_max_right m n)
      | cons d ds i i' j hr hd hi' ih =>
        intro h1 h2
        cases h1
        subst h2
        obtain ⟨m, hm⟩ := hr
        have := (toTerm_items hi' (some 0) (.ok (datum cs!"null" []) rest) (by simp)).2 rfl
          ⟨2, by rw [toTerm_close, if_pos (.inr rfl)]⟩
        have := Term.elem (lim := some 1) hm hd this
        simpa [Term] using this
    exact front (.ok e rest) (by simp) (dot _ (by simp) (walk _ _ _ hes rfl rfl))
  · rw [if_neg h1]
    refine front .err (by simp) (dot _ (by simp) ?_)
    have hc : ∃ n, toTerm n [] ')' true true true ((some 1 : Option Int).map (· - (es.length : Int))) (')' :: rest) = .err := by
      refine ⟨2, ?_⟩
      rw [toTerm_close, if_neg]
      simp
      omega
    by_cases he : es = []
    · subst he
      refine (toTerm_items hes (some 1) .err (by simp)).2 rfl ?_
      simpa using hc
    · exact (toTerm_items hes (some 1) .err (by simp)).1 _ he rfl hc

/-- `(a . b . c)` is read as `(a . b)` and `( . a)` as `a`. -/
theorem c51_counterexample : ¬ C51Full ∧
    Reads cs!"(a . b . c)" (.pair (.sym cs!"a") (.sym cs!"b")) [] ∧ Reads cs!"( . a)" (.sym cs!"a") [] := by
  have s1 : ∀ c : Char, charInitial c = true → SymName [c] := fun c hc =>
    .inr (.inr (.inr (.inl ⟨c, [], rfl, hc, by simp⟩)))
  have hs : ∀ (c : Char) (rest : List Char), charInitial c = true → inputDelimited rest = true →
      reader 1 [] [] (c :: rest) = .ok (charsDatum cs!"symbol" [c.toNat]) rest := by
    intro c rest hc hr
    exact reader_lexical (lexical_symbol (s1 c hc) hr)
  have hn : ∀ c : Char, (charsDatum cs!"symbol" [c.toNat]).normal := fun c =>
    normal_type (chars_type _ _) (by decide)
  have t1 : Term true true none cs!"a . b . c)" (datum cs!"pair"
      [charsDatum cs!"symbol" ['a'.toNat], charsDatum cs!"symbol" ['b'.toNat]]) [] := by
    refine Term.elem (lim := none) (hs 'a' cs!" . b . c)" rfl rfl) (hn 'a') (Term.space (Term.dot rfl (Term.space ?_)))
    have c1 : Term true true (some 1) cs!"c)" (charsDatum cs!"symbol" ['c'.toNat]) [] := by
      have := Term.elem (lim := some 1) (hs 'c' cs!")" rfl rfl) (hn 'c') (Term.close (a := true) (b := true) (.inr rfl) [])
      simpa using this
    have := Term.elem (lim := some 1) (hs 'b' cs!" . c)" rfl rfl) (hn 'b') (Term.space (Term.dot rfl (Term.space c1)))
    simpa using this
  have t2 : Term true true none cs!" . a)" (charsDatum cs!"symbol" ['a'.toNat]) [] := by
    refine Term.space (Term.dot rfl (Term.space ?_))
    have := Term.elem (lim := some 1) (hs 'a' cs!")" rfl rfl) (hn 'a') (Term.close (a := true) (b := true) (.inr rfl) [])
    simpa using this
  have sv : ∀ c : Char, charInitial c = true → sexp (charsDatum cs!"symbol" [c.toNat]) = .sym [c] := by
    intro c hc
    exact (sexp_chars [c] (symName_byte (s1 c hc))).2
  have top : ∀ (i : List Char) (d : SX), Term true true none i d [] → d.normal → Reads ('(' :: i) (sexp d) [] := by
    rintro i d ⟨n, hn⟩ hd
    refine ⟨d, n+2, fun m hm => ?_, rfl⟩
    obtain ⟨k, rfl⟩ : ∃ k, m = k + 2 := ⟨m - 2, by omega⟩
    rw [readTop, reader_opn_paren, toTerm_stable hn (by simp) (show n ≤ k by omega)]
    simp only
    rw [if_neg hd.2.1, if_neg hd.2.2.1, if_neg hd.2.2.2]
  refine ⟨?_, ?_, ?_⟩
  · intro h
    have items : Items [charsDatum cs!"symbol" ['a'.toNat]] cs!"a . b . c)" cs!". b . c)" := by
      refine .cons _ _ _ _ _ ⟨1, hs 'a' cs!" . b . c)" rfl rfl⟩ (hn 'a') ?_
      exact .atm _ _ _ _ ⟨1, by rw [reader_lexical (x := some (atmD, cs!". b . c)")) (by decide +kernel)]; rfl⟩ (.nil _)
    have items2 : Items [charsDatum cs!"symbol" ['b'.toNat]] cs!" b . c)" cs!". c)" := by
      refine .atm _ _ _ _ ⟨1, by rw [reader_lexical (x := some (atmD, cs!"b . c)")) (by decide +kernel)]; rfl⟩ ?_
      refine .cons _ _ _ _ _ ⟨1, hs 'b' cs!" . c)" rfl rfl⟩ (hn 'b') ?_
      exact .atm _ _ _ _ ⟨1, by rw [reader_lexical (x := some (atmD, cs!". c)")) (by decide +kernel)]; rfl⟩ (.nil _)
    have items3 : Items [charsDatum cs!"symbol" ['c'.toNat]] cs!" c)" cs!")" := by
      refine .atm _ _ _ _ ⟨1, by rw [reader_lexical (x := some (atmD, cs!"c)")) (by decide +kernel)]; rfl⟩ ?_
      exact .cons _ _ _ _ _ ⟨1, hs 'c' cs!")" rfl rfl⟩ (hn 'c') (.nil _)
    obtain ⟨n, hn'⟩ := (h _ _ _ _ _ _ _ [] items rfl items2).2 rfl rfl items3
    obtain ⟨m, hm⟩ := t1
    have e1 := hn' (max n (m+1)) (Nat.le_max_left _ _)
    have e2 := (reader_opn_paren m cs!"a . b . c)").trans hm
    rw [reader_stable e2 (by simp) (Nat.le_max_right _ _)] at e1
    cases e1
  · have := top _ _ t1 (normal_type rfl (by decide))
    rwa [sexp_pair, sv 'a' rfl, sv 'b' rfl] at this
  · have := top _ _ t2 (hn 'a')
    rwa [sv 'a' rfl] at this

end Verif.Reader
