import Verif.Fmt.Main
/-
Conversions that are left out, and the C types of operands.
-/
namespace Verif.Fmt
variable {L R : Text} {total : Nat}

/-- literal characters as parts. -/
def lits (cs : List Char) : List Simple := cs.map .lit

theorem unparse_append (a b : List Item) : unparse (a ++ b) = unparse a ++ unparse b := by
  induction a with
  | nil => rfl
  | cons i a ih => cases i <;> simp [unparse, ih]

theorem unparse_lits (cs : List Char) : unparse ((lits cs).map .one) = cs := by
  induction cs with
  | nil => rfl
  | cons c cs ih => simpa [lits, unparse, Simple.text] using ih

theorem wf_last {a r : List Item} {c : Char} {q : Simple} : ∀ {e : Bool} {p : Option Simple}, Wf e p (a ++ .one (.lit c) :: r) → lastPart p a = some q → follow q c := by
  induction a with
  | nil => intro e p h hq; exact h.1 q c hq rfl
  | cons i a ih =>
    intro e p h hq
    cases i with
    | one s => exact ih h.2.2.2 hq
    | loop b => exact ih h.2 hq

/-- a prefix of a template is a template (the type after `$return` is read from a longer text). -/
theorem wf_left' {a b : List Item} : ∀ {e : Bool} {p : Option Simple}, Wf e p (a ++ b) → Wf e p a := by
  induction a with
  | nil => intros; trivial
  | cons i a ih =>
    intro e p h
    cases i with
    | one s =>
      refine ⟨h.1, h.2.1, fun ws hs => ?_, ih h.2.2.2⟩
      obtain ⟨h1, h2⟩ := h.2.2.1 ws hs
      refine ⟨h1, fun T hT => h2 T ?_⟩
      obtain ⟨⟨r, e1⟩, hTi⟩ := (primexp_iff _ _).mp hT
      refine (primexp_iff _ _).mpr ⟨⟨r ++ unparse b, ?_⟩, hTi⟩
      show unparse (a ++ b) = _
      rw [unparse_append, e1]; simp
    | loop b => exact ⟨h.1, ih h.2⟩

theorem wf_right {a b : List Item} {s0 : Simple} : ∀ {e : Bool} {p : Option Simple}, Wf e p (a ++ .one s0 :: b) → Wf s0.edge (some s0) b := by
  induction a with
  | nil => intro e p h; exact h.2.2.2
  | cons i a ih => intro e p h; cases i with
    | one s => exact ih h.2.2.2
    | loop b => exact ih h.2

theorem render_args' : ∀ (items : List Item) (as as' : List Text) (t : List Char), render L R total items as = some (t, as') → ∀ a ∈ as', a ∈ as := by
  have hrep : ∀ b n (as as' : List Text) (t : List Char), repeats L R total b n as = some (t, as') → ∀ a ∈ as', a ∈ as := by
    intro b n
    induction n with
    | zero => intro as as' t h; cases as <;> simp [repeats] at h; simp [h.2]
    | succ n ih =>
      intro as as' t h
      cases as with
      | nil => simp [repeats] at h; simp [h.2]
      | cons a as =>
        simp only [repeats, Option.bind_eq_bind] at h
        obtain ⟨⟨t1, as1⟩, h1, h⟩ := Option.bind_eq_some_iff.mp h
        obtain ⟨⟨t2, as2⟩, h2, h⟩ := Option.bind_eq_some_iff.mp h
        simp only [Option.some.injEq, Prod.mk.injEq] at h
        obtain ⟨_, rfl⟩ := h
        exact fun a ha => (renders_args _ _ _ _ h1).2 a (ih _ _ _ h2 a ha)
  intro items
  induction items with
  | nil => intro as as' t h; simp only [render, Option.some.injEq, Prod.mk.injEq] at h; obtain ⟨_, rfl⟩ := h; exact fun a h => h
  | cons i l ih =>
    intro as as' t h
    cases i with
    | one s =>
      simp only [render, Option.bind_eq_bind] at h
      obtain ⟨⟨t1, as1⟩, h1, h⟩ := Option.bind_eq_some_iff.mp h
      obtain ⟨⟨t2, as2⟩, h2, h⟩ := Option.bind_eq_some_iff.mp h
      simp only [Option.some.injEq, Prod.mk.injEq] at h
      obtain ⟨_, rfl⟩ := h
      exact fun a ha => (render_args _ _ _ _ h1).2 a (ih _ _ _ h2 a ha)
    | loop b =>
      simp only [render, Option.bind_eq_bind] at h
      obtain ⟨⟨t1, as1⟩, h1, h⟩ := Option.bind_eq_some_iff.mp h
      obtain ⟨⟨t2, as2⟩, h2, h⟩ := Option.bind_eq_some_iff.mp h
      simp only [Option.some.injEq, Prod.mk.injEq] at h
      obtain ⟨_, rfl⟩ := h
      exact fun a ha => hrep _ _ _ _ _ h1 a (ih _ _ _ h2 a ha)

theorem ends_lits {w : List Char} {args : List Text} {res : Res} : ∀ (cs : List Char) (buf : List Text), (∀ c ∈ cs, c ≠ '$') →
    Ends L R total w args (cs.reverse.map Text.ch ++ buf) res → Ends L R total (cs ++ w) args buf res := by
  intro cs
  induction cs with
  | nil => intro buf _ h; simpa using h
  | cons c cs ih =>
    intro buf hc h
    refine Ends.of (fun n => loop_lit n c _ _ _ (hc c List.mem_cons_self)) (ih _ (fun d hd => hc d (List.mem_cons_of_mem _ hd)) ?_)
    simpa using h

theorem format_of_ends {fmt : List Char} {args text : List Text} (h : Ends L R args.length fmt args [] ⟨[], [], text⟩) :
    ∃ n0, ∀ n, n0 ≤ n → format n L R fmt args = some (flats text) := by
  obtain ⟨n0, h⟩ := h
  exact ⟨n0, fun n hn => by simp [format, h n hn]⟩

/-- the longest level at the start of a text is `lv`. -/
def IsLevel (lv x : List Char) : Prop := Level lv ∧ (lv = [] → ∀ lv' y, lv' ≠ [] → Level lv' → x ≠ lv' ++ y)

theorem dropWhile_level {ds y : List Char} (h : ∀ c ∈ ds, numeric c = true) :
    (ds ++ ',' :: y).dropWhile (fun c => decide (c ∈ "01234567890".toList)) = ',' :: y := by
  have key : ∀ c, numeric c = true → c ∈ "01234567890".toList := by
    intro c hc
    simp only [numeric, Bool.and_eq_true, decide_eq_true_eq] at hc
    have e1 : ('0' ≤ c) ↔ 48 ≤ c.toNat := Iff.rfl
    have e2 : (c ≤ '9') ↔ c.toNat ≤ 57 := Iff.rfl
    rw [e1, e2] at hc
    have e3 : c = Char.ofNat c.toNat := (Char.ofNat_toNat c).symm
    generalize c.toNat = n at *
    have : ∀ n, 48 ≤ n → n ≤ 57 → Char.ofNat n ∈ "01234567890".toList := by
      intro n h1 h2
      have : ∀ m < 10, Char.ofNat (48 + m) ∈ "01234567890".toList := by decide
      have := this (n - 48) (by omega)
      rwa [show 48 + (n - 48) = n by omega] at this
    rw [e3]; exact this n hc.1 hc.2
  rw [List.dropWhile_append_of_pos (by intro c hc; simpa using key c (h c hc))]
  rw [List.dropWhile_cons_of_neg (by decide)]

theorem dropLevel_eq {lv x y : List Char} (h : IsLevel lv x) (e : x = lv ++ y) : dropLevel x = y := by
  obtain ⟨hl, hn⟩ := h
  rcases hl with rfl | ⟨ds, hds, rfl⟩
  · obtain ⟨lv', hl', e'⟩ := dropLevel_spec x
    by_cases hlv : lv' = []
    · rw [hlv] at e'; simp only [List.nil_append] at e e'; rw [← e', e]
    · exact absurd e' (hn rfl lv' _ hlv hl')
  · subst e
    unfold dropLevel afterSpan afterPrefix
    rw [(Str.c43_span _ _).2]
    simp only [List.append_assoc, List.cons_append, List.nil_append, Option.getD_some]
    rw [dropWhile_level hds]
    obtain ⟨_, _, h3, _⟩ := Str.c43_affixes (',' :: ' ' :: y) [',', ' ']
    rw [(h3 y).mpr rfl]
    rfl

/-- the text `T(` or, when the value is not used, `(void)(`. -/
def opening (U : List Char) : List Char := if U = "void".toList then "(void)(".toList else ['(']

/-- what `$arg` writes after `U_from_`. -/
theorem putArg_direct {T U x y lv : List Char} {cur : List Text} (hT : ∀ c ∈ T, identChar c = true) (hv : ¬ "_void".toList <:+ T)
    (hU : U = T ∨ U = "void".toList) (hc : cur = [] ∨ ∃ c r, cur = .ch c :: r ∧ identChar c = false) (hl : IsLevel lv x) (e : x = lv ++ y) :
    ∃ o, putArg (.str (T ++ '(' :: x)) ((U ++ "_from_".toList).reverse.map Text.ch ++ cur) = .str y :: o :: cur ∧ o.flat = opening U := by
  have hpT : primexpCtype (T ++ '(' :: x) = some T := (primexp_iff _ _).mpr ⟨⟨x, rfl⟩, hT⟩
  have hafter : after (T ++ '(' :: x) (T ++ ['(']) = some x := by
    have := after_self (T ++ ['(']) x
    simpa using this
  have hend : cur = [] ∨ ∃ a r' c, cur = a :: r' ∧ Text.char? a = some c ∧ alnum c = false := by
    rcases hc with hc | ⟨c, r, hc, h⟩
    · exact .inl hc
    · exact .inr ⟨.ch c, r, c, hc, rfl, alnum_ident h⟩
  have hmap : ∀ cs : List Char, List.map Text.char? (List.map Text.ch cs) = List.map some cs := by
    intro cs; simp [Text.char?]
  have hmatch : matchName Text.char? ((U ++ "_from_".toList).reverse.map Text.ch ++ cur) (U ++ "_from_".toList).reverse = some cur :=
    (matchName_iff _ _ _ _).mpr ⟨⟨_, rfl, hmap _⟩, hend⟩
  have hvf : "void_from_".toList = "void".toList ++ "_from_".toList := by decide
  simp only [putArg, hpT, hafter]
  by_cases hvoid : U = "void".toList
  · subst hvoid
    rw [hvf, hmatch]
    have htb : ∀ b, matchName Text.char? (("void".toList ++ "_from_".toList).reverse.map Text.ch ++ cur) (T ++ "_from_".toList).reverse = some b → b = cur := by
      intro b hb
      by_cases hTv : T = "void".toList
      · rw [hTv, hmatch] at hb; simpa using hb.symm
      · exfalso
        obtain ⟨⟨pre, h1, h2⟩, h3⟩ := (matchName_iff _ _ _ _).mp hb
        have hpre := char_map h2
        subst hpre
        have : ("void".toList ++ "_from_".toList).reverse.map Text.ch ++ cur = "_from_".toList.reverse.map Text.ch ++ ("void".toList.reverse.map Text.ch ++ cur) := by simp
        rw [this] at h1
        have : (T ++ "_from_".toList).reverse.map Text.ch ++ b = "_from_".toList.reverse.map Text.ch ++ (T.reverse.map Text.ch ++ b) := by simp
        rw [this] at h1
        have h1 := List.append_cancel_left h1
        have sepb : Sep (fl b) := by
          rcases h3 with rfl | ⟨a, r', c, rfl, h4, h5⟩
          · exact .inl rfl
          · cases a <;> simp [Text.char?] at h4
            subst h4
            exact .inr ⟨fl r', _, by rw [fl_cons]; rfl, h5⟩
        have sepc : Sep (fl cur) := by
          rcases hend with rfl | ⟨a, r', c, rfl, h4, h5⟩
          · exact .inl rfl
          · cases a <;> simp [Text.char?] at h4
            subst h4
            exact .inr ⟨fl r', _, by rw [fl_cons]; rfl, h5⟩
        have h6 : fl cur ++ "void".toList = fl b ++ T := by
          have := congrArg fl h1
          rwa [fl_append, fl_append, fl_ch, fl_ch] at this
        have := both sepb sepc hT hv (by rw [hvf, ← List.append_assoc, ← List.append_assoc, h6])
        exact hTv this.1
    cases hm : matchName Text.char? (("void".toList ++ "_from_".toList).reverse.map Text.ch ++ cur) (T ++ "_from_".toList).reverse with
    | none => exact ⟨.str "(void)(".toList, by simp [dropLevel_eq hl e], by simp [opening, Text.flat]⟩
    | some b => rw [htb b hm]; exact ⟨.str "(void)(".toList, by simp [dropLevel_eq hl e], by simp [opening, Text.flat]⟩
  · have hUT : U = T := by rcases hU with h | h; exact h; exact absurd h hvoid
    subst hUT
    rw [hmatch]
    cases hmv : matchName Text.char? ((U ++ "_from_".toList).reverse.map Text.ch ++ cur) "void_from_".toList.reverse with
    | none => exact ⟨.ch '(', by simp [dropLevel_eq hl e], by rw [opening, if_neg hvoid]; rfl⟩
    | some b =>
      exfalso
      obtain ⟨⟨pre, h1, h2⟩, h3⟩ := (matchName_iff _ _ _ _).mp hmv
      have hpre := char_map h2
      subst hpre
      have sepb : Sep (fl b) := by
        rcases h3 with rfl | ⟨a, r', c, rfl, h4, h5⟩
        · exact .inl rfl
        · cases a <;> simp [Text.char?] at h4
          subst h4
          exact .inr ⟨fl r', _, by rw [fl_cons]; rfl, h5⟩
      have sepc : Sep (fl cur) := by
        rcases hend with rfl | ⟨a, r', c, rfl, h4, h5⟩
        · exact .inl rfl
        · cases a <;> simp [Text.char?] at h4
          subst h4
          exact .inr ⟨fl r', _, by rw [fl_cons]; rfl, h5⟩
      have h6 := congrArg fl h1
      rw [fl_append, fl_append, fl_ch, fl_ch] at h6
      exact hvoid (both sepc sepb hT hv h6).1

/-- A conversion before `$arg` is left out. -/
theorem direct_arg {pre : List Item} {post : List Item} {T U x y lv t1 t2 : List Char} {args args2 : List Text}
    (hpre : pre = [] ∨ ∃ pre0 c, pre = pre0 ++ [.one (.lit c)] ∧ identChar c = false) (hnr : NoRet pre)
    (hT : ∀ c ∈ T, identChar c = true) (hU : U = T ∨ U = "void".toList)
    (hwf : Wf true none (pre ++ ((lits (U ++ "_from_".toList)).map .one ++ .one .arg :: post)))
    (hok : ∀ a ∈ args, ArgOk a)
    (h1 : render L R args.length pre args = some (t1, .str (T ++ '(' :: x) :: args2))
    (h2 : render L R args.length post args2 = some (t2, []))
    (hl : IsLevel lv x) (e : x = lv ++ y) :
    ∃ o1 o2 n0, Steps alnum true t1 o1 ∧ Steps alnum false t2 o2 ∧
      ∀ n, n0 ≤ n → format n L R (unparse (pre ++ ((lits (U ++ "_from_".toList)).map .one ++ .one .arg :: post))) args =
        some (o1 ++ (opening U ++ (y ++ o2))) := by
  have hUi : ∀ c ∈ U ++ "_from_".toList, identChar c = true := by
    rcases hU with rfl | rfl
    · exact ident_from hT
    · decide
  have harg : ArgOk (.str (T ++ '(' :: x)) := hok _ (render_args' _ _ _ _ h1 _ List.mem_cons_self)
  have hv : ¬ "_void".toList <:+ T := harg _ T rfl ((primexp_iff _ _).mpr ⟨⟨x, rfl⟩, hT⟩)
  have hpost : Wf false (some .arg) post := by
    have : Wf true none ((pre ++ (lits (U ++ "_from_".toList)).map .one) ++ .one .arg :: post) := by simpa using hwf
    exact wf_right this
  have hfol := wf_follow hpost (.inl (.inl rfl) : Nx _ _ [])
  rw [List.append_nil] at hfol
  set w := Simple.arg.text ++ unparse post with hw
  -- the text before
  obtain ⟨cur1, g1, g2, g3⟩ : ∃ cur1, (∀ res, Ends L R args.length (U ++ ("_from_".toList ++ w)) (.str (T ++ '(' :: x) :: args2) cur1 res →
      Ends L R args.length (unparse pre ++ (U ++ ("_from_".toList ++ w))) args [] res) ∧ Steps alnum true t1 (fl cur1) ∧
      (cur1 = [] ∨ ∃ c r, cur1 = .ch c :: r ∧ identChar c = false) := by
    rcases hpre with rfl | ⟨pre0, c, rfl, hc⟩
    · simp only [render, Option.some.injEq, Prod.mk.injEq] at h1
      obtain ⟨rfl, rfl⟩ := h1
      exact ⟨[], fun res h => by simpa [unparse] using h, .refl _, .inl rfl⟩
    · have hw0 := wf_left' (show Wf true none (pre0 ++ (.one (.lit c) :: ((lits (U ++ "_from_".toList)).map .one ++ .one .arg :: post))) by simpa using hwf)
      have hrr : ∃ t0, render L R args.length pre0 args = some (t0, .str (T ++ '(' :: x) :: args2) ∧ t1 = t0 ++ [c] := by
        have : ∀ (l : List Item) (as as' : List Text) (t : List Char), render L R args.length (l ++ [.one (.lit c)]) as = some (t, as') →
            ∃ t0, render L R args.length l as = some (t0, as') ∧ t = t0 ++ [c] := by
          intro l
          induction l with
          | nil =>
            intro as as' t h
            simp only [List.nil_append, render, Simple.render, Option.bind_eq_bind, Option.bind_some, Option.some.injEq, Prod.mk.injEq] at h
            exact ⟨[], by simp [render, h.2], by simp [← h.1]⟩
          | cons i l ih =>
            intro as as' t h
            cases i with
            | one s =>
              simp only [List.cons_append, render, Option.bind_eq_bind] at h
              obtain ⟨⟨t1, as1⟩, h1, h⟩ := Option.bind_eq_some_iff.mp h
              obtain ⟨⟨t2, as2⟩, h2, h⟩ := Option.bind_eq_some_iff.mp h
              simp only [Option.some.injEq, Prod.mk.injEq] at h
              obtain ⟨rfl, rfl⟩ := h
              obtain ⟨t0, k1, rfl⟩ := ih _ _ _ h2
              exact ⟨t1 ++ t0, by simp [render, h1, k1], by simp⟩
            | loop b =>
              simp only [List.cons_append, render, Option.bind_eq_bind] at h
              obtain ⟨⟨t1, as1⟩, h1, h⟩ := Option.bind_eq_some_iff.mp h
              obtain ⟨⟨t2, as2⟩, h2, h⟩ := Option.bind_eq_some_iff.mp h
              simp only [Option.some.injEq, Prod.mk.injEq] at h
              obtain ⟨rfl, rfl⟩ := h
              obtain ⟨t0, k1, rfl⟩ := ih _ _ _ h2
              exact ⟨t1 ++ t0, by simp [render, h1, k1], by simp⟩
        exact this pre0 args _ t1 h1
      obtain ⟨t0, hr0, rfl⟩ := hrr
      have hcd : c ≠ '$' := by
        have : ∀ (l : List Item) (e : Bool) (p : Option Simple) (r : List Item), Wf e p (l ++ .one (.lit c) :: r) → c ≠ '$' := by
          intro l
          induction l with
          | nil => intro e p r h; exact h.2.1
          | cons i l ih => intro e p r h; cases i with
            | one s => exact ih _ _ _ h.2.2.2
            | loop b => exact ih _ _ _ h.2
        exact this pre0 true none _ (by simpa using hwf)
      obtain ⟨cur1, k1, k2, _, _⟩ := good_all (L := L) (R := R) (total := args.length) pre0 true true none args _ [] [] t0
        (c :: (U ++ ("_from_".toList ++ w))) hw0 hr0 hok (.inl ⟨rfl, rfl⟩) (fun _ => .inl ⟨rfl, rfl⟩)
        (.inr ⟨fun i hi => hnr i (List.mem_append_left _ hi), fun q hq d r hd => by
          simp only [List.cons.injEq] at hd
          rw [← hd.1]
          exact wf_last (show Wf true none (pre0 ++ (.one (.lit c) :: ((lits (U ++ "_from_".toList)).map .one ++ .one .arg :: post))) by simpa using hwf) hq⟩)
      refine ⟨.ch c :: cur1, fun res h => ?_, ?_, .inr ⟨c, cur1, rfl, hc⟩⟩
      · rw [unparse_append]
        simp only [unparse, Simple.text, List.append_assoc, List.cons_append, List.nil_append]
        refine k1 res (Ends.of (fun n => loop_lit n c _ _ _ hcd) ?_)
        simpa using h
      · rw [fl_cons]
        have : Steps alnum true t0 (fl cur1) := by simpa [fl, flats] using k2
        exact this.append [c]
  obtain ⟨o, p1, p2⟩ := putArg_direct hT hv hU g3 hl e
  obtain ⟨cur2, k1, k2, _, _⟩ := good_all (L := L) (R := R) (total := args.length) post false false (some .arg) args2 [] [] (.str y :: o :: cur1) t2 []
    hpost h2 (fun a ha => hok a (render_args' _ _ _ _ h1 a (List.mem_cons_of_mem _ ha))) (.inr (.inl ⟨.str y, o :: cur1, rfl, rfl⟩)) (by simp) (.inl (.inl rfl))
  have hends := g1 ⟨[], [], (cur2 ++ (.str y :: o :: cur1)).reverse⟩ (by
    rw [← List.append_assoc]
    refine ends_lits _ _ (ident_ne_dollar hUi) ?_
    refine Ends.of (fun n => loop_arg n _ _ _ _ hfol) ?_
    rw [p1]
    have := k1 _ (ends_nil [] _)
    rw [List.append_nil, List.nil_append] at this
    exact this)
  obtain ⟨n0, hf⟩ := format_of_ends hends
  refine ⟨fl cur1, fl cur2, n0, g2, by simpa [fl, flats] using k2, fun n hn => ?_⟩
  have hun : unparse (pre ++ ((lits (U ++ "_from_".toList)).map .one ++ .one .arg :: post)) = unparse pre ++ (U ++ ("_from_".toList ++ w)) := by
    rw [unparse_append, unparse_append, unparse_lits]
    simp [unparse, hw]
  rw [hun, hf n hn]
  simp only [List.reverse_append, List.reverse_cons, flats_append, fl, flats, Text.flat, p2, List.append_assoc, List.append_nil, List.nil_append]

end Verif.Fmt
