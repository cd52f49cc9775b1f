import Verif.Fmt.Argref
/-
C64: templates of C code.
-/
namespace Verif.Fmt

/-- **C64, full statement** (false, see `c64_counterexample`): the formatter writes the text the template stands for, except for
conversions of values to objects and back; names are identifiers of C. -/
def C64Full : Prop := ∀ (items : List Item) (L R : Text) (args : List Text) (t : List Char), Wf true none items → render L R args.length items args = some (t, []) →
  (∀ a ∈ args, ArgOk a) → ∃ out n0, (∀ n, n0 ≤ n → format n L R (unparse items) args = some out) ∧ Steps identChar true t out

/-- **C64, part.**  The formatter writes the text the template stands for, except for conversions; here a name may also start after `_`. -/
theorem c64_format_partial (items : List Item) (L R : Text) (args : List Text) (t : List Char) (hw : Wf true none items)
    (hr : render L R args.length items args = some (t, [])) (ha : ∀ a ∈ args, ArgOk a) :
    ∃ out n0, (∀ n, n0 ≤ n → format n L R (unparse items) args = some out) ∧ Steps alnum true t out := by
  obtain ⟨cur, h1, h2, _, _⟩ := good_all items true true none args [] [] [] t [] hw hr ha (.inl ⟨rfl, rfl⟩) (fun _ => .inl ⟨rfl, rfl⟩) (.inl (.inl rfl))
  have := h1 _ (ends_nil [] _)
  rw [List.append_nil, List.append_nil, List.append_nil] at this
  obtain ⟨n0, hf⟩ := format_of_ends this
  exact ⟨_, n0, hf, by simpa [fl, flats] using h2⟩

/-- **C64, operands left over.**  If the template does not use all arguments, the formatter fails. -/
theorem c64_leftover (items : List Item) (L R : Text) (args rest : List Text) (t : List Char) (hw : Wf true none items)
    (hr : render L R args.length items args = some (t, rest)) (hne : rest ≠ []) (ha : ∀ a ∈ args, ArgOk a) : ∃ n0, ∀ n, n0 ≤ n → format n L R (unparse items) args = none := by
  obtain ⟨cur, h1, _, _, _⟩ := good_all items true true none args rest [] [] t [] hw hr ha (.inl ⟨rfl, rfl⟩) (fun _ => .inl ⟨rfl, rfl⟩) (.inl (.inl rfl))
  obtain ⟨n0, h⟩ := h1 _ (ends_nil rest _)
  rw [List.append_nil] at h
  exact ⟨n0, fun n hn => by simp only [List.append_nil] at h; simp [format, h n hn, hne]⟩

/-- **C64, operands.**  If the operand has the type to which the template converts it (or is not used), then the conversion is left out. -/
theorem c64_operand {pre post : List Item} {T U x y lv t1 t2 : List Char} {args args2 : List Text} {L R : Text}
    (hpre : pre = [] ∨ ∃ pre0 c, pre = pre0 ++ [.one (.lit c)] ∧ identChar c = false) (hnr : NoRet pre)
    (hT : ∀ c ∈ T, identChar c = true) (hU : U = T ∨ U = "void".toList)
    (hwf : Wf true none (pre ++ ((lits (U ++ "_from_".toList)).map .one ++ .one .arg :: post)))
    (hok : ∀ a ∈ args, ArgOk a)
    (h1 : render L R args.length pre args = some (t1, .str (T ++ '(' :: x) :: args2))
    (h2 : render L R args.length post args2 = some (t2, []))
    (hl : IsLevel lv x) (e : x = lv ++ y) :
    ∃ o1 o2 n0, Steps alnum true t1 o1 ∧ Steps alnum false t2 o2 ∧
      ∀ n, n0 ≤ n → format n L R (unparse (pre ++ ((lits (U ++ "_from_".toList)).map .one ++ .one .arg :: post))) args =
        some (o1 ++ (opening U ++ (y ++ o2))) :=
  direct_arg hpre hnr hT hU hwf hok h1 h2 hl e

/-- **C64, types of operands.**  `c-argref-ctype` gives `T` for a `$arg` exactly if the text before it, back to the last directive, ends
with `T_from_`, where `T` is as long as possible. -/
theorem c64_argref (pre post : List Simple) (hseq : Seq true none (pre ++ .arg :: post)) (hc : ∀ s ∈ pre, Counted s) (T : List Char) :
    argrefCtype ((pre ++ .arg :: post).flatMap Simple.text) ((pre.map Simple.nargs).sum) = some T ↔
      ∃ x, runOf [] pre = x ++ (T ++ "_from_".toList) ∧ (∀ c ∈ T, identChar c = true) ∧ Edge identChar true x := by
  rw [argref_spec pre post hseq hc, typeAtEnd_iff]

/-- **C64, types of operands in loops.**  The operands used in a loop all have the type to which the first `$arg` in the loop is converted. -/
theorem c64_argref_loop (pre b post : List Simple) (z : List Char) (k : Nat) (hpre : Seq true none pre) (hb : Body (b ++ .arg :: post))
    (hc : ∀ s ∈ pre, Counted s) (hcb : ∀ s ∈ b, Counted s ∧ s.nargs = 0) (T : List Char) :
    argrefCtype (pre.flatMap Simple.text ++ ("${".toList ++ ((b ++ .arg :: post).flatMap Simple.text ++ ("$}".toList ++ z)))) ((pre.map Simple.nargs).sum + k) = some T ↔
      ∃ x, runOf ['{'] b = x ++ (T ++ "_from_".toList) ∧ (∀ c ∈ T, identChar c = true) ∧ Edge identChar true x := by
  rw [← typeAtEnd_iff, ← argref_loop pre b post false z k hpre hb.seq hc hcb]
  rfl

-- the second and third operand of `f($arg, ${ fixnum_from_$arg$})`
example (k : Nat) : argrefCtype "f($arg,${ fixnum_from_$arg$})".toList (1 + k) = some "fixnum".toList := by
  have := (c64_argref_loop [.lit 'f', .lit '(', .arg, .lit ','] (lits " fixnum_from_".toList) [] [')'] k
    (by simp [Seq, follows, RetOk, Simple.Valid, follow, alpha, numeric]) ⟨⟨' ', _, rfl, by decide⟩, by simp [lits, Seq, follows, RetOk, Simple.Valid, follow, alpha, numeric], by decide⟩
    (by simp [Counted]) (by simp [Counted, lits, Simple.nargs]) "fixnum".toList).mpr ⟨"{ ".toList, by decide, by decide, .inr ⟨['{'], ' ', by decide, by decide⟩⟩
  exact this

/-- **C64, operands of known type.**  If `c-argref-ctype` says that a primitive converts an operand to the type `T`, and the operand is
given as `T(x)`, then the conversion is left out: `x` is used as it is. -/
theorem c64_unboxed_operand {pre0 post : List Simple} {cs T x y lv t1 t2 : List Char} {args args2 : List Text} {L R : Text}
    (hseq : Seq true none (pre0 ++ (lits cs ++ .arg :: post))) (hc : ∀ s ∈ pre0, Counted s ∧ ∀ ws, s ≠ .ret ws)
    (hcs : pre0 = [] ∨ ∃ c ∈ cs, identChar c = false)
    (htype : argrefCtype ((pre0 ++ (lits cs ++ .arg :: post)).flatMap Simple.text) ((pre0.map Simple.nargs).sum) = some T)
    (hok : ∀ a ∈ args, ArgOk a)
    (h1 : renders L R args.length (pre0 ++ lits cs) args = some (t1, .str (T ++ '(' :: x) :: args2))
    (h2 : renders L R args.length post args2 = some (t2, []))
    (hl : IsLevel lv x) (e : x = lv ++ y) :
    ∃ t0 o1 o2 n0, t1 = t0 ++ (T ++ "_from_".toList) ∧ Steps alnum true t0 o1 ∧ Steps alnum false t2 o2 ∧
      ∀ n, n0 ≤ n → format n L R ((pre0 ++ (lits cs ++ .arg :: post)).flatMap Simple.text) args = some (o1 ++ (opening T ++ (y ++ o2))) := by
  have hcl : ∀ s ∈ lits cs, Counted s ∧ s.nargs = 0 ∧ ∀ ws, s ≠ .ret ws := by
    intro s hs
    obtain ⟨c, _, rfl⟩ := List.mem_map.mp hs
    simp [Counted, Simple.nargs]
  have hn : ((pre0 ++ lits cs).map Simple.nargs).sum = (pre0.map Simple.nargs).sum := by
    rw [List.map_append, List.sum_append]
    have : ((lits cs).map Simple.nargs).sum = 0 := by
      unfold lits
      clear * -
      induction cs with
      | nil => rfl
      | cons c cs ih => simpa [Simple.nargs] using ih
    omega
  have hseq' : Seq true none ((pre0 ++ lits cs) ++ .arg :: post) := by rw [List.append_assoc]; exact hseq
  have hcount : ∀ s ∈ pre0 ++ lits cs, Counted s := by
    intro s hs
    rcases List.mem_append.mp hs with hs | hs
    · exact (hc s hs).1
    · exact (hcl s hs).1
  have hspec := (c64_argref (pre0 ++ lits cs) post hseq' hcount T).mp (by rw [hn, List.append_assoc]; exact htype)
  have hT : ∀ c ∈ T, identChar c = true := by obtain ⟨_, _, h, _⟩ := hspec; exact h
  obtain ⟨a, ha, hedge⟩ := argref_split hcs hspec
  have hlits : lits cs = lits a ++ lits (T ++ "_from_".toList) := by rw [ha]; simp [lits]
  rw [hlits, ← List.append_assoc] at h1
  obtain ⟨t0, as1, t3, k1, k2, k3⟩ := renders_append _ _ _ _ _ _ _ _ h1
  rw [renders_lits] at k2
  simp only [Option.some.injEq, Prod.mk.injEq] at k2
  obtain ⟨rfl, rfl⟩ := k2
  have hitems : (pre0 ++ (lits cs ++ .arg :: post)).map Item.one =
      (pre0 ++ lits a).map .one ++ ((lits (T ++ "_from_".toList)).map .one ++ .one .arg :: post.map .one) := by
    rw [hlits]; simp
  obtain ⟨o1, o2, n0, d1, d2, d3⟩ := c64_operand (pre := (pre0 ++ lits a).map .one) (post := post.map .one) (U := T) (T := T) (L := L) (R := R) (args := args)
    (t1 := t0) (t2 := t2) (x := x) (y := y) (lv := lv) (args2 := args2)
    (by
      rcases hedge with ⟨rfl, rfl⟩ | ⟨q, c, rfl, hc⟩
      · exact .inl rfl
      · exact .inr ⟨(pre0 ++ lits q).map .one, c, by simp [lits], hc⟩)
    (by
      intro i hi ws
      obtain ⟨s, hs, rfl⟩ := List.mem_map.mp hi
      intro h
      simp only [Item.one.injEq] at h
      rcases List.mem_append.mp hs with hs | hs
      · exact (hc s hs).2 ws h
      · obtain ⟨c, _, rfl⟩ := List.mem_map.mp hs; cases h)
    hT (.inl rfl) (by rw [← hitems]; exact hseq.wf) hok (by rw [render_map]; exact k1) (by rw [render_map]; exact h2) hl e
  refine ⟨t0, o1, o2, n0, k3, d1, d2, fun n hn => ?_⟩
  have := d3 n hn
  rw [← hitems, unparse_map] at this
  exact this

/-- **C64, results.**  If the place for the result converts from the type given after `$return` (or drops the result), the conversion is left out. -/
theorem c64_result {pre post : List Item} {ws T U r lv t1 t2 : List Char} {args args2 : List Text} {L : Text}
    (hT : ∀ c ∈ T, identChar c = true) (hU : U = T ∨ U = "void".toList) (hr : Sep r) (hlv : IsLevel lv (lv ++ unparse post))
    (hwf : Wf true none (pre ++ .one (.ret ws) :: ((lits (T ++ '(' :: lv)).map .one ++ post)))
    (hok : ∀ a ∈ args, ArgOk a)
    (h1 : render L (.str (r ++ (U ++ "_from_".toList))) args.length pre args = some (t1, args2))
    (h2 : render L (.str (r ++ (U ++ "_from_".toList))) args.length post args2 = some (t2, [])) :
    ∃ o1 o2 n0, Steps alnum true t1 o1 ∧ Steps alnum false (opening U ++ t2) o2 ∧
      ∀ n, n0 ≤ n → format n L (.str (r ++ (U ++ "_from_".toList))) (unparse (pre ++ .one (.ret ws) :: ((lits (T ++ '(' :: lv)).map .one ++ post))) args =
        some (o1 ++ (r ++ o2)) :=
  direct_ret hT hU hr hlv hwf hok h1 h2

/-- **C64, types of expressions.**  A template is an expression of type `T` exactly if it is `T(…` and has no `$return`. -/
theorem c64_expression_type (prim T : List Char) : primCexp prim = some T ↔
    ¬ "$return".toList <:+: prim ∧ (∃ r, prim = T ++ '(' :: r) ∧ ∀ c ∈ T, identChar c = true := by
  unfold primCexp contains
  rw [Str.c43_contains, Option.getD_some]
  by_cases h : "$return".toList <:+: prim
  · simp only [h, decide_true, if_true, not_true_eq_false, false_and, reduceCtorEq]
  · simp only [h, decide_false, Bool.false_eq_true, if_false, not_false_eq_true, true_and, primexp_iff]

/-- **C64, types of results.**  The type of a template with `$return` is the type after the first `$return`. -/
theorem c64_return_type (a sp T r : List Char) (hfirst : ∀ a' r', a ++ ("$return".toList ++ (sp ++ (T ++ '(' :: r))) = a' ++ ("$return".toList ++ r') → a.length ≤ a'.length)
    (hsp : ∀ c ∈ sp, c = ' ') (hT : ∀ c ∈ T, identChar c = true) : primCtype (a ++ ("$return".toList ++ (sp ++ (T ++ '(' :: r)))) = some T := by
  obtain ⟨b, s, _, ha, e, hmin⟩ := Str.c43_split (a ++ ("$return".toList ++ (sp ++ (T ++ '(' :: r)))) "$return".toList ⟨a, sp ++ (T ++ '(' :: r), by simp⟩
  have h1 := hfirst b s (by rw [e, List.append_assoc])
  have h2 := hmin a (sp ++ (T ++ '(' :: r)) (by simp)
  rw [List.append_assoc] at e
  obtain ⟨_, e2⟩ := List.append_inj e (by omega)
  have e3 := List.append_cancel_left e2
  have hspan : afterSpan s [' '] = T ++ '(' :: r := by
    rw [afterSpan, (Str.c43_span s [' ']).2, Option.getD_some, ← e3]
    rw [List.dropWhile_append_of_pos (by intro c hc; simp [hsp c hc])]
    cases T with
    | nil => rw [List.nil_append, List.dropWhile_cons_of_neg (by decide)]
    | cons d T =>
      rw [List.cons_append, List.dropWhile_cons_of_neg]
      simp only [List.mem_singleton, decide_eq_true_eq]
      rintro rfl
      exact absurd (hT ' ' List.mem_cons_self) (by decide)
  unfold primCtype after
  rw [ha]
  simp only [Option.join_some, Option.bind_some, hspan]
  rw [(primexp_iff (T ++ '(' :: r) T).mpr ⟨⟨r, rfl⟩, hT⟩]
  rfl

/-- **C64, type checks.**  `bool(is_T_$arg)` is a check for the type `T`; unless `_T` ends with `_from`, it does not convert its operand (this is
the assumption `Honest.text` of C63). -/
theorem c64_typecheck (T : List Char) (hT : ∀ c ∈ T, identChar c = true) (hf : ¬ "_from".toList <:+ '_' :: T) :
    typecheckCtype ("bool(is_".toList ++ (T ++ "_$arg)".toList)) = some T ∧
    typeassertCtype ("void(assert(is_".toList ++ (T ++ "_$arg))".toList)) = some T ∧
    argrefCtype ("bool(is_".toList ++ (T ++ "_$arg)".toList)) 0 = none := by
  refine ⟨?_, ?_, ?_⟩
  · unfold typecheckCtype
    rw [after_self]
    have : beforeSuffix (T ++ "_$arg)".toList) "_$arg)".toList = some T := by
      unfold beforeSuffix; rw [((Str.c43_affixes _ _).1 T).mpr rfl]; rfl
    simp only [Option.bind_some, this]
    exact (ident_iff _ _).mpr ⟨rfl, hT⟩
  · unfold typeassertCtype
    rw [after_self]
    have : beforeSuffix (T ++ "_$arg))".toList) "_$arg))".toList = some T := by
      unfold beforeSuffix; rw [((Str.c43_affixes _ _).1 T).mpr rfl]; rfl
    simp only [Option.bind_some, this]
    exact (ident_iff _ _).mpr ⟨rfl, hT⟩
  · have hd : '$' ∉ "bool(is_".toList ++ (T ++ ['_']) := by
      intro h
      rcases List.mem_append.mp h with h | h
      · revert h; decide
      · rcases List.mem_append.mp h with h | h
        · exact absurd (hT _ h) (by decide)
        · revert h; decide
    have e : "bool(is_".toList ++ (T ++ "_$arg)".toList) = ("bool(is_".toList ++ (T ++ ['_'])) ++ '$' :: "arg)".toList := by simp
    have hno : endsWith ("bool(is_".toList ++ (T ++ ['_'])) "_from_".toList = false := by
      rw [Bool.eq_false_iff, ne_eq, endsWith_iff]
      rintro ⟨y, hy⟩
      have h0 : "_from_".toList = "_from".toList ++ ['_'] := by decide
      have h2 : "bool(is_".toList ++ (T ++ ['_']) = ("bool(is".toList ++ '_' :: T) ++ ['_'] := by simp
      rw [h0, ← List.append_assoc, h2] at hy
      have h1 := (List.append_inj' hy rfl).1
      rcases List.append_eq_append_iff.mp h1 with ⟨b, f1, f2⟩ | ⟨b, f1, f2⟩
      · have hl := congrArg List.length f2
        simp only [List.length_append, List.length_cons] at hl
        have key : ∀ k ≤ 5, ("_from".toList.drop k).head? = some '_' → k = 0 := by decide
        have h5 : ("_from".toList).length = 5 := rfl
        have hk := key b.length (by omega) (by rw [f2, List.drop_left]; rfl)
        have hb : b = [] := List.length_eq_zero_iff.mp hk
        subst hb
        exact hf ⟨[], f2⟩
      · exact hf ⟨b, f2.symm⟩
    rw [e, argrefCtype, argrefCtype.go, (before_eq hd).1, (before_eq hd).2]
    simp only [hno, startsWith, Str.c43_starts_with]
    rfl

/-- the template `fixnum(fixnum_from_$arg + fixnum_from_$arg)`. -/
def addItems : List Item := (lits "fixnum(fixnum_from_".toList).map .one ++ (.one .arg :: ((lits " + fixnum_from_".toList).map .one ++ [.one .arg, .one (.lit ')')]))

/-- the template `obj($live, ${, $arg$})` -/
def loopItems : List Item := [.one (.lit 'o'), .one (.lit '('), .one .live, .loop [.lit ',', .lit ' ', .arg], .one (.lit ')')]

/-- the template `{ $return fixnum($arg); }` -/
def retItems : List Item := [.one (.lit '{'), .one (.lit ' ')] ++ .one (.ret [' ']) :: ((lits ("fixnum".toList ++ '(' :: [])).map .one ++ [.one .arg, .one (.lit ')'), .one (.lit ';')])

theorem argOk_fixnum (x : List Char) : ArgOk (.str ("fixnum".toList ++ '(' :: x)) := by
  intro s T hs hT
  simp only [Text.str.injEq] at hs
  subst hs
  rw [(primexp_iff _ "fixnum".toList).mpr ⟨⟨x, rfl⟩, by decide⟩] at hT
  simp only [Option.some.injEq] at hT
  subst hT
  decide

-- a template with two operands, one of them an object
example : Wf true none addItems ∧
    unparse addItems = "fixnum(fixnum_from_$arg + fixnum_from_$arg)".toList ∧
    render (.str []) (.str []) 2 addItems [.str "fixnum(x)".toList, .sym "y".toList] = some ("fixnum(fixnum_from_fixnum(x) + fixnum_from_y)".toList, []) ∧
    format 100 (.str []) (.str []) (unparse addItems) [.str "fixnum(x)".toList, .sym "y".toList] = some "fixnum((x) + fixnum_from_y)".toList := by
  refine ⟨?_, rfl, rfl, by decide +kernel⟩
  simp [addItems, lits, Wf, follows, RetOk, Simple.Valid, follow, alpha, numeric]

-- the hypotheses of `c64_leftover`: there is an argument too many
example : render (.str []) (.str []) 3 addItems [.str "fixnum(x)".toList, .sym "y".toList, .sym "z".toList] =
    some ("fixnum(fixnum_from_fixnum(x) + fixnum_from_y)".toList, [.sym "z".toList]) := rfl

-- a template with a loop
example : Wf true none loopItems ∧ unparse loopItems = "o($live${, $arg$})".toList ∧
    render (.sym ['3']) (.str []) 2 loopItems [.sym "x".toList, .sym "y".toList] = some ("o(3, x, y)".toList, []) ∧
    format 100 (.sym ['3']) (.str []) (unparse loopItems) [.sym "x".toList, .sym "y".toList] = some "o(3, x, y)".toList := by
  refine ⟨?_, rfl, rfl, by decide +kernel⟩
  have hb : Body [.lit ',', .lit ' ', .arg] := ⟨⟨',', _, rfl, by decide⟩, by simp [Seq, follows, RetOk, Simple.Valid, follow], by decide⟩
  simp [loopItems, Wf, follows, RetOk, Simple.Valid, follow, hb]

-- the hypotheses of `c64_operand`, for the first operand
example : ∃ o1 o2 n0, Steps alnum true "fixnum(".toList o1 ∧ Steps alnum false " + fixnum_from_y)".toList o2 ∧
    ∀ n, n0 ≤ n → format n (.str []) (.str []) "fixnum(fixnum_from_$arg + fixnum_from_$arg)".toList [.str "fixnum(x)".toList, .sym "y".toList] =
      some (o1 ++ (['('] ++ ("x)".toList ++ o2))) := by
  have e : unparse addItems = "fixnum(fixnum_from_$arg + fixnum_from_$arg)".toList := rfl
  have o : opening "fixnum".toList = ['('] := by decide
  rw [← e, ← o]
  exact c64_operand (pre := (lits "fixnum(".toList).map .one) (post := (lits " + fixnum_from_".toList).map Item.one ++ [Item.one .arg, Item.one (.lit ')')])
    (T := "fixnum".toList) (U := "fixnum".toList) (lv := []) (x := "x)".toList) (y := "x)".toList) (args2 := [.sym "y".toList])
    (args := [.str "fixnum(x)".toList, .sym "y".toList]) (t1 := "fixnum(".toList) (t2 := " + fixnum_from_y)".toList) (L := .str []) (R := .str [])
    (.inr ⟨(lits "fixnum".toList).map .one, '(', rfl, by decide⟩)
    (by intro i hi ws; simp [lits] at hi; rcases hi with h | h | h | h | h | h | h <;> simp [h])
    (by decide) (.inl rfl)
    (by simp [lits, Wf, follows, RetOk, Simple.Valid, follow, alpha, numeric])
    (by
      intro a ha
      simp only [List.mem_cons, List.not_mem_nil, or_false] at ha
      rcases ha with rfl | rfl
      · exact argOk_fixnum _
      · intro s T h; cases h)
    rfl rfl
    ⟨.inl rfl, by
      intro _ lv' y h1 h2 e
      rcases h2 with rfl | ⟨ds, hd, rfl⟩
      · exact h1 rfl
      · cases ds with
        | nil => simp at e
        | cons d ds => simp at e; obtain ⟨rfl, _⟩ := e; exact absurd (hd 'x' (by simp)) (by decide)⟩ rfl

-- `c-argref-ctype`
example : argrefCtype "fixnum(fixnum_from_$arg + flonum_from_$arg)".toList 1 = some "flonum".toList ∧
    argrefCtype "fixnum(fixnum_from_$arg + flonum_from_$arg)".toList 0 = some "fixnum".toList ∧
    argrefCtype "cons($arg, $arg)".toList 1 = none := by decide +kernel

-- a result converted back
example : Wf true none retItems ∧ Sep "x = ".toList ∧ unparse retItems = "{ $return fixnum($arg);".toList ∧
    format 100 (.str []) (.str "x = fixnum_from_".toList) (unparse retItems) [.sym "y".toList] = some "{ x = (y);".toList ∧
    primCtype (unparse retItems) = some "fixnum".toList ∧ primCexp (unparse retItems) = none := by
  refine ⟨?_, .inr ⟨"x =".toList, ' ', rfl, by decide⟩, rfl, by decide +kernel, by decide +kernel, by decide +kernel⟩
  refine ⟨by simp [follows], by simp [Simple.Valid], by simp [RetOk], by simp [follows, follow], by simp [Simple.Valid], by simp [RetOk],
    by simp [follows], by simp [Simple.Valid, white], ?_, ?_⟩
  · intro ws _
    exact ⟨by decide, fun T h => argOk_fixnum "$arg);".toList _ T rfl h⟩
  · simp [lits, Wf, follows, RetOk, Simple.Valid, follow, alpha, numeric, white]

-- a type check
example : typecheckCtype "bool(is_fixnum_$arg)".toList = some "fixnum".toList :=
  (c64_typecheck "fixnum".toList (by decide) (by decide)).1

/-- the template of the refutation. -/
def badItems : List Item := (lits "my_fixnum_from_".toList).map .one ++ [.one .arg]

/-- **C64, refutation.**  An operand of the function `my_fixnum_from_` loses the call of the function. -/
theorem c64_counterexample : ¬ C64Full := by
  intro h
  obtain ⟨out, n0, hf, hs⟩ := h badItems (.str []) (.str []) [.str "fixnum(x)".toList] "my_fixnum_from_fixnum(x)".toList
    (by simp [badItems, lits, Wf, follows, RetOk, Simple.Valid, follow])
    (by rfl)
    (by intro a ha; simp only [List.mem_singleton] at ha; subst ha
        intro s T hs hT
        simp only [Text.str.injEq] at hs
        subst hs
        obtain rfl : "fixnum".toList = T := by
          have := (primexp_iff "fixnum(x)".toList "fixnum".toList).mpr ⟨⟨"x)".toList, rfl⟩, by decide⟩
          rw [this] at hT
          simpa using hT
        decide)
  have he : Ends (.str []) (.str []) 1 (unparse badItems) [.str "fixnum(x)".toList] [] _ :=
    ends_lits "my_fixnum_from_".toList [] (by decide)
      (Ends.of (fun n => loop_arg n [] (.str "fixnum(x)".toList) [] _ (by intro c r h; cases h)) (ends_nil [] _))
  obtain ⟨n1, h1⟩ := format_of_ends (args := [.str "fixnum(x)".toList]) he
  have h2 := (h1 (n0 + n1) (by omega)).symm.trans (hf (n0 + n1) (by omega))
  have h3 : some "my_(x)".toList = some out := Eq.trans (by decide +kernel) h2
  simp only [Option.some.injEq] at h3
  subst h3
  generalize ht : "my_fixnum_from_fixnum(x)".toList = t at hs
  have key : ∀ b, ¬ Step identChar true t b := by
    have same : ∀ i ≤ 24, ∀ j ≤ 24, (i = 0 ∨ ((t.take i).getLast?.map identChar) = some false) →
        ¬ (t.drop i).take j ++ ("_from_".toList ++ ((t.drop i).take j ++ ['('])) <+: t.drop i := by subst ht; decide +kernel
    have void : ¬ "void_from_".toList <:+: t := by subst ht; decide +kernel
    have edge : ∀ {p r : List Char}, Edge identChar true p → t = p ++ r →
        (p.length = 0 ∨ ((t.take p.length).getLast?.map identChar) = some false) := by
      intro p r hp e
      rcases hp with ⟨rfl, _⟩ | ⟨q, c, rfl, hc⟩
      · exact .inl rfl
      · right; rw [e, List.take_left]; simp [hc]
    intro b hb
    generalize ht' : t = t' at hb
    cases hb with
    | @same p T lv x hp hT hl =>
      have hlen := congrArg List.length ht'
      have h24 : t.length = 24 := by subst ht; rfl
      simp only [List.length_append] at hlen
      refine same p.length (by omega) T.length (by omega) (edge hp ht') ?_
      rw [ht', List.drop_left, List.take_left]
      exact ⟨lv ++ x, by simp⟩
    | @void p T lv x hp hT hl => exact void ⟨p, T ++ ('(' :: (lv ++ x)), by rw [ht']; simp⟩
  cases hs with
  | refl => revert ht; decide
  | step h1 _ => exact key _ h1

end Verif.Fmt
