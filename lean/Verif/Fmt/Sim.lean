import Verif.Fmt.Proofs
/-
The formatting loop follows the parts of the template.
-/
namespace Verif.Fmt
variable {L R : Text} {total : Nat}

/-- The loop ends with `res`, for all large bounds. -/
def Ends (L R : Text) (total : Nat) (fmt : List Char) (args buf : List Text) (res : Res) : Prop :=
  ∃ n0, ∀ n, n0 ≤ n → loop L R total n fmt args buf = some res

theorem Ends.of {fmt fmt' : List Char} {args args' buf buf' : List Text} {res : Res}
    (h : ∀ n, loop L R total (n + 1) fmt args buf = loop L R total n fmt' args' buf') (h' : Ends L R total fmt' args' buf' res) :
    Ends L R total fmt args buf res := by
  obtain ⟨n0, hn⟩ := h'
  refine ⟨n0 + 1, fun n hle => ?_⟩
  obtain ⟨m, rfl⟩ : ∃ m, n = m + 1 := ⟨n - 1, by omega⟩
  rw [h m]; exact hn m (by omega)

theorem loop_lit (n : Nat) (c : Char) (r : List Char) (args buf : List Text) (h : c ≠ '$') :
    loop L R total (n + 1) (c :: r) args buf = loop L R total n r args (.ch c :: buf) := by
  conv_lhs => rw [loop.eq_def]
  simp only [ne_eq, h, not_false_eq_true, if_true]

/-- what follows does not belong to the directive. -/
def Follow (q : Simple) (w : List Char) : Prop := ∀ c r, w = c :: r → follow q c

theorem not_c {c : Char} (h : alpha c = false) : c ≠ 'c' ∧ c ≠ 'r' ∧ c ≠ 'a' := by
  refine ⟨?_, ?_, ?_⟩ <;> rintro rfl <;> exact absurd h (by decide)

theorem loop_argc (n : Nat) (w : List Char) (args buf : List Text) (h : Follow .argc w) :
    loop L R total (n + 1) (Simple.argc.text ++ w) args buf = loop L R total n w args (.num total :: buf) := by
  have hm : matchName some (['a', 'r', 'g', 'c'] ++ w) ['a', 'r', 'g', 'c'] = some w := by
    refine (matchName_iff _ _ _ _).mpr ⟨⟨['a', 'r', 'g', 'c'], rfl, rfl⟩, ?_⟩
    cases w with
    | nil => exact .inl rfl
    | cons c r => have := h c r rfl; exact .inr ⟨c, r, c, rfl, rfl, by simp [alnum, this.1, this.2]⟩
  rw [Simple.text]
  simp only [List.cons_append, List.nil_append] at hm ⊢
  conv_lhs => rw [loop.eq_def]
  simp only [ne_eq, not_true_eq_false, if_false]
  simp only [hm]

theorem match_none {l cs : List Char} (h : ¬ cs <+: l) : matchName some l cs = none := by
  cases hm : matchName some l cs with
  | none => rfl
  | some r =>
    obtain ⟨⟨pre, h1, h2⟩, _⟩ := (matchName_iff _ _ _ _).mp hm
    have : pre = cs := (List.map_inj_right (by simp)).mp h2
    exact absurd ⟨r, by rw [h1, this]⟩ h

theorem match_self {l : List Char} (cs w : List Char) (e : l = cs ++ w) (h : ∀ c r, w = c :: r → alpha c = false ∧ numeric c = false) : matchName some l cs = some w := by
  subst e
  refine (matchName_iff _ _ _ _).mpr ⟨⟨cs, rfl, rfl⟩, ?_⟩
  cases w with
  | nil => exact .inl rfl
  | cons c r => have := h c r rfl; exact .inr ⟨c, r, c, rfl, rfl, by simp [alnum, this.1, this.2]⟩

theorem match_bad {l : List Char} (cs : List Char) (c : Char) (w : List Char) (e : l = cs ++ c :: w) (h : alnum c = true) : matchName some l cs = none := by
  subst e
  cases hm : matchName some (cs ++ c :: w) cs with
  | none => rfl
  | some r =>
    exfalso
    obtain ⟨⟨pre, h1, h2⟩, h3⟩ := (matchName_iff _ _ _ _).mp hm
    have : pre = cs := (List.map_inj_right (by simp)).mp h2
    subst this
    simp only [List.append_cancel_left_eq] at h1
    subst h1
    rcases h3 with h3 | ⟨_, _, d, h3, h4, h5⟩
    · simp at h3
    · simp only [List.cons.injEq] at h3
      simp only [Option.some.injEq] at h4
      rw [← h4, ← h3.1, h] at h5; simp at h5

/-- the head of `w`. -/
theorem head_ne {w : List Char} {P : Char → Prop} (h : ∀ c r, w = c :: r → P c) {d : Char} (hd : ¬ P d) (x : List Char) : ¬ (d :: x) <+: w := by
  rintro ⟨r, hr⟩
  exact hd (h d (x ++ r) (by rw [← hr]; rfl))

theorem loop_prev (n : Nat) (w : List Char) (args buf : List Text) (h : Follow .prev w) :
    loop L R total (n + 1) (Simple.prev.text ++ w) args buf = loop L R total n w args (.num ((total : Int) - args.length - 1) :: buf) := by
  simp only [Simple.text, List.cons_append, List.nil_append]
  conv_lhs => rw [loop.eq_def]
  simp only [ne_eq, not_true_eq_false, if_false]
  simp only [match_none (cs := ['a', 'r', 'g', 'c']) (l := 'a' :: 'r' :: 'g' :: '#' :: '-' :: '1' :: w) (by simp [List.cons_prefix_cons]),
    match_self (l := 'a' :: 'r' :: 'g' :: '#' :: '-' :: '1' :: w) ['a', 'r', 'g', '#', '-', '1'] w rfl (fun c r e => h c r e)]

theorem loop_next (n : Nat) (w : List Char) (args buf : List Text) (h : Follow .next w) :
    loop L R total (n + 1) (Simple.next.text ++ w) args buf = loop L R total n w args (.num ((total : Int) - args.length + 1) :: buf) := by
  simp only [Simple.text, List.cons_append, List.nil_append]
  conv_lhs => rw [loop.eq_def]
  simp only [ne_eq, not_true_eq_false, if_false]
  simp only [match_none (cs := ['a', 'r', 'g', 'c']) (l := 'a' :: 'r' :: 'g' :: '#' :: '+' :: '1' :: w) (by simp [List.cons_prefix_cons]),
    match_none (cs := ['a', 'r', 'g', '#', '-', '1']) (l := 'a' :: 'r' :: 'g' :: '#' :: '+' :: '1' :: w) (by simp [List.cons_prefix_cons]),
    match_self (l := 'a' :: 'r' :: 'g' :: '#' :: '+' :: '1' :: w) ['a', 'r', 'g', '#', '+', '1'] w rfl (fun c r e => h c r e)]

theorem loop_argNo (n : Nat) (w : List Char) (args buf : List Text) (h : Follow .argNo w) :
    loop L R total (n + 1) (Simple.argNo.text ++ w) args buf = loop L R total n w args (.num ((total : Int) - args.length) :: buf) := by
  simp only [Simple.text, List.cons_append, List.nil_append]
  conv_lhs => rw [loop.eq_def]
  simp only [ne_eq, not_true_eq_false, if_false]
  have h1 : ¬ ['-', '1'] <+: w := head_ne h (by simp [follow]) _
  have h2 : ¬ ['+', '1'] <+: w := head_ne h (by simp [follow]) _
  simp only [match_none (cs := ['a', 'r', 'g', 'c']) (l := 'a' :: 'r' :: 'g' :: '#' :: w) (by simp [List.cons_prefix_cons]),
    match_none (cs := ['a', 'r', 'g', '#', '-', '1']) (l := 'a' :: 'r' :: 'g' :: '#' :: w) (by simpa [List.cons_prefix_cons] using h1),
    match_none (cs := ['a', 'r', 'g', '#', '+', '1']) (l := 'a' :: 'r' :: 'g' :: '#' :: w) (by simpa [List.cons_prefix_cons] using h2),
    match_self (l := 'a' :: 'r' :: 'g' :: '#' :: w) ['a', 'r', 'g', '#'] w rfl (fun c r e => ⟨(h c r e).1, (h c r e).2.1⟩)]

theorem loop_arg (n : Nat) (w : List Char) (a : Text) (args buf : List Text) (h : Follow .arg w) :
    loop L R total (n + 1) (Simple.arg.text ++ w) (a :: args) buf = loop L R total n w args (putArg a buf) := by
  simp only [Simple.text, List.cons_append, List.nil_append]
  conv_lhs => rw [loop.eq_def]
  simp only [ne_eq, not_true_eq_false, if_false]
  have h0 : ¬ ['c'] <+: w := head_ne h (by simp [follow, alpha]) _
  have h1 : ¬ ['#', '-', '1'] <+: w := head_ne h (by simp [follow]) _
  have h2 : ¬ ['#', '+', '1'] <+: w := head_ne h (by simp [follow]) _
  have h3 : ¬ ['#'] <+: w := head_ne h (by simp [follow]) _
  simp only [match_none (cs := ['a', 'r', 'g', 'c']) (l := 'a' :: 'r' :: 'g' :: w) (by simpa [List.cons_prefix_cons] using h0),
    match_none (cs := ['a', 'r', 'g', '#', '-', '1']) (l := 'a' :: 'r' :: 'g' :: w) (by simpa [List.cons_prefix_cons] using h1),
    match_none (cs := ['a', 'r', 'g', '#', '+', '1']) (l := 'a' :: 'r' :: 'g' :: w) (by simpa [List.cons_prefix_cons] using h2),
    match_none (cs := ['a', 'r', 'g', '#']) (l := 'a' :: 'r' :: 'g' :: w) (by simpa [List.cons_prefix_cons] using h3),
    match_self (l := 'a' :: 'r' :: 'g' :: w) ['a', 'r', 'g'] w rfl (fun c r e => ⟨(h c r e).1, (h c r e).2.1⟩)]

theorem loop_plain (n : Nat) (w : List Char) (a : Text) (args buf : List Text) (h : Follow .plain w) :
    loop L R total (n + 1) (Simple.plain.text ++ w) (a :: args) buf = loop L R total n w args (a :: buf) := by
  simp only [Simple.text, List.cons_append, List.nil_append]
  conv_lhs => rw [loop.eq_def]
  simp only [ne_eq, not_true_eq_false, if_false]
  have h0 : ∀ x, ¬ ('r' :: x) <+: w := head_ne h (by simp [follow, alpha])
  simp only [match_none (cs := ['a', 'r', 'g', 'c']) (l := 'a' :: w) (by simpa [List.cons_prefix_cons] using h0 _),
    match_none (cs := ['a', 'r', 'g', '#', '-', '1']) (l := 'a' :: w) (by simpa [List.cons_prefix_cons] using h0 _),
    match_none (cs := ['a', 'r', 'g', '#', '+', '1']) (l := 'a' :: w) (by simpa [List.cons_prefix_cons] using h0 _),
    match_none (cs := ['a', 'r', 'g', '#']) (l := 'a' :: w) (by simpa [List.cons_prefix_cons] using h0 _),
    match_none (cs := ['a', 'r', 'g']) (l := 'a' :: w) (by simpa [List.cons_prefix_cons] using h0 _),
    match_self (l := 'a' :: w) ['a'] w rfl (fun c r e => h c r e)]

/-- directives that do not begin with `a`. -/
theorem not_arg {d : Char} {w : List Char} (h : d ≠ 'a') (cs : List Char) : matchName some (d :: w) ('a' :: cs) = none :=
  match_none (by simpa [List.cons_prefix_cons] using fun e => absurd e.symm h)

theorem loop_live (n : Nat) (w : List Char) (args buf : List Text) (h : Follow .live w) :
    loop L R total (n + 1) (Simple.live.text ++ w) args buf = loop L R total n w args (L :: buf) := by
  simp only [Simple.text, List.cons_append, List.nil_append]
  conv_lhs => rw [loop.eq_def]
  simp only [ne_eq, not_true_eq_false, if_false]
  have h0 : ∀ cs w, matchName some ('l' :: w) ('a' :: cs) = none := fun cs w => not_arg (by decide) cs
  simp only [h0, match_self (l := 'l' :: 'i' :: 'v' :: 'e' :: w) ['l', 'i', 'v', 'e'] w rfl (fun c r e => h c r e)]

theorem loop_ret (n : Nat) (ws w : List Char) (args buf : List Text) (h : Follow (.ret ws) w) (hws : ∀ c ∈ ws, white c = true) :
    loop L R total (n + 1) ((Simple.ret ws).text ++ w) args buf = loop L R total n (putReturn R w buf).1 args (putReturn R w buf).2 := by
  simp only [Simple.text, List.cons_append, List.nil_append]
  conv_lhs => rw [loop.eq_def]
  simp only [ne_eq, not_true_eq_false, if_false]
  have h0 : ∀ cs w, matchName some ('r' :: w) ('a' :: cs) = none := fun cs w => not_arg (by decide) cs
  have h1 : matchName some ('r' :: 'e' :: 't' :: 'u' :: 'r' :: 'n' :: (ws ++ w)) ['l', 'i', 'v', 'e'] = none := match_none (by simp [List.cons_prefix_cons])
  have h2 : matchName some ('r' :: 'e' :: 't' :: 'u' :: 'r' :: 'n' :: (ws ++ w)) ['r', 'e', 't', 'u', 'r', 'n'] = some (ws ++ w) := by
    refine match_self _ _ rfl ?_
    intro c r e
    cases ws with
    | nil => exact (h c r e).2 rfl
    | cons d ws =>
      simp only [List.cons_append, List.cons.injEq] at e
      have := hws d List.mem_cons_self
      rw [← e.1]
      have key : ∀ c, white c = true → alpha c = false ∧ numeric c = false := by
        intro c hc
        simp only [white, Bool.or_eq_true, decide_eq_true_eq, Bool.and_eq_true] at hc
        rcases hc with rfl | hc
        · decide
        · simp only [alpha, numeric, Bool.or_eq_false_iff, Bool.and_eq_false_iff, decide_eq_false_iff_not]
          have e : ∀ d : Char, d ≤ c ↔ d.toNat ≤ c.toNat := fun d => Iff.rfl
          rw [e, e, e]
          have h1 : 'a'.toNat = 97 := rfl
          have h2 : 'A'.toNat = 65 := rfl
          have h3 : '0'.toNat = 48 := rfl
          rw [h1, h2, h3]
          refine ⟨⟨.inl (by omega), .inl (by omega)⟩, .inl (by omega)⟩
      exact key d this
  have h3 : (ws ++ w).dropWhile white = w := by
    rw [List.dropWhile_append_of_pos hws]
    cases w with
    | nil => rfl
    | cons c r => rw [List.dropWhile_cons_of_neg]; simp [(h c r rfl).1]
  simp only [h0, h1, h2, h3]

/-- directives that are not names. -/
theorem not_name {d : Char} (w : List Char) (h1 : d ≠ 'a') (h2 : d ≠ 'l') (h3 : d ≠ 'r') (n : Nat) (args buf : List Text) :
    loop L R total (n + 1) ('$' :: d :: w) args buf =
      if d = '$' then loop L R total n w args (.str ['$'] :: buf)
      else if d = '}' then some ⟨w, args, buf.reverse⟩
      else if d = '{' then
        match args with
        | [] =>
          match loop L R total n w (List.replicate 10 (.sym ['?'])) [] with
          | some res => loop L R total n res.rest [] buf
          | none => none
        | _ :: _ =>
          match loop L R total n w args [] with
          | some res => if res.args.length = args.length then none else loop L R total n ('$' :: d :: w) res.args (.lst res.text :: buf)
          | none => none
      else none := by
  conv_lhs => rw [loop.eq_def]
  simp only [ne_eq, not_true_eq_false, if_false]
  have h0 : ∀ cs, matchName some (d :: w) ('a' :: cs) = none := fun cs => not_arg h1 cs
  have h4 : ∀ cs, matchName some (d :: w) ('l' :: cs) = none := fun cs => match_none (by simpa [List.cons_prefix_cons] using fun e => absurd e.symm h2)
  have h5 : ∀ cs, matchName some (d :: w) ('r' :: cs) = none := fun cs => match_none (by simpa [List.cons_prefix_cons] using fun e => absurd e.symm h3)
  simp only [h0, h4, h5]
  cases args <;> rfl

theorem loop_dollar (n : Nat) (w : List Char) (args buf : List Text) :
    loop L R total (n + 1) (Simple.dollar.text ++ w) args buf = loop L R total n w args (.str ['$'] :: buf) := by
  simp only [Simple.text, List.cons_append, List.nil_append]
  rw [not_name w (by decide) (by decide) (by decide), if_pos rfl]

theorem ends_close (w : List Char) (args buf : List Text) : Ends L R total ('$' :: '}' :: w) args buf ⟨w, args, buf.reverse⟩ := by
  refine ⟨1, fun n hn => ?_⟩
  obtain ⟨m, rfl⟩ : ∃ m, n = m + 1 := ⟨n - 1, by omega⟩
  rw [not_name w (by decide) (by decide) (by decide), if_neg (by decide), if_pos rfl]

theorem ends_nil (args buf : List Text) : Ends L R total [] args buf ⟨[], args, buf.reverse⟩ := by
  refine ⟨1, fun n hn => ?_⟩
  obtain ⟨m, rfl⟩ : ∃ m, n = m + 1 := ⟨n - 1, by omega⟩
  rw [loop]

theorem ends_open_nil {w : List Char} {buf : List Text} {r1 res : Res} (h : Ends L R total w (List.replicate 10 (.sym ['?'])) [] r1)
    (h' : Ends L R total r1.rest [] buf res) : Ends L R total ('$' :: '{' :: w) [] buf res := by
  obtain ⟨n1, h⟩ := h
  obtain ⟨n2, h'⟩ := h'
  refine ⟨n1 + n2 + 1, fun n hn => ?_⟩
  obtain ⟨m, rfl⟩ : ∃ m, n = m + 1 := ⟨n - 1, by omega⟩
  rw [not_name w (by decide) (by decide) (by decide), if_neg (by decide), if_neg (by decide), if_pos rfl]
  simp only [h m (by omega), h' m (by omega)]

theorem ends_open_cons {w : List Char} {a : Text} {args buf : List Text} {r1 res : Res} (h : Ends L R total w (a :: args) [] r1)
    (hl : r1.args.length ≠ (a :: args).length)
    (h' : Ends L R total ('$' :: '{' :: w) r1.args (.lst r1.text :: buf) res) : Ends L R total ('$' :: '{' :: w) (a :: args) buf res := by
  obtain ⟨n1, h⟩ := h
  obtain ⟨n2, h'⟩ := h'
  refine ⟨n1 + n2 + 1, fun n hn => ?_⟩
  obtain ⟨m, rfl⟩ : ∃ m, n = m + 1 := ⟨n - 1, by omega⟩
  rw [not_name w (by decide) (by decide) (by decide), if_neg (by decide), if_neg (by decide), if_pos rfl]
  simp only [h m (by omega), if_neg hl, h' m (by omega)]

end Verif.Fmt
