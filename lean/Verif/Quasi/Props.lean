import Verif.Quasi.Spec
/-
C69: quasiquotation.
-/
namespace Verif.Quasi
variable {W : Type}

theorem only_some {b x : D} : only b = some x ↔ b = .pair x .nil := by
  unfold only
  split
  · rename_i y; constructor <;> intro h <;> simp_all
  · rename_i h; constructor
    · intro h'; cases h'
    · intro h'; exact absurd h' (h x)

theorem spliced_some {a x : D} : spliced a = some x ↔ a = .pair splicing (.pair x .nil) := by
  unfold spliced
  split
  · rename_i c d
    by_cases hc : c = splicing
    · subst hc; rw [if_pos rfl, only_some]; simp
    · rw [if_neg hc]; simp [hc]
  · rename_i h; constructor
    · intro h'; cases h'
    · intro h'; exact absurd h' (h _ _)

theorem qq_plain {n : Nat} {a b : D} (h1 : ¬ Special n a b) (h2 : ¬ Splice n a) : qq (.pair a b) n = .cons (qq a n) (qq b n) := by
  have e1 : (if a = unquote ∧ n = 0 then only b else none) = none := by
    split
    · rename_i h
      cases hb : only b with
      | none => rfl
      | some x => exact absurd ⟨.inr (.inl h.1), x, only_some.mp hb⟩ h1
    · rfl
  have e2 : (if n = 0 then spliced a else none) = none := by
    split
    · rename_i h
      cases hb : spliced a with
      | none => rfl
      | some x => exact absurd ⟨h, x, spliced_some.mp hb⟩ h2
    · rfl
  rw [qq, e1]
  simp only
  rw [e2]
  simp only
  rw [if_neg, if_neg]
  · rintro ⟨h3, h4, h5⟩
    obtain ⟨x, hx⟩ := Option.isSome_iff_exists.mp h4
    rcases h3 with h3 | h3
    · exact h1 ⟨.inr (.inl h3), x, only_some.mp hx⟩
    · exact h1 ⟨.inr (.inr ⟨h3, h5⟩), x, only_some.mp hx⟩
  · rintro ⟨h3, h4⟩
    obtain ⟨x, hx⟩ := Option.isSome_iff_exists.mp h4
    exact h1 ⟨.inl h3, x, only_some.mp hx⟩

theorem qq_unq (x : D) : qq (.pair unquote (.pair x .nil)) 0 = .exp x := rfl

theorem qq_splice (x b : D) : qq (.pair (.pair splicing (.pair x .nil)) b) 0 = if b = .nil then .exp x else .append x (qq b 0) := rfl

theorem qq_quasi (n : Nat) (x : D) : qq (.pair quasi (.pair x .nil)) n = .cons (.quote quasi) (qq (.pair x .nil) (n + 1)) := by
  rw [qq]
  rw [if_neg (by simp)]
  simp only
  have : (if n = 0 then spliced quasi else none) = none := by split <;> rfl
  rw [this]
  rfl

theorem qq_down (n : Nat) (k x : D) (hk : k = unquote ∨ k = splicing) (hn : n ≠ 0) : qq (.pair k (.pair x .nil)) n = .cons (.quote k) (qq (.pair x .nil) (n - 1)) := by
  rw [qq]
  rw [if_neg (by simp [hn])]
  simp only
  rw [if_neg hn]
  simp only
  have hq : k ≠ quasi := by rcases hk with rfl | rfl <;> simp
  rw [if_neg (by simp [hq]), if_pos ⟨hk, rfl, hn⟩]

theorem both_pure {α β : Type} (ltr : Bool) (a : α) (b : M W β) : both ltr (fun w => some (a, w)) b = fun w => (b w).map (fun y => ((a, y.1), y.2)) := by
  funext w
  unfold both
  cases ltr with
  | true => simp
  | false => cases h : b w <;> simp

theorem append_nil {d : D} : append d .nil = if isList d then some d else none := by
  induction d with
  | nil => rfl
  | sym | atom | vec => rfl
  | pair a b _ ih =>
    rw [append, ih, isList]
    cases isList b <;> simp

theorem append_list {d y e : D} (h : append d y = some e) : isList e = isList y := by
  induction d generalizing e with
  | nil => injection h with h; rw [h]
  | sym | atom | vec => cases h
  | pair a b _ ih =>
    rw [append] at h
    cases hb : append b y with
    | none => rw [hb] at h; cases h
    | some e' => rw [hb] at h; injection h with h; rw [← h, isList, ih hb]

/-- a computation whose value is a list. -/
def chk (a : M W D) : M W D := fun w => (a w).bind (fun r => if isList r.1 then some r else none)

theorem chk_pair (ltr : Bool) (a b : M W D) : chk (fun w => (both ltr a b w).map (fun r => (.pair r.1.1 r.1.2, r.2))) = fun w => (both ltr a (chk b) w).map (fun r => (.pair r.1.1 r.1.2, r.2)) := by
  funext w
  unfold chk both
  cases ltr with
  | true =>
    simp only [if_true]
    cases a w with
    | none => rfl
    | some x =>
      simp only [Option.bind_some]
      cases b x.2 with
      | none => rfl
      | some y =>
        simp only [Option.map_some, Option.bind_some, isList]
        by_cases hl : isList y.1 = true <;> simp [hl]
  | false =>
    simp only [Bool.false_eq_true, if_false]
    cases b w with
    | none => rfl
    | some y =>
      simp only [Option.bind_some]
      cases hl : isList y.1 with
      | true =>
        simp only [if_true, Option.bind_some]
        cases a y.2 with
        | none => rfl
        | some x => simp [isList, hl]
      | false =>
        simp only [Bool.false_eq_true, if_false, Option.bind_none, Option.map_none]
        cases a y.2 with
        | none => rfl
        | some x => simp [isList, hl]

theorem chk_append (ltr : Bool) (a b : M W D) : chk (fun w => (both ltr a b w).bind (fun r => (append r.1.1 r.1.2).map (fun d => (d, r.2)))) =
    fun w => (both ltr a (chk b) w).bind (fun r => (append r.1.1 r.1.2).map (fun d => (d, r.2))) := by
  funext w
  unfold chk both
  have key : ∀ x y : D, ∀ w : W, ((append x y).map (fun d => (d, w))).bind (fun r => if isList r.1 then some r else none) = if isList y then (append x y).map (fun d => (d, w)) else none := by
    intro x y w
    cases h : append x y with
    | none => simp
    | some e => simp only [Option.map_some, Option.bind_some, append_list h]
  cases ltr with
  | true =>
    simp only [if_true]
    cases a w with
    | none => rfl
    | some x =>
      simp only [Option.bind_some]
      cases b x.2 with
      | none => rfl
      | some y =>
        simp only [Option.map_some, Option.bind_some]
        rw [key]
        cases isList y.1 <;> simp
  | false =>
    simp only [Bool.false_eq_true, if_false]
    cases b w with
    | none => rfl
    | some y =>
      simp only [Option.bind_some]
      cases hl : isList y.1 with
      | true =>
        simp only [if_true, Option.bind_some]
        cases a y.2 with
        | none => rfl
        | some x => simp only [Option.map_some, Option.bind_some]; rw [key, hl]; rfl
      | false =>
        simp only [Bool.false_eq_true, if_false, Option.bind_none]
        cases a y.2 with
        | none => rfl
        | some x => simp only [Option.map_some, Option.bind_some]; rw [key, hl]; rfl

theorem print_nil {n : Nat} {b : T} (hb : b.Wf n) (h : b.print = .nil) : b = .atom .nil := by
  cases b <;> simp [T.print] at h
  rw [h]

theorem chk_exp (ltr : Bool) (a : M W D) : chk a = fun w => (both ltr a (fun w => some (D.nil, w)) w).bind (fun r => (append r.1.1 r.1.2).map (fun d => (d, r.2))) := by
  funext w
  unfold chk both
  cases ltr with
  | true =>
    simp only [if_true]
    cases a w with
    | none => rfl
    | some x => simp only [Option.bind_some, Option.map_some, append_nil]; cases isList x.1 <;> simp
  | false =>
    simp only [Bool.false_eq_true, if_false, Option.bind_some]
    cases a w with
    | none => rfl
    | some x => simp only [Option.bind_some, Option.map_some, append_nil]; cases isList x.1 <;> simp

theorem els_nil {es : Els} (h : es.print = .nil) : es = .nil := by
  cases es <;> simp [Els.print] at h
  rfl

theorem value_splice {ev : Ev W} {ltr : Bool} {x : D} {b : T} (h : b ≠ .atom .nil) :
    (T.splice x b).value ev ltr = fun w => (both ltr (ev x) (b.value ev ltr) w).bind (fun r => (append r.1.1 r.1.2).map (fun d => (d, r.2))) := by
  rw [T.value]
  exact h

mutual
theorem value_T (ev : Ev W) (ltr : Bool) : ∀ (t : T) (n : Nat), t.Wf n → t.Clear n → run ev ltr (qq t.print n) = t.value ev ltr
  | .atom d, n, h, _ => by
    have : qq d n = .quote d := by
      cases d with
      | nil | sym | atom => rfl
      | pair a b => exact absurd rfl (h.1 a b)
      | vec l => exact absurd rfl (h.2 l)
    rw [T.print, this]
    rfl
  | .pair a b, n, h, hc => by
    rw [T.Wf] at h
    rw [T.Clear] at hc
    rw [T.print, qq_plain h.2.2.1 h.2.2.2, run, value_T ev ltr a n h.1 hc.1, value_T ev ltr b n h.2.1 hc.2, T.value]
  | .unq x, n, h, _ => by
    rw [T.Wf] at h
    subst h
    rw [T.print, qq_unq, run, T.value]
  | .splice x b, n, h, hc => by
    rw [T.Wf] at h
    rw [T.Clear] at hc
    obtain ⟨rfl, hb⟩ := h
    rw [T.print, qq_splice]
    by_cases hn : b.print = .nil
    · rw [if_pos hn, print_nil hb hn]
      rfl
    · rw [if_neg hn, value_splice (by rintro rfl; exact hn rfl), run, value_T ev ltr b 0 hb hc]
  | .form k b, n, h, hc => by
    rw [T.Wf] at h
    rw [T.Clear] at hc
    obtain ⟨⟨x, hx⟩, h⟩ := h
    rw [T.print]
    rcases h with ⟨rfl, h⟩ | ⟨hk, hn, h⟩
    · rw [if_pos rfl] at hc
      have := value_T ev ltr b (n + 1) h hc
      rw [hx] at this ⊢
      rw [qq_quasi, run, this, T.value]
      simp only [run, both_pure, Option.map_map]
      rfl
    · rw [if_neg (by rcases hk with rfl | rfl <;> simp)] at hc
      have := value_T ev ltr b (n - 1) h hc
      rw [hx] at this ⊢
      rw [qq_down n k x hk hn, run, this, T.value]
      simp only [run, both_pure, Option.map_map]
      rfl
  | .vec es, n, h, hc => by
    rw [T.Wf] at h
    rw [T.Clear] at hc
    rw [T.print, qq, run, T.value, ← value_Els ev ltr es n h hc]
    funext w
    unfold chk
    cases run ev ltr (qq es.print n) w with
    | none => rfl
    | some r => simp only [Option.bind_some]; cases isList r.1 <;> simp
theorem value_Els (ev : Ev W) (ltr : Bool) : ∀ (es : Els) (n : Nat), es.Wf n → es.Clear n → chk (run ev ltr (qq es.print n)) = es.value ev ltr
  | .nil, n, _, _ => by
    rw [Els.print, Els.value, qq]
    · rfl
    · simp
    · simp
  | .one t es, n, h, hc => by
    rw [Els.Wf] at h
    rw [Els.Clear] at hc
    rw [Els.print, qq_plain hc.2.2 h.2.1, run, chk_pair, value_T ev ltr t n h.1 hc.1, value_Els ev ltr es n h.2.2 hc.2.1, Els.value]
  | .splice x es, n, h, hc => by
    rw [Els.Wf] at h
    rw [Els.Clear] at hc
    obtain ⟨rfl, hb⟩ := h
    rw [Els.print, qq_splice]
    by_cases hn : es.print = .nil
    · rw [if_pos hn, els_nil hn, Els.value, Els.value]
      exact chk_exp ltr (ev x)
    · rw [if_neg hn, run, chk_append, value_Els ev ltr es 0 hb hc, Els.value]
end

/-- C69.  The expansion of a template has the value of the template, with the same effects, for any order of evaluation of operands; missing: templates with vectors that end in two
elements that look like a form (`#(unquote x)`). -/
theorem c69_quasiquote_partial (ev : Ev W) (ltr : Bool) (t : T) (h : t.Wf 0) (hc : t.Clear 0) : run ev ltr (qq t.print 0) = t.value ev ltr :=
  value_T ev ltr t 0 h hc

/-- nested templates, at any level. -/
theorem c69_nested_partial (ev : Ev W) (ltr : Bool) (n : Nat) (t : T) (h : t.Wf n) (hc : t.Clear n) : run ev ltr (qq t.print n) = t.value ev ltr :=
  value_T ev ltr t n h hc

/-- `#(unquote x)`: the value of `x` is made a vector, the symbols are lost. -/
theorem c69_counterexample : ¬ C69Full := by
  intro h
  let t : T := .vec (.one (.atom unquote) (.one (.atom (.sym 7)) .nil))
  have hw : t.Wf 0 := by
    simp only [t, T.Wf, Els.Wf, T.print, Splice]
    simp
  have := h Unit (fun _ w => some (.pair (.atom 3) .nil, w)) true t hw
  have := congrFun this ()
  simp [t, T.print, Els.print, qq, only, run, isList, T.value, Els.value, both] at this

/-! ### every datum is a template, in one way -/

theorem special_dec (n : Nat) (a b : D) : Special n a b ∨ ¬ Special n a b := Classical.em _

mutual
theorem exists_T : ∀ (d : D) (n : Nat), Proper d → ∃ t : T, t.Wf n ∧ t.print = d
  | .nil, n, _ => ⟨.atom .nil, by simp [T.Wf], rfl⟩
  | .sym s, n, _ => ⟨.atom (.sym s), by simp [T.Wf], rfl⟩
  | .atom a, n, _ => ⟨.atom (.atom a), by simp [T.Wf], rfl⟩
  | .vec l, n, h => by
    obtain ⟨es, h1, h2⟩ := exists_Els l n h.1 h.2
    exact ⟨.vec es, by rw [T.Wf]; exact h1, by rw [T.print, h2]⟩
  | .pair a b, n, h => by
    by_cases hs : Special n a b
    · obtain ⟨hk, x, rfl⟩ := hs
      have hd : ∀ m, ∃ t : T, t.Wf m ∧ t.print = .pair x .nil := fun m => exists_T (.pair x .nil) m h.2
      rcases hk with rfl | rfl | ⟨rfl, hn⟩
      · obtain ⟨t, h1, h2⟩ := hd (n + 1)
        exact ⟨.form quasi t, by rw [T.Wf]; exact ⟨⟨x, h2⟩, .inl ⟨rfl, h1⟩⟩, by rw [T.print, h2]⟩
      · by_cases hn : n = 0
        · subst hn
          exact ⟨.unq x, by rw [T.Wf], rfl⟩
        · obtain ⟨t, h1, h2⟩ := hd (n - 1)
          exact ⟨.form unquote t, by rw [T.Wf]; exact ⟨⟨x, h2⟩, .inr ⟨.inl rfl, hn, h1⟩⟩, by rw [T.print, h2]⟩
      · obtain ⟨t, h1, h2⟩ := hd (n - 1)
        exact ⟨.form splicing t, by rw [T.Wf]; exact ⟨⟨x, h2⟩, .inr ⟨.inr rfl, hn, h1⟩⟩, by rw [T.print, h2]⟩
    · obtain ⟨tb, h3, h4⟩ := exists_T b n h.2
      by_cases hp : Splice n a
      · obtain ⟨hn, x, rfl⟩ := hp
        exact ⟨.splice x tb, by rw [T.Wf]; exact ⟨hn, h3⟩, by rw [T.print, h4]⟩
      · obtain ⟨ta, h1, h2⟩ := exists_T a n h.1
        exact ⟨.pair ta tb, by rw [T.Wf, h2, h4]; exact ⟨h1, h3, hs, hp⟩, by rw [T.print, h2, h4]⟩
theorem exists_Els : ∀ (d : D) (n : Nat), Proper d → isList d = true → ∃ es : Els, es.Wf n ∧ es.print = d
  | .nil, n, _, _ => ⟨.nil, by simp [Els.Wf], rfl⟩
  | .sym _, _, _, h => by simp [isList] at h
  | .atom _, _, _, h => by simp [isList] at h
  | .vec _, _, _, h => by simp [isList] at h
  | .pair a b, n, h, hl => by
    obtain ⟨es, h3, h4⟩ := exists_Els b n h.2 hl
    by_cases hp : Splice n a
    · obtain ⟨hn, x, rfl⟩ := hp
      exact ⟨.splice x es, by rw [Els.Wf]; exact ⟨hn, h3⟩, by rw [Els.print, h4]⟩
    · obtain ⟨ta, h1, h2⟩ := exists_T a n h.1
      exact ⟨.one ta es, by rw [Els.Wf, h2]; exact ⟨h1, hp, h3⟩, by rw [Els.print, h2, h4]⟩
end

/-- every datum can be read as a template, at every level. -/
theorem c69_every_datum (d : D) (n : Nat) (h : Proper d) : ∃ t : T, t.Wf n ∧ t.print = d := exists_T d n h

mutual
theorem unique_T : ∀ (t : T) (n : Nat) (t' : T), t.Wf n → t'.Wf n → t.print = t'.print → t = t'
  | .atom d, n, t', h, h', he => by
    rw [T.print] at he
    rw [T.Wf] at h
    cases t' with
    | atom d' => rw [he]; rfl
    | vec es => exact absurd he (h.2 _)
    | _ => exact absurd he (h.1 _ _)
  | .pair a b, n, t', h, h', he => by
    rw [T.Wf] at h
    cases t' with
    | atom d' => rw [T.Wf] at h'; exact absurd he.symm (h'.1 _ _)
    | pair a' b' =>
      rw [T.Wf] at h'
      simp only [T.print, D.pair.injEq] at he
      rw [unique_T a n a' h.1 h'.1 he.1, unique_T b n b' h.2.1 h'.2.1 he.2]
    | unq x =>
      simp only [T.print, D.pair.injEq] at he
      exact absurd ⟨.inr (.inl he.1), x, he.2⟩ h.2.2.1
    | splice x b' =>
      simp only [T.print, D.pair.injEq] at he
      rw [T.Wf] at h'
      exact absurd ⟨h'.1, x, he.1⟩ h.2.2.2
    | form k b' =>
      simp only [T.print, D.pair.injEq] at he
      rw [T.Wf] at h'
      obtain ⟨⟨x, hx⟩, h'⟩ := h'
      refine absurd ⟨?_, x, he.2.trans hx⟩ h.2.2.1
      rcases h' with ⟨hk, _⟩ | ⟨hk | hk, hn, _⟩
      · exact .inl (he.1.trans hk)
      · exact .inr (.inl (he.1.trans hk))
      · exact .inr (.inr ⟨he.1.trans hk, hn⟩)
    | vec es => simp [T.print] at he
  | .unq x, n, t', h, h', he => by
    rw [T.Wf] at h
    subst h
    cases t' with
    | atom d' => rw [T.Wf] at h'; exact absurd he.symm (h'.1 _ _)
    | pair a' b' =>
      rw [T.Wf] at h'
      simp only [T.print, D.pair.injEq] at he
      exact absurd ⟨.inr (.inl he.1.symm), x, he.2.symm⟩ h'.2.2.1
    | unq x' => simp only [T.print, D.pair.injEq] at he; rw [he.2.1]
    | splice x b' => simp [T.print] at he
    | form k b' =>
      simp only [T.print, D.pair.injEq] at he
      rw [T.Wf] at h'
      rcases h'.2 with ⟨hk, _⟩ | ⟨_, hn, _⟩
      · rw [hk] at he; exact absurd he.1 (by decide)
      · exact absurd rfl hn
    | vec es => simp [T.print] at he
  | .splice x b, n, t', h, h', he => by
    rw [T.Wf] at h
    cases t' with
    | atom d' => rw [T.Wf] at h'; exact absurd he.symm (h'.1 _ _)
    | pair a' b' =>
      rw [T.Wf] at h'
      simp only [T.print, D.pair.injEq] at he
      exact absurd ⟨h.1, x, he.1.symm⟩ h'.2.2.2
    | unq x' => simp [T.print] at he
    | splice x' b' =>
      rw [T.Wf] at h'
      simp only [T.print, D.pair.injEq] at he
      rw [unique_T b n b' h.2 h'.2 he.2, he.1.2.1]
    | form k b' =>
      simp only [T.print, D.pair.injEq] at he
      rw [T.Wf] at h'
      rcases h'.2 with ⟨hk, _⟩ | ⟨hk | hk, _, _⟩ <;> rw [hk] at he <;> exact absurd he.1 (by simp)
    | vec es => simp [T.print] at he
  | .form k b, n, t', h, h', he => by
    rw [T.Wf] at h
    obtain ⟨⟨x, hx⟩, h⟩ := h
    have hk : k = quasi ∨ k = unquote ∨ (k = splicing ∧ n ≠ 0) := by
      rcases h with ⟨hk, _⟩ | ⟨hk | hk, hn, _⟩
      · exact .inl hk
      · exact .inr (.inl hk)
      · exact .inr (.inr ⟨hk, hn⟩)
    cases t' with
    | atom d' => rw [T.Wf] at h'; exact absurd he.symm (h'.1 _ _)
    | pair a' b' =>
      rw [T.Wf] at h'
      simp only [T.print, D.pair.injEq] at he
      rw [← he.1, ← he.2] at h'
      exact absurd ⟨hk, x, hx⟩ h'.2.2.1
    | unq x' =>
      simp only [T.print, D.pair.injEq] at he
      rw [T.Wf] at h'
      rcases h with ⟨hk, _⟩ | ⟨_, hn, _⟩
      · rw [hk] at he; exact absurd he.1 (by decide)
      · exact absurd h' hn
    | splice x' b' =>
      simp only [T.print, D.pair.injEq] at he
      rcases hk with hk | hk | ⟨hk, _⟩ <;> rw [hk] at he <;> exact absurd he.1 (by simp)
    | form k' b' =>
      rw [T.Wf] at h'
      simp only [T.print, D.pair.injEq] at he
      obtain ⟨rfl, he⟩ := he
      rcases h with ⟨rfl, h⟩ | ⟨hk2, hn, h⟩
      · rcases h'.2 with ⟨_, h'⟩ | ⟨hk', _⟩
        · rw [unique_T b (n + 1) b' h h' he]
        · simp at hk'
      · rcases h'.2 with ⟨rfl, _⟩ | ⟨_, _, h'⟩
        · simp at hk2
        · rw [unique_T b (n - 1) b' h h' he]
    | vec es => simp [T.print] at he
  | .vec es, n, t', h, h', he => by
    cases t' with
    | atom d' => rw [T.Wf] at h'; exact absurd he.symm (h'.2 _)
    | vec es' =>
      rw [T.Wf] at h h'
      simp only [T.print, D.vec.injEq] at he
      rw [unique_Els es n es' h h' he]
    | _ => simp [T.print] at he
theorem unique_Els : ∀ (es : Els) (n : Nat) (es' : Els), es.Wf n → es'.Wf n → es.print = es'.print → es = es'
  | .nil, n, es', h, h', he => (els_nil he.symm).symm
  | .one t es, n, es', h, h', he => by
    rw [Els.Wf] at h
    cases es' with
    | nil => simp [Els.print] at he
    | one t' es' =>
      rw [Els.Wf] at h'
      simp only [Els.print, D.pair.injEq] at he
      rw [unique_T t n t' h.1 h'.1 he.1, unique_Els es n es' h.2.2 h'.2.2 he.2]
    | splice x es' =>
      rw [Els.Wf] at h'
      simp only [Els.print, D.pair.injEq] at he
      exact absurd ⟨h'.1, x, he.1⟩ h.2.1
  | .splice x es, n, es', h, h', he => by
    rw [Els.Wf] at h
    cases es' with
    | nil => simp [Els.print] at he
    | one t' es' =>
      rw [Els.Wf] at h'
      simp only [Els.print, D.pair.injEq] at he
      exact absurd ⟨h.1, x, he.1.symm⟩ h'.2.1
    | splice x' es' =>
      rw [Els.Wf] at h'
      simp only [Els.print, D.pair.injEq] at he
      rw [he.1.2.1, unique_Els es n es' h.2 h'.2 he.2]
end

/-- a datum is read as a template in one way only. -/
theorem c69_unique (n : Nat) (t t' : T) (h : t.Wf n) (h' : t'.Wf n) (he : t.print = t'.print) : t = t' := unique_T t n t' h h' he

/-! ### examples -/

section
/-- symbols evaluate to lists of numbers; each evaluation is recorded. -/
private def ev : Ev (List Nat) := fun d w =>
  match d with
  | .sym n => some (.pair (.atom n) (.pair (.atom (n + 1)) .nil), w ++ [n])
  | _ => none

/-- `` `(1 ,x #(,@y 2) . ,@z) `` -/
private def ex1 : T :=
  .pair (.atom (.atom 1)) (.pair (.unq (.sym 10)) (.pair (.vec (.splice (.sym 20) (.one (.atom (.atom 2)) .nil))) (.splice (.sym 30) (.atom .nil))))

example : ex1.Wf 0 ∧ ex1.Clear 0 := by
  simp [ex1, T.Wf, Els.Wf, T.Clear, Els.Clear, Special, Splice, T.print, Els.print]

example : ex1.value ev true [] = some (.pair (.atom 1) (.pair (.pair (.atom 10) (.pair (.atom 11) .nil)) (.pair (.vec (.pair (.atom 20) (.pair (.atom 21) (.pair (.atom 2) .nil))))
    (.pair (.atom 30) (.pair (.atom 31) .nil)))), [10, 20, 30]) := rfl

/-- `` `(`(,,@x)) `` -/
private def ex2 : T := .pair (.form quasi (.pair (.pair (.form unquote (.splice (.sym 10) (.atom .nil))) (.atom .nil)) (.atom .nil))) (.atom .nil)

example : ex2.Wf 0 ∧ ex2.Clear 0 := by
  simp [ex2, T.Wf, T.Clear, Special, Splice, T.print]

example : run ev true (qq ex2.print 0) [] = some (.pair (.pair quasi (.pair (.pair (.pair unquote (.pair (.atom 10) (.pair (.atom 11) .nil))) .nil) .nil)) .nil, [10]) := rfl

example : Proper (.vec (.pair (.sym 4) .nil)) := ⟨⟨trivial, trivial⟩, rfl⟩
end

end Verif.Quasi
