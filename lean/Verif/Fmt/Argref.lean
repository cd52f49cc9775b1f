import Verif.Fmt.Direct
/-
The C type of an operand, read off the template.
-/
namespace Verif.Fmt
variable {L R : Text} {total : Nat}

/-- the text since the last `$`. -/
def runOf : List Char → List Simple → List Char
  | run, [] => run
  | run, .lit c :: l => runOf (run ++ [c]) l
  | _, s :: l => runOf s.text.tail l

/-- the type before `_from_` at the end of a text. -/
def typeAtEnd (bd : List Char) : Option (List Char) :=
  if !endsWith bd "_from_".toList then none
  else
    let s := (bd.take (bd.length - 6)).reverse
    some (s.take (spanCi s)).reverse

theorem spanCi_eq (s : List Char) : s.take (spanCi s) = s.takeWhile identChar := by
  induction s with
  | nil => rfl
  | cons c s ih => rw [spanCi, List.takeWhile_cons]; split <;> simp [ih]

theorem typeAtEnd_iff (bd T : List Char) : typeAtEnd bd = some T ↔
    ∃ x, bd = x ++ (T ++ "_from_".toList) ∧ (∀ c ∈ T, identChar c = true) ∧ Edge identChar true x := by
  unfold typeAtEnd
  by_cases h : "_from_".toList <:+ bd
  · obtain ⟨b, rfl⟩ := h
    have he : endsWith (b ++ "_from_".toList) "_from_".toList = true := (endsWith_iff _ _).mpr (List.suffix_append _ _)
    have ht : (b ++ "_from_".toList).take ((b ++ "_from_".toList).length - 6) = b := by simp
    simp only [he, Bool.not_true, Bool.false_eq_true, if_false, ht, spanCi_eq, Option.some.injEq]
    constructor
    · rintro rfl
      refine ⟨(b.reverse.dropWhile identChar).reverse, ?_, ?_, ?_⟩
      · rw [← List.append_assoc, ← List.reverse_append, List.takeWhile_append_dropWhile, List.reverse_reverse]
      · intro c hc; exact mem_takeWhile _ _ _ (List.mem_reverse.mp hc)
      · cases hd : b.reverse.dropWhile identChar with
        | nil => exact .inl ⟨rfl, rfl⟩
        | cons c r =>
          refine .inr ⟨r.reverse, c, by simp, ?_⟩
          have := List.head?_dropWhile_not identChar b.reverse
          rw [hd] at this
          simpa using this
    · rintro ⟨x, e, hT, hx⟩
      rw [← List.append_assoc] at e
      have e := (List.append_inj' e rfl).1
      subst e
      rw [List.reverse_append, List.takeWhile_append_of_pos (by intro c hc; exact hT c (List.mem_reverse.mp hc))]
      have : x.reverse.takeWhile identChar = [] := by
        rcases hx with ⟨rfl, _⟩ | ⟨q, c, rfl, hc⟩
        · rfl
        · rw [List.reverse_append]; simp [hc]
      rw [this]; simp
  · have he : endsWith bd "_from_".toList = false := by rw [Bool.eq_false_iff, ne_eq, endsWith_iff]; exact h
    simp only [he, Bool.not_false, if_true, reduceCtorEq, false_iff]
    rintro ⟨x, rfl, _⟩
    exact h ⟨x ++ T, by simp⟩

theorem sw_false {s p : List Char} (h : ¬ p <+: s) : startsWith s p = false := by
  rw [Bool.eq_false_iff, ne_eq, startsWith_iff]; exact h
theorem sw_true {s p : List Char} (h : p <+: s) : startsWith s p = true := (startsWith_iff _ _).mpr h

/-- parts that `c-argref-ctype` counts in the right way. -/
def Counted (s : Simple) : Prop := s ≠ .plain ∧ s ≠ .dollar

theorem go_spec (post : List Simple) : ∀ (pre : List Simple) (e : Bool) (p : Option Simple) (run : List Char) (m : Nat), Seq e p (pre ++ .arg :: post) →
    (∀ s ∈ pre, Counted s) → '$' ∉ run → pre.length + 1 ≤ m →
    argrefCtype.go m (run ++ (pre ++ .arg :: post).flatMap Simple.text) ((pre.map Simple.nargs).sum) = typeAtEnd (runOf run pre) := by
  intro pre
  induction pre with
  | nil =>
    intro e p run m hseq _ hrun hm
    obtain ⟨m, rfl⟩ : ∃ k, m = k + 1 := ⟨m - 1, by simp at hm; omega⟩
    have hfol := wf_follow hseq.2.2.2.wf (.inl (.inl rfl) : Nx _ _ [])
    rw [unparse_map, List.append_nil] at hfol
    have h0 : ¬ ['c'] <+: post.flatMap Simple.text := head_ne hfol (by simp [follow, alpha]) _
    have h1 : ¬ ['#'] <+: post.flatMap Simple.text := head_ne hfol (by simp [follow]) _
    simp only [List.nil_append, List.flatMap_cons, Simple.text, List.cons_append]
    obtain ⟨hb, ha⟩ := before_eq (a := 'a' :: 'r' :: 'g' :: post.flatMap Simple.text) hrun
    rw [argrefCtype.go]
    simp only [hb, ha]
    rw [sw_false (by simp [List.cons_prefix_cons]), sw_false (by simp [List.cons_prefix_cons]),
      sw_false (by simpa [List.cons_prefix_cons] using h0), sw_false (by simpa [List.cons_prefix_cons] using h1),
      sw_true (by simp [List.cons_prefix_cons])]
    simp [typeAtEnd, runOf]
  | cons s pre ih =>
    intro e p run m hseq hc hrun hm
    have hc' : ∀ s ∈ pre, Counted s := fun s hs => hc s (List.mem_cons_of_mem _ hs)
    have hcs := hc s List.mem_cons_self
    by_cases hlit : ∃ c, s = .lit c
    · obtain ⟨c, rfl⟩ := hlit
      have := ih _ _ (run ++ [c]) m hseq.2.2.2 hc' (by
        simp only [List.mem_append, List.mem_singleton, not_or]
        exact ⟨hrun, fun h => hseq.2.1 h.symm⟩) (by simp at hm; omega)
      simpa [runOf, Simple.text, Simple.nargs] using this
    · obtain ⟨m, rfl⟩ : ∃ k, m = k + 1 := ⟨m - 1, by simp at hm; omega⟩
      have hm' : pre.length + 1 ≤ m := by simp at hm; omega
      have hfol := wf_follow hseq.2.2.2.wf (.inl (.inl rfl) : Nx _ _ [])
      rw [unparse_map, List.append_nil] at hfol
      have next := fun run' (h : '$' ∉ run') => ih _ _ run' m hseq.2.2.2 hc' h hm'
      set w := (pre ++ .arg :: post).flatMap Simple.text with hw
      have htext : ∀ r, s.text = '$' :: r → (s :: pre ++ .arg :: post).flatMap Simple.text = '$' :: (r ++ w) := by
        intro r hr; simp [hr, hw]
      cases s with
      | lit c => exact absurd ⟨c, rfl⟩ hlit
      | plain => exact absurd rfl hcs.1
      | dollar => exact absurd rfl hcs.2
      | arg =>
        have h0 : ¬ ['c'] <+: w := head_ne hfol (by simp [follow, alpha]) _
        have h1 : ¬ ['#'] <+: w := head_ne hfol (by simp [follow]) _
        rw [htext _ rfl]
        obtain ⟨hb, ha⟩ := before_eq (a := ['a', 'r', 'g'] ++ w) hrun
        rw [argrefCtype.go]
        simp only [hb, ha]
        rw [sw_false (by simp [List.cons_prefix_cons]), sw_false (by simp [List.cons_prefix_cons]),
          sw_false (by simpa [List.cons_prefix_cons] using h0), sw_false (by simpa [List.cons_prefix_cons] using h1),
          sw_true (by simp [List.cons_prefix_cons])]
        have := next ['a', 'r', 'g'] (by decide)
        simp only [List.map_cons, List.sum_cons, Simple.nargs, runOf, Simple.text, List.tail_cons]
        have hn : 1 + (pre.map Simple.nargs).sum - 1 = (pre.map Simple.nargs).sum := by omega
        have hn' : 1 + (pre.map Simple.nargs).sum > 0 := by omega
        simp only [Bool.not_true, Bool.false_eq_true, if_false, hn', if_true, hn]
        exact this
      | argc =>
        rw [htext _ rfl]
        obtain ⟨hb, ha⟩ := before_eq (a := ['a', 'r', 'g', 'c'] ++ w) hrun
        rw [argrefCtype.go]
        simp only [hb, ha]
        rw [sw_false (by simp [List.cons_prefix_cons]), sw_false (by simp [List.cons_prefix_cons]), sw_true (by simp [List.cons_prefix_cons])]
        simpa [runOf, Simple.text, Simple.nargs] using next ['a', 'r', 'g', 'c'] (by decide)
      | argNo =>
        rw [htext _ rfl]
        obtain ⟨hb, ha⟩ := before_eq (a := ['a', 'r', 'g', '#'] ++ w) hrun
        rw [argrefCtype.go]
        simp only [hb, ha]
        rw [sw_false (by simp [List.cons_prefix_cons]), sw_false (by simp [List.cons_prefix_cons]), sw_false (by simp [List.cons_prefix_cons]),
          sw_true (by simp [List.cons_prefix_cons])]
        simpa [runOf, Simple.text, Simple.nargs] using next ['a', 'r', 'g', '#'] (by decide)
      | prev =>
        rw [htext _ rfl]
        obtain ⟨hb, ha⟩ := before_eq (a := ['a', 'r', 'g', '#', '-', '1'] ++ w) hrun
        rw [argrefCtype.go]
        simp only [hb, ha]
        rw [sw_false (by simp [List.cons_prefix_cons]), sw_false (by simp [List.cons_prefix_cons]), sw_false (by simp [List.cons_prefix_cons]),
          sw_true (by simp [List.cons_prefix_cons])]
        simpa [runOf, Simple.text, Simple.nargs] using next ['a', 'r', 'g', '#', '-', '1'] (by decide)
      | next =>
        rw [htext _ rfl]
        obtain ⟨hb, ha⟩ := before_eq (a := ['a', 'r', 'g', '#', '+', '1'] ++ w) hrun
        rw [argrefCtype.go]
        simp only [hb, ha]
        rw [sw_false (by simp [List.cons_prefix_cons]), sw_false (by simp [List.cons_prefix_cons]), sw_false (by simp [List.cons_prefix_cons]),
          sw_true (by simp [List.cons_prefix_cons])]
        simpa [runOf, Simple.text, Simple.nargs] using next ['a', 'r', 'g', '#', '+', '1'] (by decide)
      | live =>
        rw [htext _ rfl]
        obtain ⟨hb, ha⟩ := before_eq (a := ['l', 'i', 'v', 'e'] ++ w) hrun
        rw [argrefCtype.go]
        simp only [hb, ha]
        rw [sw_false (by simp [List.cons_prefix_cons]), sw_false (by simp [List.cons_prefix_cons]), sw_false (by simp [List.cons_prefix_cons]),
          sw_false (by simp [List.cons_prefix_cons]), sw_false (by simp [List.cons_prefix_cons])]
        simpa [runOf, Simple.text, Simple.nargs] using next ['l', 'i', 'v', 'e'] (by decide)
      | ret ws =>
        rw [htext ('r' :: 'e' :: 't' :: 'u' :: 'r' :: 'n' :: ws) rfl]
        obtain ⟨hb, ha⟩ := before_eq (a := 'r' :: 'e' :: 't' :: 'u' :: 'r' :: 'n' :: (ws ++ w)) hrun
        have hv : ∀ c ∈ ws, white c = true := hseq.2.1
        rw [argrefCtype.go]
        simp only [List.cons_append, hb, ha]
        rw [sw_false (by simp [List.cons_prefix_cons]), sw_false (by simp [List.cons_prefix_cons]), sw_false (by simp [List.cons_prefix_cons]),
          sw_false (by simp [List.cons_prefix_cons]), sw_false (by simp [List.cons_prefix_cons])]
        have := next (['r', 'e', 't', 'u', 'r', 'n'] ++ ws) (by
          rw [List.mem_append, not_or]
          exact ⟨by decide, fun h => by have := hv _ h; revert this; decide⟩)
        simpa [runOf, Simple.text, Simple.nargs] using this

/-- `c-argref-ctype` goes past parts of the template. -/
theorem go_pre (z : List Char) (k q : Nat) : ∀ (pre : List Simple) (e : Bool) (p : Option Simple) (run : List Char) (m : Nat), Seq e p pre →
    (∀ s ∈ pre, Counted s) → '$' ∉ run → pre.length + q ≤ m →
    ∃ m', q ≤ m' ∧ '$' ∉ runOf run pre ∧ argrefCtype.go m (run ++ (pre.flatMap Simple.text ++ '$' :: z)) ((pre.map Simple.nargs).sum + k) = argrefCtype.go m' (runOf run pre ++ '$' :: z) k := by
  intro pre
  induction pre with
  | nil =>
    intro e p run m hseq _ hrun hm
    exact ⟨m, by simpa using hm, hrun, by simp [runOf]⟩
  | cons s pre ih =>
    intro e p run m hseq hc hrun hm
    have hc' : ∀ s ∈ pre, Counted s := fun s hs => hc s (List.mem_cons_of_mem _ hs)
    have hcs := hc s List.mem_cons_self
    by_cases hlit : ∃ c, s = .lit c
    · obtain ⟨c, rfl⟩ := hlit
      have := ih _ _ (run ++ [c]) m hseq.2.2.2 hc' (by
        simp only [List.mem_append, List.mem_singleton, not_or]
        exact ⟨hrun, fun h => hseq.2.1 h.symm⟩) (by simp at hm; omega)
      simpa [runOf, Simple.text, Simple.nargs] using this
    · obtain ⟨m, rfl⟩ : ∃ k, m = k + 1 := ⟨m - 1, by simp at hm; omega⟩
      have hm' : pre.length + q ≤ m := by simp at hm; omega
      have hfol := wf_follow (z := '$' :: z) hseq.2.2.2.wf (.inl (.inr ⟨_, rfl⟩))
      rw [unparse_map] at hfol
      have next := fun run' (h : '$' ∉ run') => ih _ _ run' m hseq.2.2.2 hc' h hm'
      set w := pre.flatMap Simple.text ++ '$' :: z with hw
      have htext : ∀ r, s.text = '$' :: r → (s :: pre).flatMap Simple.text ++ '$' :: z = '$' :: (r ++ w) := by
        intro r hr; simp [hr, hw]
      cases s with
      | lit c => exact absurd ⟨c, rfl⟩ hlit
      | plain => exact absurd rfl hcs.1
      | dollar => exact absurd rfl hcs.2
      | arg =>
        have h0 : ¬ ['c'] <+: w := head_ne hfol (by simp [follow, alpha]) _
        have h1 : ¬ ['#'] <+: w := head_ne hfol (by simp [follow]) _
        rw [htext _ rfl]
        obtain ⟨hb, ha⟩ := before_eq (a := ['a', 'r', 'g'] ++ w) hrun
        rw [argrefCtype.go]
        simp only [hb, ha]
        rw [sw_false (by simp [List.cons_prefix_cons]), sw_false (by simp [List.cons_prefix_cons]),
          sw_false (by simpa [List.cons_prefix_cons] using h0), sw_false (by simpa [List.cons_prefix_cons] using h1),
          sw_true (by simp [List.cons_prefix_cons])]
        have := next ['a', 'r', 'g'] (by decide)
        simp only [List.map_cons, List.sum_cons, Simple.nargs, runOf, Simple.text, List.tail_cons]
        have hn : 1 + (pre.map Simple.nargs).sum + k - 1 = (pre.map Simple.nargs).sum + k := by omega
        have hn' : 1 + (pre.map Simple.nargs).sum + k > 0 := by omega
        simp only [Bool.not_true, Bool.false_eq_true, if_false, hn', if_true, hn]
        exact this
      | argc =>
        rw [htext _ rfl]
        obtain ⟨hb, ha⟩ := before_eq (a := ['a', 'r', 'g', 'c'] ++ w) hrun
        rw [argrefCtype.go]
        simp only [hb, ha]
        rw [sw_false (by simp [List.cons_prefix_cons]), sw_false (by simp [List.cons_prefix_cons]), sw_true (by simp [List.cons_prefix_cons])]
        simpa [runOf, Simple.text, Simple.nargs] using next ['a', 'r', 'g', 'c'] (by decide)
      | argNo =>
        rw [htext _ rfl]
        obtain ⟨hb, ha⟩ := before_eq (a := ['a', 'r', 'g', '#'] ++ w) hrun
        rw [argrefCtype.go]
        simp only [hb, ha]
        rw [sw_false (by simp [List.cons_prefix_cons]), sw_false (by simp [List.cons_prefix_cons]), sw_false (by simp [List.cons_prefix_cons]),
          sw_true (by simp [List.cons_prefix_cons])]
        simpa [runOf, Simple.text, Simple.nargs] using next ['a', 'r', 'g', '#'] (by decide)
      | prev =>
        rw [htext _ rfl]
        obtain ⟨hb, ha⟩ := before_eq (a := ['a', 'r', 'g', '#', '-', '1'] ++ w) hrun
        rw [argrefCtype.go]
        simp only [hb, ha]
        rw [sw_false (by simp [List.cons_prefix_cons]), sw_false (by simp [List.cons_prefix_cons]), sw_false (by simp [List.cons_prefix_cons]),
          sw_true (by simp [List.cons_prefix_cons])]
        simpa [runOf, Simple.text, Simple.nargs] using next ['a', 'r', 'g', '#', '-', '1'] (by decide)
      | next =>
        rw [htext _ rfl]
        obtain ⟨hb, ha⟩ := before_eq (a := ['a', 'r', 'g', '#', '+', '1'] ++ w) hrun
        rw [argrefCtype.go]
        simp only [hb, ha]
        rw [sw_false (by simp [List.cons_prefix_cons]), sw_false (by simp [List.cons_prefix_cons]), sw_false (by simp [List.cons_prefix_cons]),
          sw_true (by simp [List.cons_prefix_cons])]
        simpa [runOf, Simple.text, Simple.nargs] using next ['a', 'r', 'g', '#', '+', '1'] (by decide)
      | live =>
        rw [htext _ rfl]
        obtain ⟨hb, ha⟩ := before_eq (a := ['l', 'i', 'v', 'e'] ++ w) hrun
        rw [argrefCtype.go]
        simp only [hb, ha]
        rw [sw_false (by simp [List.cons_prefix_cons]), sw_false (by simp [List.cons_prefix_cons]), sw_false (by simp [List.cons_prefix_cons]),
          sw_false (by simp [List.cons_prefix_cons]), sw_false (by simp [List.cons_prefix_cons])]
        simpa [runOf, Simple.text, Simple.nargs] using next ['l', 'i', 'v', 'e'] (by decide)
      | ret ws =>
        rw [htext ('r' :: 'e' :: 't' :: 'u' :: 'r' :: 'n' :: ws) rfl]
        obtain ⟨hb, ha⟩ := before_eq (a := 'r' :: 'e' :: 't' :: 'u' :: 'r' :: 'n' :: (ws ++ w)) hrun
        have hv : ∀ c ∈ ws, white c = true := hseq.2.1
        rw [argrefCtype.go]
        simp only [List.cons_append, hb, ha]
        rw [sw_false (by simp [List.cons_prefix_cons]), sw_false (by simp [List.cons_prefix_cons]), sw_false (by simp [List.cons_prefix_cons]),
          sw_false (by simp [List.cons_prefix_cons]), sw_false (by simp [List.cons_prefix_cons])]
        have := next (['r', 'e', 't', 'u', 'r', 'n'] ++ ws) (by
          rw [List.mem_append, not_or]
          exact ⟨by decide, fun h => by have := hv _ h; revert this; decide⟩)
        simpa [runOf, Simple.text, Simple.nargs] using this

theorem text_length : ∀ l : List Simple, l.length ≤ (l.flatMap Simple.text).length := by
  intro l
  induction l with
  | nil => simp
  | cons s l ih =>
    have : 1 ≤ s.text.length := by cases s <;> simp [Simple.text]
    simp only [List.length_cons, List.flatMap_cons, List.length_append]; omega

theorem seq_left {post : List Simple} : ∀ {l : List Simple} {e : Bool} {p : Option Simple}, Seq e p (l ++ post) → Seq e p l := by
  intro l
  induction l with
  | nil => intro e p _; trivial
  | cons s l ih =>
    intro e p h
    refine ⟨h.1, h.2.1, fun ws hs => ?_, ih h.2.2.2⟩
    obtain ⟨h1, h2⟩ := h.2.2.1 ws hs
    refine ⟨h1, fun T hT => h2 T ?_⟩
    obtain ⟨⟨r, hr⟩, hi⟩ := (primexp_iff _ _).mp hT
    refine (primexp_iff _ _).mpr ⟨⟨r ++ post.flatMap Simple.text, ?_⟩, hi⟩
    show (l ++ post).flatMap Simple.text = _
    rw [List.flatMap_append, hr]; simp

theorem seq_right {post : List Simple} : ∀ {l : List Simple} {e : Bool} {p : Option Simple}, Seq e p (l ++ .arg :: post) → Seq Simple.arg.edge (some .arg) post := by
  intro l
  induction l with
  | nil => intro e p h; exact h.2.2.2
  | cons s l ih => intro e p h; exact ih h.2.2.2

/-- the type of the operands used in a loop. -/
theorem argref_loop (pre b post : List Simple) (e : Bool) (z : List Char) (k : Nat) (hpre : Seq true none pre) (hb : Seq e none (b ++ .arg :: post))
    (hc : ∀ s ∈ pre, Counted s) (hcb : ∀ s ∈ b, Counted s ∧ s.nargs = 0) :
    argrefCtype (pre.flatMap Simple.text ++ ('$' :: '{' :: ((b ++ .arg :: post).flatMap Simple.text ++ '$' :: '}' :: z))) ((pre.map Simple.nargs).sum + k) =
      typeAtEnd (runOf ['{'] b) := by
  have hs0 : (b.map Simple.nargs).sum = 0 := by
    clear hb
    induction b with
    | nil => rfl
    | cons s b ih =>
      rw [List.map_cons, List.sum_cons, (hcb s List.mem_cons_self).2, ih (fun s hs => hcb s (List.mem_cons_of_mem _ hs))]
  set w := post.flatMap Simple.text ++ '$' :: '}' :: z with hw
  have hbody : (b ++ .arg :: post).flatMap Simple.text ++ '$' :: '}' :: z = b.flatMap Simple.text ++ '$' :: 'a' :: 'r' :: 'g' :: w := by
    simp [hw, Simple.text]
  have hfol := wf_follow (z := '$' :: '}' :: z) (seq_right hb).wf (.inl (.inr ⟨_, rfl⟩))
  rw [unparse_map, ← hw] at hfol
  have h0 : ¬ ['c'] <+: w := head_ne hfol (by simp [follow, alpha]) _
  have h1 : ¬ ['#'] <+: w := head_ne hfol (by simp [follow]) _
  unfold argrefCtype
  rw [hbody]
  have l1 := text_length pre
  have l2 := text_length b
  obtain ⟨m1, hm1, hr1, e1⟩ := go_pre ('{' :: (b.flatMap Simple.text ++ '$' :: 'a' :: 'r' :: 'g' :: w)) k (b.length + 2) pre true none [] _ hpre hc (by simp)
    (show _ ≤ (pre.flatMap Simple.text ++ ('$' :: '{' :: (b.flatMap Simple.text ++ '$' :: 'a' :: 'r' :: 'g' :: w))).length + 1 by
      simp only [List.length_append, List.length_cons]; omega)
  rw [List.nil_append] at e1
  rw [e1]
  obtain ⟨m1, rfl⟩ : ∃ k, m1 = k + 1 := ⟨m1 - 1, by omega⟩
  obtain ⟨hb1, ha1⟩ := before_eq (a := '{' :: (b.flatMap Simple.text ++ '$' :: 'a' :: 'r' :: 'g' :: w)) hr1
  rw [argrefCtype.go]
  simp only [hb1, ha1]
  rw [sw_false (by simp [List.cons_prefix_cons]), sw_true (by simp [List.cons_prefix_cons])]
  simp only [Bool.false_eq_true, if_false, if_true]
  obtain ⟨m2, hm2, hr2, e2⟩ := go_pre ('a' :: 'r' :: 'g' :: w) 0 1 b e none ['{'] m1 (seq_left hb) (fun s hs => (hcb s hs).1) (by decide) (by omega)
  rw [hs0] at e2
  rw [← List.singleton_append, e2]
  obtain ⟨m2, rfl⟩ : ∃ k, m2 = k + 1 := ⟨m2 - 1, by omega⟩
  obtain ⟨hb2, ha2⟩ := before_eq (a := 'a' :: 'r' :: 'g' :: w) hr2
  rw [argrefCtype.go]
  simp only [hb2, ha2]
  rw [sw_false (by simp [List.cons_prefix_cons]), sw_false (by simp [List.cons_prefix_cons]),
    sw_false (by simpa [List.cons_prefix_cons] using h0), sw_false (by simpa [List.cons_prefix_cons] using h1),
    sw_true (by simp [List.cons_prefix_cons])]
  simp [typeAtEnd]

theorem length_le (l : List Simple) : ∀ pre post, l = pre ++ .arg :: post → pre.length + 1 ≤ (l.flatMap Simple.text).length + 1 := by
  rintro pre post rfl
  have : ∀ l : List Simple, l.length ≤ (l.flatMap Simple.text).length := by
    intro l
    induction l with
    | nil => simp
    | cons s l ih =>
      have : 1 ≤ s.text.length := by cases s <;> simp [Simple.text]
      simp only [List.length_cons, List.flatMap_cons, List.length_append]; omega
  have := this pre
  simp only [List.flatMap_append, List.length_append]; omega

theorem argref_spec (pre post : List Simple) (hseq : Seq true none (pre ++ .arg :: post)) (hc : ∀ s ∈ pre, Counted s) :
    argrefCtype ((pre ++ .arg :: post).flatMap Simple.text) ((pre.map Simple.nargs).sum) = typeAtEnd (runOf [] pre) := by
  have := go_spec post pre true none [] _ hseq hc (by simp) (length_le _ pre post rfl)
  rw [List.nil_append] at this
  exact this

theorem renders_append (L R : Text) (total : Nat) : ∀ (a b : List Simple) (as as' : List Text) (t : List Char), renders L R total (a ++ b) as = some (t, as') →
    ∃ t1 as1 t2, renders L R total a as = some (t1, as1) ∧ renders L R total b as1 = some (t2, as') ∧ t = t1 ++ t2 := by
  intro a
  induction a with
  | nil => intro b as as' t h; exact ⟨[], as, t, rfl, h, rfl⟩
  | cons s a ih =>
    intro b as as' t h
    simp only [List.cons_append, renders, Option.bind_eq_bind] at h
    obtain ⟨⟨t1, as1⟩, h1, h⟩ := Option.bind_eq_some_iff.mp h
    obtain ⟨⟨t2, as2⟩, h2, h⟩ := Option.bind_eq_some_iff.mp h
    simp only [Option.some.injEq, Prod.mk.injEq] at h
    obtain ⟨rfl, rfl⟩ := h
    obtain ⟨u1, as3, u2, k1, k2, k3⟩ := ih b as1 as2 t2 h2
    exact ⟨t1 ++ u1, as3, u2, by simp [renders, h1, k1], k2, by rw [k3]; simp⟩

theorem renders_lits (L R : Text) (total : Nat) (cs : List Char) (as : List Text) : renders L R total (lits cs) as = some (cs, as) := by
  induction cs with
  | nil => rfl
  | cons c cs ih =>
    have ih : renders L R total (cs.map Simple.lit) as = some (cs, as) := ih
    simp [lits, renders, Simple.render, ih]

theorem runOf_lits (cs : List Char) : ∀ (a : List Simple) (run : List Char), runOf run (a ++ lits cs) = runOf run a ++ cs := by
  have hl : ∀ (cs run : List Char), runOf run (lits cs) = run ++ cs := by
    intro cs
    induction cs with
    | nil => intro run; simp [lits, runOf]
    | cons c cs ih => intro run; have := ih (run ++ [c]); simp only [lits, List.map_cons, runOf] at *; rw [this]; simp
  intro a
  induction a with
  | nil => intro run; exact hl cs run
  | cons s a ih => intro run; cases s <;> exact ih _

/-- where the type of an operand is found, the template converts the operand. -/
theorem argref_split {pre0 : List Simple} {cs T : List Char} (hcs : pre0 = [] ∨ ∃ c ∈ cs, identChar c = false)
    (h : ∃ x, runOf [] (pre0 ++ lits cs) = x ++ (T ++ "_from_".toList) ∧ (∀ c ∈ T, identChar c = true) ∧ Edge identChar true x) :
    ∃ a, cs = a ++ (T ++ "_from_".toList) ∧ ((pre0 = [] ∧ a = []) ∨ ∃ q c, a = q ++ [c] ∧ identChar c = false) := by
  obtain ⟨x, h1, hT, hx⟩ := h
  rw [runOf_lits] at h1
  have hTf := ident_from hT
  rcases hcs with rfl | ⟨d, hd, hdi⟩
  · simp only [runOf, List.nil_append] at h1
    refine ⟨x, h1, ?_⟩
    rcases hx with ⟨h, _⟩ | h
    · exact .inl ⟨rfl, h⟩
    · exact .inr h
  · rcases List.append_eq_append_iff.mp h1 with ⟨a, e1, e2⟩ | ⟨a, e1, e2⟩
    · refine ⟨a, e2, .inr ?_⟩
      rcases List.eq_nil_or_concat a with rfl | ⟨q, c, rfl⟩
      · simp only [List.nil_append] at e2
        rw [e2] at hd
        rw [hTf d hd] at hdi; cases hdi
      · rw [List.concat_eq_append] at e1 ⊢
        refine ⟨q, c, rfl, ?_⟩
        rcases hx with ⟨h, _⟩ | ⟨q', c', h, hc⟩
        · rw [h] at e1; simp at e1
        · rw [h, ← List.append_assoc] at e1
          have := (List.append_inj' e1 rfl).2
          simp only [List.cons.injEq, and_true] at this
          rw [← this]; exact hc
    · exfalso
      have := hTf d (by rw [e2]; exact List.mem_append_right _ hd)
      rw [this] at hdi; cases hdi

/-- what `$return` writes and skips. -/
theorem putReturn_direct {T U r w lv : List Char} {buf : List Text} (hT : ∀ c ∈ T, identChar c = true) (hv : ¬ "_void".toList <:+ T)
    (hU : U = T ∨ U = "void".toList) (hr : Sep r) (hl : IsLevel lv (lv ++ w)) :
    ∃ v, putReturn (.str (r ++ (U ++ "_from_".toList))) (T ++ '(' :: (lv ++ w)) buf = (w, par v :: .lst (r.map .ch) :: buf) ∧ (par v).flat = opening U := by
  have hpT : primexpCtype (T ++ '(' :: (lv ++ w)) = some T := (primexp_iff _ _).mpr ⟨⟨_, rfl⟩, hT⟩
  have hafter : after (T ++ '(' :: (lv ++ w)) (T ++ ['(']) = some (lv ++ w) := by
    have := after_self (T ++ ['(']) (lv ++ w)
    simpa using this
  have hend : r.reverse = [] ∨ ∃ a r' c, r.reverse = a :: r' ∧ some a = some c ∧ alnum c = false := by
    rcases hr with rfl | ⟨q, c, rfl, h⟩
    · exact .inl rfl
    · exact .inr ⟨c, q.reverse, c, by simp, rfl, h⟩
  have hmatch : matchName some (r ++ (U ++ "_from_".toList)).reverse (U ++ "_from_".toList).reverse = some r.reverse :=
    (matchName_iff _ _ _ _).mpr ⟨⟨(U ++ "_from_".toList).reverse, by simp, rfl⟩, hend⟩
  have hvf : "void_from_".toList = "void".toList ++ "_from_".toList := by decide
  simp only [putReturn, hpT, hafter]
  by_cases hvoid : U = "void".toList
  · subst hvoid
    rw [hvf, hmatch]
    have htb : ∀ b, matchName some (r ++ ("void".toList ++ "_from_".toList)).reverse (T ++ "_from_".toList).reverse = some b → b = r.reverse := by
      intro b hb
      obtain ⟨h1, h2⟩ := match_str hb
      have := (both h2 hr hT hv (by rw [← h1, hvf])).2
      rw [← this, List.reverse_reverse]
    cases hm : matchName some (r ++ ("void".toList ++ "_from_".toList)).reverse (T ++ "_from_".toList).reverse with
    | none => exact ⟨true, by simp [dropLevel_eq hl rfl, par], by simp [opening, par, Text.flat]⟩
    | some b => rw [htb b hm]; exact ⟨true, by simp [dropLevel_eq hl rfl, par], by simp [opening, par, Text.flat]⟩
  · have hUT : U = T := by rcases hU with h | h; exact h; exact absurd h hvoid
    subst hUT
    rw [hmatch]
    cases hmv : matchName some (r ++ (U ++ "_from_".toList)).reverse "void_from_".toList.reverse with
    | none => exact ⟨false, by simp [dropLevel_eq hl rfl, par], by rw [opening, if_neg hvoid]; rfl⟩
    | some b =>
      exfalso
      obtain ⟨h1, h2⟩ := match_str hmv
      exact hvoid (both hr h2 hT hv h1).1

theorem wf_at {a b : List Item} {s0 : Simple} : ∀ {e : Bool} {p : Option Simple}, Wf e p (a ++ .one s0 :: b) → ∃ e', s0.Valid ∧ RetOk e' s0 (unparse b) := by
  induction a with
  | nil => intro e p h; exact ⟨e, h.2.1, h.2.2.1⟩
  | cons i a ih => intro e p h; cases i with
    | one s => exact ih h.2.2.2
    | loop b => exact ih h.2

/-- A conversion before `$return` is left out. -/
theorem direct_ret {pre post : List Item} {ws T U r lv t1 t2 : List Char} {args args2 : List Text}
    (hT : ∀ c ∈ T, identChar c = true) (hU : U = T ∨ U = "void".toList) (hr : Sep r) (hlv : IsLevel lv (lv ++ unparse post))
    (hwf : Wf true none (pre ++ .one (.ret ws) :: ((lits (T ++ '(' :: lv)).map .one ++ post)))
    (hok : ∀ a ∈ args, ArgOk a)
    (h1 : render L (.str (r ++ (U ++ "_from_".toList))) args.length pre args = some (t1, args2))
    (h2 : render L (.str (r ++ (U ++ "_from_".toList))) args.length post args2 = some (t2, [])) :
    ∃ o1 o2 n0, Steps alnum true t1 o1 ∧ Steps alnum false (opening U ++ t2) o2 ∧
      ∀ n, n0 ≤ n → format n L (.str (r ++ (U ++ "_from_".toList))) (unparse (pre ++ .one (.ret ws) :: ((lits (T ++ '(' :: lv)).map .one ++ post))) args =
        some (o1 ++ (r ++ o2)) := by
  set R : Text := .str (r ++ (U ++ "_from_".toList)) with hR
  obtain ⟨e', hval, hret⟩ := wf_at hwf
  have hrest := wf_right hwf
  have hun : unparse ((lits (T ++ '(' :: lv)).map .one ++ post) = T ++ '(' :: (lv ++ unparse post) := by
    rw [unparse_append, unparse_lits]; simp
  have hv : ¬ "_void".toList <:+ T := (hret ws rfl).2 T (by rw [hun]; exact (primexp_iff _ _).mpr ⟨⟨_, rfl⟩, hT⟩)
  have hfol := wf_follow hrest (.inl (.inl rfl) : Nx _ _ [])
  rw [List.append_nil, hun] at hfol
  have hsplit : ∃ cs c, T ++ '(' :: lv = cs ++ [c] ∧ identChar c = false := by
    rcases hlv.1 with rfl | ⟨ds, _, rfl⟩
    · exact ⟨T, '(', by simp, by decide⟩
    · exact ⟨T ++ '(' :: (ds ++ [',']), ' ', by simp, by decide⟩
  obtain ⟨cs, c, hcs, hc⟩ := hsplit
  have hpost : Wf (!identChar c) (some (.lit c)) post := by
    refine wf_drop (cs := cs) (e := (Simple.ret ws).edge) (p := some (.ret ws)) ?_
    rw [← hcs]
    simpa [lits, Function.comp_def] using hrest
  obtain ⟨cur1, g1, g2, _, _⟩ := good_all (L := L) (R := R) (total := args.length) pre true true none args args2 [] [] t1
    (Simple.text (.ret ws) ++ (T ++ '(' :: (lv ++ unparse post))) (wf_left' hwf) h1 hok (.inl ⟨rfl, rfl⟩) (fun _ => .inl ⟨rfl, rfl⟩) (.inl (.inr ⟨_, rfl⟩))
  obtain ⟨v', p1', p2'⟩ := putReturn_direct (w := unparse post) (lv := lv) (r := r) (U := U) hT hv hU hr hlv (buf := cur1 ++ [])
  have hpar : Edge identChar false (fl [par v']) := by
    cases v'
    · exact .inr ⟨[], '(', by simp [fl, par, flats, Text.flat], by decide⟩
    · exact .inr ⟨"(void)".toList, '(', by simp [fl, par, flats, Text.flat], by decide⟩
  obtain ⟨cur2, k1, k2, _, _⟩ := good_all (L := L) (R := R) (total := args.length) post false (!identChar c) (some (.lit c)) args2 [] [par v']
    (.lst (r.map .ch) :: cur1) t2 [] hpost h2 (fun a ha => hok a (render_args' _ _ _ _ h1 a ha)) (.inr (.inl ⟨_, _, rfl, rfl⟩)) (fun _ => hpar) (.inl (.inl rfl))
  have hends : Ends L R args.length (unparse pre ++ (Simple.text (.ret ws) ++ (T ++ '(' :: (lv ++ unparse post)))) args []
      ⟨[], [], (cur2 ++ (.lst (r.map .ch) :: cur1)).reverse⟩ := by
    have := g1 ⟨[], [], (cur2 ++ (.lst (r.map .ch) :: cur1)).reverse⟩ (by
      refine Ends.of (fun n => loop_ret n ws _ _ _ hfol hval) ?_
      rw [p1']
      have := k1 _ (ends_nil [] _)
      simpa using this)
    simpa using this
  obtain ⟨n0, hf⟩ := format_of_ends hends
  refine ⟨fl cur1, fl cur2, n0, by simpa [fl, flats] using g2, ?_, fun n hn => ?_⟩
  · have : fl [par v'] = opening U := by rw [← p2']; simp [fl, flats]
    rw [this] at k2
    exact k2
  · have hun' : unparse (pre ++ .one (.ret ws) :: ((lits (T ++ '(' :: lv)).map .one ++ post)) =
        unparse pre ++ (Simple.text (.ret ws) ++ (T ++ '(' :: (lv ++ unparse post))) := by
      rw [unparse_append]
      simp only [unparse]
      rw [hun]
    rw [hun', hf n hn]
    simp [fl, flats_append, flats, Text.flat, flats_ch]

end Verif.Fmt
