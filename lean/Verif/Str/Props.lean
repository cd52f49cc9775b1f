import Verif.Str.Model
/-
Property theorems C42, C43.
-/
namespace Verif.Str

/-! ### the character loop -/

theorem matchLoop_spec (f g : Nat → Option Char) (n i : Nat) (hf : ∀ k < n, (f k).isSome) (hg : ∀ k < n, (g k).isSome) :
    matchLoop f g n i = some (decide (∀ k, i ≤ k → k < n → f k = g k)) := by
  induction h : n - i generalizing i with
  | zero =>
    rw [matchLoop, if_pos (by omega)]
    congr 1; symm; rw [decide_eq_true_eq]; intro k h1 h2; omega
  | succ m ih =>
    rw [matchLoop, if_neg (by omega)]
    obtain ⟨a, ha⟩ := Option.isSome_iff_exists.1 (hf i (by omega))
    obtain ⟨b, hb⟩ := Option.isSome_iff_exists.1 (hg i (by omega))
    rw [ha, hb]
    simp only [Option.bind_eq_bind, Option.bind_some]
    by_cases hab : a = b
    · rw [if_pos hab, ih (i + 1) (by omega)]
      congr 1
      rw [decide_eq_decide]
      constructor
      · intro h k h1 h2
        by_cases hk : k = i
        · rw [hk, ha, hb, hab]
        · exact h k (by omega) h2
      · intro h k h1 h2; exact h k (by omega) h2
    · rw [if_neg hab]
      congr 1; symm; rw [decide_eq_false_iff_not]
      intro h
      have := h i (le_refl _) (by omega)
      rw [ha, hb] at this
      exact hab (Option.some.inj this)

theorem prefix_drop_iff (str sstr : List Char) (pos : Nat) (h : sstr.length + pos ≤ str.length) :
    (∀ k, 0 ≤ k → k < sstr.length → str[pos + k]? = sstr[k]?) ↔ sstr <+: str.drop pos := by
  rw [List.prefix_iff_eq_take]
  constructor
  · intro hk
    apply List.ext_getElem?
    intro i
    by_cases hi : i < sstr.length
    · rw [List.getElem?_take, if_pos hi, List.getElem?_drop, hk i (by omega) hi]
    · rw [List.getElem?_take, if_neg hi, List.getElem?_eq_none (by omega)]
  · intro he k _ hk
    have := congrArg (fun l => l[k]?) he
    simp only [List.getElem?_take, if_pos hk, List.getElem?_drop] at this
    exact this.symm

theorem containsAt_spec (str sstr : List Char) (pos : Nat) (hp : pos ≤ str.length) :
    containsAt str pos sstr = some (decide (sstr <+: str.drop pos)) := by
  unfold containsAt
  by_cases h : (sstr.length : Int) ≤ (str.length : Int) - pos
  · rw [if_pos h, matchLoop_spec]
    · congr 1; rw [decide_eq_decide]; exact prefix_drop_iff str sstr pos (by omega)
    · intro k hk; simp only [ref]; rw [List.getElem?_eq_getElem (by omega)]; rfl
    · intro k hk; simp only [ref]; rw [List.getElem?_eq_getElem (by omega)]; rfl
  · rw [if_neg h]
    congr 1; symm; rw [decide_eq_false_iff_not]
    intro hp
    have := hp.length_le
    rw [List.length_drop] at this; omega

/-! ## C43 -/

theorem c43_starts_with (str sstr : List Char) : startsWith str sstr = some (decide (sstr <+: str)) := by
  unfold startsWith
  by_cases h : sstr.length ≤ str.length
  · rw [if_pos h, matchLoop_spec]
    · congr 1; rw [decide_eq_decide]
      have := prefix_drop_iff str sstr 0 (by omega)
      simpa [ref] using this
    · intro k hk; simp only [ref]; rw [List.getElem?_eq_getElem (by omega)]; rfl
    · intro k hk; simp only [ref]; rw [List.getElem?_eq_getElem (by omega)]; rfl
  · rw [if_neg h]
    congr 1; symm; rw [decide_eq_false_iff_not]
    intro hp; exact h hp.length_le

theorem c43_ends_with (str sstr : List Char) : endsWith str sstr = some (decide (sstr <:+ str)) := by
  unfold endsWith
  by_cases h : sstr.length ≤ str.length
  · rw [if_pos h, matchLoop_spec]
    · congr 1; rw [decide_eq_decide, ← List.reverse_prefix]
      have := prefix_drop_iff str.reverse sstr.reverse 0 (by simpa using h)
      simp only [List.drop_zero, List.length_reverse, Nat.zero_add] at this
      rw [← this]
      constructor
      · intro hk k h0 h1
        have h2 := hk k h0 h1
        simp only [ref] at h2
        rw [List.getElem?_reverse (by omega), List.getElem?_reverse (by omega)]
        rw [show str.length - 1 - k = str.length - k - 1 by omega,
          show sstr.length - 1 - k = sstr.length - k - 1 by omega]
        exact h2
      · intro hk k h0 h1
        have h2 := hk k h0 h1
        rw [List.getElem?_reverse (by omega), List.getElem?_reverse (by omega)] at h2
        rw [show str.length - 1 - k = str.length - k - 1 by omega,
          show sstr.length - 1 - k = sstr.length - k - 1 by omega] at h2
        exact h2
    · intro k hk; simp only [ref]; rw [List.getElem?_eq_getElem (by omega)]; rfl
    · intro k hk; simp only [ref]; rw [List.getElem?_eq_getElem (by omega)]; rfl
  · rw [if_neg h]
    congr 1; symm; rw [decide_eq_false_iff_not]
    intro hp; exact h hp.length_le

/-- `string-contains-at?` at a position inside the string. -/
theorem c43_contains_at (str sstr : List Char) (pos : Nat) (hp : pos ≤ str.length) :
    containsAt str pos sstr = some (decide (sstr <+: str.drop pos)) := containsAt_spec str sstr pos hp

example : containsAt "(void)x".toList 1 "void".toList = some true := by
  rw [c43_contains_at _ _ _ (by decide)]; decide

/-- Position of the first occurrence at or after `pos`. -/
def FirstAt (str sstr : List Char) (p : Nat) : Prop :=
  p ≤ str.length ∧ sstr <+: str.drop p ∧ ∀ q < p, ¬ sstr <+: str.drop q

theorem before_loop (str sstr : List Char) : ∀ (n pos : Nat), str.length + 1 - pos = n →
    (∀ q < pos, ¬ sstr <+: str.drop q) →
    ((∃ p, FirstAt str sstr p ∧ containsLoop str sstr pos = some true ∧
        beforeLoop str sstr pos = some (some (str.take p)) ∧
        afterLoop str sstr pos = some (some (str.drop (p + sstr.length)))) ∨
     ((∀ q ≤ str.length, ¬ sstr <+: str.drop q) ∧ containsLoop str sstr pos = some false ∧
        beforeLoop str sstr pos = some none ∧ afterLoop str sstr pos = some none)) := by
  intro n
  induction n with
  | zero =>
    intro pos hn hq
    right
    rw [containsLoop, beforeLoop, afterLoop, dif_neg (by omega), dif_neg (by omega), dif_neg (by omega)]
    exact ⟨fun q hq' => hq q (by omega), rfl, rfl, rfl⟩
  | succ n ih =>
    intro pos hn hq
    rw [containsLoop, beforeLoop, afterLoop]
    by_cases h : (sstr.length : Int) ≤ (str.length : Int) - pos
    · rw [dif_pos h, dif_pos h, dif_pos h, containsAt_spec str sstr pos (by omega)]
      simp only [Option.bind_eq_bind, Option.bind_some]
      by_cases hp : sstr <+: str.drop pos
      · left
        refine ⟨pos, ⟨by omega, hp, hq⟩, ?_, ?_, ?_⟩
        · simp [hp]
        · simp only [hp, decide_true, if_true, substring]
          rw [if_pos (by omega)]; simp
        · simp only [hp, decide_true, if_true, substring]
          rw [if_pos (by omega)]; simp
      · simp only [hp, decide_false, Bool.false_eq_true, if_false]
        apply ih (pos + 1) (by omega)
        intro q hq1
        by_cases hqp : q = pos
        · rw [hqp]; exact hp
        · exact hq q (by omega)
    · right
      rw [dif_neg h, dif_neg h, dif_neg h]
      refine ⟨?_, rfl, rfl, rfl⟩
      intro q hq' hc
      by_cases hqp : q < pos
      · exact hq q hqp hc
      · have := hc.length_le
        rw [List.length_drop] at this; omega

/-- whole-search summary -/
theorem search_spec (str sstr : List Char) :
    ((∃ p, FirstAt str sstr p ∧ contains str sstr = some true ∧
        substringBefore str sstr = some (some (str.take p)) ∧
        substringAfter str sstr = some (some (str.drop (p + sstr.length)))) ∨
     ((∀ q ≤ str.length, ¬ sstr <+: str.drop q) ∧ contains str sstr = some false ∧
        substringBefore str sstr = some none ∧ substringAfter str sstr = some none)) := by
  unfold contains substringBefore substringAfter
  by_cases h : sstr.length ≤ str.length
  · simp only [h, if_true]
    exact before_loop str sstr _ 0 rfl (by simp)
  · right
    simp only [h, if_false]
    refine ⟨fun q _ hc => ?_, trivial, trivial, trivial⟩
    have := hc.length_le
    rw [List.length_drop] at this; omega

/-- `string-contains?` decides the substring relation. -/
theorem c43_contains (str sstr : List Char) : contains str sstr = some (decide (sstr <:+: str)) := by
  rcases search_spec str sstr with ⟨p, ⟨_, hp, _⟩, h, _⟩ | ⟨hno, h, _⟩
  · rw [h]; congr 1; symm; rw [decide_eq_true_eq]
    exact hp.isInfix.trans (List.drop_suffix p str).isInfix
  · rw [h]; congr 1; symm; rw [decide_eq_false_iff_not]
    rintro ⟨a, b, hab⟩
    apply hno a.length
    · rw [← hab]; simp
    · rw [← hab, List.append_assoc, List.drop_left]; exact List.prefix_append _ _

/-- If the pattern occurs, `substring-before` and `substring-after` split the string around its first
occurrence: the pieces concatenate back to the string and no earlier split exists. -/
theorem c43_split (str sstr : List Char) (h : sstr <:+: str) :
    ∃ b a, substringBefore str sstr = some (some b) ∧ substringAfter str sstr = some (some a) ∧
      str = b ++ sstr ++ a ∧ ∀ b' a', str = b' ++ sstr ++ a' → b.length ≤ b'.length := by
  rcases search_spec str sstr with ⟨p, ⟨hpl, hp, hq⟩, _, hb, ha⟩ | ⟨hno, _⟩
  · refine ⟨_, _, hb, ha, ?_, ?_⟩
    · obtain ⟨t, ht⟩ := hp
      have h1 : str = str.take p ++ (sstr ++ t) := by rw [ht]; exact (List.take_append_drop p str).symm
      have h2 : str.drop (p + sstr.length) = t := by
        rw [← List.drop_drop, ← ht, List.drop_left]
      rw [h2, List.append_assoc]; exact h1
    · intro b' a' he
      rw [List.length_take, min_eq_left hpl]
      by_contra hlt
      apply hq b'.length (by omega)
      have : str.drop b'.length = sstr ++ a' := by rw [he, List.append_assoc, List.drop_left]
      rw [this]; exact List.prefix_append _ _
  · exfalso
    obtain ⟨a, b, hab⟩ := h
    apply hno a.length
    · rw [← hab]; simp
    · rw [← hab, List.append_assoc, List.drop_left]; exact List.prefix_append _ _

/-- If the pattern does not occur both return #f. -/
theorem c43_split_none (str sstr : List Char) (h : ¬ sstr <:+: str) :
    substringBefore str sstr = some none ∧ substringAfter str sstr = some none := by
  rcases search_spec str sstr with ⟨p, ⟨_, hp, _⟩, _⟩ | ⟨_, _, hb, ha⟩
  · exact absurd (hp.isInfix.trans (List.drop_suffix p str).isInfix) h
  · exact ⟨hb, ha⟩

example : "_from_".toList <:+: "obj_from_fixnum".toList := ⟨"obj".toList, "fixnum".toList, by decide⟩
example : ¬ "$arg".toList <:+: "x+1".toList := by decide

/-- `substring-before-suffix` and `substring-after-prefix` undo concatenation, and return #f otherwise. -/
theorem c43_affixes (str sstr : List Char) :
    (∀ r, beforeSuffix str sstr = some (some r) ↔ str = r ++ sstr) ∧
    (beforeSuffix str sstr = some none ↔ ¬ sstr <:+ str) ∧
    (∀ r, afterPrefix str sstr = some (some r) ↔ str = sstr ++ r) ∧
    (afterPrefix str sstr = some none ↔ ¬ sstr <+: str) := by
  unfold beforeSuffix afterPrefix
  rw [c43_starts_with, c43_ends_with]
  simp only [Option.bind_eq_bind, Option.bind_some]
  refine ⟨?_, ?_, ?_, ?_⟩
  · intro r
    by_cases h : sstr <:+ str
    · obtain ⟨t, rfl⟩ := h
      simp only [List.suffix_append, decide_true, if_true, substring]
      rw [if_pos (by simp)]
      simp
    · simp only [h, decide_false, Bool.false_eq_true, if_false]
      constructor
      · simp
      · rintro rfl; exact absurd (List.suffix_append _ _) h
  · by_cases h : sstr <:+ str
    · simp only [h, decide_true, if_true, substring]
      rw [if_pos (by omega)]; simp
    · simp [h]
  · intro r
    by_cases h : sstr <+: str
    · obtain ⟨t, rfl⟩ := h
      simp only [List.prefix_append, decide_true, if_true, substring]
      rw [if_pos (by simp)]
      rw [List.take_length]
      simp
    · simp only [h, decide_false, Bool.false_eq_true, if_false]
      constructor
      · simp
      · rintro rfl; exact absurd (List.prefix_append _ _) h
  · by_cases h : sstr <+: str
    · have := h.length_le
      simp only [h, decide_true, if_true, substring]
      rw [if_pos (by omega)]; simp
    · simp [h]

theorem memberLoop_spec (c : Char) (str : List Char) : ∀ n pos, str.length - pos = n →
    memberLoop c str pos = some (decide (c ∈ str.drop pos)) := by
  intro n
  induction n with
  | zero =>
    intro pos h
    rw [memberLoop, dif_neg (by omega), List.drop_eq_nil_of_le (by omega)]; simp
  | succ n ih =>
    intro pos h
    have hp : pos < str.length := by omega
    rw [memberLoop, dif_pos hp]
    have hd := List.drop_eq_getElem_cons hp
    simp only [ref, List.getElem?_eq_getElem hp, Option.bind_eq_bind, Option.bind_some]
    by_cases hc : c = str[pos]
    · rw [if_pos hc, hd]; simp [← hc]
    · rw [if_neg hc, ih (1 + pos) (by omega), Nat.add_comm 1 pos, hd]; simp only [List.mem_cons, hc, false_or]

theorem c43_member (c : Char) (str : List Char) : stringMember c str = some (decide (c ∈ str)) := by
  rw [stringMember, memberLoop_spec c str _ 0 rfl]; simp

theorem spanLoop_spec (str cs : List Char) : ∀ n pos, str.length - pos = n → pos ≤ str.length →
    spanLoop str cs pos = some (pos + ((str.drop pos).takeWhile (fun c => decide (c ∈ cs))).length) := by
  intro n
  induction n with
  | zero =>
    intro pos h hl
    rw [spanLoop, dif_pos (by omega), List.drop_eq_nil_of_le (by omega)]; simp
  | succ n ih =>
    intro pos h hl
    have hp : pos < str.length := by omega
    rw [spanLoop, dif_neg (by omega), List.drop_eq_getElem_cons hp]
    simp only [ref, List.getElem?_eq_getElem hp, Option.bind_eq_bind, Option.bind_some, c43_member]
    by_cases hc : str[pos] ∈ cs
    · simp only [hc, decide_true, if_true]
      rw [ih (1 + pos) (by omega) (by omega), List.takeWhile_cons_of_pos (by simp [hc]), Nat.add_comm 1 pos]
      simp; omega
    · simp only [hc, decide_false, Bool.false_eq_true, if_false]
      rw [List.takeWhile_cons_of_neg (by simp [hc])]; simp

/-- `string-span` is the length of the longest prefix of characters from the set; `substring-after-span`
drops exactly that prefix. -/
theorem c43_span (str cs : List Char) :
    stringSpan str cs = some (str.takeWhile (fun c => decide (c ∈ cs))).length ∧
    afterSpan str cs = some (str.dropWhile (fun c => decide (c ∈ cs))) := by
  have h1 : stringSpan str cs = some (str.takeWhile (fun c => decide (c ∈ cs))).length := by
    rw [stringSpan, spanLoop_spec str cs _ 0 rfl (by omega)]; simp
  refine ⟨h1, ?_⟩
  have h3 : str.takeWhile (fun c => decide (c ∈ cs)) ++ str.dropWhile (fun c => decide (c ∈ cs)) = str :=
    List.takeWhile_append_dropWhile
  unfold afterSpan
  rw [h1]
  simp only [Option.bind_eq_bind, Option.bind_some]
  split
  · rename_i h0
    rw [List.length_eq_zero_iff] at h0
    rw [h0, List.nil_append] at h3; rw [h3]
  · have hle : (str.takeWhile (fun c => decide (c ∈ cs))).length ≤ str.length := (List.takeWhile_prefix _).length_le
    rw [substring, if_pos ⟨hle, le_refl _⟩, List.take_length]
    conv_lhs => rw [← h3]
    rw [List.drop_left' (by rw [h3])]

/-! ## C42 -/

/-- the characters `path-strip-directory` treats as separators -/
abbrev isSep (c : Char) : Prop := c = '\\' ∨ c = '/' ∨ c = ':'

theorem stripDirLoop_spec (d b r : List Char) (hb : ∀ c ∈ b, ¬ isSep c) (hd : d = [] ∨ ∃ e s, d = e ++ [s] ∧ isSep s) :
    stripDirLoop (d ++ b).reverse r = b ++ r := by
  rw [List.reverse_append]
  induction b using List.reverseRecOn generalizing r with
  | nil =>
    rcases hd with rfl | ⟨e, s, rfl, hs⟩
    · rfl
    · simp only [List.reverse_nil, List.nil_append, List.reverse_append, List.reverse_cons, List.singleton_append, stripDirLoop]
      rw [if_pos hs]
  | append_singleton l a ih =>
    have ha : ¬ isSep a := hb a (by simp)
    simp only [List.reverse_append, List.reverse_cons, List.reverse_nil, List.nil_append, List.singleton_append,
      List.cons_append, stripDirLoop]
    rw [if_neg ha, ih _ (fun c hc => hb c (by simp [hc]))]
    simp

/-- `path-strip-directory` returns the last component: for any path split into a directory part that is empty
or ends in a separator, and a base name without separators. -/
theorem c42_directory (d b : List Char) (hb : ∀ c ∈ b, ¬ isSep c) (hd : d = [] ∨ ∃ e s, d = e ++ [s] ∧ isSep s) :
    pathStripDirectory (d ++ b) = b := by
  rw [pathStripDirectory, stripDirLoop_spec d b [] hb hd]; simp

example : let d := "lib/".toList; let b := "libl.sf".toList
    (∀ c ∈ b, ¬ isSep c) ∧ (d = [] ∨ ∃ e s, d = e ++ [s] ∧ isSep s) := by
  refine ⟨by unfold isSep; decide, Or.inr ⟨"lib".toList, '/', by decide, Or.inr (Or.inl rfl)⟩⟩

theorem memv_append (c : Char) (x y : List Char) (h : c ∉ x) : memv c (x ++ c :: y) = some (c :: y) := by
  induction x with
  | nil => simp [memv]
  | cons a t ih =>
    simp only [List.cons_append, memv]
    rw [if_neg (by rintro rfl; exact h (by simp)), ih (fun hh => h (by simp [hh]))]

theorem memv_none (c : Char) (x : List Char) (h : c ∉ x) : memv c x = none := by
  induction x with
  | nil => rfl
  | cons a t ih =>
    simp only [memv]
    rw [if_neg (by rintro rfl; exact h (by simp)), ih (fun hh => h (by simp [hh]))]

/-- What `path-strip-extension` does on every string: it cuts at the last dot of the whole path, if any. -/
theorem c42_last_dot (p e : List Char) (he : '.' ∉ e) : pathStripExtension (p ++ '.' :: e) = p := by
  unfold pathStripExtension
  have : (p ++ '.' :: e).reverse = e.reverse ++ '.' :: p.reverse := by simp
  rw [this, memv_append _ _ _ (by simpa using he)]
  simp

theorem c42_no_dot (p : List Char) (h : '.' ∉ p) : pathStripExtension p = p := by
  unfold pathStripExtension
  rw [memv_none _ _ (by simpa using h)]

/-- The last component of a path. -/
def Split (path d b : List Char) : Prop :=
  path = d ++ b ∧ (∀ c ∈ b, ¬ isSep c) ∧ (d = [] ∨ ∃ e s, d = e ++ [s] ∧ isSep s)

/-- Full statement of C42: only a suffix of the last component, starting at its last dot, is removed. -/
def StripsLastComponentOnly (f : List Char → List Char) : Prop :=
  ∀ path d b, Split path d b →
    (∀ n e, b = n ++ '.' :: e → '.' ∉ e → f path = d ++ n) ∧ ('.' ∉ b → f path = path)

/-- C42 holds when the base name contains a dot, or the whole path has none. -/
theorem c42_strip_extension_partial (path d b : List Char) (hs : Split path d b) :
    (∀ n e, b = n ++ '.' :: e → '.' ∉ e → pathStripExtension path = d ++ n) ∧
    ('.' ∉ path → pathStripExtension path = path) := by
  obtain ⟨rfl, _, _⟩ := hs
  refine ⟨?_, fun h => c42_no_dot _ h⟩
  rintro n e rfl he
  rw [← List.append_assoc]; exact c42_last_dot _ _ he

example : Split "src/a.b/prog.sf".toList "src/a.b/".toList "prog.sf".toList := by
  refine ⟨by decide, by unfold isSep; decide, Or.inr ⟨"src/a.b".toList, '/', by decide, Or.inr (Or.inl rfl)⟩⟩

/-- The code violates the full statement: a dot in a directory name is taken for the extension. -/
theorem c42_counterexample : ¬ StripsLastComponentOnly pathStripExtension := by
  intro h
  have := (h "a.b/c".toList "a.b/".toList "c".toList
    ⟨by decide, by unfold isSep; decide, Or.inr ⟨"a.b".toList, '/', by decide, Or.inr (Or.inl rfl)⟩⟩).2 (by decide)
  revert this
  decide

end Verif.Str
