import Verif.StrMem.Model
import Verif.Cbuf.Props
import Verif.Symt.Props
/-
C75: strings of the large library are blocks of memory that hold their characters.
-/
namespace Verif.StrMem

/-- The block holds the string `s`: the number of characters, the characters, and a terminator; nothing else. -/
def Holds (d : Data) (s : List Nat) : Prop := d.len = s.length ∧ d.mem = s.map some ++ [some 0] ∧ ∀ c ∈ s, c < 256

/-- The block holds the bytes `s`. -/
def HoldsBytes (d : Data) (s : List Nat) : Prop := d.len = s.length ∧ d.mem = s.map some ∧ ∀ c ∈ s, c < 256

/-- no NUL among the characters. -/
def NulFree (s : List Nat) : Prop := ∀ c ∈ s, c ≠ 0

/-- ASCII characters only. -/
def Ascii (s : List Nat) : Prop := ∀ c ∈ s, c < 128

/-! ### memory -/

theorem store_mid (a b : Mem) (x : Option Nat) (c : Nat) : store (a ++ x :: b) a.length c = some (a ++ some (c % 256) :: b) := by
  rw [store, if_pos (by simp)]
  simp

theorem memset_mid (c : Nat) : ∀ (n : Nat) (a m b : Mem), m.length = n → memset (a ++ m ++ b) a.length c n = some (a ++ List.replicate n (some (c % 256)) ++ b) := by
  intro n
  induction n with
  | zero => intro a m b h; rw [List.length_eq_zero_iff.mp h]; simp [memset]
  | succ n ih =>
    intro a m b h
    cases m with
    | nil => simp at h
    | cons x m =>
      have h1 := ih (a ++ [some (c % 256)]) m b (by simpa using h)
      simp only [List.append_assoc, List.cons_append, List.nil_append, List.length_append, List.length_singleton] at h1
      simp only [memset, List.append_assoc, List.cons_append, store_mid, Option.bind_eq_bind, Option.bind_some, h1, List.replicate_succ]

theorem fillLoop_memset (c : Nat) : ∀ (n i : Nat) (m : Mem), fillLoop m c i n = memset m i c n := by
  intro n
  induction n with
  | zero => intro i m; rfl
  | succ n ih => intro i m; simp only [fillLoop, memset, ih]

theorem memcpy_mid : ∀ (t a m b p q : Mem), m.length = t.length → memcpy (a ++ m ++ b) a.length (p ++ t ++ q) p.length t.length = some (a ++ t ++ b) := by
  intro t
  induction t with
  | nil => intro a m b p q h; rw [List.length_eq_zero_iff.mp h]; simp [memcpy]
  | cons y t ih =>
    intro a m b p q h
    cases m with
    | nil => simp at h
    | cons x m =>
      have h1 := ih (a ++ [y]) m b (p ++ [y]) q (by simpa using h)
      simp only [List.append_assoc, List.cons_append, List.nil_append, List.length_append, List.length_singleton] at h1
      simp only [List.length_cons, memcpy, List.append_assoc, List.cons_append]
      rw [List.getElem?_append_right (Nat.le_refl _)]
      simp [h1]

theorem malloc_succ (n : Nat) : malloc (n + 1) = malloc n ++ [none] := by rw [malloc, malloc, List.replicate_succ']

theorem length_malloc (n : Nat) : (malloc n).length = n := List.length_replicate

/-- Copying into a new block and closing it with a terminator. -/
theorem copy_close (t p q : Mem) : (memcpy (malloc (t.length + 1)) 0 (p ++ t ++ q) p.length t.length).bind (fun m => store m t.length 0) = some (t ++ [some 0]) := by
  have h := memcpy_mid t [] (malloc t.length) [none] p q (length_malloc _)
  simp only [List.nil_append, List.length_nil] at h
  rw [malloc_succ, h, Option.bind_some]
  exact store_mid t [] none 0

theorem strlen_text : ∀ (s : List Nat) (q : Mem), NulFree s → strlen (s.map some ++ some 0 :: q) = some s.length := by
  intro s
  induction s with
  | nil => intro q _; simp [strlen]
  | cons c s ih =>
    intro q h
    have h0 : c ≠ 0 := h c List.mem_cons_self
    simp [strlen, h0, ih q (fun x hx => h x (List.mem_cons_of_mem _ hx))]

theorem strcpy_text : ∀ (s : List Nat) (a m q : Mem), NulFree s → (∀ c ∈ s, c < 256) → m.length = s.length + 1 →
    strcpy (a ++ m) a.length (s.map some ++ some 0 :: q) = some (a ++ s.map some ++ [some 0]) := by
  intro s
  induction s with
  | nil =>
    intro a m q _ _ hm
    match m, hm with
    | [x], _ => simp [strcpy, store_mid]
  | cons c s ih =>
    intro a m q h hb hm
    have h0 : c ≠ 0 := h c List.mem_cons_self
    have h1 : c % 256 = c := Nat.mod_eq_of_lt (hb c List.mem_cons_self)
    match m, hm with
    | x :: m, hm =>
      have h2 := ih (a ++ [some c]) m q (fun x hx => h x (List.mem_cons_of_mem _ hx)) (fun x hx => hb x (List.mem_cons_of_mem _ hx)) (by simpa using hm)
      simp only [List.append_assoc, List.cons_append, List.nil_append, List.length_append, List.length_singleton] at h2
      simp [strcpy, store_mid, h0, h1, h2]

/-- `newstring` copies the text up to the first NUL. -/
theorem newstring_text (s : List Nat) (q : Mem) (h : NulFree s) (hb : ∀ c ∈ s, c < 256) : ∃ d, newstring (s.map some ++ some 0 :: q) = some d ∧ Holds d s := by
  refine ⟨⟨s.length, s.map some ++ [some 0]⟩, ?_, rfl, rfl, hb⟩
  have h2 := strcpy_text s [] (malloc (s.length + 1)) q h hb (length_malloc _)
  simp only [List.nil_append, List.length_nil] at h2
  simp [newstring, strlen_text s q h, h2]

theorem split_nul : ∀ s : List Nat, ∃ q, s.map some ++ [some 0] = (s.takeWhile (· ≠ 0)).map some ++ some 0 :: q := by
  intro s
  induction s with
  | nil => exact ⟨[], rfl⟩
  | cons c s ih =>
    by_cases hc : c = 0
    · exact ⟨s.map some ++ [some 0], by simp [hc]⟩
    · obtain ⟨q, hq⟩ := ih
      exact ⟨q, by rw [List.takeWhile_cons_of_pos (by simpa using hc)]; simpa using hq⟩

theorem takeWhile_nul (s : List Nat) : NulFree (s.takeWhile (· ≠ 0)) := by
  induction s with
  | nil => intro c hc; simp at hc
  | cons b s ih =>
    by_cases hb : b = 0
    · intro c hc; simp [hb] at hc
    · intro c hc
      rw [List.takeWhile_cons_of_pos (by simpa using hb)] at hc
      rcases List.mem_cons.mp hc with rfl | hc
      · exact hb
      · exact ih c hc

theorem takeWhile_free {s : List Nat} (h : NulFree s) : s.takeWhile (· ≠ 0) = s := by
  induction s with
  | nil => rfl
  | cons c s ih => rw [List.takeWhile_cons_of_pos (by simpa using h c List.mem_cons_self), ih (fun x hx => h x (List.mem_cons_of_mem _ hx))]

/-! ### constants and constructors -/

/-- **C75**.  A string constant is the text up to the first NUL. -/
theorem c75_constant_general (cs : List Nat) (hb : ∀ c ∈ cs, c < 256) : ∃ d, constant cs = some d ∧ Holds d (cs.takeWhile (· ≠ 0)) := by
  obtain ⟨q, hq⟩ := split_nul cs
  rw [constant, hq]
  exact newstring_text _ _ (takeWhile_nul cs) (fun c hc => hb c ((List.takeWhile_prefix _).subset hc))

/-- **C75** (partial).  A string constant without NUL is the string with its characters.  Missing: other constants (`c75_counterexample`). -/
theorem c75_constant_partial (cs : List Nat) (h : NulFree cs) (hb : ∀ c ∈ cs, c < 256) : ∃ d, constant cs = some d ∧ Holds d cs := by
  have := c75_constant_general cs hb
  rwa [takeWhile_free h] at this

/-- **C75**.  `(make-string n c)` holds `n` times `c`. -/
theorem c75_make (n c : Nat) (hn : n + 1 < 2 ^ 31) (hc : c < 256) : ∃ d, allocstring n c = some d ∧ Holds d (List.replicate n c) := by
  refine ⟨⟨n, List.replicate n (some c) ++ [some 0]⟩, ?_, by simp, by simp, fun x hx => by rw [List.eq_of_mem_replicate hx]; exact hc⟩
  have h := memset_mid c n [] (malloc n) [none] (length_malloc n)
  simp only [List.nil_append, List.length_nil, Nat.mod_eq_of_lt hc] at h
  have h2 := store_mid (List.replicate n (some c)) [] none 0
  simp only [List.length_replicate] at h2
  rw [allocstring, if_pos (by omega)]
  simp [malloc_succ, h, h2]

theorem putAll_mid : ∀ (cs : List Nat) (a m b : Mem), m.length = cs.length → putAll (a ++ m ++ b) a.length cs = some (a ++ cs.map (fun c => some (c % 256)) ++ b) := by
  intro cs
  induction cs with
  | nil => intro a m b h; rw [List.length_eq_zero_iff.mp h]; simp [putAll]
  | cons c cs ih =>
    intro a m b h
    cases m with
    | nil => simp at h
    | cons x m =>
      have h1 := ih (a ++ [some (c % 256)]) m b (by simpa using h)
      simp only [List.append_assoc, List.cons_append, List.nil_append, List.length_append, List.length_singleton] at h1
      simp only [putAll, List.append_assoc, List.cons_append, store_mid, Option.bind_eq_bind, Option.bind_some, h1, List.map_cons]

/-- **C75**.  `(string c ...)` holds the characters in their order, NUL included. -/
theorem c75_string (cs : List Nat) (hn : cs.length + 1 < 2 ^ 31) (hb : ∀ c ∈ cs, c < 256) : ∃ d, stringOf cs = some d ∧ Holds d cs := by
  obtain ⟨d, h1, h2, h3, _⟩ := c75_make cs.length 32 hn (by omega)
  have h4 := putAll_mid cs [] (List.replicate cs.length (some 32)) [some 0] (by simp)
  have h5 : cs.map (fun c => some (c % 256)) = cs.map some := List.map_congr_left fun c hc => by rw [Nat.mod_eq_of_lt (hb c hc)]
  simp only [List.nil_append, List.length_nil, h5] at h4
  refine ⟨⟨cs.length, cs.map some ++ [some 0]⟩, ?_, rfl, rfl, hb⟩
  simp only [List.length_replicate, List.map_replicate] at h2 h3
  simp [stringOf, h1, h3, h4, h2]

/-! ### access -/

/-- **C75**.  `string-length`, and `string-ref` of an index in range. -/
theorem c75_ref (d : Data) (s : List Nat) (h : Holds d s) (k : Nat) (hk : k < s.length) : stringLength d = s.length ∧ stringRef d k = some s[k] := by
  obtain ⟨h1, h2, _⟩ := h
  refine ⟨h1, ?_⟩
  rw [stringRef, if_pos (by omega), load, h2, Int.toNat_natCast, List.getElem?_append_left (by simpa using hk)]
  simp [hk]

/-- **C75**.  `string-set!` changes the one character; what is read afterwards is the character that was stored, whatever the signedness of `char`. -/
theorem c75_set (d : Data) (s : List Nat) (h : Holds d s) (k c : Nat) (hk : k < s.length) (hc : c < 256) : ∃ d', stringSet d k c = some d' ∧ Holds d' (s.set k c) := by
  obtain ⟨h1, h2, h3⟩ := h
  refine ⟨⟨d.len, (s.set k c).map some ++ [some 0]⟩, ?_, by simpa using h1, rfl, fun x hx => ?_⟩
  · rw [stringSet, if_pos (by omega), Int.toNat_natCast, store, h2, if_pos (by simp; omega), List.set_append_left _ _ (by simpa using hk), Nat.mod_eq_of_lt hc]
    simp [List.map_set]
  · rcases List.mem_or_eq_of_mem_set hx with hx | rfl
    · exact h3 x hx
    · exact hc

/-- **C75**.  Neither reads nor stores are possible outside of the string: the terminator is out of reach. -/
theorem c75_bounds (d : Data) (s : List Nat) (h : Holds d s) (k : Int) (c : Nat) (hk : k < 0 ∨ s.length ≤ k) : stringRef d k = none ∧ stringSet d k c = none := by
  have h1 := h.1
  rw [stringRef, stringSet, if_neg (by omega), if_neg (by omega)]
  exact ⟨rfl, rfl⟩

/-! ### copies and parts -/

/-- **C75**.  `substring` of a valid range, NULs included. -/
theorem c75_substring (d : Data) (s : List Nat) (h : Holds d s) (i j : Nat) (hij : i ≤ j) (hj : j ≤ s.length) :
    ∃ d', substring d i j = some d' ∧ Holds d' ((s.take j).drop i) := by
  obtain ⟨h1, h2, h3⟩ := h
  have hl : ((s.take j).drop i).length = j - i := by simp; omega
  refine ⟨⟨j - i, ((s.take j).drop i).map some ++ [some 0]⟩, ?_, hl.symm, rfl, fun c hc => h3 c (List.mem_of_mem_take (List.mem_of_mem_drop hc))⟩
  have hs : s.map some ++ [some 0] = (s.take i).map some ++ ((s.take j).drop i).map some ++ ((s.drop j).map some ++ [some 0]) := by
    rw [← List.append_assoc, ← List.map_append, ← List.map_append]
    congr 2
    have e1 : s.take i ++ (s.take j).drop i = s.take j := by
      conv_rhs => rw [← List.take_append_drop i (s.take j)]
      rw [List.take_take, Nat.min_eq_left hij]
    rw [e1, List.take_append_drop]
  have h4 := copy_close (((s.take j).drop i).map some) ((s.take i).map some) ((s.drop j).map some ++ [some 0])
  rw [← hs] at h4
  have hli : ((s.take i).map (some : Nat → Option Nat)).length = i := by simp; omega
  rw [List.length_map, hl, hli] at h4
  have e : ((j : Int) - (i : Int)).toNat = j - i := by omega
  rw [substring, if_pos (by omega)]
  simp only [e, Int.toNat_natCast, h2, Option.bind_eq_bind]
  rw [show (memcpy (malloc (j - i + 1)) 0 (s.map some ++ [some 0]) i (j - i)).bind (fun m => (store m (j - i) 0).bind fun m' => some (⟨j - i, m'⟩ : Data)) =
      ((memcpy (malloc (j - i + 1)) 0 (s.map some ++ [some 0]) i (j - i)).bind (fun m => store m (j - i) 0)).bind (fun m' => some (⟨j - i, m'⟩ : Data)) from
    (Option.bind_assoc _ _ _).symm, h4]
  rfl

/-- **C75**.  Ranges that are not valid stop at the assertion. -/
theorem c75_substring_bounds (d : Data) (s : List Nat) (h : Holds d s) (i j : Int) (hij : i < 0 ∨ j < i ∨ s.length < j) : substring d i j = none := by
  have h1 := h.1
  rw [substring, if_neg (by omega)]

/-- **C75**.  `string-append` of two strings. -/
theorem c75_append (d0 d1 : Data) (s t : List Nat) (h0 : Holds d0 s) (h1 : Holds d1 t) (hn : s.length + t.length < 2 ^ 31) : ∃ d, stringcat d0 d1 = some d ∧ Holds d (s ++ t) := by
  obtain ⟨a1, a2, a3⟩ := h0
  obtain ⟨b1, b2, b3⟩ := h1
  refine ⟨⟨s.length + t.length, (s ++ t).map some ++ [some 0]⟩, ?_, by simp, rfl, fun c hc => (List.mem_append.mp hc).elim (a3 c) (b3 c)⟩
  have e0 : malloc (s.length + t.length + 1) = malloc s.length ++ (malloc t.length ++ [none]) := by
    rw [malloc_succ, malloc, malloc, malloc, ← List.append_assoc, ← List.replicate_add]
  have e1 := memcpy_mid (s.map some) [] (malloc s.length) (malloc t.length ++ [none]) [] [some 0] (by simp [malloc])
  have e2 := memcpy_mid (t.map some) (s.map some) (malloc t.length) [none] [] [some 0] (by simp [malloc])
  have e3 := store_mid (s.map some ++ t.map some) [] none 0
  simp only [List.nil_append, List.length_nil, List.length_map, List.length_append, List.append_assoc] at e1 e2 e3
  rw [stringcat, if_pos (by omega)]
  simp [a1, a2, b1, b2, e0, e1, e2, e3]

theorem dup_mem (d : Data) (s : List Nat) (h : Holds d s) : dupstring d = some ⟨d.len, s.map some ++ [some 0]⟩ := by
  obtain ⟨h1, h2, _⟩ := h
  have e := memcpy_mid (s.map some ++ [some 0]) [] (malloc (s.length + 1)) [] [] [] (by simp [malloc])
  simp only [List.nil_append, List.length_nil, List.append_nil, List.length_append, List.length_map, List.length_singleton] at e
  simp [dupstring, h1, h2, e]

/-- **C75**.  `string-copy`. -/
theorem c75_copy (d : Data) (s : List Nat) (h : Holds d s) : ∃ d', dupstring d = some d' ∧ Holds d' s :=
  ⟨_, dup_mem d s h, h.1, rfl, h.2.2⟩

/-- **C75**.  `string-fill!` replaces all characters and nothing else. -/
theorem c75_fill (d : Data) (s : List Nat) (h : Holds d s) (c : Nat) (hc : c < 256) : ∃ d', stringfill d c = some d' ∧ Holds d' (List.replicate s.length c) := by
  obtain ⟨h1, h2, h3⟩ := h
  refine ⟨⟨d.len, (List.replicate s.length c).map some ++ [some 0]⟩, ?_, by simpa using h1, rfl, fun x hx => by rw [List.eq_of_mem_replicate hx]; exact hc⟩
  have e := memset_mid c s.length [] (s.map some) [some 0] (by simp)
  simp only [List.nil_append, List.length_nil, Nat.mod_eq_of_lt hc] at e
  simp [stringfill, fillLoop_memset, h1, h2, e]

/-! ### change of case -/

theorem caseLoop_text (f : Nat → Nat) : ∀ (s : List Nat) (q : Mem), NulFree s → Ascii s → caseLoop f (s.map some ++ some 0 :: q) = some ((s.map f).map some ++ some 0 :: q) := by
  intro s
  induction s with
  | nil => intro q _ _; simp [caseLoop]
  | cons c s ih =>
    intro q h ha
    have h0 : c ≠ 0 := h c List.mem_cons_self
    have h1 : c < 128 := ha c List.mem_cons_self
    have h2 := ih q (fun x hx => h x (List.mem_cons_of_mem _ hx)) (fun x hx => ha x (List.mem_cons_of_mem _ hx))
    rw [List.map_map] at h2
    simp [caseLoop, h0, ctype, h1, h2]

/-- **C75** (partial).  `string-upcase` and `string-downcase` of ASCII strings without NUL change each letter and leave the operand alone.
Missing: NULs (`c75_counterexample`) and characters above 127 (`c75_case_undefined`). -/
theorem c75_case_partial (d : Data) (s : List Nat) (h : Holds d s) (hn : NulFree s) (ha : Ascii s) :
    (∃ d', stringUpcase d = some d' ∧ Holds d' (s.map fun c => if 97 ≤ c ∧ c ≤ 122 then c - 32 else c)) ∧
      ∃ d', stringDowncase d = some d' ∧ Holds d' (s.map fun c => if 65 ≤ c ∧ c ≤ 90 then c + 32 else c) := by
  have h1 := h.1
  constructor
  · refine ⟨⟨d.len, (s.map toupper).map some ++ [some 0]⟩, ?_, by simpa using h1, rfl, fun c hc => ?_⟩
    · simp only [stringUpcase, dup_mem d s h, Option.bind_eq_bind, Option.bind_some, caseLoop_text toupper s [] hn ha]
    · obtain ⟨c, hm, rfl⟩ := List.mem_map.mp hc
      have := ha c hm
      split <;> omega
  · refine ⟨⟨d.len, (s.map tolower).map some ++ [some 0]⟩, ?_, by simpa using h1, rfl, fun c hc => ?_⟩
    · simp only [stringDowncase, dup_mem d s h, Option.bind_eq_bind, Option.bind_some, caseLoop_text tolower s [] hn ha]
    · obtain ⟨c, hm, rfl⟩ := List.mem_map.mp hc
      have := ha c hm
      split <;> omega

theorem caseLoop_bad (f : Nat → Nat) (c : Nat) (hc : 128 ≤ c ∧ c < 255) : ∀ (s : List Nat) (q : Mem), NulFree s → caseLoop f (s.map some ++ some c :: q) = none := by
  intro s
  induction s with
  | nil => intro q _; simp [caseLoop, ctype, show c ≠ 0 by omega, show ¬ c < 128 by omega, show c ≠ 255 by omega]
  | cons b s ih =>
    intro q h
    have h0 : b ≠ 0 := h b List.mem_cons_self
    have h2 := ih q (fun x hx => h x (List.mem_cons_of_mem _ hx))
    simp only [List.map_cons, List.cons_append, caseLoop, if_neg h0, h2]
    cases ctype f b <;> rfl

/-- **C75**.  A character from 128 to 254 before the first NUL makes `string-upcase` and `string-downcase` call `toupper` and
`tolower` with a negative number, which is undefined. -/
theorem c75_case_undefined (d : Data) (s t : List Nat) (c : Nat) (h : Holds d (s ++ c :: t)) (hn : NulFree s) (hc : 128 ≤ c ∧ c < 255) :
    stringUpcase d = none ∧ stringDowncase d = none := by
  have e : (s ++ c :: t).map some ++ [some 0] = s.map some ++ some c :: (t.map some ++ [some 0]) := by simp
  simp only [stringUpcase, stringDowncase, dup_mem d _ h, Option.bind_eq_bind, Option.bind_some, e, caseLoop_bad _ c hc s _ hn, Option.bind_none, and_self]

/-! ### search -/

theorem strchr_text (c : Nat) (hc : 0 < c ∧ c < 256) : ∀ s : List Nat, NulFree s → strchr c (s.map some ++ [some 0]) = some (s.idxOf? c) := by
  intro s
  induction s with
  | nil => intro _; simp [strchr, show c % 256 = c from Nat.mod_eq_of_lt hc.2, show ¬ 0 = c by omega]
  | cons b s ih =>
    intro h
    have h0 : b ≠ 0 := h b List.mem_cons_self
    have h2 := ih (fun x hx => h x (List.mem_cons_of_mem _ hx))
    by_cases hb : b = c
    · simp [strchr, Nat.mod_eq_of_lt hc.2, hb, List.idxOf?_cons]
    · simp [strchr, Nat.mod_eq_of_lt hc.2, hb, h0, h2, List.idxOf?_cons]

/-- **C75** (partial).  `string-position` gives the first index of the character, or `#f`, in strings without NUL and for
characters other than NUL.  Missing: NULs (`c75_counterexample`). -/
theorem c75_position_partial (d : Data) (s : List Nat) (h : Holds d s) (hn : NulFree s) (c : Nat) (hc : 0 < c ∧ c < 256) :
    ∃ r, stringPosition c d = some r ∧ (∀ i, r = some i ↔ s[i]? = some c ∧ ∀ j, j < i → s[j]? ≠ some c) ∧ (r = none ↔ c ∉ s) := by
  refine ⟨s.idxOf? c, by rw [stringPosition, h.2.1, strchr_text c hc s hn], fun i => ?_, List.idxOf?_eq_none_iff⟩
  clear h hn hc
  induction s generalizing i with
  | nil => simp
  | cons b s ih =>
    rw [List.idxOf?_cons]
    by_cases hb : b = c
    · subst hb
      cases i with
      | zero => simp
      | succ i =>
        simp only [BEq.rfl, if_true, Option.some.injEq]
        constructor
        · intro h; omega
        · rintro ⟨_, h⟩; exact absurd (show (b :: s)[0]? = some b from rfl) (h 0 (by omega))
    · cases i with
      | zero => simp [hb]
      | succ i =>
        have hne : (b == c) = false := by simpa using hb
        simp only [hne, Bool.false_eq_true, if_false, Option.map_eq_some_iff, Nat.add_right_cancel_iff, exists_eq_right, ih, List.getElem?_cons_succ]
        refine and_congr_right fun _ => ⟨fun h j hj => ?_, fun h j hj => by simpa using h (j + 1) (by omega)⟩
        cases j with
        | zero => simpa using hb
        | succ j => simpa using h j (by omega)

/-! ### symbols -/

theorem internAll_snoc {α : Type} [DecidableEq α] (hash : α → Nat) (n : α) : ∀ (ns : List α) (t t1 t2 : Symt.Table α) (ss : List Nat) (s : Nat),
    Symt.internAll hash t ns = some (t1, ss) → Symt.intern hash t1 n = some (t2, s) → Symt.internAll hash t (ns ++ [n]) = some (t2, ss ++ [s]) := by
  intro ns
  induction ns with
  | nil =>
    intro t t1 t2 ss s h1 h2
    simp only [Symt.internAll, Option.some.injEq, Prod.mk.injEq] at h1
    obtain ⟨rfl, rfl⟩ := h1
    simp [Symt.internAll, h2]
  | cons m ns ih =>
    intro t t1 t2 ss s h1 h2
    simp only [Symt.internAll, Option.bind_eq_bind, Option.bind_eq_some_iff] at h1
    obtain ⟨⟨t', s'⟩, h3, ⟨t'', ss'⟩, h4, h5⟩ := h1
    simp only [Option.some.injEq, Prod.mk.injEq] at h5
    obtain ⟨rfl, rfl⟩ := h5
    simp [Symt.internAll, h3, ih _ _ _ _ _ h4 h2]

theorem internAll_last {α : Type} [DecidableEq α] (hash : α → Nat) (n : α) : ∀ (ns : List α) (t t1 : Symt.Table α) (ss : List Nat) (x : Symt.Table α × List Nat),
    Symt.internAll hash t ns = some (t1, ss) → Symt.internAll hash t (ns ++ [n]) = some x → ∃ t2 s, Symt.intern hash t1 n = some (t2, s) := by
  intro ns
  induction ns with
  | nil =>
    intro t t1 ss x h1 h2
    simp only [Symt.internAll, Option.some.injEq, Prod.mk.injEq] at h1
    obtain ⟨rfl, rfl⟩ := h1
    simp only [List.nil_append, Symt.internAll, Option.bind_eq_bind, Option.bind_eq_some_iff] at h2
    obtain ⟨⟨t', s'⟩, h3, _⟩ := h2
    exact ⟨t', s', h3⟩
  | cons m ns ih =>
    intro t t1 ss x h1 h2
    simp only [List.cons_append, Symt.internAll, Option.bind_eq_bind, Option.bind_eq_some_iff] at h1 h2
    obtain ⟨⟨t', s'⟩, h3, ⟨t'', ss'⟩, h4, h5⟩ := h1
    obtain ⟨⟨u', r'⟩, h6, ⟨u'', rr'⟩, h7, h8⟩ := h2
    rw [h3] at h6
    simp only [Option.some.injEq, Prod.mk.injEq] at h5 h6
    obtain ⟨rfl, rfl⟩ := h5
    obtain ⟨rfl, rfl⟩ := h6
    exact ih _ _ _ _ h4 h7

theorem cstring_holds {d : Data} {s : List Nat} (h : Holds d s) : Cbuf.cstring d.mem = some (s.takeWhile (· ≠ 0)) := by
  have := Cbuf.cstring_map s []
  rw [h.2.1]
  simpa using this

/-- **C75**.  After any names `ns` were interned, `string->symbol` of a string gives a symbol whose `symbol->string` is the string up to its first
NUL; it is one of the symbols known before exactly if that is its name. -/
theorem c75_symbols_general (hash : List Nat → Nat) (ns : List (List Nat)) (t : Symt.Table (List Nat)) (ss : List Nat) (ht : Symt.internAll hash Symt.empty ns = some (t, ss))
    (d : Data) (s : List Nat) (h : Holds d s) :
    ∃ t' sym d', stringToSymbol hash t d = some (t', sym) ∧ symbolToString t' sym = some d' ∧ Holds d' (s.takeWhile (· ≠ 0)) ∧
      ∀ (i : Nat) (n : List Nat) (sym' : Nat), ns[i]? = some n → ss[i]? = some sym' → (sym' = sym ↔ n = s.takeWhile (· ≠ 0)) := by
  obtain ⟨t2, ss2, e1, e2, e3, e4⟩ := Symt.c09_intern hash (ns ++ [s.takeWhile (· ≠ 0)])
  obtain ⟨t', sym, e5⟩ := internAll_last hash _ ns _ _ _ _ ht e1
  have e6 := internAll_snoc hash _ ns _ _ _ _ _ ht e5
  rw [e1] at e6
  simp only [Option.some.injEq, Prod.mk.injEq] at e6
  obtain ⟨rfl, rfl⟩ := e6
  have hl : ss.length = ns.length := by simpa using e2
  have k1 : (ns ++ [s.takeWhile (· ≠ 0)])[ns.length]? = some (s.takeWhile (· ≠ 0)) := by simp
  have k2 : (ss ++ [sym])[ns.length]? = some sym := by rw [← hl]; simp
  obtain ⟨d', f1, f2⟩ := newstring_text (s.takeWhile (· ≠ 0)) [] (takeWhile_nul s) (fun c hc => h.2.2 c ((List.takeWhile_prefix _).subset hc))
  refine ⟨t2, sym, d', ?_, ?_, f2, fun i n sym' h1 h2 => ?_⟩
  · simp only [stringToSymbol, cstring_holds h, Option.bind_eq_bind, Option.bind_some, e5]
  · simp only [symbolToString, e3 _ _ _ k1 k2, Option.bind_eq_bind, Option.bind_some, f1]
  · have hi : i < ns.length := (List.getElem?_eq_some_iff.mp h1).1
    exact e4 i ns.length n _ sym' sym (by rw [List.getElem?_append_left hi]; exact h1) k1 (by rw [List.getElem?_append_left (by omega)]; exact h2) k2

/-- **C75** (partial).  The way from a string without NUL to a symbol and back gives an equal string.  Missing: NULs (`c75_counterexample`). -/
theorem c75_symbols_partial (hash : List Nat → Nat) (ns : List (List Nat)) (t : Symt.Table (List Nat)) (ss : List Nat) (ht : Symt.internAll hash Symt.empty ns = some (t, ss))
    (d : Data) (s : List Nat) (h : Holds d s) (hn : NulFree s) :
    ∃ t' sym d', stringToSymbol hash t d = some (t', sym) ∧ symbolToString t' sym = some d' ∧ Holds d' s := by
  obtain ⟨t', sym, d', h1, h2, h3, _⟩ := c75_symbols_general hash ns t ss ht d s h
  rw [takeWhile_free hn] at h3
  exact ⟨t', sym, d', h1, h2, h3⟩

/-! ### strings and bytevectors -/

/-- **C75**.  `(utf8->string bv)` and `(string->utf8 str)` copy all bytes, NULs included. -/
theorem c75_utf8 (d : Data) (s : List Nat) :
    (HoldsBytes d s → ∃ d', utf8ToString d = some d' ∧ Holds d' s) ∧ (Holds d s → ∃ d', stringToUtf8 d = some d' ∧ HoldsBytes d' s) := by
  constructor
  · rintro ⟨h1, h2, h3⟩
    refine ⟨⟨s.length, s.map some ++ [some 0]⟩, ?_, rfl, rfl, h3⟩
    have e := copy_close (s.map some) [] []
    simp only [List.nil_append, List.append_nil, List.length_nil, List.length_map] at e
    rw [utf8ToString, newstringn, h1, h2]
    rw [show (do let m ← memcpy (malloc (s.length + 1)) 0 (s.map some) 0 s.length; some (⟨s.length, ← store m s.length 0⟩ : Data)) =
        ((memcpy (malloc (s.length + 1)) 0 (s.map some) 0 s.length).bind (fun m => store m s.length 0)).bind (fun m' => some (⟨s.length, m'⟩ : Data)) from
      (Option.bind_assoc _ _ _).symm, e]
    rfl
  · rintro ⟨h1, h2, h3⟩
    refine ⟨⟨s.length, s.map some⟩, ?_, rfl, rfl, h3⟩
    have e := memcpy_mid (s.map some) [] (malloc s.length) [] [] [some 0] (by simp [malloc])
    simp only [List.nil_append, List.append_nil, List.length_nil, List.length_map] at e
    simp [stringToUtf8, newbytevector, h1, h2, e]

theorem writeLoop_spec (d : Data) (s : List Nat) (hl : d.len = s.length) (hm : ∀ i, i < s.length → load d.mem i = s[i]?) (hb : ∀ c ∈ s, c < 256) :
    ∀ (n i : Nat) (b : Cbuf.Buf) (w : List Nat), Cbuf.Holds b w → i + n ≤ s.length → ∃ b', writeLoop d i n b = some b' ∧ Cbuf.Holds b' (w ++ (s.drop i).take n) := by
  intro n
  induction n with
  | zero => intro i b w h _; exact ⟨b, rfl, by simpa using h⟩
  | succ n ih =>
    intro i b w h hi
    have hlt : i < s.length := by omega
    obtain ⟨b1, e1, h1⟩ := Cbuf.putc_holds h s[i]
    rw [Nat.mod_eq_of_lt (hb _ (List.getElem_mem hlt))] at h1
    obtain ⟨b2, e2, h2⟩ := ih (i + 1) b1 _ h1 (by omega)
    refine ⟨b2, ?_, ?_⟩
    · rw [writeLoop, if_pos (by omega), hm i hlt, List.getElem?_eq_getElem hlt]
      simp only [Option.bind_eq_bind, Option.bind_some, e1, e2]
    · rw [List.drop_eq_getElem_cons hlt, List.take_succ_cons]
      simpa using h2

theorem load_holds {d : Data} {s : List Nat} (h : Holds d s) (i : Nat) (hi : i < s.length) : load d.mem i = s[i]? := by
  rw [load, h.2.1, List.getElem?_append_left (by simpa using hi)]
  simp [hi]

theorem load_bytes {d : Data} {s : List Nat} (h : HoldsBytes d s) (i : Nat) (hi : i < s.length) : load d.mem i = s[i]? := by
  rw [load, h.2.1]
  simp [hi]

theorem fresh_holds : Cbuf.Holds Cbuf.newcb [] := ⟨by simp [Cbuf.newcb], List.replicate 64 none, by simp [Cbuf.newcb], rfl⟩

theorem drop_take (s : List Nat) (i j : Nat) : (s.drop i).take (j - i) = (s.take j).drop i := by
  rw [List.drop_take]

/-- **C75**.  `(string->utf8 str start end)` gives the bytes of the part, NULs included. -/
theorem c75_substring_utf8 (d : Data) (s : List Nat) (h : Holds d s) (i j : Nat) (hij : i ≤ j) (hj : j ≤ s.length) : substringToUtf8 d i j = some ((s.take j).drop i) := by
  obtain ⟨b, e1, _, rest, e2, e3⟩ := writeLoop_spec d s h.1 (load_holds h) h.2.2 (j - i) i _ _ fresh_holds (by omega)
  simp only [substringToUtf8, e1, Option.bind_eq_bind, Option.bind_some, Cbuf.getBytes, e3, e2, Cbuf.bytes_map]
  rw [List.nil_append, drop_take]

/-- **C75**.  `(utf8->string bv start end)` gives the bytes of the part up to the first NUL. -/
theorem c75_subutf8_general (d : Data) (s : List Nat) (h : HoldsBytes d s) (i j : Nat) (hij : i ≤ j) (hj : j ≤ s.length) :
    subUtf8ToString d i j = some (((s.take j).drop i).takeWhile (· ≠ 0)) := by
  obtain ⟨b, e1, e2⟩ := writeLoop_spec d s h.1 (load_bytes h) h.2.2 (j - i) i _ _ fresh_holds (by omega)
  obtain ⟨b', e3, _⟩ := Cbuf.getString_holds e2
  simp only [subUtf8ToString, e1, Option.bind_eq_bind, Option.bind_some, e3, Option.map_some]
  rw [List.nil_append, drop_take]

theorem writeLoop_out (d : Data) : ∀ (n i : Nat) (b : Cbuf.Buf), 0 < n → d.len < i + n → writeLoop d i n b = none := by
  intro n
  induction n with
  | zero => intro i b h; omega
  | succ n ih =>
    intro i b _ h
    rw [writeLoop]
    by_cases hi : i < d.len
    · rw [if_pos hi]
      rcases load d.mem i with _ | c
      · rfl
      · rcases h1 : Cbuf.cbputc b c with _ | b'
        · simp [h1]
        · simp [h1, ih (i + 1) b' (by omega) (by omega)]
    · rw [if_neg hi]; rfl

/-- **C75**.  Conversions of parts that do not lie inside the string or byte vector stop. -/
theorem c75_utf8_bounds (d : Data) (i j : Nat) (hij : i < j) (hj : d.len < j) : substringToUtf8 d i j = none ∧ subUtf8ToString d i j = none := by
  simp [substringToUtf8, subUtf8ToString, writeLoop_out d (j - i) i Cbuf.newcb (by omega) (by omega)]

/-- **C75** (partial).  Parts without NUL are converted exactly.  Missing: NULs, for which `(utf8->string bv)` and `(utf8->string bv 0)` differ
(`c75_counterexample`). -/
theorem c75_subutf8_partial (d : Data) (s : List Nat) (h : HoldsBytes d s) (i j : Nat) (hij : i ≤ j) (hj : j ≤ s.length) (hn : NulFree ((s.take j).drop i)) :
    subUtf8ToString d i j = some ((s.take j).drop i) := by
  rw [c75_subutf8_general d s h i j hij hj, takeWhile_free hn]

/-! ### the full statements -/

/-- Constants denote all their characters. -/
def C75Constants : Prop := ∀ cs : List Nat, (∀ c ∈ cs, c < 256) → ∃ d, constant cs = some d ∧ Holds d cs
/-- `string-upcase` changes every letter. -/
def C75Upcase : Prop := ∀ (d : Data) (s : List Nat), Holds d s → Ascii s → ∃ d', stringUpcase d = some d' ∧ Holds d' (s.map fun c => if 97 ≤ c ∧ c ≤ 122 then c - 32 else c)
/-- `string-position` finds exactly the characters of the string. -/
def C75Position : Prop := ∀ (d : Data) (s : List Nat) (c : Nat), Holds d s → c < 256 → stringPosition c d = some (s.idxOf? c)
/-- symbols keep the names they were made from. -/
def C75Symbols : Prop := ∀ (hash : List Nat → Nat) (d : Data) (s : List Nat), Holds d s →
  ∃ t sym d', stringToSymbol hash Symt.empty d = some (t, sym) ∧ symbolToString t sym = some d' ∧ Holds d' s
/-- parts of bytevectors are converted as whole ones are. -/
def C75Parts : Prop := ∀ (d : Data) (s : List Nat), HoldsBytes d s → ∃ d', utf8ToString d = some d' ∧ subUtf8ToString d 0 d.len = some ((d'.mem.take d'.len).filterMap id)

theorem holds_of (s : List Nat) (h : ∀ c ∈ s, c < 256) : Holds ⟨s.length, s.map some ++ [some 0]⟩ s := ⟨rfl, rfl, h⟩

/-- All of these fail for characters that are NUL: `"a\x0;b"` as a constant is `"a"`; `(string-upcase (string #\a #\x0 #\b))` leaves the `b`; a
NUL is found at the end of every string, which has none; the symbol is named `a`; `(utf8->string bv 0)` ends at the NUL. -/
theorem c75_counterexample : ¬ C75Constants ∧ ¬ C75Upcase ∧ ¬ C75Position ∧ ¬ C75Symbols ∧ ¬ C75Parts := by
  have hb : ∀ c ∈ [97, 0, 98], c < 256 := by decide
  refine ⟨fun h => ?_, fun h => ?_, fun h => ?_, fun h => ?_, fun h => ?_⟩
  · obtain ⟨d, h1, h2, _⟩ := h [97, 0, 98] hb
    obtain ⟨d', h3, h4, _⟩ := c75_constant_general [97, 0, 98] hb
    rw [h1, Option.some.injEq] at h3
    subst h3
    rw [h2] at h4
    exact absurd h4 (by decide)
  · obtain ⟨d, h1, _, h2, _⟩ := h _ _ (holds_of [97, 0, 98] hb) (by unfold Ascii; decide)
    have h3 : stringUpcase ⟨3, [some 97, some 0, some 98, some 0]⟩ = some ⟨3, [some 65, some 0, some 98, some 0]⟩ := rfl
    have h4 := Option.some.inj (h1.symm.trans h3)
    rw [h4] at h2
    exact absurd h2 (by decide)
  · have h1 := h _ _ 0 (holds_of [97] (by decide)) (by decide)
    exact absurd h1 (by decide)
  · obtain ⟨t, sym, d', h1, h2, h3, _⟩ := h (fun _ => 0) _ _ (holds_of [97, 0, 98] hb)
    obtain ⟨t', sym', d'', h4, h5, h6, _⟩ := c75_symbols_general (fun _ => 0) [] _ _ rfl _ _ (holds_of [97, 0, 98] hb)
    rw [h1, Option.some.injEq, Prod.mk.injEq] at h4
    obtain ⟨rfl, rfl⟩ := h4
    rw [h2, Option.some.injEq] at h5
    subst h5
    have h7 := h6.1
    rw [h3] at h7
    exact absurd h7 (by decide)
  · obtain ⟨d', h1, h2⟩ := h ⟨3, [some 97, some 0, some 98]⟩ [97, 0, 98] ⟨rfl, rfl, hb⟩
    have h3 : utf8ToString ⟨3, [some 97, some 0, some 98]⟩ = some ⟨3, [some 97, some 0, some 98, some 0]⟩ := rfl
    have h4 := Option.some.inj (h1.symm.trans h3)
    rw [h4] at h2
    have h5 := c75_subutf8_general ⟨3, [some 97, some 0, some 98]⟩ [97, 0, 98] ⟨rfl, rfl, hb⟩ 0 3 (by decide) (by decide)
    rw [h5] at h2
    exact absurd h2 (by decide)

/-! ### examples -/

/-- `"aZ~"`, its part from 1 to 3, with `"bc"` appended, in upper and lower case, and the position of `~`. -/
example : ∃ d, constant [97, 90, 126] = some d ∧ Holds d [97, 90, 126] ∧ NulFree [97, 90, 126] ∧ Ascii [97, 90, 126] ∧
    (substring d 1 3).map (·.mem) = some [some 90, some 126, some 0] ∧
    (stringcat d ⟨2, [some 98, some 99, some 0]⟩).map (·.mem) = some [some 97, some 90, some 126, some 98, some 99, some 0] ∧
    (stringUpcase d).map (·.mem) = some [some 65, some 90, some 126, some 0] ∧ (stringDowncase d).map (·.mem) = some [some 97, some 122, some 126, some 0] ∧
    stringPosition 126 d = some (some 2) ∧ stringPosition 98 d = some none ∧ stringRef d 3 = none :=
  ⟨⟨3, [some 97, some 90, some 126, some 0]⟩, rfl, ⟨rfl, rfl, by decide⟩, by unfold NulFree; decide, by unfold Ascii; decide, rfl, rfl, rfl, rfl, rfl, rfl, rfl⟩

/-- `(string #\a #\xff)` with the first character set to 200. -/
example : ∃ d d', stringOf [97, 255] = some d ∧ stringSet d 0 200 = some d' ∧ stringRef d' 0 = some 200 ∧ stringRef d' 1 = some 255 ∧ stringUpcase d' = none :=
  ⟨_, _, rfl, rfl, rfl, rfl, rfl⟩

/-- a part of a bytevector, and all of it. -/
example : HoldsBytes ⟨4, [some 97, some 0, some 98, some 99]⟩ [97, 0, 98, 99] ∧ subUtf8ToString ⟨4, [some 97, some 0, some 98, some 99]⟩ 2 4 = some [98, 99] ∧
    subUtf8ToString ⟨4, [some 97, some 0, some 98, some 99]⟩ 0 4 = some [97] ∧
    (utf8ToString ⟨4, [some 97, some 0, some 98, some 99]⟩).map (·.mem) = some [some 97, some 0, some 98, some 99, some 0] :=
  ⟨⟨rfl, rfl, by decide⟩, by decide +kernel, by decide +kernel, rfl⟩

end Verif.StrMem
