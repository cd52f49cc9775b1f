import Verif.Num.Model
import Mathlib.Tactic.Ring
import Mathlib.Tactic.IntervalCases
import Mathlib.Tactic.Linarith
import Mathlib.Tactic.NormNum
/-
Property theorem C08.
-/
namespace Verif.Num

/-- Specification: the number a digit string denotes in a radix. -/
def value (radix : Nat) (ds : List Char) : Nat :=
  ds.foldl (fun a c => a * radix + (digVal c).getD 0) 0

/-- Specification: a canonical numeral – optional minus, then digits below the radix, lower case, no
superfluous leading zero, and no minus zero. -/
def Canonical (radix : Nat) (s : List Char) : Prop :=
  ∃ neg ds, s = (if neg then '-' :: ds else ds) ∧ ds ≠ [] ∧
    (∀ c ∈ ds, isDig radix c = true ∧ ¬ ('A' ≤ c ∧ c ≤ 'Z')) ∧ (ds.head? = some '0' → ds = ['0'] ∧ neg = false)

/-- Specification: what `strtol`-style input denotes: blanks, optional sign, optional `0x` in radix 16, then
one or more digits. -/
def Numeral (radix : Nat) (s : List Char) (n : Int) : Prop :=
  ∃ ws sg pre ds, s = ws ++ (sg ++ (pre ++ ds)) ∧ (∀ c ∈ ws, isspace c = true) ∧
    (sg = [] ∨ sg = ['+'] ∨ sg = ['-']) ∧
    (pre = [] ∨ (radix = 16 ∧ (pre = ['0','x'] ∨ pre = ['0','X']))) ∧
    ds ≠ [] ∧ (∀ c ∈ ds, isDig radix c = true) ∧
    n = (if sg = ['-'] then -(value radix ds : Int) else value radix ds)

/-! ### digit lemmas -/

theorem dig_spec : ∀ d, d < 36 → digVal (dig d) = some d ∧ ¬ ('A' ≤ dig d ∧ dig d ≤ 'Z') ∧
    isspace (dig d) = false ∧ dig d ≠ '-' ∧ dig d ≠ '+' ∧ dig d ≠ '#' ∧ (dig d = '0' ↔ d = 0) ∧
    dig d ≠ Char.ofNat 0 := by
  decide +kernel

theorem isDig_dig {r d : Nat} (hr : r ≤ 36) (h : d < r) : isDig r (dig d) = true := by
  simp [isDig, (dig_spec d (by omega)).1, h]

theorem foldl_acc (r : Nat) (ds : List Char) : ∀ a, ds.foldl (fun a c => a * r + (digVal c).getD 0) a
    = a * r ^ ds.length + value r ds := by
  induction ds with
  | nil => intro a; simp [value]
  | cons c cs ih =>
    intro a
    simp only [List.foldl_cons, List.length_cons, value]
    rw [ih, ih (0 * r + (digVal c).getD 0)]
    ring

theorem value_cons (r : Nat) (c : Char) (cs : List Char) :
    value r (c :: cs) = (digVal c).getD 0 * r ^ cs.length + value r cs := by
  simp only [value, List.foldl_cons]
  rw [foldl_acc]
  simp [value]

theorem value_append (r : Nat) (xs ys : List Char) :
    value r (xs ++ ys) = value r xs * r ^ ys.length + value r ys := by
  rw [value, List.foldl_append, foldl_acc]; rfl

theorem digitsLoop_spec (r : Nat) (h2 : 2 ≤ r) (h36 : r ≤ 36) : ∀ room num acc, num < r ^ room → 0 < room →
    ∃ ds, digitsLoop r room num acc = some (ds ++ acc) ∧ ds ≠ [] ∧ ds.length ≤ room ∧
      (∀ c ∈ ds, isDig r c = true ∧ ¬ ('A' ≤ c ∧ c ≤ 'Z') ∧ isspace c = false ∧ c ≠ '-' ∧ c ≠ '+' ∧ c ≠ '#') ∧
      value r ds = num ∧ (ds.head? = some '0' → ds = ['0']) := by
  intro room
  induction room with
  | zero => intro num acc _ h; omega
  | succ room ih =>
    intro num acc hn _
    have hd : num % r < r := Nat.mod_lt _ (by omega)
    have sp := dig_spec (num % r) (by omega)
    rw [digitsLoop]
    by_cases h0 : num / r = 0
    · refine ⟨[dig (num % r)], by simp [h0], by simp, by simp, ?_, ?_, ?_⟩
      · intro c hc; simp at hc; subst hc
        exact ⟨isDig_dig h36 hd, sp.2.1, sp.2.2.1, sp.2.2.2.1, sp.2.2.2.2.1, sp.2.2.2.2.2.1⟩
      · simp only [value, List.foldl_cons, List.foldl_nil, sp.1, Option.getD_some]
        have := Nat.div_add_mod num r
        rw [h0] at this; omega
      · intro h; simp at h; simp [h]
    · have hlt : num / r < r ^ room := by
        apply Nat.div_lt_of_lt_mul; rw [← Nat.pow_succ']; exact hn
      have hroom : 0 < room := by
        rcases Nat.eq_zero_or_pos room with h | h
        · subst h; rw [pow_zero] at hlt; exact absurd (Nat.lt_one_iff.1 hlt) h0
        · exact h
      obtain ⟨ds, e, hne, hlen, hall, hval, hz⟩ := ih (num / r) (dig (num % r) :: acc) hlt hroom
      refine ⟨ds ++ [dig (num % r)], by simp [h0, e], by simp, by simp; omega, ?_, ?_, ?_⟩
      · intro c hc
        rw [List.mem_append] at hc
        rcases hc with hc | hc
        · exact hall c hc
        · simp at hc; subst hc
          exact ⟨isDig_dig h36 hd, sp.2.1, sp.2.2.1, sp.2.2.2.1, sp.2.2.2.2.1, sp.2.2.2.2.2.1⟩
      · rw [value_append, hval]
        have := Nat.div_add_mod' num r
        simp only [List.length_singleton, pow_one]
        simp only [value, List.foldl_cons, List.foldl_nil, sp.1, Option.getD_some]
        omega
      · intro h
        have h' : ds.head? = some '0' := by
          cases ds with
          | nil => exact absurd rfl hne
          | cons a as => simpa using h
        have hd0 := hz h'
        exfalso
        rw [hd0] at hval
        simp [value] at hval
        have : digVal '0' = some 0 := by decide
        rw [this] at hval; simp at hval
        omega

theorem strtolDigits_all (r : Nat) (ds : List Char) (h : ∀ c ∈ ds, isDig r c = true) : ∀ acc,
    strtolDigits r ds acc = (acc * r ^ ds.length + value r ds, []) := by
  induction ds with
  | nil => intro acc; simp [strtolDigits, value]
  | cons c cs ih =>
    intro acc
    have hc := h c (by simp)
    unfold isDig at hc
    cases hv : digVal c with
    | none => rw [hv] at hc; simp at hc
    | some d =>
      rw [hv] at hc
      have hd : d < r := by simpa using hc
      rw [strtolDigits]
      simp only [hv, hd, if_true]
      rw [ih (fun c hc => h c (by simp [hc])), value_cons, hv]
      simp only [List.length_cons, Option.getD_some]
      congr 1
      ring

theorem strtolDigits_rest (r : Nat) : ∀ (s : List Char) (acc : Nat) v rest,
    strtolDigits r s acc = (v, rest) → ∃ ds, s = ds ++ rest ∧ (∀ c ∈ ds, isDig r c = true) ∧
      v = acc * r ^ ds.length + value r ds := by
  intro s
  induction s with
  | nil => intro acc v rest h; simp [strtolDigits] at h; exact ⟨[], by simp [h], by simp, by simp [value, h]⟩
  | cons c cs ih =>
    intro acc v rest h
    rw [strtolDigits] at h
    cases hv : digVal c with
    | none => simp [hv] at h; exact ⟨[], by simp [h], by simp, by simp [value, h]⟩
    | some d =>
      simp only [hv] at h
      split at h
      · rename_i hd
        obtain ⟨ds, h1, h2, h3⟩ := ih _ _ _ h
        refine ⟨c :: ds, by simp [h1], ?_, ?_⟩
        · intro x hx
          simp at hx
          rcases hx with rfl | hx
          · simp [isDig, hv, hd]
          · exact h2 x hx
        · rw [value_cons, hv, h3, List.length_cons]; simp only [Option.getD_some]; ring
      · simp at h; exact ⟨[], by simp [h], by simp, by simp [value, h]⟩

theorem isDig_not_space {r : Nat} {c : Char} (h : isDig r c = true) :
    isspace c = false ∧ c ≠ '-' ∧ c ≠ '+' ∧ c ≠ '#' := by
  unfold isDig at h
  have hv : digVal c ≠ none := by intro hc; rw [hc] at h; simp at h
  refine ⟨?_, ?_, ?_, ?_⟩
  · by_contra hs
    have hs : isspace c = true := by simpa using hs
    apply hv
    simp only [isspace, Bool.or_eq_true, decide_eq_true_eq, Bool.and_eq_true] at hs
    have hn : c.toNat ≤ 32 := by
      rcases hs with rfl | ⟨_, h⟩
      · decide
      · omega
    simp only [digVal]
    have e : ∀ (d : Char), 32 < d.toNat → ¬ d ≤ c := by
      intro d hd hle
      have : d.toNat ≤ c.toNat := hle
      omega
    rw [if_neg (fun h => e '0' (by decide) h.1), if_neg (fun h => e 'a' (by decide) h.1),
      if_neg (fun h => e 'A' (by decide) h.1)]
  all_goals (rintro rfl; exact hv (by decide))

theorem dropWhile_head {s : List Char} (h : ∀ c, s.head? = some c → isspace c = false) (ws : List Char)
    (hw : ∀ c ∈ ws, isspace c = true) : (ws ++ s).dropWhile isspace = s := by
  induction ws with
  | nil =>
    cases s with
    | nil => rfl
    | cons c cs => rw [List.nil_append, List.dropWhile_cons_of_neg]; simp [h c rfl]
  | cons w ws ih =>
    rw [List.cons_append, List.dropWhile_cons_of_pos (hw w (by simp))]
    exact ih (fun c hc => hw c (by simp [hc]))

theorem strtol_numeral (r : Nat) (s : List Char) (n : Int) (h : Numeral r s n)
    (hn : -9223372036854775808 ≤ n ∧ n ≤ 9223372036854775807) : strtol s r = (some n, []) := by
  obtain ⟨ws, sg, pre, ds, rfl, hws, hsg, hpre, hne, hds, hval⟩ := h
  obtain ⟨c, cs, rfl⟩ : ∃ c cs, ds = c :: cs := List.exists_cons_of_ne_nil hne
  have hc := isDig_not_space (hds c (by simp))
  -- the part after blanks does not start with a blank
  have hhead : ∀ x, (sg ++ (pre ++ c :: cs)).head? = some x → isspace x = false := by
    intro x hx
    rcases hsg with rfl | rfl | rfl
    · rcases hpre with rfl | ⟨_, rfl | rfl⟩
      · simp at hx; subst hx; exact hc.1
      · simp at hx; subst hx; decide
      · simp at hx; subst hx; decide
    · simp at hx; subst hx; decide
    · simp at hx; subst hx; decide
  have hhead2 : ∀ x, (pre ++ c :: cs).head? = some x → x ≠ '-' ∧ x ≠ '+' := by
    intro x hx
    rcases hpre with rfl | ⟨_, rfl | rfl⟩
    · simp at hx; subst hx; exact ⟨hc.2.1, hc.2.2.1⟩
    · simp at hx; subst hx; decide
    · simp at hx; subst hx; decide
  have hsign : takeSign (sg ++ (pre ++ c :: cs)) = (decide (sg = ['-']), pre ++ c :: cs) := by
    rcases hsg with rfl | rfl | rfl
    · cases hp : pre ++ c :: cs with
      | nil => simp at hp
      | cons x xs =>
        have := hhead2 x (by rw [hp]; rfl)
        simp only [List.nil_append]
        unfold takeSign
        split <;> simp_all
    · rfl
    · rfl
  have hskip : skip0x r (pre ++ c :: cs) = c :: cs := by
    rcases hpre with rfl | ⟨h16, rfl | rfl⟩
    · unfold skip0x
      split
      · rename_i x c' cs' heq
        simp only [List.nil_append, List.cons.injEq] at heq
        obtain ⟨rfl, rfl⟩ := heq
        have hx := hds x (by simp)
        split
        · rename_i h
          exfalso
          obtain ⟨rfl, hx', _⟩ := h
          rcases hx' with rfl | rfl <;> revert hx <;> decide
        · rfl
      · rfl
    · subst h16
      have hx : isDig 16 c = true := hds c (by simp)
      simp [skip0x, hx]
    · subst h16
      have hx : isDig 16 c = true := hds c (by simp)
      simp [skip0x, hx]
  unfold strtol
  rw [dropWhile_head hhead ws hws, hsign]
  simp only [hskip]
  rw [strtolDigits_all r _ hds]
  simp only [List.length_nil, List.length_cons, Nat.zero_mul, Nat.zero_add]
  rw [if_neg (by omega)]
  have : signed (decide (sg = ['-'])) (value r (c :: cs)) = n := by
    rw [hval]; simp [signed]
  rw [this, if_pos hn]

theorem mem_takeWhile (s : List Char) : ∀ c ∈ s.takeWhile isspace, isspace c = true := by
  induction s with
  | nil => simp
  | cons a as ih =>
    intro c hc
    rw [List.takeWhile_cons] at hc
    split at hc
    · rename_i h
      simp at hc
      rcases hc with rfl | hc
      · exact h
      · exact ih c hc
    · simp at hc

theorem strtol_complete (r : Nat) (s : List Char) (n : Int) (h : strtol s r = (some n, [])) (hs : s ≠ []) :
    Numeral r s n := by
  unfold strtol at h
  have hsplit : s = s.takeWhile isspace ++ s.dropWhile isspace := (List.takeWhile_append_dropWhile).symm
  have hws : ∀ c ∈ s.takeWhile isspace, isspace c = true := mem_takeWhile s
  generalize s.dropWhile isspace = s1 at *
  generalize s.takeWhile isspace = ws at *
  obtain ⟨sg, hsg, hsg2, hneg⟩ : ∃ sg, s1 = sg ++ (takeSign s1).2 ∧ (sg = [] ∨ sg = ['+'] ∨ sg = ['-']) ∧
      ((takeSign s1).1 = decide (sg = ['-'])) := by
    unfold takeSign
    split
    · exact ⟨['-'], rfl, by simp, by simp⟩
    · exact ⟨['+'], rfl, by simp, by simp⟩
    · exact ⟨[], rfl, by simp, by simp⟩
  generalize htk : takeSign s1 = p at *
  obtain ⟨neg, s2⟩ := p
  simp only at hsg hneg h
  obtain ⟨pre, hpre, hpre2⟩ : ∃ pre, s2 = pre ++ skip0x r s2 ∧
      (pre = [] ∨ (r = 16 ∧ (pre = ['0','x'] ∨ pre = ['0','X']))) := by
    unfold skip0x
    split
    · rename_i x c cs
      split
      · rename_i hh
        obtain ⟨h16, hx, _⟩ := hh
        rcases hx with rfl | rfl
        · exact ⟨['0','x'], rfl, by simp [h16]⟩
        · exact ⟨['0','X'], rfl, by simp [h16]⟩
      · exact ⟨[], rfl, by simp⟩
    · exact ⟨[], rfl, by simp⟩
  generalize skip0x r s2 = s3 at *
  cases hd : strtolDigits r s3 0 with
  | mk v rest =>
    rw [hd] at h
    simp only at h
    obtain ⟨ds, h1, h2, h3⟩ := strtolDigits_rest r s3 0 v rest hd
    split at h
    · simp at h; exact absurd h.2 hs
    · rename_i hlen
      split at h
      · simp only [Prod.mk.injEq, Option.some.injEq] at h
        obtain ⟨h4, rfl⟩ := h
        simp only [List.append_nil] at h1
        refine ⟨ws, sg, pre, ds, by rw [hsplit, hsg, hpre, h1], hws, hsg2, hpre2, ?_, h2, ?_⟩
        · rintro rfl; apply hlen; rw [h1]
        · rw [← h4, hneg, h3]; simp [signed]
      · simp at h

/-- Specification of the radix prefixes of `string->number`. -/
def Prefixed (s : List Char) (radix : Nat) (body : List Char) (radix' : Nat) : Prop :=
  (∃ c, s = '#' :: c :: body ∧
    (((c = 'b' ∨ c = 'B') ∧ radix' = 2) ∨ ((c = 'o' ∨ c = 'O') ∧ radix' = 8) ∨
     ((c = 'd' ∨ c = 'D') ∧ radix' = 10) ∨ ((c = 'x' ∨ c = 'X') ∧ radix' = 16))) ∨
  ((∀ c cs, s = '#' :: c :: cs → c ∉ ['b','B','o','O','d','D','x','X']) ∧ body = s ∧ radix' = radix)

theorem hashPrefix_spec (s : List Char) (r : Nat) :
    Prefixed s r (hashPrefix s r).1 (hashPrefix s r).2 ∧
    ∀ b r', Prefixed s r b r' → (b, r') = hashPrefix s r := by
  constructor
  · unfold hashPrefix
    split
    · rename_i c cs
      by_cases h1 : c = 'b' ∨ c = 'B'
      · left; exact ⟨c, by simp [h1], Or.inl ⟨h1, by simp [h1]⟩⟩
      by_cases h2 : c = 'o' ∨ c = 'O'
      · left; exact ⟨c, by simp [h1, h2], Or.inr (Or.inl ⟨h2, by simp [h1, h2]⟩)⟩
      by_cases h3 : c = 'd' ∨ c = 'D'
      · left; exact ⟨c, by simp [h1, h2, h3], Or.inr (Or.inr (Or.inl ⟨h3, by simp [h1, h2, h3]⟩))⟩
      by_cases h4 : c = 'x' ∨ c = 'X'
      · left; exact ⟨c, by simp [h1, h2, h3, h4], Or.inr (Or.inr (Or.inr ⟨h4, by simp [h1, h2, h3, h4]⟩))⟩
      right
      refine ⟨?_, by simp [h1, h2, h3, h4], by simp [h1, h2, h3, h4]⟩
      intro c' cs' h
      simp only [List.cons.injEq, true_and] at h
      obtain ⟨rfl, rfl⟩ := h
      simp only [List.mem_cons, List.not_mem_nil]
      tauto
    · right
      refine ⟨?_, rfl, rfl⟩
      rename_i hno
      intro c cs h; exact absurd h (hno c cs)
  · intro b r' h
    rcases h with ⟨c, rfl, h⟩ | ⟨h, rfl, rfl⟩
    · rcases h with ⟨h | h, rfl⟩ | ⟨h | h, rfl⟩ | ⟨h | h, rfl⟩ | ⟨h | h, rfl⟩ <;> subst h <;> simp [hashPrefix]
    · unfold hashPrefix
      split
      · rename_i c cs
        have := h c cs rfl
        simp only [List.mem_cons, List.not_mem_nil, or_false, not_or] at this
        simp [this]
      · rfl

/-- `string->number` in radix `r` accepts exactly the strings that are wholly a numeral whose value is a
fixnum, and returns that value. -/
theorem c08_string_to_number (s : List Char) (r : Nat) (n : Int) :
    stringToFixnum s r = some n ↔
      ∃ body r', Prefixed s r body r' ∧ Numeral r' body n ∧ -8388608 ≤ n ∧ n ≤ 8388607 := by
  obtain ⟨hp, hu⟩ := hashPrefix_spec s r
  constructor
  · intro h
    refine ⟨(hashPrefix s r).1, (hashPrefix s r).2, hp, ?_⟩
    unfold stringToFixnum at h
    simp only at h
    generalize hashPrefix s r = p at *
    obtain ⟨b, r'⟩ := p
    simp only at h ⊢
    cases hs : strtol b r' with
    | mk v rest =>
      rw [hs] at h
      cases v with
      | none => simp at h
      | some l =>
        simp only at h
        split at h
        · simp at h
        · rename_i hc
          push Not at hc
          simp at h; subst h
          obtain ⟨h1, h2, h3, rfl⟩ := hc
          refine ⟨strtol_complete r' b l hs ?_, by omega, by omega⟩
          rintro rfl; simp at h3
  · rintro ⟨b, r', hpre, hn, h1, h2⟩
    have e := hu b r' hpre
    unfold stringToFixnum
    rw [← e]
    simp only
    rw [strtol_numeral r' b n hn (by omega)]
    have hne : b ≠ [] := by
      rintro rfl
      obtain ⟨ws, sg, pre, ds, h, _, _, _, hne, _⟩ := hn
      simp at h; exact hne h.2.2.2
    have : b.length ≠ 0 := by simpa using hne
    simp only
    rw [if_neg]
    push Not
    exact ⟨by omega, by omega, by simp; omega, rfl⟩

example : ∃ body r', Prefixed ['#','x','-','f','f'] 10 body r' ∧ Numeral r' body (-255) ∧
    (-8388608:Int) ≤ -255 ∧ (-255:Int) ≤ 8388607 :=
  ⟨['-','f','f'], 16, Or.inl ⟨'x', rfl, by simp⟩,
    ⟨[], ['-'], [], ['f','f'], rfl, by simp, by simp, by simp, by simp, by decide, by decide⟩, by decide, by decide⟩

/-- `number->string` then `string->number` in the same radix gives the number back, the text is a canonical
numeral, and the 35-byte buffer is never overrun: for every fixnum and every radix 2..36. -/
theorem c08_roundtrip (n : Int) (r : Nat) (h1 : -8388608 ≤ n) (h2 : n ≤ 8388607) (hr : 2 ≤ r ∧ r ≤ 36) :
    ∃ s, fixnumToString n r = some s ∧ Canonical r s ∧ stringToFixnum s r = some n := by
  have hb : n.natAbs < r ^ 24 := by
    calc n.natAbs < 2 ^ 24 := by omega
      _ ≤ r ^ 24 := Nat.pow_le_pow_left hr.1 _
  have hb34 : n.natAbs < r ^ 33 := lt_of_lt_of_le hb (Nat.pow_le_pow_right (by omega) (by omega))
  obtain ⟨ds, e, hne, _, hall, hval, hz⟩ := digitsLoop_spec r hr.1 hr.2 34 n.natAbs []
    (lt_of_lt_of_le hb34 (Nat.pow_le_pow_right (by omega) (by omega))) (by omega)
  -- the same digits from the loop with 33 bytes of room: at most 33 digits
  have hlen : ds.length < 34 := by
    have mono : ∀ room num acc out, digitsLoop r room num acc = some out → digitsLoop r (room+1) num acc = some out := by
      intro room
      induction room with
      | zero => intro num acc out h; simp [digitsLoop] at h
      | succ room ih =>
        intro num acc out h
        rw [digitsLoop] at h ⊢
        split at h
        · rename_i h0; simpa [h0] using h
        · rename_i h0; simp only [h0, if_false]; exact ih _ _ _ h
    obtain ⟨ds', e', _, hl', _⟩ := digitsLoop_spec r hr.1 hr.2 33 n.natAbs [] hb34 (by omega)
    have := mono _ _ _ _ e'
    rw [e] at this
    simp at this; subst this; omega
  rw [List.append_nil] at e
  have hcs : ∀ c ∈ ds, isDig r c = true := fun c hc => (hall c hc).1
  have hnohash : ∀ c cs, ds = c :: cs → c ≠ '#' := by
    intro c cs hd; exact (hall c (by simp [hd])).2.2.2.2.2
  refine ⟨if n < 0 then '-' :: ds else ds, ?_, ?_, ?_⟩
  · simp only [fixnumToString, e]
    split
    · rfl
    · rfl
  · refine ⟨decide (n < 0), ds, by simp, hne, fun c hc => ⟨(hall c hc).1, (hall c hc).2.1⟩, ?_⟩
    intro h0
    have := hz h0
    refine ⟨this, ?_⟩
    rw [this] at hval
    have h00 : value r ['0'] = 0 := by
      simp only [value, List.foldl_cons, List.foldl_nil]
      rw [show digVal '0' = some 0 by decide]; simp
    rw [h00] at hval
    simp; omega
  · rw [c08_string_to_number]
    refine ⟨_, r, Or.inr ⟨?_, rfl, rfl⟩, ?_, h1, h2⟩
    · intro c cs h
      split at h
      · simp at h
      · exact absurd rfl (hnohash '#' (c :: cs) h)
    · refine ⟨[], if n < 0 then ['-'] else [], [], ds, ?_, by simp, ?_, by simp, hne, hcs, ?_⟩
      · split <;> simp
      · split <;> simp
      · rw [hval]
        by_cases hn : n < 0
        · rw [if_pos (by simp [hn])]; omega
        · rw [if_neg (by simp [hn])]; omega

example : -8388608 ≤ (-8388608:Int) ∧ (-8388608:Int) ≤ 8388607 ∧ 2 ≤ 36 ∧ 36 ≤ 36 := by decide
example : fixnumToString (-8388608) 16 = some "-800000".toList := by decide

end Verif.Num
