import Verif.NumText.Spec
/-
Property theorems C72: which texts are read as numbers, and that numbers written are read back.
-/
namespace Verif.NumText
open Verif.Num (strtol takeSign isspace isDig digVal value strtolDigits Numeral digitsLoop)

/-! ### characters -/

theorem isDig_mono {r r' : Nat} {c : Char} (h : isDig r c = true) (hr : r ≤ r') : isDig r' c = true := by
  unfold isDig at *
  cases hd : digVal c with
  | none => rw [hd] at h; simp at h
  | some d => rw [hd] at h; simp at h ⊢; omega

theorem isDig10 {c : Char} (h : isDig 10 c = true) : isMark c = false ∧ c ≠ '+' ∧ c ≠ '-' ∧ c ≠ '.' ∧
    c ≠ 'e' ∧ c ≠ 'E' ∧ c ≠ '#' ∧ isspace c = false ∧ c ≠ 'x' ∧ c ≠ 'X' := by
  have hs := (Num.isDig_not_space h).1
  have key : ∀ c' : Char, isDig 10 c' = false → c ≠ c' := by
    rintro c' hc rfl; rw [h] at hc; simp at hc
  refine ⟨?_, key _ (by decide), key _ (by decide), key _ (by decide), key _ (by decide), key _ (by decide),
    key _ (by decide), hs, key _ (by decide), key _ (by decide)⟩
  have hall : ∀ c' ∈ ['.', 'e', 'E', 'i', 'I', 'n', 'N'], isDig 10 c' = false := by decide
  simp only [isMark, decide_eq_false_iff_not]
  intro hm
  exact key c (hall c hm) rfl

/-! ### lists -/

theorem drop_all {p : Char → Bool} : ∀ {a t : List Char}, (∀ c ∈ a, p c = true) →
    (∀ c, t.head? = some c → p c = false) → (a ++ t).dropWhile p = t ∧ (a ++ t).takeWhile p = a := by
  intro a
  induction a with
  | nil =>
    intro t _ ht
    cases t with
    | nil => simp
    | cons c cs => simp [ht c rfl]
  | cons x xs ih =>
    intro t ha ht
    have := ih (t := t) (fun c hc => ha c (by simp [hc])) ht
    simp [ha x (by simp), this]

theorem take_all {p : Char → Bool} (s : List Char) : ∀ c ∈ s.takeWhile p, p c = true := by
  induction s with
  | nil => simp
  | cons a as ih =>
    intro c hc
    rw [List.takeWhile_cons] at hc
    split at hc
    · rename_i h
      simp at hc
      rcases hc with rfl | hc
      · exact h
      · exact ih c hc
    · simp at hc

theorem drop_head {p : Char → Bool} (s : List Char) {c cs} (h : s.dropWhile p = c :: cs) : p c = false := by
  induction s with
  | nil => simp at h
  | cons a as ih =>
    rw [List.dropWhile_cons] at h
    split at h
    · exact ih h
    · rename_i hp; simp at h; rw [← h.1]; simpa using hp

theorem take_drop {p : Char → Bool} (s : List Char) : s = s.takeWhile p ++ s.dropWhile p :=
  (List.takeWhile_append_dropWhile).symm

/-! ### the decimal form of strtod -/

theorem takeSign_spec (s : List Char) : ∃ sg, s = sg ++ (takeSign s).2 ∧ Spec.Sign sg := by
  unfold takeSign
  split
  · exact ⟨['-'], rfl, by simp [Spec.Sign]⟩
  · exact ⟨['+'], rfl, by simp [Spec.Sign]⟩
  · exact ⟨[], rfl, by simp [Spec.Sign]⟩

theorem takeSign_of {sg t : List Char} (hs : Spec.Sign sg) (ht : ∀ c, t.head? = some c → c ≠ '+' ∧ c ≠ '-') :
    (takeSign (sg ++ t)).2 = t := by
  rcases hs with rfl | rfl | rfl
  · cases t with
    | nil => rfl
    | cons c cs =>
      have := ht c rfl
      simp only [List.nil_append]
      unfold takeSign
      split <;> simp_all
  · rfl
  · rfl

theorem expo_nil {s : List Char} (h : expo 'e' 'E' s = []) : Spec.Exponent s := by
  cases s with
  | nil => exact Or.inl rfl
  | cons c t =>
    rw [expo] at h
    split at h
    · rename_i hc
      obtain ⟨sg, h1, h2⟩ := takeSign_spec t
      refine Or.inr ⟨c, sg, (takeSign t).2, by rw [← h1], hc.1, h2, ?_, ?_⟩
      · intro h0; rw [h0] at hc; simp at hc
      · have := take_drop (p := isDig 10) (takeSign t).2
        rw [h, List.append_nil] at this
        rw [this]; exact take_all _
    · simp at h

theorem expo_of {x : List Char} (h : Spec.Exponent x) : expo 'e' 'E' x = [] := by
  rcases h with rfl | ⟨e, sg, ds, rfl, he, hs, hne, hds⟩
  · rfl
  · have ht : (takeSign (sg ++ ds)).2 = ds := by
      apply takeSign_of hs
      intro c hc
      have := isDig10 (hds c (List.mem_of_mem_head? hc))
      exact ⟨this.2.1, this.2.2.1⟩
    have hd := drop_all (t := []) hds (by simp)
    rw [List.append_nil] at hd
    rw [expo, ht, hd.2, hd.1, if_pos ⟨he, hne⟩]

theorem exponent_head {x : List Char} (h : Spec.Exponent x) : ∀ c, x.head? = some c → c = 'e' ∨ c = 'E' := by
  rcases h with rfl | ⟨e, sg, ds, rfl, he, _⟩
  · simp
  · intro c hc; simp at hc; rw [← hc]; exact he

theorem mantissa_some {s u : List Char} (h : mantissa (isDig 10) s = some u) :
    ∃ m, s = m ++ u ∧ Spec.Mantissa m := by
  unfold mantissa at h
  have hs := take_drop (p := isDig 10) s
  have ha := take_all (p := isDig 10) s
  generalize s.takeWhile (isDig 10) = a at *
  split at h
  · rename_i s2 hd
    rw [hd] at hs
    split at h
    · simp at h
    · rename_i hne
      simp at h
      have h2 := take_drop (p := isDig 10) s2
      have hb := take_all (p := isDig 10) s2
      generalize s2.takeWhile (isDig 10) = b at *
      refine ⟨a ++ '.' :: b, ?_, Or.inr ⟨a, b, rfl, ?_, ha, hb⟩⟩
      · rw [hs, h2, h]; simp
      · by_cases h0 : a = []
        · right; intro hb0; exact hne ⟨h0, hb0⟩
        · exact Or.inl h0
  · split at h
    · simp at h
    · rename_i hne
      simp at h
      exact ⟨a, by rw [← h]; exact hs, Or.inl ⟨hne, ha⟩⟩

theorem mantissa_of {m u : List Char} (h : Spec.Mantissa m) (hu : ∀ c, u.head? = some c → c = 'e' ∨ c = 'E') :
    mantissa (isDig 10) (m ++ u) = some u := by
  have hu' : ∀ c, u.head? = some c → isDig 10 c = false := by
    intro c hc; rcases hu c hc with rfl | rfl <;> decide
  rcases h with ⟨hne, hm⟩ | ⟨a, b, rfl, hne, ha, hb⟩
  · have := drop_all hm hu'
    unfold mantissa
    rw [this.1, this.2]
    split
    · rename_i s2
      exact absurd (hu '.' rfl) (by decide)
    · rw [if_neg hne]
  · have h1 := drop_all (p := isDig 10) (a := a) (t := '.' :: (b ++ u)) ha
      (by intro c hc; simp at hc; subst hc; decide)
    have h2 := drop_all hb hu'
    unfold mantissa
    rw [List.append_assoc, List.cons_append, h1.1, h1.2]
    simp only [h2.1, h2.2]
    rw [if_neg]
    rintro ⟨x, y⟩
    rcases hne with h | h
    · exact h x
    · exact h y

/-- No letter of `inf`, `nan` and `0x`. -/
def Bare (s : List Char) : Prop := ∀ c ∈ s, c ∉ ['i', 'I', 'n', 'N', 'x', 'X']

theorem eqCi_take {s : List Char} (h : Bare s) (k : Nat) (c : Char) (t : List Char)
    (hc : c = 'i' ∨ c = 'n') : eqCi (s.take k) (c :: t) = false := by
  simp only [eqCi, decide_eq_false_iff_not]
  intro he
  cases hs : s.take k with
  | nil => rw [hs] at he; simp at he
  | cons a as =>
    rw [hs] at he
    have hm : a ∈ s := List.mem_of_mem_take (by rw [hs]; simp)
    have hb := h a hm
    simp only [List.map_cons, List.cons.injEq] at he
    have hl : a.toLower = 'i' ∨ a.toLower = 'n' := by
      rcases hc with rfl | rfl
      · exact Or.inl he.1
      · exact Or.inr he.1
    apply hb
    have key : a = 'i' ∨ a = 'I' ∨ a = 'n' ∨ a = 'N' := by
      unfold Char.toLower at hl
      split at hl
      · rename_i hu
        rcases hl with hl | hl
        · right; left
          have := congrArg Char.val hl
          simp at this
          apply Char.ext
          have h2 : a.val = 105 - 32 := by rw [← this]; simp
          rw [h2]; rfl
        · right; right; right
          have := congrArg Char.val hl
          simp at this
          apply Char.ext
          have h2 : a.val = 110 - 32 := by rw [← this]; simp
          rw [h2]; rfl
      · rcases hl with hl | hl
        · exact Or.inl hl
        · exact Or.inr (Or.inr (Or.inl hl))
    rcases key with rfl | rfl | rfl | rfl <;> simp

theorem body_bare {s : List Char} (h : Bare s) : strtodBody s = decimal s := by
  unfold strtodBody
  rw [eqCi_take h 8 'i' _ (Or.inl rfl), eqCi_take h 3 'i' _ (Or.inl rfl), eqCi_take h 3 'n' _ (Or.inr rfl)]
  simp only [Bool.false_eq_true, if_false]
  split
  · rename_i x t
    have := h x (by simp)
    rw [if_neg]
    rintro (rfl | rfl) <;> simp at this
  · rfl

theorem decimal_nil {s : List Char} : decimal s = some [] ↔ ∃ m x, s = m ++ x ∧ Spec.Mantissa m ∧ Spec.Exponent x := by
  constructor
  · intro h
    unfold decimal at h
    cases hm : mantissa (isDig 10) s with
    | none => rw [hm] at h; simp at h
    | some u =>
      rw [hm] at h
      simp at h
      obtain ⟨m, h1, h2⟩ := mantissa_some hm
      exact ⟨m, u, h1, h2, expo_nil h⟩
  · rintro ⟨m, x, rfl, hm, hx⟩
    unfold decimal
    rw [mantissa_of hm (exponent_head hx)]
    simp [expo_of hx]

theorem mantissa_head {m : List Char} (h : Spec.Mantissa m) : m ≠ [] ∧ ∀ c ∈ m, isDig 10 c = true ∨ c = '.' := by
  rcases h with ⟨hne, hm⟩ | ⟨a, b, rfl, hne, ha, hb⟩
  · exact ⟨hne, fun c hc => Or.inl (hm c hc)⟩
  · refine ⟨by simp, ?_⟩
    intro c hc
    simp at hc
    rcases hc with h | rfl | h
    · exact Or.inl (ha c h)
    · exact Or.inr rfl
    · exact Or.inl (hb c h)

theorem mantissa_first {m x : List Char} (h : Spec.Mantissa m) : ∀ c, (m ++ x).head? = some c →
    c ≠ '+' ∧ c ≠ '-' ∧ isspace c = false := by
  obtain ⟨hne, hm⟩ := mantissa_head h
  intro c hc
  obtain ⟨y, ys, rfl⟩ := List.exists_cons_of_ne_nil hne
  simp at hc; subst hc
  rcases hm y (by simp) with h | rfl
  · have := isDig10 h; exact ⟨this.2.1, this.2.2.1, this.2.2.2.2.2.2.2.1⟩
  · decide

theorem bare_suffix {a s : List Char} (h : Bare (a ++ s)) : Bare s := fun c hc => h c (by simp [hc])

theorem strtod_bare {s : List Char} (hb : Bare s) (hsp : ∀ c, s.head? = some c → isspace c = false) :
    (strtod s = [] ∧ s ≠ []) ↔ Spec.Decimal s := by
  have hdrop : s.dropWhile isspace = s := by
    have := (drop_all (p := isspace) (a := []) (t := s) (by simp) hsp).1
    simpa using this
  constructor
  · rintro ⟨h, hne⟩
    unfold strtod at h
    rw [hdrop] at h
    obtain ⟨sg, h1, h2⟩ := takeSign_spec s
    rw [body_bare (bare_suffix (a := sg) (by rw [← h1]; exact hb))] at h
    cases hd : decimal (takeSign s).2 with
    | none => rw [hd] at h; exact absurd h hne
    | some u =>
      rw [hd] at h
      simp only at h
      subst h
      obtain ⟨m, x, h3, h4, h5⟩ := decimal_nil.1 hd
      exact ⟨sg, m, x, by rw [← h3]; exact h1, h2, h4, h5⟩
  · rintro ⟨sg, m, x, rfl, h2, h4, h5⟩
    constructor
    · unfold strtod
      rw [hdrop, takeSign_of h2 (fun c hc => ⟨(mantissa_first h4 c hc).1, (mantissa_first h4 c hc).2.1⟩),
        body_bare (bare_suffix hb), decimal_nil.2 ⟨m, x, rfl, h4, h5⟩]
    · have := (mantissa_head h4).1
      simp [this]

/-! ### strtol and integers -/

theorem intNum_of_strtol {r : Nat} {s : List Char} {n : Int} (h : strtol s r = (some n, [])) (hne : s ≠ [])
    (hsp : ∀ c, s.head? = some c → isspace c = false) (hx : r = 16 → ∀ c ∈ s, c ≠ 'x' ∧ c ≠ 'X') :
    Spec.IntNum r s n := by
  obtain ⟨ws, sg, pre, ds, rfl, hws, hsg, hpre, hd, hds, hn⟩ := Num.strtol_complete r s n h hne
  have hw : ws = [] := by
    cases ws with
    | nil => rfl
    | cons w ws =>
      have h1 := hws w (by simp)
      have h2 := hsp w (by simp)
      rw [h1] at h2; simp at h2
  have hp : pre = [] := by
    rcases hpre with rfl | ⟨h16, rfl | rfl⟩
    · rfl
    · exact absurd rfl (hx h16 'x' (by simp)).1
    · exact absurd rfl (hx h16 'X' (by simp)).2
  subst hw hp
  exact ⟨sg, ds, by simp, hsg, ⟨hd, hds⟩, hn⟩

theorem strtol_of_intNum {r : Nat} {s : List Char} {n : Int} (h : Spec.IntNum r s n) (hl : Spec.Long n) :
    strtol s r = (some n, []) := by
  obtain ⟨sg, ds, rfl, hsg, ⟨hd, hds⟩, hn⟩ := h
  refine Num.strtol_numeral r _ n ⟨[], sg, [], ds, by simp, by simp, hsg, Or.inl rfl, hd, hds, hn⟩ ?_
  unfold Spec.Long at hl
  omega

/-- A value that does not fit is an error. -/
theorem strtol_long {r : Nat} {s : List Char} {n : Int} (h : strtol s r = (some n, [])) (hne : s ≠ []) :
    Spec.Long n := by
  unfold strtol at h
  simp only at h
  split at h
  · simp only [Prod.mk.injEq] at h; exact absurd h.2 hne
  · split at h
    · rename_i hr
      simp only [Prod.mk.injEq, Option.some.injEq] at h
      rw [h.1] at hr
      unfold Spec.Long; omega
    · simp at h

theorem intNum_fun {r : Nat} {s : List Char} {n n' : Int} (h : Spec.IntNum r s n) (h' : Spec.IntNum r s n') :
    n = n' := by
  obtain ⟨sg, ds, rfl, hsg, ⟨hd, hds⟩, hn⟩ := h
  obtain ⟨sg', ds', he, hsg', ⟨hd', hds'⟩, hn'⟩ := h'
  obtain ⟨d, dt, rfl⟩ := List.exists_cons_of_ne_nil hd
  obtain ⟨d', dt', rfl⟩ := List.exists_cons_of_ne_nil hd'
  have k1 := Num.isDig_not_space (hds d (by simp))
  have k2 := Num.isDig_not_space (hds' d' (by simp))
  rcases hsg with rfl | rfl | rfl <;> rcases hsg' with rfl | rfl | rfl <;> simp at he <;>
    first
    | exact absurd he.1.symm k2.2.1
    | exact absurd he.1.symm k2.2.2.1
    | exact absurd he.1 k1.2.1
    | exact absurd he.1 k1.2.2.1
    | simp_all

theorem intNum_head {r : Nat} {s : List Char} {n : Int} (h : Spec.IntNum r s n) : s ≠ [] ∧
    ∀ c, s.head? = some c → isspace c = false ∧ c ≠ '#' := by
  obtain ⟨sg, ds, rfl, hsg, ⟨hd, hds⟩, hn⟩ := h
  obtain ⟨d, dt, rfl⟩ := List.exists_cons_of_ne_nil hd
  refine ⟨by simp, ?_⟩
  intro c hc
  rcases hsg with rfl | rfl | rfl
  · simp at hc; subst hc
    refine ⟨(Num.isDig_not_space (hds d (by simp))).1, ?_⟩
    rintro rfl
    have : isDig r '#' = true := hds '#' (by simp)
    simp [isDig, digVal] at this
  · simp at hc; subst hc; decide
  · simp at hc; subst hc; decide

theorem intNum_noMark {s : List Char} {n : Int} (h : Spec.IntNum 10 s n) : s.any isMark = false := by
  obtain ⟨sg, ds, rfl, hsg, ⟨hd, hds⟩, hn⟩ := h
  rw [List.any_append]
  have h1 : ds.any isMark = false := by
    rw [List.any_eq_false]; intro c hc; simp [(isDig10 (hds c hc)).1]
  rw [h1]
  rcases hsg with rfl | rfl | rfl <;> decide

/-- A decimal without point and exponent is an integer. -/
theorem decimal_noMark {s : List Char} (h : Spec.Decimal s) (hm : ∀ c ∈ s, ¬ (c = '.' ∨ c = 'e' ∨ c = 'E')) :
    ∃ n, Spec.IntNum 10 s n := by
  obtain ⟨sg, m, x, rfl, hs, hma, hx⟩ := h
  rcases hx with rfl | ⟨e, sg', ds, rfl, he, _⟩
  · rcases hma with hd | ⟨a, b, rfl, _⟩
    · exact ⟨_, sg, m, by simp, hs, hd, rfl⟩
    · exact absurd (Or.inl rfl) (hm '.' (by simp))
  · exact absurd (Or.inr he) (hm e (by simp))

theorem intNum_decimal {s : List Char} {n : Int} (h : Spec.IntNum 10 s n) : Spec.Decimal s := by
  obtain ⟨sg, ds, rfl, hsg, hd, hn⟩ := h
  exact ⟨sg, ds, [], by simp, hsg, Or.inl hd, Or.inl rfl⟩

/-! ### the floating point part -/

/-- The exactness as the variable `conv`. -/
def conv : Spec.Ex → Conv
  | .unsaid => .none
  | .exact => .e
  | .inexact => .i

theorem fits_iff (n : Int) : fits n = true ↔ Spec.Fixnum n := by
  simp only [fits, Spec.Fixnum, decide_eq_true_eq]; omega

theorem finish_iff {D : Type} (F : Fl D) (k : Conv) (d : D) (res : Res D) (hres : res ≠ .no) :
    finish F k d = res ↔ (k ≠ .e ∧ res = .fl d) ∨ (k = .e ∧ ((F.toLong d = none ∧ res = .ub) ∨
      ∃ n, F.toLong d = some n ∧ Spec.Fixnum n ∧ F.eq (F.ofInt n) d = true ∧ res = .fx n)) := by
  unfold finish
  by_cases hk : k = .e
  · subst hk
    simp only [if_true, ne_eq, not_true, false_and, false_or, true_and]
    cases ht : F.toLong d with
    | none =>
      constructor
      · intro h; exact Or.inl ⟨rfl, h.symm⟩
      · rintro (⟨_, h⟩ | ⟨n, h, _⟩)
        · exact h.symm
        · simp at h
    | some l =>
      simp only [reduceCtorEq, false_and, false_or, Option.some.injEq]
      by_cases hf : fits l = true
      · by_cases he : F.eq (F.ofInt l) d = true
        · simp only [hf, he, Bool.not_true, Bool.or_self, Bool.false_eq_true, if_false]
          constructor
          · intro h; exact ⟨l, rfl, (fits_iff l).1 hf, he, h.symm⟩
          · rintro ⟨n, rfl, _, _, h⟩; exact h.symm
        · simp only [hf, he, Bool.not_true, Bool.not_false, Bool.or_true, if_true]
          constructor
          · intro h; exact absurd h.symm hres
          · rintro ⟨n, rfl, _, h, _⟩; exact absurd h he
      · simp only [hf, Bool.not_false, Bool.true_or, if_true]
        constructor
        · intro h; exact absurd h.symm hres
        · rintro ⟨n, rfl, h, _⟩; exact absurd ((fits_iff _).2 h) hf
  · rw [if_neg hk]
    constructor
    · intro h; exact Or.inl ⟨hk, h.symm⟩
    · rintro (⟨_, h⟩ | ⟨h, _⟩)
      · exact h.symm
      · exact absurd h hk

theorem special_dot {D : Type} {F : Fl D} {s : List Char} {d : D} (h : Spec.Special F s d) :
    s.any isMark = true ∧ ¬ Spec.Decimal s ∧ ∀ c, s.head? = some c → isspace c = false ∧ c ≠ '#' := by
  obtain ⟨c, t, rfl, hc, ht⟩ := h
  have hlen : ∃ a b e, t = a :: b :: e := by
    rcases ht with ⟨h, _⟩ | ⟨h, _⟩
    all_goals
      rcases t with _ | ⟨a, _ | ⟨b, e⟩⟩
      · simp at h
      · simp at h
      · exact ⟨a, b, e, rfl⟩
  obtain ⟨a, b, e, rfl⟩ := hlen
  have ha : a.toLower = 'i' ∨ a.toLower = 'n' := by
    rcases ht with ⟨h, _⟩ | ⟨h, _⟩ <;> simp at h
    · exact Or.inl h.1
    · exact Or.inr h.1
  have key : a = 'i' ∨ a = 'I' ∨ a = 'n' ∨ a = 'N' := by
    by_contra hno
    have hx := eqCi_take (s := [a]) (k := 1) (c := a.toLower) (t := []) ?_ ha
    · simp [eqCi] at hx
      apply hx
      rcases ha with h | h <;> rw [h] <;> decide
    · intro y hy
      simp at hy
      subst hy
      simp only [List.mem_cons, List.not_mem_nil, or_false]
      rintro (h | h | h | h | h | h)
      · exact hno (by simp [h])
      · exact hno (by simp [h])
      · exact hno (by simp [h])
      · exact hno (by simp [h])
      · subst h; revert ha; decide
      · subst h; revert ha; decide
  refine ⟨?_, ?_, ?_⟩
  · rcases key with rfl | rfl | rfl | rfl <;> simp [isMark]
  · rintro ⟨sg, m, x, he, hs, hm, _⟩
    obtain ⟨hne, hma⟩ := mantissa_head hm
    obtain ⟨y, ys, rfl⟩ := List.exists_cons_of_ne_nil hne
    have hy := hma y (by simp)
    have hnd : ∀ z, (z = 'i' ∨ z = 'I' ∨ z = 'n' ∨ z = 'N' ∨ z = '+' ∨ z = '-') → ¬ (isDig 10 z = true ∨ z = '.') := by
      rintro z (rfl | rfl | rfl | rfl | rfl | rfl) <;> decide
    rcases hs with rfl | rfl | rfl
    · simp at he
      apply hnd y _ hy
      rw [← he.1]
      rcases hc with rfl | rfl <;> simp
    · simp at he
      apply hnd y _ hy
      rw [← he.2.1]
      rcases key with rfl | rfl | rfl | rfl <;> simp
    · simp at he
      apply hnd y _ hy
      rw [← he.2.1]
      rcases key with rfl | rfl | rfl | rfl <;> simp
  · intro y hy
    simp at hy
    subst hy
    rcases hc with rfl | rfl <;> decide

/-- A body on which the code keeps to the grammar: in radix 16 no letter x, in radix ten none of the letters
i, n and x outside of `±inf.0` and `±nan.0`. -/
def Plain {D : Type} (F : Fl D) (r : Nat) (b : List Char) : Prop :=
  (r = 16 → ∀ c ∈ b, c ≠ 'x' ∧ c ≠ 'X') ∧ (r = 10 → Bare b ∨ ∃ d, Spec.Special F b d)

theorem flPart_iff {D : Type} (F : Fl D) (b : List Char) (k : Conv) (res : Res D) (hres : res ≠ .no)
    (hp : Bare b ∨ ∃ d, Spec.Special F b d) (hsp : ∀ c, b.head? = some c → isspace c = false) :
    flPart F b 10 k = res ↔ ∃ d, ((Spec.Decimal b ∧ F.val b = some d) ∨ Spec.Special F b d) ∧ finish F k d = res := by
  by_cases hs : ∃ d, Spec.Special F b d
  · obtain ⟨d, hs⟩ := hs
    have hd := (special_dot hs).2.1
    have hun : ∀ d', Spec.Special F b d' → flPart F b 10 k = finish F k d' := by
      rintro d' ⟨c, t, rfl, hc, ht⟩
      unfold flPart
      have h1 : ¬ (c ≠ '+' ∧ c ≠ '-') := by rcases hc with rfl | rfl <;> simp
      simp only [ne_eq, not_true, if_false]
      rw [if_neg h1]
      rcases ht with ⟨h, rfl⟩ | ⟨h, rfl⟩
      · rw [if_pos (by simp only [eqCi, h]; decide)]
      · rw [if_neg (by simp only [eqCi, h]; decide), if_pos (by simp only [eqCi, h]; decide)]
    constructor
    · intro h; exact ⟨d, Or.inr hs, by rw [← hun d hs]; exact h⟩
    · rintro ⟨d', h | h, h2⟩
      · exact absurd h.1 hd
      · rw [hun d' h]; exact h2
  · have hb : Bare b := by
      rcases hp with h | h
      · exact h
      · exact absurd h hs
    have hv : flPart F b 10 k = viaStrtod F b k := by
      unfold flPart
      simp only [ne_eq, not_true, if_false]
      split
      · rename_i c t
        by_cases hc : c ≠ '+' ∧ c ≠ '-'
        · rw [if_pos hc]
        · rw [if_neg hc]
          have hc' : c = '+' ∨ c = '-' := by
            by_cases h : c = '+'
            · exact Or.inl h
            · right
              by_contra h2
              exact hc ⟨h, h2⟩
          rw [if_neg, if_neg]
          · intro h
            exact hs ⟨F.nan, c, t, rfl, hc', Or.inr ⟨by simpa [eqCi, show (['n','a','n','.','0'] : List Char).map Char.toLower = ['n','a','n','.','0'] from by decide] using h, rfl⟩⟩
          · intro h
            exact hs ⟨F.inf (c = '-'), c, t, rfl, hc', Or.inl ⟨by simpa [eqCi, show (['i','n','f','.','0'] : List Char).map Char.toLower = ['i','n','f','.','0'] from by decide] using h, rfl⟩⟩
      · rfl
    rw [hv]
    unfold viaStrtod
    have hd := strtod_bare hb hsp
    constructor
    · intro h
      split at h
      · exact absurd h.symm hres
      · rename_i hn
        have hdec := hd.1 ⟨by by_contra hx; exact hn (Or.inl hx), fun hx => hn (Or.inr hx)⟩
        cases hval : F.val b with
        | none => rw [hval] at h; exact absurd h.symm hres
        | some d => rw [hval] at h; exact ⟨d, Or.inl ⟨hdec, rfl⟩, h⟩
    · rintro ⟨d, h | h, h2⟩
      · have := hd.2 h.1
        rw [if_neg (by rintro (hx | hx); exacts [hx this.1, this.2 hx]), h.2]
        exact h2
      · exact absurd ⟨d, h⟩ hs

/-! ### the text after the prefix -/

theorem mark_of_bare {b : List Char} (hb : Bare b) : b.any isMark = true ↔ ∃ c ∈ b, c = '.' ∨ c = 'e' ∨ c = 'E' := by
  rw [List.any_eq_true]
  constructor
  · rintro ⟨c, hc, hm⟩
    refine ⟨c, hc, ?_⟩
    have := hb c hc
    simp only [isMark, List.mem_cons, List.not_mem_nil, or_false, decide_eq_true_eq] at hm this
    rcases hm with h | h | h | h | h | h | h
    · exact Or.inl h
    · exact Or.inr (Or.inl h)
    · exact Or.inr (Or.inr h)
    all_goals exact absurd (by simp [h]) this
  · rintro ⟨c, hc, h⟩
    refine ⟨c, hc, ?_⟩
    rcases h with rfl | rfl | rfl <;> decide

theorem afterPrefix_iff {D : Type} (F : Fl D) (b : List Char) (r : Nat) (ex : Spec.Ex) (res : Res D)
    (hres : res ≠ .no) (hp : Plain F r b) :
    afterPrefix F b r (conv ex) = res ↔ Spec.Denotes F r ex b res := by
  have hki : conv ex = .i ↔ ex = .inexact := by cases ex <;> simp [conv]
  have hke : conv ex = .e ↔ ex = .exact := by cases ex <;> simp [conv]
  constructor
  · intro h
    unfold afterPrefix at h
    split at h
    · exact absurd h.symm hres
    rename_i hsp0
    have hsp : ∀ c, b.head? = some c → isspace c = false := by
      intro c hc
      cases b with
      | nil => simp at hc
      | cons x xs => simp at hc; subst hc; simpa [startsBlank] using hsp0
    split at h
    · rename_i hm
      have fail : (if conv ex = .i then flPart F b r (conv ex) else Res.no) = res →
          (∀ n, Spec.IntNum r b n → ¬ Spec.Long n) → Spec.Denotes F r ex b res := by
        intro h hno
        split at h
        · rename_i hk
          have hi := hki.1 hk
          subst hi
          by_cases hr : r = 10
          · subst hr
            have hnm : b.any isMark = false := by simpa using hm
            rw [flPart_iff F b _ res hres (hp.2 rfl) hsp] at h
            obtain ⟨d, h1 | h1, h2⟩ := h
            · have hbare : Bare b := by
                rcases hp.2 rfl with hb | ⟨d', hs⟩
                · exact hb
                · exact absurd h1.1 (special_dot hs).2.1
              obtain ⟨n, hn⟩ := decimal_noMark h1.1 (by
                intro c hc hx
                have := (mark_of_bare hbare).2 ⟨c, hc, hx⟩
                rw [hnm] at this; simp at this)
              have h3 : res = .fl d := by simp [finish, conv] at h2; exact h2.symm
              rw [h3]
              exact .bigInexact hn (hno n hn) h1.2
            · have := (special_dot h1).1
              rw [hnm] at this; simp at this
          · unfold flPart at h
            simp only [ne_eq, hr, not_false_iff, if_true] at h
            exact absurd h.symm hres
        · exact absurd h.symm hres
      split at h
      · rename_i l hl
        split at h
        · rename_i h0
          apply fail h
          intro n hn
          exact absurd h0 (intNum_head hn).1
        · rename_i hne
          have hint := intNum_of_strtol hl hne hsp hp.1
          have hlong := strtol_long hl hne
          split at h
          · rename_i hk
            have hi := hki.1 hk
            subst hi
            rw [← h]
            exact .intInexact hint hlong
          · rename_i hk
            split at h
            · rename_i hf
              rw [← h]
              exact .int hint ((fits_iff l).1 hf) (fun hx => hk (hki.2 hx))
            · exact absurd h.symm hres
      · rename_i hno
        apply fail h
        intro n hn hl
        exact hno n (strtol_of_intNum hn hl)
    · rename_i hm
      have hr : r = 10 := by
        by_contra hx
        apply hm; simp [hx]
      subst hr
      have hmk : b.any isMark = true := by simpa using hm
      rw [flPart_iff F b _ res hres (hp.2 rfl) hsp] at h
      obtain ⟨d, h1, h2⟩ := h
      have h1' : (Spec.DecNum b ∧ F.val b = some d) ∨ Spec.Special F b d := by
        rcases h1 with h1 | h1
        · left
          refine ⟨⟨h1.1, ?_⟩, h1.2⟩
          rcases hp.2 rfl with hb | ⟨d', hs⟩
          · exact (mark_of_bare hb).1 hmk
          · exact absurd h1.1 (special_dot hs).2.1
        · exact Or.inr h1
      rw [finish_iff F _ d res hres] at h2
      rcases h2 with ⟨hk, rfl⟩ | ⟨hk, ⟨ht, rfl⟩ | ⟨n, ht, hf, he, rfl⟩⟩
      · exact .dec h1' (fun hx => hk (hke.2 hx))
      · have := hke.1 hk; subst this; exact .decUndefined h1' ht
      · have := hke.1 hk; subst this; exact .decExact h1' ht hf he
  · intro h
    have hint : ∀ {n}, Spec.IntNum r b n →
        startsBlank b = false ∧ (!b.any isMark || decide (r ≠ 10)) = true ∧ b ≠ [] := by
      intro n hn
      obtain ⟨h1, h2⟩ := intNum_head hn
      refine ⟨?_, ?_, h1⟩
      · cases b with
        | nil => rfl
        | cons x xs => exact (h2 x rfl).1
      · by_cases hr : r = 10
        · subst hr; rw [intNum_noMark hn]; rfl
        · simp [hr]
    have hdec : ∀ {d}, r = 10 → (Spec.DecNum b ∧ F.val b = some d) ∨ Spec.Special F b d →
        afterPrefix F b r (conv ex) = finish F (conv ex) d := by
      intro d hr hh
      subst hr
      have hsp : ∀ c, b.head? = some c → isspace c = false := by
        rcases hh with ⟨⟨⟨sg, m, x, rfl, hs, hm, _⟩, _⟩, _⟩ | h
        · intro c hc
          rcases hs with rfl | rfl | rfl
          · exact (mantissa_first hm c hc).2.2
          · simp at hc; subst hc; decide
          · simp at hc; subst hc; decide
        · intro c hc; exact ((special_dot h).2.2 c hc).1
      have hmk : b.any isMark = true := by
        rcases hh with ⟨⟨_, c, hc, hx⟩, _⟩ | h
        · rw [List.any_eq_true]
          refine ⟨c, hc, ?_⟩
          rcases hx with rfl | rfl | rfl <;> decide
        · exact (special_dot h).1
      unfold afterPrefix
      have h0 : startsBlank b = false := by
        cases b with
        | nil => rfl
        | cons x xs => exact hsp x rfl
      rw [h0, hmk]
      simp only [Bool.false_eq_true, if_false, Bool.not_true, ne_eq, not_true, decide_false, Bool.or_self]
      by_cases hno : finish F (conv ex) d = .no
      · -- the result of the floating point part is then no number either
        by_contra hx
        have := (flPart_iff F b (conv ex) (flPart F b 10 (conv ex)) (by rw [hno] at hx; exact hx) (hp.2 rfl) hsp).1 rfl
        obtain ⟨d', h1, h2⟩ := this
        have hdd : finish F (conv ex) d' = finish F (conv ex) d := by
          rcases hh with h | h <;> rcases h1 with h1 | h1
          · rw [h.2] at h1; simp at h1; rw [h1.2]
          · exact absurd h.1.1 (special_dot h1).2.1
          · exact absurd h1.1 (special_dot h).2.1
          · have e1 : ∀ d'', Spec.Special F b d'' → d'' = d := by
              obtain ⟨c, t, rfl, hc, ht⟩ := h
              rintro d'' ⟨c', t', he, hc', ht'⟩
              simp at he
              obtain ⟨rfl, rfl⟩ := he
              rcases ht with ⟨a1, rfl⟩ | ⟨a1, rfl⟩ <;> rcases ht' with ⟨a2, rfl⟩ | ⟨a2, rfl⟩
              · rfl
              · rw [a1] at a2; simp at a2
              · rw [a1] at a2; simp at a2
              · rfl
            rw [e1 d' h1]
        exact hx (by rw [← hdd, h2])
      · rw [flPart_iff F b (conv ex) _ hno (hp.2 rfl) hsp]
        refine ⟨d, ?_, rfl⟩
        rcases hh with h | h
        · exact Or.inl ⟨h.1.1, h.2⟩
        · exact Or.inr h
    cases h with
    | @int _ _ _ n hn hf hex =>
      obtain ⟨h1, h2, h3⟩ := hint hn
      have hl : Spec.Long n := by
        unfold Spec.Fixnum at hf; unfold Spec.Long; omega
      unfold afterPrefix
      rw [h1, h2, strtol_of_intNum hn hl]
      simp only [Bool.false_eq_true, if_false, if_true]
      rw [if_neg h3, if_neg (fun hx => hex (hki.1 hx)), if_pos ((fits_iff _).2 hf)]
    | intInexact hn hl =>
      obtain ⟨h1, h2, h3⟩ := hint hn
      unfold afterPrefix
      rw [h1, h2, strtol_of_intNum hn hl]
      simp only [Bool.false_eq_true, if_false, if_true]
      rw [if_neg h3, if_pos (show conv .inexact = .i from rfl)]
    | @bigInexact _ n d hn hl hv =>
      obtain ⟨h1, h2, h3⟩ := hint hn
      have hsp : ∀ c, b.head? = some c → isspace c = false := fun c hc => ((intNum_head hn).2 c hc).1
      unfold afterPrefix
      rw [h1, h2]
      simp only [Bool.false_eq_true, if_false, if_true]
      have hfl : flPart F b 10 (conv .inexact) = .fl d := by
        rw [flPart_iff F b _ _ hres (hp.2 rfl) hsp]
        exact ⟨d, Or.inl ⟨intNum_decimal hn, hv⟩, rfl⟩
      split
      · rename_i l hsl
        exfalso
        have h4 := intNum_of_strtol hsl h3 hsp (by intro hx; omega)
        have h5 := strtol_long hsl h3
        rw [intNum_fun h4 hn] at h5
        exact hl h5
      · rw [if_pos (show conv .inexact = .i from rfl)]; exact hfl
    | dec hd hex =>
      rw [hdec rfl hd, finish_iff F _ _ _ hres]
      exact Or.inl ⟨fun hx => hex (hke.1 hx), rfl⟩
    | decExact hd ht hf he =>
      rw [hdec rfl hd, finish_iff F _ _ _ hres]
      exact Or.inr ⟨rfl, Or.inr ⟨_, ht, hf, he, rfl⟩⟩
    | decUndefined hd ht =>
      rw [hdec rfl hd, finish_iff F _ _ _ hres]
      exact Or.inr ⟨rfl, Or.inl ⟨ht, rfl⟩⟩

/-! ### prefixes -/

theorem hashes_none {b : List Char} (hb : b.head? ≠ some '#') (r : Nat) (k : Conv) :
    hashes b r k = some (b, r, k) := by
  unfold hashes
  split
  · simp at hb
  · simp at hb
  · rfl

theorem hashes_radix {t : List Char} {r r' : Nat} (h : Spec.RadixPart t r r') (b : List Char) (k : Conv) :
    hashes (t ++ b) r k = hashes b r' k := by
  rcases h with ⟨rfl, rfl⟩ | ⟨c, rfl, h⟩
  · rfl
  · rcases h with ⟨h | h, rfl⟩ | ⟨h | h, rfl⟩ | ⟨h | h, rfl⟩ | ⟨h | h, rfl⟩ <;> subst h <;>
      rw [List.cons_append, List.cons_append, List.nil_append, hashes] <;> simp

theorem hashes_ex {t : List Char} {ex : Spec.Ex} (h : Spec.ExPart t ex) (b : List Char) (r : Nat) :
    hashes (t ++ b) r .none = hashes b r (conv ex) := by
  rcases h with ⟨rfl, rfl⟩ | ⟨c, rfl, h⟩
  · rfl
  · rcases h with ⟨h | h, rfl⟩ | ⟨h | h, rfl⟩ <;> subst h <;>
      rw [List.cons_append, List.cons_append, List.nil_append, hashes] <;> simp [conv]

theorem hashes_prefix {p : List Char} {r r' : Nat} {ex : Spec.Ex} (h : Spec.Prefix p r r' ex) (b : List Char) :
    hashes (p ++ b) r .none = hashes b r' (conv ex) := by
  obtain ⟨x, y, hx, hy, rfl | rfl⟩ := h
  · rw [List.append_assoc, hashes_radix hx, hashes_ex hy]
  · rw [List.append_assoc, hashes_ex hy, hashes_radix hx]

theorem denotes_head {D : Type} {F : Fl D} {r : Nat} {ex : Spec.Ex} {b : List Char} {res : Res D}
    (h : Spec.Denotes F r ex b res) : b.head? ≠ some '#' := by
  have hd : ∀ {d}, (Spec.DecNum b ∧ F.val b = some d) ∨ Spec.Special F b d → b.head? ≠ some '#' := by
    rintro d (⟨⟨⟨sg, m, x, rfl, hs, hm, _⟩, _⟩, _⟩ | h)
    · rcases hs with rfl | rfl | rfl
      · obtain ⟨hne, hma⟩ := mantissa_head hm
        obtain ⟨y, ys, rfl⟩ := List.exists_cons_of_ne_nil hne
        intro hc
        simp at hc
        have := hma y (by simp)
        rw [hc] at this
        revert this; decide
      · simp
      · simp
    · intro hc; exact ((special_dot h).2.2 '#' hc).2 rfl
  cases h with
  | int h _ _ => intro hc; exact ((intNum_head h).2 '#' hc).2 rfl
  | intInexact h _ => intro hc; exact ((intNum_head h).2 '#' hc).2 rfl
  | bigInexact h _ _ => intro hc; exact ((intNum_head h).2 '#' hc).2 rfl
  | dec h _ => exact hd h
  | decExact h _ _ _ => exact hd h
  | decUndefined h _ => exact hd h

/-! ### the property -/

/-- The full property: `string->number` gives a number exactly for the texts of the grammar, and the number the
text denotes.  It does not hold: `c72_counterexample`. -/
def C72Full : Prop :=
  ∀ (D : Type) (F : Fl D) (s : List Char) (r : Nat) (res : Res D), 2 ≤ r → r ≤ 36 → res ≠ .no →
    (strtofxfl F s r = res ↔ Spec.Reads F s r res)

/-- The full property for a text with a prefix of the grammar and a body that is `Plain`: without the letter x in
radix 16 and, in radix ten, without the letters i, n and x outside of `±inf.0` and `±nan.0`.  It leaves out those bodies
and texts with more than one prefix of a kind. -/
theorem c72_string_to_number_partial {D : Type} (F : Fl D) (p b : List Char) (r r' : Nat) (ex : Spec.Ex)
    (hpre : Spec.Prefix p r r' ex) (hb : b.head? ≠ some '#') (hp : Plain F r' b) (res : Res D) (hres : res ≠ .no) :
    strtofxfl F (p ++ b) r = res ↔ Spec.Denotes F r' ex b res := by
  unfold strtofxfl
  rw [hashes_prefix hpre, hashes_none hb]
  exact afterPrefix_iff F b r' ex res hres hp

example {D : Type} (F : Fl D) : Spec.Prefix ['#','e'] 10 10 .exact ∧ (['-','1','.','5','e','1'] : List Char).head? ≠ some '#' ∧
    Plain F 10 ['-','1','.','5','e','1'] ∧ Spec.DecNum ['-','1','.','5','e','1'] := by
  refine ⟨⟨[], ['#','e'], Or.inl ⟨rfl, rfl⟩, Or.inr ⟨'e', rfl, by simp⟩, Or.inl rfl⟩, by simp, ⟨by omega, ?_⟩, ?_⟩
  · intro _; left; unfold Bare; decide
  · refine ⟨⟨['-'], ['1','.','5'], ['e','1'], rfl, by simp [Spec.Sign], ?_, ?_⟩, '.', by simp, by simp⟩
    · exact Or.inr ⟨['1'], ['5'], rfl, by simp, by decide, by decide⟩
    · exact Or.inr ⟨'e', [], ['1'], rfl, by simp, by simp [Spec.Sign], by simp [Spec.Digits]; decide⟩

/-- A prefix with any other letter, or with none, is not accepted. -/
theorem c72_bad_prefix {D : Type} (F : Fl D) (p b : List Char) (r r' : Nat) (ex : Spec.Ex)
    (hpre : Spec.Prefix p r r' ex)
    (hb : b = ['#'] ∨ ∃ c t, b = '#' :: c :: t ∧
      c ∉ ['b','B','o','O','d','D','x','X','e','E','i','I']) : strtofxfl F (p ++ b) r = .no := by
  unfold strtofxfl
  rw [hashes_prefix hpre]
  rcases hb with rfl | ⟨c, t, rfl, hc⟩
  · rfl
  · have : hashes ('#' :: c :: t) r' (conv ex) = none := by
      simp only [List.mem_cons, List.not_mem_nil, or_false, not_or] at hc
      rw [hashes]
      simp [hc]
    rw [this]

example : (['#', 'q', '1'] : List Char) = ['#'] ∨ ∃ c t, (['#', 'q', '1'] : List Char) = '#' :: c :: t ∧
      c ∉ ['b','B','o','O','d','D','x','X','e','E','i','I'] := Or.inr ⟨'q', ['1'], rfl, by decide⟩

/-- Every text of the grammar with a plain body is read. -/
theorem plain_of_denotes {D : Type} {F : Fl D} {r : Nat} {b : List Char} {n : Int} (h : Spec.IntNum r b n) :
    Plain F r b := by
  obtain ⟨sg, ds, rfl, hsg, ⟨hd, hds⟩, hn⟩ := h
  have hs : ∀ c ∈ sg, c = '+' ∨ c = '-' := by
    rcases hsg with rfl | rfl | rfl <;> simp
  constructor
  · rintro rfl c hc
    simp at hc
    rcases hc with hc | hc
    · rcases hs c hc with rfl | rfl <;> decide
    · have := hds c hc
      constructor <;> rintro rfl <;> revert this <;> decide
  · rintro rfl
    left
    intro c hc
    simp at hc
    rcases hc with hc | hc
    · rcases hs c hc with rfl | rfl <;> decide
    · have := hds c hc
      simp only [List.mem_cons, List.not_mem_nil, or_false]
      rintro (rfl | rfl | rfl | rfl | rfl | rfl) <;> revert this <;> decide

theorem decNum_plain {D : Type} (F : Fl D) {b : List Char} (h : Spec.Decimal b) : Plain F 10 b := by
  refine ⟨by omega, fun _ => Or.inl ?_⟩
  obtain ⟨sg, m, x, rfl, hs, hm, hx⟩ := h
  have hdig : ∀ c, isDig 10 c = true → c ∉ ['i', 'I', 'n', 'N', 'x', 'X'] := by
    intro c hc
    simp only [List.mem_cons, List.not_mem_nil, or_false]
    rintro (rfl | rfl | rfl | rfl | rfl | rfl) <;> revert hc <;> decide
  have hsg : ∀ sg, Spec.Sign sg → ∀ c ∈ sg, c ∉ ['i', 'I', 'n', 'N', 'x', 'X'] := by
    rintro sg (rfl | rfl | rfl) c hc <;> simp at hc <;> subst hc <;> decide
  intro c hc
  simp only [List.mem_append] at hc
  rcases hc with hc | hc | hc
  · exact hsg sg hs c hc
  · rcases (mantissa_head hm).2 c hc with h | rfl
    · exact hdig c h
    · decide
  · rcases hx with rfl | ⟨e, sg', ds, rfl, he, hs', _, hds⟩
    · simp at hc
    · simp only [List.mem_cons, List.mem_append] at hc
      rcases hc with rfl | hc | hc
      · rcases he with rfl | rfl <;> decide
      · exact hsg sg' hs' c hc
      · exact hdig c (hds c hc)

/-- Everything the grammar allows is read, without exception: `c72_string_to_number_partial` only leaves out texts
that are not numbers. -/
theorem c72_accepts {D : Type} (F : Fl D) (s : List Char) (r : Nat) (res : Res D) (h : Spec.Reads F s r res) :
    strtofxfl F s r = res := by
  obtain ⟨p, b, r', ex, rfl, hpre, hd⟩ := h
  have hres : res ≠ .no := by rintro rfl; cases hd
  refine (c72_string_to_number_partial F p b r r' ex hpre (denotes_head hd) ?_ res hres).2 hd
  have hdd : ∀ {d}, (Spec.DecNum b ∧ F.val b = some d) ∨ Spec.Special F b d → Plain F 10 b := by
    rintro d (h | h)
    · exact decNum_plain F h.1.1
    · exact ⟨by omega, fun _ => Or.inr ⟨d, h⟩⟩
  cases hd with
  | int h _ _ => exact plain_of_denotes h
  | intInexact h _ => exact plain_of_denotes h
  | bigInexact h _ _ => exact plain_of_denotes h
  | dec h _ => exact hdd h
  | decExact h _ _ _ => exact hdd h
  | decUndefined h _ => exact hdd h

/-! ### refutations -/

theorem prefix_cases {p : List Char} {r r' : Nat} {ex : Spec.Ex} (h : Spec.Prefix p r r' ex) :
    (p = [] ∧ r' = r ∧ ex = .unsaid) ∨ p.head? = some '#' := by
  obtain ⟨x, y, hx, hy, he⟩ := h
  rcases hx with ⟨rfl, rfl⟩ | ⟨c, rfl, _⟩ <;> rcases hy with ⟨rfl, rfl⟩ | ⟨c', rfl, _⟩ <;>
    rcases he with rfl | rfl <;> simp

theorem intNum_chars {r : Nat} {s : List Char} {n : Int} (h : Spec.IntNum r s n) :
    ∀ c ∈ s, c = '+' ∨ c = '-' ∨ isDig r c = true := by
  obtain ⟨sg, ds, rfl, hsg, ⟨hd, hds⟩, hn⟩ := h
  intro c hc
  rcases List.mem_append.1 hc with hc | hc
  · rcases hsg with rfl | rfl | rfl <;> simp at hc <;> subst hc <;> simp
  · exact Or.inr (Or.inr (hds c hc))

/-- A text without `#` at its start that is neither an integer, a decimal nor one of the special names is no
number. -/
theorem not_reads {D : Type} {F : Fl D} {s : List Char} {r : Nat} (h0 : s.head? ≠ some '#')
    (h1 : ∀ n, ¬ Spec.IntNum r s n) (h2 : r = 10 → ¬ Spec.Decimal s ∧ ∀ d, ¬ Spec.Special F s d) (res : Res D) :
    ¬ Spec.Reads F s r res := by
  rintro ⟨p, b, r', ex, rfl, hpre, hd⟩
  rcases prefix_cases hpre with ⟨rfl, rfl, rfl⟩ | hp
  · simp only [List.nil_append] at *
    cases hd with
    | int h _ _ => exact h1 _ h
    | dec h _ =>
      rcases h with h | h
      · exact (h2 rfl).1 h.1.1
      · exact (h2 rfl).2 _ h
  · apply h0
    cases p with
    | nil => simp at hp
    | cons x xs => simpa using hp

theorem exact_of {D : Type} (F : Fl D) {s b : List Char} {r r' : Nat} {k : Conv} {l : Int}
    (h1 : hashes s r .none = some (b, r', k)) (h2 : startsBlank b = false) (h3 : r' ≠ 10)
    (h4 : strtol b r' = (some l, [])) (h5 : b ≠ []) (h6 : k ≠ .i) (h7 : fits l = true) :
    strtofxfl F s r = .fx l := by
  unfold strtofxfl afterPrefix
  simp [h1, h2, h3, h4, h5, h6, h7]

theorem exact_0x1F {D : Type} (F : Fl D) : strtofxfl F "0x1F".toList 16 = .fx 31 :=
  exact_of F (b := "0x1F".toList) (r' := 16) (k := .none) (by decide) (by decide) (by decide) (by decide +kernel) (by decide)
    (by decide) (by decide)

/-- Four kinds of texts that are read although they are no numbers: a second radix in radix 16, a prefix given
twice, the names of infinity and not-a-number of C, and hexadecimal fractions in radix ten. -/
theorem c72_counterexample {D : Type} (F : Fl D) :
    (strtofxfl F "0x1F".toList 16 = .fx 31 ∧ ∀ res, ¬ Spec.Reads F "0x1F".toList 16 res) ∧
    strtofxfl F "#b#x#e#i#e1F".toList 10 = .fx 31 ∧
    (∀ s ∈ ["inf".toList, "Infinity".toList, "nan".toList, "NaN(xyz)".toList, "0x1.8".toList], ∀ d, F.val s = some d →
      strtofxfl F s 10 = .fl d ∧ ∀ res, ¬ Spec.Reads F s 10 res) ∧ ¬ C72Full := by
  have a1 : strtofxfl F "0x1F".toList 16 = .fx 31 := exact_0x1F F
  have a2 : ∀ res, ¬ Spec.Reads F "0x1F".toList 16 res := by
    apply not_reads (by decide)
    · intro n h
      have := intNum_chars h 'x' (by decide)
      revert this; decide
    · omega
  refine ⟨⟨a1, a2⟩, exact_of F (b := "1F".toList) (r' := 16) (k := .e) (by decide) (by decide) (by decide)
    (by decide +kernel) (by decide) (by decide) (by decide), ?_, ?_⟩
  · intro s hs d hv
    have hst : strtod s = [] ∧ s.any isMark = true ∧ startsBlank s = false ∧ s ≠ [] ∧
        (∃ c t, s = c :: t ∧ c ≠ '+' ∧ c ≠ '-' ∧ c ≠ '#') ∧ ∃ c ∈ s, c ∈ ['i', 'I', 'n', 'N', 'x', 'X'] := by
      simp only [List.mem_cons, List.not_mem_nil, or_false] at hs
      rcases hs with rfl | rfl | rfl | rfl | rfl
      · exact ⟨by decide, by decide, by decide, by decide, ⟨'i', "nf".toList, rfl, by decide⟩, by decide⟩
      · exact ⟨by decide, by decide, by decide, by decide, ⟨'I', "nfinity".toList, rfl, by decide⟩, by decide⟩
      · exact ⟨by decide, by decide, by decide, by decide, ⟨'n', "an".toList, rfl, by decide⟩, by decide⟩
      · exact ⟨by decide, by decide, by decide, by decide, ⟨'N', "aN(xyz)".toList, rfl, by decide⟩, by decide⟩
      · exact ⟨by decide, by decide, by decide, by decide, ⟨'0', "x1.8".toList, rfl, by decide⟩, by decide⟩
    obtain ⟨b1, b2, b3, b4, ⟨c, t, rfl, b5, b6, b7⟩, e, he, hx⟩ := hst
    have hd : ¬ Spec.Decimal (c :: t) := by
      intro h
      rcases (decNum_plain F h).2 rfl with hb | ⟨_, hs⟩
      · exact hb e he hx
      · exact (special_dot hs).2.1 h
    constructor
    · unfold strtofxfl
      rw [hashes_none (by simpa using b7)]
      simp only [afterPrefix, b3, b2, flPart, viaStrtod, b1, hv]
      simp [b5, b6, finish]
    · apply not_reads (by simpa using b7)
      · intro n h; exact hd (intNum_decimal h)
      · intro _
        refine ⟨hd, ?_⟩
        rintro d' ⟨c', t', h, hc', _⟩
        simp at h
        rw [← h.1] at hc'
        rcases hc' with h | h
        · exact b5 h
        · exact b6 h
  · intro h
    let F0 : Fl Unit := ⟨fun _ => none, fun _ => (), fun _ => none, fun _ _ => true, fun _ => (), ()⟩
    have e1 : strtofxfl F0 "0x1F".toList 16 = .fx 31 := exact_0x1F F0
    have := (h Unit F0 "0x1F".toList 16 (.fx 31) (by omega) (by omega) (by simp)).1 e1
    revert this
    apply not_reads (by decide)
    · intro n h
      have := intNum_chars h 'x' (by decide)
      revert this; decide
    · omega

/-- An exact number asked of an infinity is a conversion without defined behaviour. -/
theorem c72_undefined {D : Type} (F : Fl D) (h : F.toLong (F.inf false) = none) :
    strtofxfl F "#e+inf.0".toList 10 = .ub := by
  apply c72_accepts
  refine ⟨['#','e'], "+inf.0".toList, 10, .exact, rfl,
    ⟨[], ['#','e'], Or.inl ⟨rfl, rfl⟩, Or.inr ⟨'e', rfl, by simp⟩, Or.inl rfl⟩, ?_⟩
  refine .decUndefined (d := F.inf false) (Or.inr ?_) h
  exact ⟨'+', "inf.0".toList, rfl, Or.inl rfl, Or.inl ⟨by decide, by simp⟩⟩

example : ∃ F : Fl Unit, F.toLong (F.inf false) = none :=
  ⟨⟨fun _ => none, fun _ => (), fun _ => none, fun _ _ => true, fun _ => (), ()⟩, rfl⟩

/-! ### numbers written are read back -/

theorem digits_room {r n : Nat} (hr : 2 ≤ r ∧ r ≤ 36) (hb : n < r ^ 33) :
    ∃ ds, digitsLoop r 34 n [] = some ds ∧ ds ≠ [] ∧ ds.length < 34 ∧
      (∀ c ∈ ds, isDig r c = true ∧ ¬ ('A' ≤ c ∧ c ≤ 'Z')) ∧ value r ds = n ∧ (ds.head? = some '0' → ds = ['0']) := by
  obtain ⟨ds, e, hne, _, hall, hval, hz⟩ := Num.digitsLoop_spec r hr.1 hr.2 34 n []
    (lt_of_lt_of_le hb (Nat.pow_le_pow_right (by omega) (by omega))) (by omega)
  have hlen : ds.length < 34 := by
    have mono : ∀ room num acc out, digitsLoop r room num acc = some out →
        digitsLoop r (room+1) num acc = some out := by
      intro room
      induction room with
      | zero => intro num acc out h; simp [digitsLoop] at h
      | succ room ih =>
        intro num acc out h
        rw [digitsLoop] at h ⊢
        split at h
        · rename_i h0; simpa [h0] using h
        · rename_i h0; simp only [h0, if_false]; exact ih _ _ _ h
    obtain ⟨ds', e', _, hl', _⟩ := Num.digitsLoop_spec r hr.1 hr.2 33 n [] hb (by omega)
    have := mono _ _ _ _ e'
    rw [e] at this
    simp at this; subst this; omega
  rw [List.append_nil] at e
  exact ⟨ds, e, hne, hlen, fun c hc => ⟨(hall c hc).1, (hall c hc).2.1⟩, hval, hz⟩

/-- `number->string` then `string->number` in the same radix gives the number back, the text is a canonical
numeral, and the 35-byte buffer is never overrun: for every fixnum and every radix 2..36. -/
theorem c72_roundtrip (n : Int) (r : Nat) (hn : Spec.Fixnum n) (hr : 2 ≤ r ∧ r ≤ 36) :
    ∃ s, fixnumToString n r = some s ∧ Num.Canonical r s ∧
      ∀ (D : Type) (F : Fl D), strtofxfl F s r = .fx n := by
  have hb : n.natAbs < r ^ 33 := by
    unfold Spec.Fixnum at hn
    calc n.natAbs < 2 ^ 33 := by omega
      _ ≤ r ^ 33 := Nat.pow_le_pow_left hr.1 _
  obtain ⟨ds, e, hne, hlen, hall, hval, hz⟩ := digits_room hr hb
  refine ⟨if n < 0 then '-' :: ds else ds, ?_, ?_, ?_⟩
  · simp only [fixnumToString, e]
    split
    · rfl
    · rfl
  · refine ⟨decide (n < 0), ds, by simp, hne, hall, ?_⟩
    intro h0
    have := hz h0
    refine ⟨this, ?_⟩
    rw [this] at hval
    have h00 : value r ['0'] = 0 := by
      simp only [value, List.foldl_cons, List.foldl_nil]
      rw [show digVal '0' = some 0 by decide]; simp
    rw [h00] at hval
    simp; omega
  · intro D F
    apply c72_accepts
    refine ⟨[], (if n < 0 then '-' :: ds else ds), r, .unsaid, rfl, ⟨[], [], Or.inl ⟨rfl, rfl⟩, Or.inl ⟨rfl, rfl⟩, Or.inl rfl⟩,
      .int ⟨if n < 0 then ['-'] else [], ds, ?_, ?_, ⟨hne, fun c hc => (hall c hc).1⟩, ?_⟩ hn (by simp)⟩
    · split <;> simp
    · split <;> simp [Spec.Sign]
    · rw [hval]
      by_cases hn : n < 0
      · rw [if_pos (by simp [hn])]; omega
      · rw [if_neg (by simp [hn])]; omega

example : Spec.Fixnum (-536870912) ∧ 2 ≤ 36 ∧ 36 ≤ 36 ∧
    fixnumToString (-536870912) 2 = some "-100000000000000000000000000000".toList := by
  refine ⟨?_, by omega, by omega, by decide⟩
  unfold Spec.Fixnum; omega

/-- A flonum with an integral value below 10¹⁵ is written as its digits and `.0`, which is read as a flonum. -/
theorem c72_flonum_text (n : Int) (hn : n.natAbs < 10 ^ 15) :
    ∃ sg ds, flonumToString n = sg ++ (ds ++ ['.', '0']) ∧ sg = (if n < 0 then ['-'] else []) ∧
      Spec.Digits 10 ds ∧ value 10 ds = n.natAbs ∧
      ∀ (D : Type) (F : Fl D) (d : D), F.val (flonumToString n) = some d →
        strtofxfl F (flonumToString n) 10 = .fl d := by
  obtain ⟨ds, e, hne, hlen, hall, hval, hz⟩ := digits_room (r := 10) (n := n.natAbs) (by omega)
    (lt_of_lt_of_le hn (Nat.pow_le_pow_right (by omega) (by omega)))
  have h1 : sprintf15g n = (if n < 0 then ['-'] else []) ++ ds := by
    unfold sprintf15g
    have : n.natAbs < 1000000000000000 := by omega
    simp only [this, if_true, decDigits, e, Option.getD_some]
    split <;> simp
  have h2 : (sprintf15g n).any (· ∈ ['.', 'e', 'E']) = false := by
    rw [List.any_eq_false]
    intro c hc
    rw [h1] at hc
    rcases List.mem_append.1 hc with hc | hc
    · split at hc
      · simp at hc; subst hc; decide
      · simp at hc
    · have := isDig10 (hall c hc).1
      simp [this]
  have h3 : flonumToString n = (if n < 0 then ['-'] else []) ++ (ds ++ ['.', '0']) := by
    unfold flonumToString
    rw [h2, h1]
    simp
  refine ⟨_, ds, h3, rfl, ⟨hne, fun c hc => (hall c hc).1⟩, hval, ?_⟩
  intro D F d hd
  apply c72_accepts
  refine ⟨[], flonumToString n, 10, .unsaid, rfl, ⟨[], [], Or.inl ⟨rfl, rfl⟩, Or.inl ⟨rfl, rfl⟩, Or.inl rfl⟩,
    .dec (Or.inl ⟨⟨⟨if n < 0 then ['-'] else [], ds ++ ['.','0'], [], by rw [List.append_nil]; exact h3, ?_, ?_, Or.inl rfl⟩,
      '.', ?_, Or.inl rfl⟩, hd⟩) (by simp)⟩
  · split <;> simp [Spec.Sign]
  · exact Or.inr ⟨ds, ['0'], rfl, Or.inr (by simp), fun c hc => (hall c hc).1, by decide⟩
  · rw [h3]; simp

example : (-120 : Int).natAbs < 10 ^ 15 ∧ flonumToString (-120) = "-120.0".toList := by decide

/-- Fifteen digits are not enough: two flonums, both exact as doubles, are written alike, so that whatever
the text is read as, it is not read back as every flonum it was written from. -/
theorem c72_flonum_counterexample :
    flonumToString 4503599627370497 = flonumToString 4503599627370498 ∧
    flonumToString 4503599627370497 = "4.5035996273705e+15".toList ∧
    ¬ ∃ val : List Char → Option Int, ∀ n : Int, n.natAbs < 2 ^ 53 → val (flonumToString n) = some n := by
  have h : flonumToString 4503599627370497 = flonumToString 4503599627370498 := by decide +kernel
  refine ⟨h, by decide +kernel, ?_⟩
  rintro ⟨val, hv⟩
  have h1 := hv 4503599627370497 (by decide)
  have h2 := hv 4503599627370498 (by decide)
  rw [h, h2] at h1
  simp at h1

end Verif.NumText
