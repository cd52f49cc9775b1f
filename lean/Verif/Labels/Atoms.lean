import Verif.Labels.Lex
/-
Reading atoms back.
-/
namespace Verif.Labels
open Verif.Num (isspace)

theorem quoted_ok {q : Char} (hq : q = '"' ∨ q = '|') (rest : List Char) : ∀ (s : List Char) (n : Nat) (l : List Char), s.length < n →
    quoted q n (esc q s ++ q :: rest) l = some (l.reverse ++ s, rest) := by
  have hq1 : q ≠ '\\' := by rcases hq with rfl | rfl <;> decide
  intro s
  induction s with
  | nil =>
    intro n l h
    cases n with
    | zero => simp at h
    | succ n => simp [esc, quoted, hq1]
  | cons c s ih =>
    intro n l h
    cases n with
    | zero => simp at h
    | succ n =>
      simp only [List.length_cons, Nat.add_lt_add_iff_right] at h
      unfold esc
      split
      · next hc =>
        simp only [List.cons_append, quoted, if_true]
        have he : ∀ b r, escape b (c :: r) = some (some c, r) := by
          intro b r
          simp only [escape]
          rw [if_pos]
          rcases hc with hc | hc
          · rcases hq with e | e <;> rw [hc, e] <;> rfl
          · rw [hc]; rfl
        rw [he]
        simp only
        rw [ih n _ h]
        simp
      · next hc =>
        push Not at hc
        simp only [List.cons_append, quoted, if_neg hc.1, if_neg hc.2]
        rw [ih n _ h]
        simp

theorem plain_of {c : Char} (h : c ∈ subss) : c ≠ '(' ∧ c ≠ ')' ∧ c ≠ '[' ∧ c ≠ ']' ∧ c ≠ '\'' ∧ c ≠ '`' := by
  have : ∀ c ∈ subss, c ≠ '(' ∧ c ≠ ')' ∧ c ≠ '[' ∧ c ≠ ']' ∧ c ≠ '\'' ∧ c ≠ '`' := by decide +kernel
  exact this c h

theorem subRead_symbolic (fl : Flo) (m : Bool) {c : Char} (hc : c ∈ subss) (n : Nat) (r : List Char) (h : List Cell) (sh : List (Int × V)) :
    subRead fl m (n + 1) ⟨c :: r, h, sh⟩ = (numberOrSymbol fl c r).map fun p => (p.1, ⟨p.2, h, sh⟩) := by
  obtain ⟨h1, h2, h3, h4⟩ := symbolic_of hc
  obtain ⟨g1, g2, g3, g4, g5, g6⟩ := plain_of hc
  rw [subRead]
  simp only [h4, Bool.false_eq_true, if_false, if_neg g1, if_neg g2, if_neg g3, if_neg g4, if_neg g5, if_neg g6, h1, if_true]

theorem subRead_space (fl : Flo) (m : Bool) (n : Nat) (r : List Char) (h : List Cell) (sh : List (Int × V)) :
    subRead fl m (n + 1) ⟨' ' :: r, h, sh⟩ = subRead fl m n ⟨r, h, sh⟩ := by
  rw [subRead]; rfl

theorem subRead_close (fl : Flo) (m : Bool) (n : Nat) (r : List Char) (h : List Cell) (sh : List (Int × V)) :
    subRead fl m (n + 1) ⟨')' :: r, h, sh⟩ = some (.closeParen, ⟨r, h, sh⟩) := by
  rw [subRead]; rfl

theorem subRead_hash (fl : Flo) (m : Bool) (n : Nat) (r : List Char) (h : List Cell) (sh : List (Int × V)) :
    subRead fl m (n + 1) ⟨'#' :: r, h, sh⟩ = subReadHash fl m n ⟨r, h, sh⟩ := by
  rw [subRead]; rfl

theorem numberOrSymbol_ok (fl : Flo) {c : Char} {s rest : List Char} (hr : Del rest) (hs : ∀ d ∈ c :: s, d ∈ subss) :
    numberOrSymbol fl c (s ++ rest) =
      if isdigit c || c = '+' || c = '-' || c = '.' then
        if c :: s = ['.'] then some (.dot, rest)
        else if peculiar false (c :: s) then some (.val (.imm (.sym (c :: s))), rest)
        else (stringToNumber fl (c :: s)).map fun v => (.val v, rest)
      else some (.val (.imm (.sym (c :: s))), rest) := by
  have hc : decide (c = '#') = false := decide_eq_false (symbolic_of (hs c (by simp))).2.2.1
  unfold numberOrSymbol
  rw [hc, scan_ok hr false s [c] fun d hd => hs d (by simp [hd])]
  have hrev : (s.reverse ++ [c]).reverse = c :: s := by simp
  simp only [Option.bind_eq_bind, Option.bind_some, Bool.false_or, hrev]

theorem peculiar_neg {c1 : Char} {r : List Char} (h : isdigit c1 = true) (h' : c1 ≠ '.') : peculiar false ('-' :: c1 :: r) = false := by
  unfold peculiar
  simp only [Bool.false_or]
  repeat' split
  all_goals first | rfl | simp_all

theorem dec_subss (n : Int) : ∀ c ∈ dec n, c ∈ subss := by
  intro c hc
  have hd := fun c hc => (digit_facts ((decNat_digits n.natAbs).2 c hc)).1
  unfold dec at hc
  split at hc
  · rcases List.mem_cons.1 hc with e | hc
    · rw [e]; decide
    · exact hd c hc
  · exact hd c hc

theorem read_dec (fl : Flo) (m : Bool) (x : Int) (hx : -536870912 ≤ x ∧ x ≤ 536870911) {rest : List Char} (hr : Del rest) (n : Nat)
    (h : List Cell) (sh : List (Int × V)) :
    subRead fl m (n + 1) ⟨dec x ++ rest, h, sh⟩ = some (.val (.imm (.fix x)), ⟨rest, h, sh⟩) := by
  have hsub := dec_subss x
  have hnum := number_dec fl x hx
  have key : ∀ c s, dec x = c :: s → isdigit c = true ∨ (c = '-' ∧ ∃ c1 r, s = c1 :: r ∧ isdigit c1 = true ∧ c1 ≠ '.') := by
    intro c s e
    obtain ⟨c', s', e'⟩ := decNat_cons x.natAbs
    have hd := digit_facts ((decNat_digits x.natAbs).2 c' (by rw [e']; simp))
    unfold dec at e
    split at e
    · right
      rw [e'] at e
      obtain ⟨rfl, rfl⟩ := List.cons.inj e
      exact ⟨rfl, _, _, rfl, hd.2.1, hd.2.2.2.2.2.2.2.1⟩
    · left
      rw [e'] at e
      obtain ⟨rfl, rfl⟩ := List.cons.inj e
      exact hd.2.1
  cases e : dec x with
  | nil =>
    obtain ⟨c', s', e'⟩ := decNat_cons x.natAbs
    unfold dec at e
    split at e <;> simp_all
  | cons c s =>
    rw [e] at hsub hnum
    rw [List.cons_append, subRead_symbolic fl m (hsub c (by simp)), numberOrSymbol_ok fl hr hsub]
    rcases key c s e with hk | ⟨rfl, c1, r, rfl, hk, hk'⟩
    · have hne : c :: s ≠ ['.'] := by
        intro e2
        rw [(List.cons.inj e2).1] at hk
        exact absurd hk (by decide)
      have hp : peculiar false (c :: s) = false := by simp [peculiar, hk]
      simp [hk, hne, hp, hnum]
    · simp [peculiar_neg hk hk', hnum]

theorem inits_facts {c : Char} (h : c ∈ inits) : isdigit c = false ∧ c ≠ '+' ∧ c ≠ '-' ∧ c ≠ '.' := by
  have : ∀ c ∈ inits, isdigit c = false ∧ c ≠ '+' ∧ c ≠ '-' ∧ c ≠ '.' := by decide +kernel
  exact this c h

theorem isdigit_iff (c : Char) : isdigit c = true ↔ '0' ≤ c ∧ c ≤ '9' := by
  unfold isdigit
  simp

theorem peculiar_sign {c : Char} {r : List Char} (hc : c = '+' ∨ c = '-') (hodd : ¬ Odd (c :: r))
    (hcl : ∀ c1 r1, r = c1 :: r1 → c1 = '.' ∨ isdigit c1 = false) : peculiar false (c :: r) = true := by
  have hl : (c :: r).map Char.toLower = c :: r.map Char.toLower := by rcases hc with rfl | rfl <;> rfl
  have hd : isdigit c = false := by rcases hc with rfl | rfl <;> rfl
  have hni : r.map Char.toLower ∉ ["i".toList, "inf.0".toList, "nan.0".toList] := fun h => hodd ⟨c, r, rfl, hc, .inl h⟩
  simp only [List.mem_cons, List.not_mem_nil, or_false, not_or] at hni
  have ho : ∀ r', r = '.' :: r' → ∃ c2 r2, r' = c2 :: r2 ∧ isdigit c2 = false := by
    intro r' e
    cases r' with
    | nil => exact (hodd ⟨c, r, rfl, hc, .inr ⟨_, e, .inl rfl⟩⟩).elim
    | cons c2 r2 =>
      refine ⟨c2, r2, rfl, ?_⟩
      by_contra h
      exact hodd ⟨c, r, rfl, hc, .inr ⟨_, e, .inr ⟨c2, r2, rfl, (isdigit_iff c2).1 (by simpa using h)⟩⟩⟩
  unfold peculiar
  simp only [hl, hd, Bool.or_false, Bool.false_eq_true, if_false]
  have e1 : (decide (c :: r.map Char.toLower = "+i".toList) || decide (c :: r.map Char.toLower = "-i".toList)) = false := by
    simp only [Bool.or_eq_false_iff, decide_eq_false_iff_not]
    exact ⟨fun e => hni.1 (List.cons.inj e).2, fun e => hni.1 (List.cons.inj e).2⟩
  have e2 : (decide (c :: r.map Char.toLower = "+nan.0".toList) || decide (c :: r.map Char.toLower = "-nan.0".toList)) = false := by
    simp only [Bool.or_eq_false_iff, decide_eq_false_iff_not]
    exact ⟨fun e => hni.2.2 (List.cons.inj e).2, fun e => hni.2.2 (List.cons.inj e).2⟩
  have e3 : (decide (c :: r.map Char.toLower = "+inf.0".toList) || decide (c :: r.map Char.toLower = "-inf.0".toList)) = false := by
    simp only [Bool.or_eq_false_iff, decide_eq_false_iff_not]
    exact ⟨fun e => hni.2.1 (List.cons.inj e).2, fun e => hni.2.1 (List.cons.inj e).2⟩
  rw [e1, e2, e3]
  simp only [Bool.false_eq_true, if_false]
  rw [if_pos (by rcases hc with rfl | rfl <;> rfl)]
  cases r with
  | nil => rfl
  | cons c1 r1 =>
    simp only
    split
    · next e =>
      subst e
      obtain ⟨c2, r2, rfl, h⟩ := ho r1 rfl
      simp [h]
    · next hne =>
      rcases hcl c1 r1 rfl with h | h
      · exact (hne h).elim
      · simp [h]

/-- reading a symbol that is written without bars -/
theorem read_clean (fl : Flo) (m : Bool) {x : List Char} (hx : cleansymname x = true) (hodd : ¬ Odd x) {rest : List Char} (hr : Del rest)
    (n : Nat) (h : List Cell) (sh : List (Int × V)) :
    subRead fl m (n + 1) ⟨x ++ rest, h, sh⟩ = some (.val (.imm (.sym x)), ⟨rest, h, sh⟩) := by
  cases x with
  | nil => simp [cleansymname] at hx
  | cons c s =>
    simp only [cleansymname] at hx
    split at hx
    · simp at hx
    · next hall =>
      simp only [Bool.not_eq_eq_eq_not, Bool.not_true, Bool.not_eq_false, List.all_eq_true, List.contains_iff_mem] at hall
      rw [List.cons_append, subRead_symbolic fl m (hall c (by simp)), numberOrSymbol_ok fl hr hall]
      split at hx
      · next hi =>
        obtain ⟨h1, h2, h3, h4⟩ := inits_facts (by simpa using hi)
        simp [h1, h2, h3, h4]
      · split at hx
        · next hi hc =>
          have hp : peculiar false (c :: s) = true := by
            refine peculiar_sign hc hodd fun c1 r1 e => ?_
            subst e
            simp only [Bool.or_eq_true, Bool.and_eq_true, decide_eq_true_eq] at hx
            rcases hx with hx | hx
            · exact .inl hx.1
            · exact .inr (by simpa using hx)
          have hb : (isdigit c || decide (c = '+') || decide (c = '-') || decide (c = '.')) = true := by
            rcases hc with rfl | rfl <;> rfl
          rw [hb, hp]
          have hne : c :: s ≠ ['.'] := by
            intro e
            rw [(List.cons.inj e).1] at hc
            exact absurd hc (by decide)
          simp [hne]
        · simp only [Bool.and_eq_true, decide_eq_true_eq] at hx
          obtain ⟨rfl, hx⟩ := hx
          cases s with
          | nil => simp at hx
          | cons c1 s1 =>
            have hd : isdigit c1 = false := by simpa using hx
            have hp : peculiar false ('.' :: c1 :: s1) = true := by
              unfold peculiar
              have hl : ∀ d t, d ≠ '.' → ¬ ('.' :: c1 :: s1).map Char.toLower = d :: t := by
                intro d t hdt e
                exact hdt (List.cons.inj e).1.symm
              simp only [Bool.false_or]
              rw [if_neg (by decide), if_neg, if_neg, if_neg, if_neg (by decide)]
              · simp [hd]
              all_goals
                simp only [Bool.or_eq_true, decide_eq_true_eq, not_or]
                exact ⟨hl _ _ (by decide), hl _ _ (by decide)⟩
            have hb : (isdigit '.' || decide ('.' = '+') || decide ('.' = '-') || decide ('.' = '.')) = true := rfl
            rw [hb, hp]
            simp

end Verif.Labels
