import Verif.Labels.Tree
import Verif.Num.Props
/-
The atoms: numbers, symbols, characters, strings.
-/
namespace Verif.Labels
open Verif.Num (dig digVal strtolDigits isspace)

/-- texts that start with a delimiter -/
def Del (r : List Char) : Prop := ∃ e r', r = e :: r' ∧ delim e = true

theorem Del.space (r : List Char) : Del (' ' :: r) := ⟨_, _, rfl, by decide⟩
theorem Del.close (r : List Char) : Del (')' :: r) := ⟨_, _, rfl, by decide⟩

theorem symbolic_of {c : Char} (h : c ∈ subss) : symbolic c = true ∧ delim c = false ∧ c ≠ '#' ∧ isspace c = false := by
  have : ∀ c ∈ subss, symbolic c = true ∧ delim c = false ∧ c ≠ '#' ∧ isspace c = false := by decide +kernel
  exact this c h

theorem scan_ok {rest : List Char} (hr : Del rest) (hash : Bool) : ∀ (s l : List Char), (∀ c ∈ s, c ∈ subss) →
    scan (s ++ rest) l hash = some (s.reverse ++ l, hash, rest) := by
  intro s
  induction s with
  | nil =>
    intro l _
    obtain ⟨e, r', rfl, he⟩ := hr
    simp [scan, he]
  | cons c s ih =>
    intro l h
    obtain ⟨h1, h2, h3, _⟩ := symbolic_of (h c (by simp))
    rw [List.cons_append]
    unfold scan
    rw [if_neg (by simp [h2]), if_neg h3, if_pos h1, ih _ fun d hd => h d (by simp [hd])]
    simp

/-! ### numbers -/

theorem dig_lt {d : Nat} (h : d < 10) : dig d ∈ "0123456789".toList ∧ digVal (dig d) = some d := by
  have : ∀ d < 10, dig d ∈ "0123456789".toList ∧ digVal (dig d) = some d := by decide +kernel
  exact this d h

theorem decNat_digits (n : Nat) : decNat n ≠ [] ∧ ∀ c ∈ decNat n, c ∈ "0123456789".toList := by
  induction n using decNat.induct with
  | case1 n h =>
    unfold decNat
    rw [if_pos h]
    refine ⟨by simp, fun c hc => ?_⟩
    rw [List.mem_singleton] at hc
    rw [hc]
    exact (dig_lt h).1
  | case2 n h ih =>
    unfold decNat
    rw [if_neg h]
    refine ⟨by simp, fun c hc => ?_⟩
    rw [List.mem_append, List.mem_singleton] at hc
    rcases hc with hc | hc
    · exact ih.2 c hc
    · rw [hc]
      exact (dig_lt (by omega)).1

theorem strtolDigits_append : ∀ (s r : List Char) (acc : Nat), (∀ c ∈ s, ∃ d, digVal c = some d ∧ d < 10) →
    strtolDigits 10 (s ++ r) acc = strtolDigits 10 r (strtolDigits 10 s acc).1 := by
  intro s
  induction s with
  | nil => intro r acc _; rfl
  | cons c s ih =>
    intro r acc h
    obtain ⟨d, e, hd⟩ := h c (by simp)
    have e1 : ∀ x, strtolDigits 10 (c :: x) acc = strtolDigits 10 x (acc * 10 + d) := by
      intro x; rw [strtolDigits]; simp only [e, if_pos hd]
    rw [List.cons_append, e1, e1]
    exact ih r _ fun c hc => h c (by simp [hc])

theorem digit_val {c : Char} (h : c ∈ "0123456789".toList) : ∃ d, digVal c = some d ∧ d < 10 := by
  have : ∀ c ∈ "0123456789".toList, ∃ d < 10, digVal c = some d := by decide +kernel
  obtain ⟨d, h1, h2⟩ := this c h
  exact ⟨d, h2, h1⟩

theorem strtolDigits_dec (n : Nat) : strtolDigits 10 (decNat n) 0 = (n, []) := by
  induction n using decNat.induct with
  | case1 n h =>
    unfold decNat
    rw [if_pos h]
    simp [strtolDigits, (dig_lt h).2, h]
  | case2 n h ih =>
    unfold decNat
    rw [if_neg h, strtolDigits_append _ _ _ fun c hc => digit_val ((decNat_digits _).2 c hc), ih]
    have h10 : n % 10 < 10 := by omega
    simp only [strtolDigits, (dig_lt h10).2, if_pos h10, Prod.mk.injEq, and_true]
    omega

theorem digit_facts {c : Char} (h : c ∈ "0123456789".toList) : c ∈ subss ∧ isdigit c = true ∧ c ≠ '#' ∧ c ≠ '-' ∧ c ≠ '+' ∧
    c ∉ ".eEiInN".toList ∧ isspace c = false ∧ c ≠ '.' ∧ c ≠ '=' := by
  have : ∀ c ∈ "0123456789".toList, c ∈ subss ∧ isdigit c = true ∧ c ≠ '#' ∧ c ≠ '-' ∧ c ≠ '+' ∧
    c ∉ ".eEiInN".toList ∧ isspace c = false ∧ c ≠ '.' ∧ c ≠ '=' := by decide +kernel
  exact this c h

theorem skip0x_10 (s : List Char) : Num.skip0x 10 s = s := by
  unfold Num.skip0x
  split
  · simp
  · rfl

theorem decNat_cons (n : Nat) : ∃ c s, decNat n = c :: s := by
  cases h : decNat n with
  | nil => exact ((decNat_digits n).1 h).elim
  | cons c s => exact ⟨c, s, rfl⟩

theorem strtol_nat (n : Nat) (h : n ≤ 536870912) : Num.strtol (decNat n) 10 = (some (n : Int), []) := by
  obtain ⟨c, s, e⟩ := decNat_cons n
  have hc := digit_facts ((decNat_digits n).2 c (by rw [e]; simp))
  have hdw : (decNat n).dropWhile isspace = decNat n := by rw [e, List.dropWhile_cons, hc.2.2.2.2.2.2.1]; simp
  have hts : Num.takeSign (decNat n) = (false, decNat n) := by
    rw [e]
    unfold Num.takeSign
    split
    · next h => exact (hc.2.2.2.1 (List.cons.inj h).1).elim
    · next h => exact (hc.2.2.2.2.1 (List.cons.inj h).1).elim
    · rfl
  unfold Num.strtol
  rw [hdw, hts]
  simp only [skip0x_10, strtolDigits_dec]
  rw [if_neg (by rw [e]; simp), if_pos]
  · rfl
  · unfold Num.signed; simp only [Bool.false_eq_true, if_false]; omega

theorem strtol_neg (n : Nat) (h : n ≤ 536870912) : Num.strtol ('-' :: decNat n) 10 = (some (-(n : Int)), []) := by
  obtain ⟨c, s, e⟩ := decNat_cons n
  have hdw : ('-' :: decNat n).dropWhile isspace = '-' :: decNat n := by rw [List.dropWhile_cons]; rfl
  have hts : Num.takeSign ('-' :: decNat n) = (true, decNat n) := rfl
  unfold Num.strtol
  rw [hdw, hts]
  simp only [skip0x_10, strtolDigits_dec]
  rw [if_neg (by rw [e]; simp), if_pos]
  · rfl
  · unfold Num.signed; simp only [if_true]; omega

theorem numPrefix_id {s : List Char} (h : ∀ r, s ≠ '#' :: r) : numPrefix s 10 none = some (s, 10, none) := by
  unfold numPrefix
  split
  · next c r => exact (h _ rfl).elim
  · exact (h _ rfl).elim
  · rfl

theorem number_of (fl : Flo) {s : List Char} {l : Int} {c : Char} {r : List Char} (hs : s = c :: r) (h1 : c ≠ '#') (h2 : isspace c = false)
    (h3 : ∀ d ∈ s, d ∉ ".eEiInN".toList) (h4 : Num.strtol s 10 = (some l, [])) (h5 : -536870912 ≤ l ∧ l ≤ 536870911) :
    stringToNumber fl s = some (.imm (.fix l)) := by
  unfold stringToNumber
  rw [numPrefix_id (by rintro r' e; rw [hs] at e; exact h1 (List.cons.inj e).1)]
  simp only [Option.bind_eq_bind, Option.bind_some]
  have ha : s.any (".eEiInN".toList.contains ·) = false := by
    rw [List.any_eq_false]
    intro d hd
    simpa using h3 d hd
  rw [ha, h4]
  subst hs
  simp [h2, h5]

theorem number_nat (fl : Flo) (n : Nat) (h : n ≤ 536870911) : stringToNumber fl (decNat n) = some (.imm (.fix n)) := by
  obtain ⟨c, s, e⟩ := decNat_cons n
  have hd := fun c hc => digit_facts ((decNat_digits n).2 c hc)
  have hc := hd c (by rw [e]; simp)
  exact number_of fl e hc.2.2.1 hc.2.2.2.2.2.2.1 (fun d h => (hd d h).2.2.2.2.2.1) (strtol_nat n (by omega)) (by omega)

theorem number_dec (fl : Flo) (n : Int) (h : -536870912 ≤ n ∧ n ≤ 536870911) : stringToNumber fl (dec n) = some (.imm (.fix n)) := by
  unfold dec
  split
  · next hn =>
    have hd := fun c hc => digit_facts ((decNat_digits n.natAbs).2 c hc)
    have := number_of fl (s := '-' :: decNat n.natAbs) (l := -(n.natAbs : Int)) rfl (by decide) (by decide) (by
      intro d hd'
      rcases List.mem_cons.1 hd' with e | hd'
      · rw [e]; decide
      · exact (hd d hd').2.2.2.2.2.1) (strtol_neg _ (by omega)) (by omega)
    rw [this]
    congr 3
    omega
  · next hn =>
    rw [number_nat fl _ (by omega)]
    congr 3
    omega

theorem dec_nat (n : Nat) : dec (n : Int) = decNat n := by
  unfold dec
  rw [if_neg (by omega)]
  rfl

end Verif.Labels
