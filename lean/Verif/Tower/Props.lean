import Verif.Tower.Model
import Verif.Fx.Props
import Mathlib.Tactic.IntervalCases
/-
C76: arithmetic on numbers of both kinds.
-/
namespace Verif.Tower
open Verif.Fx
variable {F : Ieee}

/-- What a number stands for. -/
def V : Num F → Ext
  | .fx n => .fin n
  | .fl t => F.v t
/-- Fixnums are in their range. -/
def Ok : Num F → Prop
  | .fx n => isFx n
  | .fl _ => True

theorem v_ofInt {n : ℤ} (h : isFx n) : F.v (F.ofInt n) = .fin n := by
  rw [F.v_ofInt]
  refine rnd_int n ?_
  rw [abs_le]
  omega

theorem v_small {n : ℤ} (h : |n| ≤ 2 ^ 53) : F.v (F.ofInt n) = .fin n := by rw [F.v_ofInt]; exact rnd_int n h

theorem V_inexact {x : Num F} (h : Ok x) : F.v (toInexact x) = V x := by
  cases x with
  | fx n => exact v_ofInt h
  | fl t => rfl

/-! ### comparisons -/

/-- Two numbers of whatever kind are compared by their exact values. -/
theorem c76_compare {x y : Num F} (hx : Ok x) (hy : Ok y) {p q : ℚ} (hp : V x = .fin p) (hq : V y = .fin q) :
    (numEq x y = true ↔ p = q) ∧ (numLt x y = true ↔ p < q) ∧ (numGt x y = true ↔ p > q) ∧
      (numLe x y = true ↔ p ≤ q) ∧ (numGe x y = true ↔ p ≥ q) := by
  cases x <;> cases y <;>
    simp only [V, Ext.fin.injEq] at hp hq <;>
    simp only [numEq, numLt, numGt, numLe, numGe, binop, feq, flt, fle]
  · subst hp; subst hq; simp
  · rw [v_ofInt hx, hq]; subst hp; simp [Ext.eq, Ext.lt, Ext.le, le_iff_lt_or_eq]
  · rw [v_ofInt hy, hp]; subst hq; simp [Ext.eq, Ext.lt, Ext.le, le_iff_lt_or_eq]
  · rw [hp, hq]; simp [Ext.eq, Ext.lt, Ext.le, le_iff_lt_or_eq]

/-- Infinities are beyond every other number; `nan` is not comparable. -/
theorem c76_compare_special {x y : Num F} (hx : Ok x) (hy : Ok y) :
    (V x = .nan ∨ V y = .nan → numEq x y = false ∧ numLt x y = false ∧ numGt x y = false ∧ numLe x y = false ∧ numGe x y = false) ∧
      (∀ q, V x = .minf → V y = .fin q → numLt x y = true ∧ numGt x y = false ∧ numEq x y = false) ∧
      (∀ q, V x = .pinf → V y = .fin q → numLt x y = false ∧ numGt x y = true ∧ numEq x y = false) ∧
      (V x = .minf → V y = .pinf → numLt x y = true ∧ numGt x y = false ∧ numEq x y = false) := by
  cases x <;> cases y <;>
    simp only [V, numEq, numLt, numGt, numLe, numGe, binop, feq, flt, fle, reduceCtorEq, false_or, or_false]
  · simp
  · rw [v_ofInt hx]
    refine ⟨fun h => ?_, by simp, by simp, by simp⟩
    rw [h]; simp [Ext.eq, Ext.lt, Ext.le]
  · rw [v_ofInt hy]
    refine ⟨fun h => ?_, fun _ h _ => ?_, fun _ h _ => ?_, by simp⟩ <;> rw [h] <;> simp [Ext.eq, Ext.lt, Ext.le]
  · refine ⟨fun h => ?_, fun _ h k => ?_, fun _ h k => ?_, fun h k => ?_⟩
    · rcases h with h | h <;> rw [h] <;> simp [Ext.eq, Ext.lt, Ext.le]
    all_goals rw [h, k]; simp [Ext.eq, Ext.lt, Ext.le]

example : Ok (.fx 3 : Num dbl) ∧ V (.fl (.fin (1 / 2)) : Num dbl) = .fin (1 / 2) := ⟨by unfold Ok; decide, rfl⟩

/-! ### operations -/

/-- Operations on exact numbers give the exact result or stop. -/
theorem c76_exact_ops (a b : ℤ) (ha : isFx a) (hb : isFx b) :
    add (.fx a : Num F) (.fx b) = (if isFx (a + b) then .ok (.fx (a + b)) else .error .abort) ∧
      sub (.fx a : Num F) (.fx b) = (if isFx (a - b) then .ok (.fx (a - b)) else .error .abort) ∧
      mul (.fx a : Num F) (.fx b) = (if isFx (a * b) then .ok (.fx (a * b)) else .error .abort) ∧
      neg (.fx a : Num F) = (if isFx (-a) then .ok (.fx (-a)) else .error .abort) ∧
      abs (.fx a : Num F) = (if isFx |a| then .ok (.fx |a|) else .error .abort) := by
  obtain ⟨h1, h2, h3, h4, h5⟩ := c03_libl_checked a b ha hb
  simp only [add, sub, mul, neg, abs, binop, fxr, h1, h2, h3, h4, h5]
  refine ⟨?_, ?_, ?_, ?_, ?_⟩ <;> split_ifs <;> rfl

/-- Division of exact numbers: an exact result if there is one, and else the nearest flonum. -/
theorem c76_exact_div (a b : ℤ) (ha : isFx a) (hb : isFx b) :
    (b ≠ 0 → ¬ (a = FIXNUM_MIN ∧ b = -1) →
      (∀ q, a = q * b → div (.fx a : Num F) (.fx b) = .ok (.fx q)) ∧
      ((∀ q, a ≠ q * b) → ∃ t : F.T, div (.fx a) (.fx b) = .ok (.fl t) ∧ F.v t = rnd ((a : ℚ) / b))) ∧
    (b = 0 ∨ a = FIXNUM_MIN ∧ b = -1 → div (.fx a : Num F) (.fx b) = .error .abort) := by
  simp only [div, binop, fxdivide]
  refine ⟨fun h0 h1 => ?_, fun h => ?_⟩
  · have h1' : a ≠ FIXNUM_MIN ∨ b ≠ -1 := by tauto
    rw [cassert_ok h0, cassert_ok h1', crem_ok a b ha h0]
    refine ⟨fun q hq => ?_, fun hq => ?_⟩
    · have hm : a.tmod b = 0 := by rw [hq]; exact Int.mul_tmod_left q b
      have hd : a.tdiv b = q := by rw [hq]; exact Int.mul_tdiv_cancel q h0
      simp only [bind, Except.bind, hm, if_true, cdiv_ok a b ha h0, hd]
      rfl
    · have hm : a.tmod b ≠ 0 := by
        intro hm
        have := Int.tmod_add_mul_tdiv a b
        exact hq (a.tdiv b) (by rw [hm] at this; linarith [mul_comm b (a.tdiv b)])
      refine ⟨F.div (F.ofInt a) (F.ofInt b), ?_, ?_⟩
      · simp only [bind, Except.bind, if_neg hm]; rfl
      · exact F.v_div _ _ _ _ (v_ofInt ha) (v_ofInt hb) (by exact_mod_cast h0)
  · rcases h with h | h
    · simp [cassert, h]
    · rw [cassert_ok (by omega)]; simp [cassert, h]

/-- With a flonum among the operands the result is the flonum nearest to the result for the exact values. -/
theorem c76_inexact_ops {x y : Num F} (hx : Ok x) (hy : Ok y) (he : ¬ (isExact x = true ∧ isExact y = true)) {p q : ℚ}
    (hp : V x = .fin p) (hq : V y = .fin q) :
    (∃ t, add x y = .ok (.fl t) ∧ F.v t = rnd (p + q)) ∧ (∃ t, sub x y = .ok (.fl t) ∧ F.v t = rnd (p - q)) ∧
      (∃ t, mul x y = .ok (.fl t) ∧ F.v t = rnd (p * q)) ∧
      (q ≠ 0 → ∃ t, div x y = .ok (.fl t) ∧ F.v t = rnd (p / q)) := by
  have h1 : F.v (toInexact x) = .fin p := (V_inexact hx).trans hp
  have h2 : F.v (toInexact y) = .fin q := (V_inexact hy).trans hq
  cases x <;> cases y <;> simp only [isExact, true_and, not_true_eq_false, and_self] at he <;>
    simp only [toInexact] at h1 h2 <;>
    exact ⟨⟨_, rfl, F.v_add _ _ _ _ h1 h2⟩, ⟨_, rfl, F.v_sub _ _ _ _ h1 h2⟩, ⟨_, rfl, F.v_mul _ _ _ _ h1 h2⟩,
      fun h => ⟨_, rfl, F.v_div _ _ _ _ h1 h2 h⟩⟩

/-- negation and absolute value of a flonum. -/
theorem c76_inexact_sign (t : F.T) {p : ℚ} (hp : F.v t = .fin p) :
    (∃ u, neg (.fl t : Num F) = .ok (.fl u) ∧ F.v u = .fin (-p)) ∧ (∃ u, abs (.fl t : Num F) = .ok (.fl u) ∧ F.v u = .fin |p|) :=
  ⟨⟨_, rfl, F.v_neg _ _ hp⟩, ⟨_, rfl, F.v_fabs _ _ hp⟩⟩

/-- Numbers with a significand of at most 53 bits are flonums: no rounding. -/
theorem c76_representable (n k : ℤ) (hn : |n| ≤ 2 ^ 53) (hk : -1074 ≤ k) (hk' : k ≤ 900) :
    rnd ((n : ℚ) * 2 ^ k) = .fin (n * 2 ^ k) := rnd_exact n k hn hk hk'

example : add (.fx 1 : Num dbl) (.fl (.fin (1 / 2))) = .ok (.fl (.fin (3 / 2))) := by
  have h1 : rnd ((1 : ℤ) : ℚ) = .fin 1 := by decide +kernel
  have h2 : rnd (1 + 1 / 2) = .fin (3 / 2) := by decide +kernel
  change pure (Num.fl (F := dbl) (Ext.map2 (fun p q => rnd (p + q)) (rnd ((1 : ℤ) : ℚ)) (.fin (1 / 2)))) = _
  rw [h1]
  change pure (Num.fl (F := dbl) (rnd (1 + 1 / 2))) = _
  rw [h2]
  rfl

/-- The test of the product in `double` is the test of the exact product: the simplification made for `fxmul` in `Verif.Fx`. -/
theorem c76_fxmul (x y : ℤ) (hx : isFx x) (hy : isFx y) : fxmulTest F x y = lfxmul x y := by
  have hb : |x * y| ≤ 2 ^ 58 := by
    have h1 : |x| ≤ 2 ^ 29 := by rw [abs_le]; omega
    have h2 : |y| ≤ 2 ^ 29 := by rw [abs_le]; omega
    rw [abs_mul]
    have := abs_nonneg x
    have := abs_nonneg y
    nlinarith
  have hz : F.v (F.mul (F.ofInt x) (F.ofInt y)) = .fin (r0 ((x * y : ℤ) : ℚ)) := by
    rw [F.v_mul _ _ _ _ (v_ofInt hx) (v_ofInt hy), ← Int.cast_mul]
    refine rnd_r0_big _ ?_
    have : |((x * y : ℤ) : ℚ)| ≤ 2 ^ (58 : ℤ) := by exact_mod_cast hb
    exact this.trans (zpow_le_zpow_right₀ (by norm_num) (by norm_num))
  have hlo : F.v (F.ofInt FIXNUM_MIN) = .fin ((FIXNUM_MIN : ℤ) : ℚ) := v_ofInt (by decide)
  have hhi : F.v (F.ofInt FIXNUM_MAX) = .fin ((FIXNUM_MAX : ℤ) : ℚ) := v_ofInt (by decide)
  have up : ∀ n : ℤ, |n| ≤ 2 ^ 53 → x * y ≤ n → r0 ((x * y : ℤ) : ℚ) ≤ n := fun n hn h => by
    simpa using r0_le ((x * y : ℤ) : ℚ) n 0 hn (by norm_num) (by simpa using (by exact_mod_cast h : ((x * y : ℤ) : ℚ) ≤ n))
  have lo : ∀ n : ℤ, |n| ≤ 2 ^ 53 → n ≤ x * y → (n : ℚ) ≤ r0 ((x * y : ℤ) : ℚ) := fun n hn h => by
    simpa using le_r0 ((x * y : ℤ) : ℚ) n 0 hn (by norm_num) (by simpa using (by exact_mod_cast h : (n : ℚ) ≤ ((x * y : ℤ) : ℚ)))
  have le_iff : ∀ a b : ℚ, (Ext.fin a).le (.fin b) = true ↔ a ≤ b := fun a b => by simp [Ext.le, Ext.lt, Ext.eq, le_iff_lt_or_eq]
  have key : (fle (F.ofInt FIXNUM_MIN) (F.mul (F.ofInt x) (F.ofInt y)) && fle (F.mul (F.ofInt x) (F.ofInt y)) (F.ofInt FIXNUM_MAX)) = true ↔
      (x * y ≥ FIXNUM_MIN ∧ x * y ≤ FIXNUM_MAX) := by
    rw [Bool.and_eq_true, fle, fle, hz, hlo, hhi, le_iff, le_iff]
    constructor
    · rintro ⟨a, b⟩
      constructor
      · by_contra h
        have h1 := up (-536870913) (by norm_num) (by omega)
        have := a.trans h1
        norm_num at this
      · by_contra h
        have h1 := lo 536870912 (by norm_num) (by omega)
        have := h1.trans b
        norm_num at this
    · rintro ⟨a, b⟩
      exact ⟨lo _ (by norm_num) a, up _ (by norm_num) b⟩
  unfold fxmulTest lfxmul cassert
  simp only [key]

/-! ### predicates -/

theorem flisint_iff (t : F.T) : flisint t = true ↔ ∃ n : ℤ, F.v t = .fin n := by
  unfold flisint feq
  rcases h : F.v t with _ | _ | _ | q
  · simp [Ext.lt]
  · simp [Ext.lt]
  · simp [Ext.lt]
  · rw [F.v_floor _ _ h]
    simp only [Ext.lt, Ext.eq, Bool.and_self, Bool.true_and, decide_eq_true_eq, Ext.fin.injEq]
    exact ⟨fun h => ⟨_, h⟩, fun ⟨n, h⟩ => by rw [h]; simp⟩

/-- `integer?`, `zero?`, `positive?`, `negative?`, `nan?`, `infinite?`. -/
theorem c76_predicates {x : Num F} :
    (isInteger x = true ↔ ∃ n : ℤ, V x = .fin n) ∧
      (∀ p, V x = .fin p → (isZero x = true ↔ p = 0) ∧ (isPos x = true ↔ p > 0) ∧ (isNeg x = true ↔ p < 0)) ∧
      (isNan x = true ↔ V x = .nan) ∧ (isInf x = true ↔ V x = .minf ∨ V x = .pinf) := by
  have h0 : F.v (F.ofInt 0) = .fin 0 := by simpa using v_small (F := F) (n := 0) (by norm_num)
  cases x with
  | fx n =>
    refine ⟨by simp [isInteger, V], fun p hp => ?_, by simp [isNan, V], by simp [isInf, V]⟩
    simp only [V, Ext.fin.injEq] at hp
    subst hp
    simp [isZero, isPos, isNeg]
  | fl t =>
    refine ⟨flisint_iff t, fun p hp => ?_, ?_, ?_⟩
    · simp only [V] at hp
      simp [isZero, isPos, isNeg, feq, flt, hp, h0, Ext.eq, Ext.lt]
    · simp only [isNan, V, feq]
      generalize F.v t = w
      cases w <;> simp [Ext.eq]
    · simp only [isInf, flInf, V]
      generalize F.v t = w
      cases w <;> simp [Ext.le, Ext.lt, Ext.eq]

/-- `finite?`, `nan` excepted. -/
theorem c76_finite_partial {x : Num F} (h : V x ≠ .nan) : isFinite x = true ↔ ∃ q, V x = .fin q := by
  cases x with
  | fx n => simp [isFinite, V]
  | fl t =>
    simp only [isFinite, flInf, V] at h ⊢
    revert h
    generalize F.v t = w
    cases w <;> simp [Ext.le, Ext.lt, Ext.eq]

/-- `even?` and `odd?` below 2⁵³. -/
theorem c76_parity_partial {x : Num F} (n : ℤ) (h : V x = .fin n) (hn : |n| < 2 ^ 53) :
    (isEven x = true ↔ ∃ k, n = 2 * k) ∧ (isOdd x = true ↔ ∃ k, n = 2 * k + 1) := by
  have e1 : (∃ k, n = 2 * k) ↔ n % 2 = 0 := ⟨fun ⟨k, h⟩ => by omega, fun h => ⟨n / 2, by omega⟩⟩
  have e2 : (∃ k, n = 2 * k + 1) ↔ n % 2 ≠ 0 := ⟨fun ⟨k, h⟩ => by omega, fun h => ⟨n / 2, by omega⟩⟩
  have half : ∀ m : ℤ, (∃ k : ℤ, (m : ℚ) / 2 = k) ↔ m % 2 = 0 := by
    intro m
    constructor
    · rintro ⟨k, h⟩
      have : (m : ℚ) = ((2 * k : ℤ) : ℚ) := by push_cast; linarith
      have := Int.cast_injective this
      omega
    · intro h
      refine ⟨m / 2, ?_⟩
      have : m = 2 * (m / 2) := by omega
      have h2 : (m : ℚ) = 2 * ((m / 2 : ℤ) : ℚ) := by exact_mod_cast this
      linarith
  cases x with
  | fx a =>
    simp only [V, Ext.fin.injEq, Int.cast_inj] at h
    subst h
    rw [e1, e2]
    simp [isEven, isOdd]
  | fl t =>
    simp only [V] at h
    have h2 : F.v (F.ofInt 2) = .fin 2 := by simpa using v_small (F := F) (n := 2) (by norm_num)
    have h1 : F.v (F.ofInt 1) = .fin 1 := by simpa using v_small (F := F) (n := 1) (by norm_num)
    have ha : F.v (F.add t (F.ofInt 1)) = .fin ((n + 1 : ℤ) : ℚ) := by
      rw [F.v_add _ _ _ _ h h1]
      have := rnd_int (n + 1) (by rw [abs_lt] at hn; rw [abs_le]; omega)
      push_cast at this ⊢
      exact this
    have hd : F.v (F.div t (F.ofInt 2)) = .fin ((n : ℚ) / 2) := by
      rw [F.v_div _ _ _ _ h h2 (by norm_num)]
      exact rnd_half n hn.le
    have hd' : F.v (F.div (F.add t (F.ofInt 1)) (F.ofInt 2)) = .fin (((n + 1 : ℤ) : ℚ) / 2) := by
      rw [F.v_div _ _ _ _ ha h2 (by norm_num)]
      exact rnd_half (n + 1) (by rw [abs_lt] at hn; rw [abs_le]; omega)
    simp only [isEven, isOdd, flisint_iff, hd, hd', Ext.fin.injEq, half, e1, e2]
    refine ⟨trivial, ?_⟩
    omega

/-! ### exactness -/

/-- `exact` of a flonum: the fixnum of this value if there is one; otherwise the program stops, or the conversion to `long` is undefined. -/
theorem c76_exact (t : F.T) :
    (∀ n : ℤ, isFx n → F.v t = .fin n → toExact (.fl t : Num F) = .ok (.fx n)) ∧
      (∀ p, F.v t = .fin p → (∀ n : ℤ, isFx n → p ≠ n) → isLong (trunc p) → toExact (.fl t : Num F) = .error .abort) ∧
      ((∀ p, F.v t = .fin p → ¬ isLong (trunc p)) → toExact (.fl t : Num F) = .error .ub) := by
  simp only [toExact, fxflo, toLong]
  refine ⟨fun n hn hv => ?_, fun p hv hp hl => ?_, fun h => ?_⟩
  · have ht : trunc (n : ℚ) = n := by simp [trunc]
    have hl : isLong n := by constructor <;> omega
    have he : feq (F.ofInt n) t = true := by simp [feq, v_ofInt hn, hv, Ext.eq]
    rw [hv]
    simp only [ht, clong, if_pos hl, bind, Except.bind, cassert_ok he]
    rw [cassert_ok (show n ≥ FIXNUM_MIN ∧ n ≤ FIXNUM_MAX from hn)]
    rfl
  · rw [hv]
    simp only [clong, if_pos hl, bind, Except.bind]
    by_cases hr : isFx (trunc p)
    · have he : ¬ feq (F.ofInt (trunc p)) t = true := by
        simp only [feq, v_ofInt hr, hv, Ext.eq, decide_eq_true_eq]
        exact fun h => hp _ hr h.symm
      simp only [cassert, if_neg he]
      rfl
    · have hr' : ¬ (trunc p ≥ FIXNUM_MIN ∧ trunc p ≤ FIXNUM_MAX) := hr
      simp only [cassert, if_neg hr']
      split_ifs <;> rfl
  · rcases hv : F.v t with _ | _ | _ | p
    · rfl
    · rfl
    · rfl
    · simp only [clong, if_neg (h p hv)]; rfl

/-- `inexact` keeps the value, and `exact` takes it back. -/
theorem c76_inexact (n : ℤ) (h : isFx n) :
    F.v (toInexact (.fx n : Num F)) = .fin n ∧ toExact (.fl (toInexact (.fx n : Num F))) = .ok (.fx n : Num F) :=
  ⟨v_ofInt h, (c76_exact _).1 n h (v_ofInt h)⟩

/-! ### greatest and least -/

theorem max2_spec {x y : Num F} (hx : Ok x) (hy : Ok y) {p q : ℚ} (hp : V x = .fin p) (hq : V y = .fin q) :
    V (max2 x y) = .fin (max p q) ∧ Ok (max2 x y) ∧ isExact (max2 x y) = (isExact x && isExact y) := by
  have h1 : F.v (toInexact x) = .fin p := (V_inexact hx).trans hp
  have h2 : F.v (toInexact y) = .fin q := (V_inexact hy).trans hq
  cases x <;> cases y <;> simp only [toInexact] at h1 h2
  · simp only [V, Ext.fin.injEq] at hp hq
    subst hp; subst hq
    simp only [max2, binop]
    rename_i a b
    split_ifs with h
    · exact ⟨by simp [V, max_eq_left (by exact_mod_cast h.le : (b : ℚ) ≤ a)], hx, rfl⟩
    · exact ⟨by simp [V, max_eq_right (by exact_mod_cast not_lt.mp h : (a : ℚ) ≤ b)], hy, rfl⟩
  all_goals
    simp only [max2, binop, flmax, flt, h1, h2, Ext.lt]
    split_ifs with h
    · rw [decide_eq_true_eq] at h
      exact ⟨by simp only [V, h1, max_eq_left h.le], trivial, rfl⟩
    · rw [decide_eq_true_eq] at h
      exact ⟨by simp only [V, h2, max_eq_right (not_lt.mp h)], trivial, rfl⟩

theorem min2_spec {x y : Num F} (hx : Ok x) (hy : Ok y) {p q : ℚ} (hp : V x = .fin p) (hq : V y = .fin q) :
    V (min2 x y) = .fin (min p q) ∧ Ok (min2 x y) ∧ isExact (min2 x y) = (isExact x && isExact y) := by
  have h1 : F.v (toInexact x) = .fin p := (V_inexact hx).trans hp
  have h2 : F.v (toInexact y) = .fin q := (V_inexact hy).trans hq
  cases x <;> cases y <;> simp only [toInexact] at h1 h2
  · simp only [V, Ext.fin.injEq] at hp hq
    subst hp; subst hq
    simp only [min2, binop]
    rename_i a b
    split_ifs with h
    · exact ⟨by simp [V, min_eq_left (by exact_mod_cast h.le : (a : ℚ) ≤ b)], hx, rfl⟩
    · exact ⟨by simp [V, min_eq_right (by exact_mod_cast not_lt.mp h : (b : ℚ) ≤ a)], hy, rfl⟩
  all_goals
    simp only [min2, binop, flmin, flt, h1, h2, Ext.lt]
    split_ifs with h
    · rw [decide_eq_true_eq] at h
      exact ⟨by simp only [V, h1, min_eq_left h.le], trivial, rfl⟩
    · rw [decide_eq_true_eq] at h
      exact ⟨by simp only [V, h2, min_eq_right (not_lt.mp h)], trivial, rfl⟩

/-- The greatest of the values; exact if all operands are. -/
theorem c76_max (ys : List (Num F)) : ∀ x : Num F, (∀ z ∈ x :: ys, Ok z ∧ ∃ q, V z = .fin q) →
    ∃ m, V (maxL x ys) = .fin m ∧ (∃ z ∈ x :: ys, V z = .fin m) ∧ (∀ z ∈ x :: ys, ∀ q, V z = .fin q → q ≤ m) ∧
      isExact (maxL x ys) = (x :: ys).all isExact := by
  induction ys with
  | nil =>
    intro x h
    obtain ⟨-, q, hq⟩ := h x (by simp)
    exact ⟨q, hq, ⟨x, by simp, hq⟩, fun z hz r hr => by
      simp only [List.mem_singleton] at hz
      subst hz; rw [hq] at hr; exact (Ext.fin.inj hr).ge, by simp [maxL]⟩
  | cons y ys ih =>
    intro x h
    obtain ⟨ox, p, hp⟩ := h x (by simp)
    obtain ⟨oy, q, hq⟩ := h y (by simp)
    obtain ⟨e1, e2, e3⟩ := max2_spec ox oy hp hq
    obtain ⟨m, h1, ⟨z, hz, h2⟩, h3, h4⟩ := ih (max2 x y) (by
      intro z hz
      rcases List.mem_cons.mp hz with rfl | hz
      · exact ⟨e2, _, e1⟩
      · exact h z (by simp [hz]))
    have hm : max p q ≤ m := h3 _ (by simp) _ e1
    refine ⟨m, h1, ?_, ?_, ?_⟩
    · rcases List.mem_cons.mp hz with rfl | hz
      · rw [e1] at h2
        have h2 := Ext.fin.inj h2
        rcases max_choice p q with h | h
        · exact ⟨x, by simp, by rw [hp, ← h2, h]⟩
        · exact ⟨y, by simp, by rw [hq, ← h2, h]⟩
      · exact ⟨z, by simp [hz], h2⟩
    · intro w hw r hr
      simp only [List.mem_cons] at hw
      rcases hw with rfl | rfl | hw
      · rw [hp] at hr; cases hr; exact (le_max_left _ _).trans hm
      · rw [hq] at hr; cases hr; exact (le_max_right _ _).trans hm
      · exact h3 w (by simp [hw]) r hr
    · simp only [maxL, h4, List.all_cons, e3, Bool.and_assoc]

/-- The least of the values; exact if all operands are. -/
theorem c76_min (ys : List (Num F)) : ∀ x : Num F, (∀ z ∈ x :: ys, Ok z ∧ ∃ q, V z = .fin q) →
    ∃ m, V (minL x ys) = .fin m ∧ (∃ z ∈ x :: ys, V z = .fin m) ∧ (∀ z ∈ x :: ys, ∀ q, V z = .fin q → m ≤ q) ∧
      isExact (minL x ys) = (x :: ys).all isExact := by
  induction ys with
  | nil =>
    intro x h
    obtain ⟨-, q, hq⟩ := h x (by simp)
    exact ⟨q, hq, ⟨x, by simp, hq⟩, fun z hz r hr => by
      simp only [List.mem_singleton] at hz
      subst hz; rw [hq] at hr; exact (Ext.fin.inj hr).le, by simp [minL]⟩
  | cons y ys ih =>
    intro x h
    obtain ⟨ox, p, hp⟩ := h x (by simp)
    obtain ⟨oy, q, hq⟩ := h y (by simp)
    obtain ⟨e1, e2, e3⟩ := min2_spec ox oy hp hq
    obtain ⟨m, h1, ⟨z, hz, h2⟩, h3, h4⟩ := ih (min2 x y) (by
      intro z hz
      rcases List.mem_cons.mp hz with rfl | hz
      · exact ⟨e2, _, e1⟩
      · exact h z (by simp [hz]))
    have hm : m ≤ min p q := h3 _ (by simp) _ e1
    refine ⟨m, h1, ?_, ?_, ?_⟩
    · rcases List.mem_cons.mp hz with rfl | hz
      · rw [e1] at h2
        have h2 := Ext.fin.inj h2
        rcases min_choice p q with h | h
        · exact ⟨x, by simp, by rw [hp, ← h2, h]⟩
        · exact ⟨y, by simp, by rw [hq, ← h2, h]⟩
      · exact ⟨z, by simp [hz], h2⟩
    · intro w hw r hr
      simp only [List.mem_cons] at hw
      rcases hw with rfl | rfl | hw
      · rw [hp] at hr; cases hr; exact hm.trans (min_le_left _ _)
      · rw [hq] at hr; cases hr; exact hm.trans (min_le_right _ _)
      · exact h3 w (by simp [hw]) r hr
    · simp only [minL, h4, List.all_cons, e3, Bool.and_assoc]

/-! ### integer division -/

theorem flargs_ok {s t : F.T} {a b : ℤ} (hs : F.v s = .fin a) (ht : F.v t = .fin b) (hb : b ≠ 0) : flargs s t = true := by
  have h0 : F.v (F.ofInt 0) = .fin 0 := by simpa using v_small (F := F) (n := 0) (by norm_num)
  simp only [flargs, Bool.and_eq_true, (flisint_iff s).mpr ⟨a, hs⟩, (flisint_iff t).mpr ⟨b, ht⟩, and_true, feq, ht, h0, Ext.eq]
  simpa using hb

theorem flrem_spec {s t : F.T} {a b : ℤ} (hs : F.v s = .fin a) (ht : F.v t = .fin b) (hb : b ≠ 0) :
    ∃ u, flrem s t = .ok u ∧ F.v u = .fin (a.tmod b : ℤ) := by
  refine ⟨F.fmod s t, by rw [flrem, cassert_ok (flargs_ok hs ht hb)]; rfl, ?_⟩
  rw [F.v_fmod _ _ _ _ hs ht (by exact_mod_cast hb), trunc_div, Int.tmod_def]
  push_cast
  rfl

/-- `remainder` of integers of whatever kind and size. -/
theorem c76_remainder {x y : Num F} (hx : Ok x) (hy : Ok y) (a b : ℤ) (ha : V x = .fin a) (hb : V y = .fin b) (h0 : b ≠ 0) :
    ∃ z q r, remainder x y = .ok z ∧ V z = .fin (r : ℤ) ∧ IsTrunc a b q r ∧ isExact z = (isExact x && isExact y) := by
  have h1 : F.v (toInexact x) = .fin a := (V_inexact hx).trans ha
  have h2 : F.v (toInexact y) = .fin b := (V_inexact hy).trans hb
  have it := tdiv_isTrunc a b h0
  cases x <;> cases y <;> simp only [toInexact] at h1 h2
  · rename_i m n
    simp only [V, Ext.fin.injEq, Int.cast_inj] at ha hb
    subst ha; subst hb
    refine ⟨.fx (m.tmod n), _, _, ?_, rfl, it, rfl⟩
    simp only [remainder, binop, lfxrem, cassert_ok h0, crem_ok m n hx h0]
    rfl
  all_goals
    obtain ⟨u, e1, e2⟩ := flrem_spec h1 h2 h0
    exact ⟨.fl u, _, _, by simp only [remainder, binop, e1]; rfl, e2, it, rfl⟩

theorem div_small {s t : F.T} {a b : ℤ} (hs : F.v s = .fin a) (ht : F.v t = .fin b) (hb : b ≠ 0) (ha : |a| ≤ 2 ^ 50) :
    F.v (F.div s t) = .fin (r0 ((a : ℚ) / b)) := by
  rw [F.v_div _ _ _ _ hs ht (by exact_mod_cast hb)]
  refine rnd_r0 _ ?_
  have h1 : (1 : ℚ) ≤ |(b : ℚ)| := by exact_mod_cast Int.one_le_abs hb
  have h2 : |(a : ℚ)| ≤ 2 ^ 50 := by exact_mod_cast ha
  rw [abs_div, div_le_iff₀ (by linarith)]
  norm_num at h2 ⊢
  nlinarith

/-- `quotient` of integers up to 2⁵⁰; fixnums without overflow. -/
theorem c76_quotient_partial {x y : Num F} (hx : Ok x) (hy : Ok y) (a b : ℤ) (ha : V x = .fin a) (hb : V y = .fin b) (h0 : b ≠ 0)
    (la : |a| ≤ 2 ^ 50) (lb : |b| ≤ 2 ^ 50) (ho : ¬ (a = FIXNUM_MIN ∧ b = -1)) :
    ∃ z q r, quotient x y = .ok z ∧ V z = .fin (q : ℤ) ∧ IsTrunc a b q r ∧ isExact z = (isExact x && isExact y) := by
  have h1 : F.v (toInexact x) = .fin a := (V_inexact hx).trans ha
  have h2 : F.v (toInexact y) = .fin b := (V_inexact hy).trans hb
  have it := tdiv_isTrunc a b h0
  cases x <;> cases y <;> simp only [toInexact] at h1 h2
  · rename_i m n
    simp only [V, Ext.fin.injEq, Int.cast_inj] at ha hb
    subst ha; subst hb
    refine ⟨.fx (m.tdiv n), _, _, ?_, rfl, it, rfl⟩
    have : m ≠ FIXNUM_MIN ∨ n ≠ -1 := by tauto
    simp only [quotient, binop, lfxquo, cassert_ok h0, cassert_ok this, cdiv_ok m n hx h0]
    rfl
  all_goals
    refine ⟨_, _, _, by simp only [quotient, binop, flquo, cassert_ok (flargs_ok h1 h2 h0)]; rfl, ?_, it, rfl⟩
    simp only [V]
    rw [F.v_modf _ _ (div_small h1 h2 h0 la), trunc_r0 a b la h0 lb, trunc_div]

theorem floor_isFloor (a b : ℤ) (h0 : b ≠ 0) : IsFloor a b ⌊(a : ℚ) / b⌋ (a - b * ⌊(a : ℚ) / b⌋) := by
  set k := ⌊(a : ℚ) / b⌋
  have k1 : (k : ℚ) ≤ a / b := Int.floor_le _
  have k2 : (a : ℚ) / b < k + 1 := Int.lt_floor_add_one _
  refine ⟨by ring, ?_⟩
  rcases lt_or_gt_of_ne h0 with h | h
  · have hq : (b : ℚ) < 0 := by exact_mod_cast h
    rw [le_div_iff_of_neg hq] at k1
    rw [div_lt_iff_of_neg hq] at k2
    have i1 : a ≤ k * b := by exact_mod_cast k1
    have i2 : (k + 1) * b < a := by exact_mod_cast k2
    refine ⟨?_, by nlinarith⟩
    rw [abs_of_neg h, abs_lt]
    constructor <;> nlinarith
  · have hq : (0 : ℚ) < b := by exact_mod_cast h
    rw [le_div_iff₀ hq] at k1
    rw [div_lt_iff₀ hq] at k2
    have i1 : k * b ≤ a := by exact_mod_cast k1
    have i2 : a < (k + 1) * b := by exact_mod_cast k2
    refine ⟨?_, by nlinarith⟩
    rw [abs_of_pos h, abs_lt]
    constructor <;> nlinarith

/-- `modulo` of integers up to 2⁵⁰. -/
theorem c76_modulo_partial {x y : Num F} (hx : Ok x) (hy : Ok y) (a b : ℤ) (ha : V x = .fin a) (hb : V y = .fin b) (h0 : b ≠ 0)
    (la : |a| ≤ 2 ^ 50) (lb : |b| ≤ 2 ^ 50) :
    ∃ z q r, modulo x y = .ok z ∧ V z = .fin (r : ℤ) ∧ IsFloor a b q r ∧ isExact z = (isExact x && isExact y) := by
  have h1 : F.v (toInexact x) = .fin a := (V_inexact hx).trans ha
  have h2 : F.v (toInexact y) = .fin b := (V_inexact hy).trans hb
  have it := floor_isFloor a b h0
  have flo : ∀ s t : F.T, F.v s = .fin a → F.v t = .fin b → flmlo s t = .ok (F.sub s (F.mul t (F.floor (F.div s t)))) ∧
      F.v (F.sub s (F.mul t (F.floor (F.div s t)))) = .fin ((a - b * ⌊(a : ℚ) / b⌋ : ℤ) : ℚ) := by
    intro s t hs ht
    refine ⟨by rw [flmlo, cassert_ok (flargs_ok hs ht h0)]; rfl, ?_⟩
    have e1 := F.v_floor _ _ (div_small hs ht h0 la)
    rw [floor_r0' a b la h0 lb] at e1
    have e2 := F.v_mul _ _ _ _ ht e1
    obtain ⟨i1, i2, -⟩ := it
    set r := a - b * ⌊(a : ℚ) / b⌋ with hr
    rw [abs_le] at la lb
    have i2' : |r| < 2 ^ 50 + 1 := i2.trans_le (by rw [← abs_le] at lb; omega)
    rw [abs_lt] at i2'
    have e3 : rnd ((b : ℚ) * (⌊(a : ℚ) / b⌋ : ℤ)) = .fin ((b * ⌊(a : ℚ) / b⌋ : ℤ) : ℚ) := by
      have := rnd_int (b * ⌊(a : ℚ) / b⌋) (by rw [abs_le]; norm_num at *; omega)
      push_cast at this ⊢
      exact this
    rw [e3] at e2
    rw [F.v_sub _ _ _ _ hs e2, ← Int.cast_sub, ← hr]
    exact rnd_int r (by rw [abs_le]; norm_num at *; omega)
  cases x <;> cases y <;> simp only [toInexact] at h1 h2
  · rename_i m n
    simp only [V, Ext.fin.injEq, Int.cast_inj] at ha hb
    subst ha; subst hb
    obtain ⟨q, r, e, h⟩ := c04_floor_modulo m n hx h0
    refine ⟨.fx r, q, r, ?_, rfl, h, rfl⟩
    simp only [modulo, binop, e]
    rfl
  all_goals
    obtain ⟨e1, e2⟩ := flo _ _ h1 h2
    exact ⟨.fl _, _, _, by simp only [modulo, binop, e1]; rfl, e2, it, rfl⟩

theorem flargs_bad {s t : F.T} (h : F.v t = .fin 0 ∨ (¬ ∃ n : ℤ, F.v s = .fin n) ∨ ¬ ∃ n : ℤ, F.v t = .fin n) : ¬ flargs s t = true := by
  have h0 : F.v (F.ofInt 0) = .fin 0 := by simpa using v_small (F := F) (n := 0) (by norm_num)
  simp only [flargs, Bool.and_eq_true, flisint_iff]
  rintro ⟨⟨a, b⟩, c⟩
  rcases h with h | h | h
  · simp [feq, h, h0, Ext.eq] at a
  · exact h b
  · exact h c

/-- Division by zero and division of numbers that are no integers stop. -/
theorem c76_division_domain {x y : Num F} (hx : Ok x) (hy : Ok y)
    (h : V y = .fin 0 ∨ (¬ ∃ n : ℤ, V x = .fin n) ∨ ¬ ∃ n : ℤ, V y = .fin n) :
    quotient x y = .error .abort ∧ remainder x y = .error .abort ∧ modulo x y = .error .abort := by
  rw [← V_inexact hx, ← V_inexact hy] at h
  cases x <;> cases y <;> simp only [toInexact] at h
  · rename_i a b
    rw [v_ofInt hx, v_ofInt hy] at h
    have hb : b = 0 := by simpa using h
    subst hb
    simp [quotient, remainder, modulo, binop, lfxquo, lfxrem, lfxmlo, cassert, fxr, bind, Except.bind]
  all_goals
    have hb := flargs_bad h
    simp only [quotient, remainder, modulo, binop, flquo, flrem, flmlo, cassert, if_neg hb]
    exact ⟨rfl, rfl, rfl⟩

/-! ### gcd and lcm -/

theorem flgcdLoop_spec : ∀ (n : ℕ) (s t : F.T) (a b : ℕ), F.v s = .fin a → F.v t = .fin b → b < n →
    ∃ g, flgcdLoop n s t = some g ∧ F.v g = .fin (Nat.gcd a b : ℕ) := by
  have h0 : F.v (F.ofInt 0) = .fin 0 := by simpa using v_small (F := F) (n := 0) (by norm_num)
  intro n
  induction n with
  | zero => intro s t a b _ _ h; omega
  | succ n ih =>
    intro s t a b hs ht hb
    rw [flgcdLoop]
    by_cases hz : b = 0
    · subst hz
      have : ¬ flt (F.ofInt 0) t = true := by simp [flt, h0, ht, Ext.lt]
      rw [if_neg this]
      exact ⟨s, rfl, by simpa using hs⟩
    · have : flt (F.ofInt 0) t = true := by
        simp only [flt, h0, ht, Ext.lt, decide_eq_true_eq]
        exact_mod_cast Nat.pos_of_ne_zero hz
      rw [if_pos this]
      have hm : F.v (F.fmod s t) = .fin ((a % b : ℕ) : ℚ) := by
        rw [F.v_fmod _ _ _ _ hs ht (by exact_mod_cast hz)]
        have h1 := trunc_div (a : ℤ) (b : ℤ)
        rw [Int.tdiv_eq_ediv_of_nonneg (by omega)] at h1
        simp only [Int.cast_natCast] at h1
        rw [h1]
        have h2 : ((a % b : ℕ) : ℤ) = a - b * (a / b) := by push_cast; rw [Int.emod_def]
        have h3 : ((a % b : ℕ) : ℚ) = a - b * (((a : ℤ) / (b : ℤ) : ℤ) : ℚ) := by
          have := congrArg (Int.cast : ℤ → ℚ) h2
          rwa [Int.cast_natCast, Int.cast_sub, Int.cast_mul, Int.cast_natCast, Int.cast_natCast] at this
        rw [h3]
      obtain ⟨g, e1, e2⟩ := ih t (F.fmod s t) b (a % b) ht hm (by have := Nat.mod_lt a (Nat.pos_of_ne_zero hz); omega)
      refine ⟨g, e1, ?_⟩
      rw [e2, Nat.gcd_comm a b, Nat.gcd_rec b a, Nat.gcd_comm]

/-- `gcd` of two integers of whatever kind and size; the exact result must be a fixnum. -/
theorem c76_gcd {x y : Num F} (hx : Ok x) (hy : Ok y) (a b : ℤ) (ha : V x = .fin a) (hb : V y = .fin b)
    (ho : isExact x = true → isExact y = true → (Int.gcd a b : ℤ) ≤ FIXNUM_MAX) :
    ∃ (k : ℕ) (g : Num F), (∀ n, k ≤ n → gcd2 n x y = .ok (some g)) ∧ V g = .fin (Int.gcd a b : ℤ) ∧ isExact g = (isExact x && isExact y) := by
  have h1 : F.v (toInexact x) = .fin a := (V_inexact hx).trans ha
  have h2 : F.v (toInexact y) = .fin b := (V_inexact hy).trans hb
  have flo : ∀ s t : F.T, F.v s = .fin a → F.v t = .fin b → ∃ g : F.T, (∀ n, b.natAbs + 1 ≤ n → flgcd n s t = .ok (some g)) ∧
      F.v g = .fin (Int.gcd a b : ℤ) := by
    intro s t hs ht
    have e1 : F.v (F.fabs s) = .fin (a.natAbs : ℕ) := by rw [F.v_fabs _ _ hs]; congr 1; simp
    have e2 : F.v (F.fabs t) = .fin (b.natAbs : ℕ) := by rw [F.v_fabs _ _ ht]; congr 1; simp
    have c : (flisint (F.fabs s) && flisint (F.fabs t)) = true := by
      rw [(flisint_iff _).mpr ⟨a.natAbs, by simpa using e1⟩, (flisint_iff _).mpr ⟨b.natAbs, by simpa using e2⟩]; rfl
    obtain ⟨g, g1, g2⟩ := flgcdLoop_spec (b.natAbs + 1) _ _ _ _ e1 e2 (by omega)
    have more : ∀ (n k : ℕ) (s t g : F.T), flgcdLoop n s t = some g → flgcdLoop (n + k) s t = some g := by
      intro n k
      induction n with
      | zero => intro s t g h; simp [flgcdLoop] at h
      | succ n ih =>
        intro s t g h
        rw [Nat.add_right_comm, flgcdLoop]
        rw [flgcdLoop] at h
        split_ifs at h ⊢
        · exact ih _ _ _ h
        · exact h
    refine ⟨g, fun n hn => ?_, by rw [g2]; rfl⟩
    obtain ⟨k, rfl⟩ := Nat.exists_eq_add_of_le hn
    rw [flgcd, cassert_ok c, more _ _ _ _ _ g1]
    rfl
  cases x <;> cases y <;> simp only [toInexact] at h1 h2
  · rename_i m n
    simp only [V, Ext.fin.injEq, Int.cast_inj] at ha hb
    subst ha; subst hb
    have ho' := ho rfl rfl
    refine ⟨0, .fx (Int.gcd m n), fun k _ => ?_, rfl, rfl⟩
    rcases c05_gcd m n hx hy with ⟨g, e, g0, g1, g2, g3⟩ | ⟨e, hm, hn, hz⟩
    · have : g = Int.gcd m n := by
        refine Int.dvd_antisymm g0 (by omega) ?_ ?_
        · exact Int.dvd_coe_gcd g1 g2
        · exact g3 _ (Int.gcd_dvd_left ..) (Int.gcd_dvd_right ..)
      simp only [gcd2, binop, e, this]
      rfl
    · exfalso
      rcases hm with rfl | rfl <;> rcases hn with rfl | rfl <;> first | exact hz ⟨rfl, rfl⟩ | (revert ho'; decide)
  all_goals
    obtain ⟨g, e1, e2⟩ := flo _ _ h1 h2
    exact ⟨b.natAbs + 1, .fl g, fun n hn => by simp only [gcd2, binop, gcdr, e1 n hn]; rfl, e2, rfl⟩

/-- `gcd` of a number that is no integer stops. -/
theorem c76_gcd_domain (n : ℕ) {x y : Num F} (hx : Ok x) (hy : Ok y) {p q : ℚ} (hp : V x = .fin p) (hq : V y = .fin q)
    (h : (∀ k : ℤ, p ≠ k) ∨ ∀ k : ℤ, q ≠ k) : gcd2 n x y = .error .abort := by
  have h1 : F.v (toInexact x) = .fin p := (V_inexact hx).trans hp
  have h2 : F.v (toInexact y) = .fin q := (V_inexact hy).trans hq
  have ab : ∀ r : ℚ, (∀ k : ℤ, r ≠ k) → ∀ k : ℤ, |r| ≠ k := by
    intro r hr k hk
    rcases abs_cases r with ⟨e, _⟩ | ⟨e, _⟩
    · exact hr k (by rw [← e, hk])
    · exact hr (-k) (by push_cast; rw [← hk, e]; ring)
  have bad : ∀ s t : F.T, F.v s = .fin p → F.v t = .fin q → ¬ (flisint (F.fabs s) && flisint (F.fabs t)) = true := by
    intro s t hs ht
    simp only [Bool.and_eq_true, flisint_iff, F.v_fabs _ _ hs, F.v_fabs _ _ ht, Ext.fin.injEq]
    rintro ⟨⟨a, ha⟩, ⟨b, hb⟩⟩
    rcases h with h | h
    · exact ab p h a ha
    · exact ab q h b hb
  cases x <;> cases y <;> simp only [toInexact] at h1 h2
  · simp only [V, Ext.fin.injEq] at hp hq
    rcases h with h | h
    · exact absurd hp.symm (h _)
    · exact absurd hq.symm (h _)
  all_goals
    simp only [gcd2, binop, flgcd, cassert, if_neg (bad _ _ h1 h2)]
    rfl

/-- `lcm` of two fixnums. -/
theorem c76_lcm (x y : ℤ) (hx : isFx x) (hy : isFx y) (hx' : x ≠ FIXNUM_MIN) (hy' : y ≠ FIXNUM_MIN) :
    lcmfx x y = if (Int.lcm x y : ℤ) ≤ FIXNUM_MAX then .ok (Int.lcm x y : ℤ) else .error .abort := by
  have hg : lfxgcd x y = .ok (Int.gcd x y : ℤ) := by
    rcases c05_gcd x y hx hy with ⟨g, e, g0, g1, g2, g3⟩ | ⟨e, hm, hn, hz⟩
    · have : g = Int.gcd x y := by
        refine Int.dvd_antisymm g0 (by omega) ?_ ?_
        · exact Int.dvd_coe_gcd g1 g2
        · exact g3 _ (Int.gcd_dvd_left ..) (Int.gcd_dvd_right ..)
      rw [e, this]
    · exact absurd ⟨hm.resolve_right hx', hn.resolve_right hy'⟩ hz
  unfold lcmfx
  rw [hg]
  simp only [bind, Except.bind]
  by_cases hz : (Int.gcd x y : ℤ) = 0
  · rw [if_pos hz]
    have h := Int.gcd_eq_zero_iff.mp (by exact_mod_cast hz)
    rw [h.1, h.2]
    rfl
  · rw [if_neg hz]
    have hg0 : 0 < (Int.gcd x y : ℤ) := by omega
    have fa : isFx |x| := ⟨by have := abs_nonneg x; omega, by rw [abs_le]; omega⟩
    have fb : isFx |y| := ⟨by have := abs_nonneg y; omega, by rw [abs_le]; omega⟩
    obtain ⟨-, -, -, -, ea⟩ := c03_libl_checked x y hx hy
    obtain ⟨-, -, -, -, eb⟩ := c03_libl_checked y x hy hx
    rw [if_pos fa] at ea
    rw [if_pos fb] at eb
    have no : |x| ≠ FIXNUM_MIN ∨ (Int.gcd x y : ℤ) ≠ -1 := .inr (by omega)
    have eq : lfxquo |x| (Int.gcd x y : ℤ) = .ok (|x| / (Int.gcd x y : ℤ)) := by
      rw [lfxquo, cassert_ok hz, cassert_ok no, cdiv_ok _ _ fa hz, Int.tdiv_eq_ediv_of_nonneg (abs_nonneg x)]
    have d0 : 0 ≤ |x| / (Int.gcd x y : ℤ) := Int.ediv_nonneg (abs_nonneg x) hg0.le
    have fq : isFx (|x| / (Int.gcd x y : ℤ)) := ⟨by omega, (Int.ediv_le_self _ (abs_nonneg x)).trans fa.2⟩
    have el : |x| / (Int.gcd x y : ℤ) * |y| = (Int.lcm x y : ℤ) := by
      have h1 : (Int.gcd x y : ℤ) ∣ |x| := (dvd_abs _ _).mpr (Int.gcd_dvd_left ..)
      have h2 : (Int.gcd x y : ℤ) * (Int.lcm x y : ℤ) = |x| * |y| := by
        have := Int.gcd_mul_lcm x y
        rw [Int.abs_eq_natAbs, Int.abs_eq_natAbs]
        exact_mod_cast this
      obtain ⟨c, hc⟩ := h1
      rw [hc, Int.mul_ediv_cancel_left _ hz]
      rw [hc, mul_assoc] at h2
      exact (mul_left_cancel₀ hz h2).symm
    obtain ⟨-, -, em, -, -⟩ := c03_libl_checked _ _ fq fb
    simp only [ea, eq, eb, em, el]
    have : isFx (Int.lcm x y : ℤ) ↔ (Int.lcm x y : ℤ) ≤ FIXNUM_MAX := ⟨fun h => h.2, fun h => ⟨by omega, h⟩⟩
    simp only [this]

/-! ### rounding -/

/-- `floor`, `ceiling`, `truncate`. -/
theorem c76_rounding (x : Num F) (p : ℚ) (h : V x = .fin p) :
    V (numFloor x) = .fin ⌊p⌋ ∧ V (numCeiling x) = .fin ⌈p⌉ ∧ V (numTruncate x) = .fin (if 0 ≤ p then ⌊p⌋ else ⌈p⌉ : ℤ) ∧
      isExact (numFloor x) = isExact x ∧ isExact (numCeiling x) = isExact x ∧ isExact (numTruncate x) = isExact x := by
  cases x with
  | fx n =>
    simp only [V, Ext.fin.injEq] at h
    subst h
    simp [numFloor, numCeiling, numTruncate, V, isExact]
  | fl t =>
    exact ⟨F.v_floor _ _ h, F.v_ceil _ _ h, F.v_modf _ _ h, rfl, rfl, rfl⟩

/-- `round` of numbers with at most 52 binary places: the nearest integer, of two the even one. -/
theorem c76_round_partial (x : Num F) (n : ℤ) (k : ℕ) (h : V x = .fin ((n : ℚ) / 2 ^ k)) (hn : |n| ≤ 2 ^ 52) (hk : k ≤ 52) :
    ∃ m : ℤ, V (numRound x) = .fin m ∧ |(n : ℚ) / 2 ^ k - m| ≤ 1 / 2 ∧ (|(n : ℚ) / 2 ^ k - m| = 1 / 2 → m % 2 = 0) ∧
      isExact (numRound x) = isExact x := by
  set p : ℚ := (n : ℚ) / 2 ^ k with hp
  cases x with
  | fx a =>
    simp only [V, Ext.fin.injEq] at h
    refine ⟨a, rfl, ?_, ?_, rfl⟩ <;> rw [← h] <;> norm_num
  | fl t =>
    simp only [V] at h
    have f1 := Int.floor_le p
    have f2 := Int.lt_floor_add_one p
    have hpos : (0 : ℚ) < 2 ^ k := by positivity
    have k1 : (1 : ℤ) ≤ 2 ^ k := one_le_pow₀ (by norm_num)
    have k2 : (2 : ℤ) ^ k ≤ 2 ^ 52 := pow_le_pow_right₀ (by norm_num) hk
    have np : (n : ℚ) = p * 2 ^ k := by rw [hp]; field_simp
    have ex : ∀ m : ℤ, |m| ≤ 2 ^ 53 → rnd ((m : ℚ) / 2 ^ k) = .fin ((m : ℚ) / 2 ^ k) := by
      intro m hm
      have := rnd_exact m (-(k : ℤ)) hm (by omega) (by omega)
      rwa [zpow_neg, zpow_natCast, ← div_eq_mul_inv] at this
    have hd : F.v (F.sub t (F.floor t)) = .fin (p - ⌊p⌋) := by
      rw [F.v_sub _ _ _ _ h (F.v_floor _ _ h)]
      have e : p - ⌊p⌋ = ((n - ⌊p⌋ * 2 ^ k : ℤ) : ℚ) / 2 ^ k := by rw [hp]; push_cast; field_simp
      rw [e]
      refine ex _ ?_
      have g1 : (0 : ℚ) ≤ ((n - ⌊p⌋ * 2 ^ k : ℤ) : ℚ) := by push_cast; rw [np]; nlinarith
      have g2 : ((n - ⌊p⌋ * 2 ^ k : ℤ) : ℚ) ≤ ((2 ^ k : ℤ) : ℚ) := by push_cast; rw [np]; nlinarith
      have g1' : 0 ≤ n - ⌊p⌋ * 2 ^ k := by exact_mod_cast g1
      have g2' : n - ⌊p⌋ * 2 ^ k ≤ 2 ^ k := by exact_mod_cast g2
      rw [abs_of_nonneg g1']
      norm_num at k2 ⊢
      omega
    have c1 := Int.le_ceil p
    have c2 := Int.ceil_lt_add_one p
    have hu : F.v (F.sub (F.ceil t) t) = .fin (⌈p⌉ - p) := by
      rw [F.v_sub _ _ _ _ (F.v_ceil _ _ h) h]
      have e : ⌈p⌉ - p = ((⌈p⌉ * 2 ^ k - n : ℤ) : ℚ) / 2 ^ k := by rw [hp]; push_cast; field_simp
      rw [e]
      refine ex _ ?_
      have g1 : (0 : ℚ) ≤ ((⌈p⌉ * 2 ^ k - n : ℤ) : ℚ) := by push_cast; rw [np]; nlinarith
      have g2 : ((⌈p⌉ * 2 ^ k - n : ℤ) : ℚ) ≤ ((2 ^ k : ℤ) : ℚ) := by push_cast; rw [np]; nlinarith
      have g1' : 0 ≤ ⌈p⌉ * 2 ^ k - n := by exact_mod_cast g1
      have g2' : ⌈p⌉ * 2 ^ k - n ≤ 2 ^ k := by exact_mod_cast g2
      rw [abs_of_nonneg g1']
      norm_num at k2 ⊢
      omega
    have h2 : F.v (F.ofInt 2) = .fin ((2 : ℤ) : ℚ) := v_small (F := F) (n := 2) (by norm_num)
    have h0 : F.v (F.ofInt 0) = .fin ((0 : ℤ) : ℚ) := v_small (F := F) (n := 0) (by norm_num)
    have hm : feq (F.fmod (F.floor t) (F.ofInt 2)) (F.ofInt 0) = true ↔ ⌊p⌋ % 2 = 0 := by
      rw [feq, F.v_fmod _ _ _ _ (F.v_floor _ _ h) h2 (by norm_num), trunc_div, h0]
      simp only [Ext.eq, decide_eq_true_eq]
      have e : (⌊p⌋ : ℚ) - ((2 : ℤ) : ℚ) * ((⌊p⌋.tdiv 2 : ℤ) : ℚ) = ((⌊p⌋.tmod 2 : ℤ) : ℚ) := by rw [Int.tmod_def]; push_cast; rfl
      rw [e, Int.cast_inj]
      constructor
      · intro h; have := Int.dvd_of_tmod_eq_zero h; omega
      · intro h; exact Int.tmod_eq_zero_of_dvd (by omega)
    have cf : (⌈p⌉ = ⌊p⌋ ∧ p = ⌊p⌋) ∨ ⌈p⌉ = ⌊p⌋ + 1 := by
      by_cases hi : (⌊p⌋ : ℚ) = p
      · left; refine ⟨?_, hi.symm⟩
        conv_lhs => rw [← hi]
        simp
      · right
        rw [Int.ceil_eq_iff]
        push_cast
        have := lt_of_le_of_ne f1 hi
        exact ⟨by linarith, f2.le⟩
    have hdu : feq (F.sub t (F.floor t)) (F.sub (F.ceil t) t) = true ↔ p - ⌊p⌋ = ⌈p⌉ - p := by simp [feq, hd, hu, Ext.eq]
    have hlt : flt (F.sub t (F.floor t)) (F.sub (F.ceil t) t) = true ↔ p - ⌊p⌋ < ⌈p⌉ - p := by simp [flt, hd, hu, Ext.lt]
    have goalF : (p - ⌊p⌋ ≤ 1 / 2) → (p - ⌊p⌋ = 1 / 2 → ⌊p⌋ % 2 = 0) → ∃ m : ℤ, F.v (F.floor t) = .fin m ∧ |p - m| ≤ 1 / 2 ∧ (|p - m| = 1 / 2 → m % 2 = 0) ∧ True := by
      intro a b
      refine ⟨⌊p⌋, F.v_floor _ _ h, ?_, ?_, trivial⟩ <;> rw [abs_of_nonneg (by linarith)] <;> assumption
    have goalC : (⌈p⌉ - p ≤ 1 / 2) → (⌈p⌉ - p = 1 / 2 → ⌈p⌉ % 2 = 0) → ∃ m : ℤ, F.v (F.ceil t) = .fin m ∧ |p - m| ≤ 1 / 2 ∧ (|p - m| = 1 / 2 → m % 2 = 0) ∧ True := by
      intro a b
      refine ⟨⌈p⌉, F.v_ceil _ _ h, ?_, ?_, trivial⟩ <;> rw [abs_sub_comm, abs_of_nonneg (by linarith)] <;> assumption
    simp only [numRound, flround, V, isExact]
    by_cases d1 : p - ⌊p⌋ = ⌈p⌉ - p
    · rw [if_pos (hdu.mpr d1)]
      by_cases d2 : ⌊p⌋ % 2 = 0
      · rw [if_pos (hm.mpr d2)]
        rcases cf with ⟨e1, e2⟩ | e1
        · exact goalF (by linarith) (fun _ => d2)
        · rw [e1] at d1; push_cast at d1; exact goalF (by linarith) (fun _ => d2)
      · rw [if_neg (mt hm.mp d2)]
        rcases cf with ⟨e1, e2⟩ | e1
        · rw [e1] at d1; exact goalC (by rw [e1]; linarith) (by rw [e1]; intro h; linarith)
        · refine goalC ?_ (fun _ => by omega)
          rw [e1] at d1 ⊢; push_cast at d1 ⊢; linarith
    · rw [if_neg (mt hdu.mp d1)]
      rcases cf with ⟨e1, e2⟩ | e1
      · exact absurd (by rw [e1]; linarith) d1
      · have e1' : (⌈p⌉ : ℚ) = ⌊p⌋ + 1 := by exact_mod_cast e1
        by_cases d2 : p - ⌊p⌋ < ⌈p⌉ - p
        · rw [if_pos (hlt.mpr d2)]
          exact goalF (by linarith) (by intro h; linarith)
        · rw [if_neg (mt hlt.mp d2)]
          have := lt_of_le_of_ne (not_lt.mp d2) (Ne.symm d1)
          exact goalC (by linarith) (by intro h; linarith)

/-! ### the full statements -/

/-- `even?` and `odd?` for all integers. -/
def C76Parity (F : Ieee) : Prop := ∀ (x : Num F) (n : ℤ), V x = .fin n → (isEven x = true ↔ ∃ k, n = 2 * k) ∧ (isOdd x = true ↔ ∃ k, n = 2 * k + 1)
/-- `modulo` for all integers. -/
def C76Modulo (F : Ieee) : Prop := ∀ (x y : Num F) (a b : ℤ), Ok x → Ok y → V x = .fin a → V y = .fin b → b ≠ 0 →
  ∃ z q r, modulo x y = .ok z ∧ V z = .fin (r : ℤ) ∧ IsFloor a b q r
/-- `rational?`: finite numbers. -/
def C76Rational (F : Ieee) : Prop := ∀ (x : Num F) (q : ℚ), V x = .fin q → isRational x = true
/-- `finite?`: neither an infinity nor `nan`. -/
def C76Finite (F : Ieee) : Prop := ∀ x : Num F, isFinite x = true ↔ ∃ q, V x = .fin q
/-- `gcd` and `lcm` are never negative. -/
def C76Gcd1 (F : Ieee) : Prop := ∀ (x : Num F) (n : ℤ), V x = .fin n → V (gcd1 x) = .fin |n| ∧ V (lcm1 x) = .fin |n|
/-- `numerator` and `denominator` of the value in lowest terms. -/
def C76Fraction (F : Ieee) : Prop := ∀ (x : Num F) (q : ℚ), V x = .fin q → V (numerator x) = .fin q.num ∧ V (denominator x) = .fin q.den
/-- the base of `log` may be any number. -/
def C76Log (F : Ieee) : Prop := ∀ x : Num F, (∃ q, V x = .fin q) → ∃ b, logTest x = .ok b

/-- 2⁵³ is odd, 2⁶⁰ modulo 3 is 0, 0.5 is not rational and has denominator 1, `nan` is finite, `(gcd -4)` is -4. -/
theorem c76_counterexample (F : Ieee) :
    ¬ C76Parity F ∧ ¬ C76Modulo F ∧ ¬ C76Rational F ∧ ((∃ t, F.v t = .nan) → ¬ C76Finite F) ∧ ¬ C76Gcd1 F ∧ ¬ C76Fraction F ∧ ¬ C76Log F := by
  have h0 : F.v (F.ofInt 0) = .fin ((0 : ℤ) : ℚ) := v_small (F := F) (n := 0) (by norm_num)
  have h1 : F.v (F.ofInt 1) = .fin ((1 : ℤ) : ℚ) := v_small (F := F) (n := 1) (by norm_num)
  have h2 : F.v (F.ofInt 2) = .fin ((2 : ℤ) : ℚ) := v_small (F := F) (n := 2) (by norm_num)
  have h3 : F.v (F.ofInt 3) = .fin ((3 : ℤ) : ℚ) := v_small (F := F) (n := 3) (by norm_num)
  have hh : F.v (F.div (F.ofInt 1) (F.ofInt 2)) = .fin (1 / 2) := by
    rw [F.v_div _ _ _ _ h1 h2 (by norm_num)]; decide +kernel
  refine ⟨fun h => ?_, fun h => ?_, fun h => ?_, fun ⟨t, ht⟩ h => ?_, fun h => ?_, fun h => ?_, fun h => ?_⟩
  · have hv : F.v (F.ofInt (2 ^ 53)) = .fin ((2 ^ 53 : ℤ) : ℚ) := v_small (by norm_num)
    have ha : F.v (F.add (F.ofInt (2 ^ 53)) (F.ofInt 1)) = .fin ((2 ^ 53 : ℤ) : ℚ) := by
      rw [F.v_add _ _ _ _ hv h1]; decide +kernel
    have hd : F.v (F.div (F.add (F.ofInt (2 ^ 53)) (F.ofInt 1)) (F.ofInt 2)) = .fin ((2 ^ 52 : ℤ) : ℚ) := by
      rw [F.v_div _ _ _ _ ha h2 (by norm_num)]; decide +kernel
    obtain ⟨k, hk⟩ := (h (.fl (F.ofInt (2 ^ 53))) (2 ^ 53) hv).2.mp ((flisint_iff _).mpr ⟨_, hd⟩)
    omega
  · have hv : F.v (F.ofInt (2 ^ 60)) = .fin ((2 ^ 60 : ℤ) : ℚ) := by rw [F.v_ofInt]; decide +kernel
    have hd : F.v (F.div (F.ofInt (2 ^ 60)) (F.ofInt 3)) = .fin 384307168202282304 := by
      rw [F.v_div _ _ _ _ hv h3 (by norm_num)]; decide +kernel
    have hf : F.v (F.floor (F.div (F.ofInt (2 ^ 60)) (F.ofInt 3))) = .fin 384307168202282304 := by
      rw [F.v_floor _ _ hd]; decide +kernel
    have hm : F.v (F.mul (F.ofInt 3) (F.floor (F.div (F.ofInt (2 ^ 60)) (F.ofInt 3)))) = .fin ((2 ^ 60 : ℤ) : ℚ) := by
      rw [F.v_mul _ _ _ _ h3 hf]; decide +kernel
    have hs : F.v (F.sub (F.ofInt (2 ^ 60)) (F.mul (F.ofInt 3) (F.floor (F.div (F.ofInt (2 ^ 60)) (F.ofInt 3))))) = .fin ((0 : ℤ) : ℚ) := by
      rw [F.v_sub _ _ _ _ hv hm]; decide +kernel
    obtain ⟨z, q, r, e1, e2, e3, e4, e5⟩ := h (.fl (F.ofInt (2 ^ 60))) (.fl (F.ofInt 3)) (2 ^ 60) 3 trivial trivial hv h3 (by norm_num)
    simp only [modulo, binop, flmlo, cassert_ok (flargs_ok hv h3 (by norm_num))] at e1
    cases e1
    simp only [V, hs, Ext.fin.injEq, Int.cast_inj] at e2
    omega
  · have := h (.fl (F.div (F.ofInt 1) (F.ofInt 2))) _ hh
    obtain ⟨n, hn⟩ := (flisint_iff _).mp this
    rw [hh, Ext.fin.injEq] at hn
    have : (1 : ℚ) = ((2 * n : ℤ) : ℚ) := by push_cast; linarith
    have : (1 : ℤ) = 2 * n := by exact_mod_cast this
    omega
  · obtain ⟨q, hq⟩ := (h (.fl t)).mp (by simp [isFinite, flInf, ht, Ext.le, Ext.lt, Ext.eq])
    simp only [V, ht, reduceCtorEq] at hq
  · have := (h (.fx (-4)) (-4) rfl).1
    simp only [gcd1, V, Ext.fin.injEq] at this
    norm_num at this
  · have := (h (.fl (F.div (F.ofInt 1) (F.ofInt 2))) _ hh).2
    simp only [denominator, V, Ext.fin.injEq] at this
    revert this
    decide +kernel
  · obtain ⟨b, hb⟩ := h (.fl (F.ofInt 0)) ⟨_, h0⟩
    cases hb

/-- `(gcd x)` and `(lcm x)` for numbers that are not negative. -/
theorem c76_gcd1_partial (x : Num F) (n : ℤ) (h : V x = .fin n) (hn : 0 ≤ n) : V (gcd1 x) = .fin |n| ∧ V (lcm1 x) = .fin |n| := by
  have : ((|n| : ℤ) : ℚ) = n := by rw [abs_of_nonneg hn]
  simp only [gcd1, lcm1, h]
  push_cast at this
  rw [this]
  exact ⟨rfl, rfl⟩

/-- integers are rational, with denominator 1. -/
theorem c76_rational_partial (x : Num F) (n : ℤ) (h : V x = .fin n) :
    isRational x = true ∧ V (numerator x) = .fin (n : ℚ).num ∧ V (denominator x) = .fin (n : ℚ).den :=
  ⟨c76_predicates.1.mpr ⟨n, h⟩, by simpa [numerator] using h, by simp [denominator, V]⟩

/-- the laws are met, with numbers that meet the hypotheses above: 2⁴⁰ + 1 and 3, -7/2. -/
example : V (.fl (.fin ((2 ^ 40 + 1 : ℤ) : ℚ)) : Num dbl) = .fin ((2 ^ 40 + 1 : ℤ) : ℚ) ∧ V (.fx 3 : Num dbl) = .fin ((3 : ℤ) : ℚ) ∧ Ok (.fx 3 : Num dbl) ∧
    |(2 ^ 40 + 1 : ℤ)| ≤ 2 ^ 50 ∧ V (.fl (.fin (((-7 : ℤ) : ℚ) / 2 ^ 1)) : Num dbl) = .fin (((-7 : ℤ) : ℚ) / 2 ^ 1) ∧ |(-7 : ℤ)| ≤ 2 ^ 52 :=
  ⟨rfl, rfl, by unfold Ok; decide, by norm_num, rfl, by norm_num⟩

end Verif.Tower
