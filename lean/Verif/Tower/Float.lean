import Mathlib.Data.Int.Log
import Mathlib.Algebra.Order.Floor.Ring
import Mathlib.Algebra.Order.Round
import Mathlib.Data.Rat.Floor
import Mathlib.Tactic.Linarith
import Mathlib.Tactic.NormNum
import Mathlib.Tactic.Positivity
import Mathlib.Tactic.FieldSimp
import Mathlib.Tactic.Ring
/-
C `double`s, as far as the numeric library of /repo/lib/libl.sf relies on them: IEEE 754 binary64, round to nearest, ties to even,
expressions evaluated in `double` (`FLT_EVAL_METHOD` 0).
-/
namespace Verif.Tower

/-- What a `double` stands for. -/
inductive Ext where
  | nan | minf | pinf
  | fin (q : ℚ)
deriving DecidableEq

namespace Ext
/-- C `<`. -/
def lt : Ext → Ext → Bool
  | .minf, .fin _ => true
  | .minf, .pinf => true
  | .fin _, .pinf => true
  | .fin p, .fin q => decide (p < q)
  | _, _ => false
/-- C `==`. -/
def eq : Ext → Ext → Bool
  | .minf, .minf => true
  | .pinf, .pinf => true
  | .fin p, .fin q => decide (p = q)
  | _, _ => false
/-- C `<=`. -/
def le (a b : Ext) : Bool := lt a b || eq a b
end Ext

/-- The nearest integer; of two nearest ones the even one. -/
def rhe (x : ℚ) : ℤ :=
  if x - ⌊x⌋ < 1 / 2 then ⌊x⌋
  else if 1 / 2 < x - ⌊x⌋ then ⌊x⌋ + 1
  else if ⌊x⌋ % 2 = 0 then ⌊x⌋ else ⌊x⌋ + 1

/-- The exponent of the last place of a 53-bit significand, not below that of the subnormal numbers. -/
def ulp (q : ℚ) : ℤ := max (Int.log 2 |q| - 52) (-1074)

/-- Rounding to `double`. -/
def rnd (q : ℚ) : Ext :=
  if |(rhe (q / 2 ^ ulp q) : ℚ) * 2 ^ ulp q| < 2 ^ (1024 : ℤ) then .fin (rhe (q / 2 ^ ulp q) * 2 ^ ulp q)
  else if q < 0 then .minf else .pinf

/-- Truncation, as `modf` and the conversion to `long` do it. -/
def trunc (q : ℚ) : ℤ := if 0 ≤ q then ⌊q⌋ else ⌈q⌉

/-- `double` with the operations of C and `<math.h>` the library uses.  `v` gives the value; zero has two representations, which `v` does not
distinguish, so that nothing is said about division by zero; nothing is said either about operations on infinities and `nan`, comparisons
excepted. -/
structure Ieee where
  T : Type
  v : T → Ext
  ofInt : ℤ → T
  add : T → T → T
  sub : T → T → T
  mul : T → T → T
  div : T → T → T
  fmod : T → T → T
  neg : T → T
  fabs : T → T
  floor : T → T
  ceil : T → T
  modf : T → T
  v_ofInt : ∀ n, v (ofInt n) = rnd n
  v_add : ∀ a b p q, v a = .fin p → v b = .fin q → v (add a b) = rnd (p + q)
  v_sub : ∀ a b p q, v a = .fin p → v b = .fin q → v (sub a b) = rnd (p - q)
  v_mul : ∀ a b p q, v a = .fin p → v b = .fin q → v (mul a b) = rnd (p * q)
  v_div : ∀ a b p q, v a = .fin p → v b = .fin q → q ≠ 0 → v (div a b) = rnd (p / q)
  v_fmod : ∀ a b p q, v a = .fin p → v b = .fin q → q ≠ 0 → v (fmod a b) = .fin (p - q * trunc (p / q))
  v_neg : ∀ a p, v a = .fin p → v (neg a) = .fin (-p)
  v_fabs : ∀ a p, v a = .fin p → v (fabs a) = .fin |p|
  v_floor : ∀ a p, v a = .fin p → v (floor a) = .fin ⌊p⌋
  v_ceil : ∀ a p, v a = .fin p → v (ceil a) = .fin ⌈p⌉
  v_modf : ∀ a p, v a = .fin p → v (modf a) = .fin (trunc p)

/-- apply to a finite value. -/
def Ext.map1 (f : ℚ → Ext) : Ext → Ext
  | .fin p => f p
  | _ => .nan
/-- apply to two finite values. -/
def Ext.map2 (f : ℚ → ℚ → Ext) : Ext → Ext → Ext
  | .fin p, .fin q => f p q
  | _, _ => .nan

/-- The laws can be met. -/
def dbl : Ieee where
  T := Ext
  v := id
  ofInt n := rnd n
  add := Ext.map2 fun p q => rnd (p + q)
  sub := Ext.map2 fun p q => rnd (p - q)
  mul := Ext.map2 fun p q => rnd (p * q)
  div := Ext.map2 fun p q => rnd (p / q)
  fmod := Ext.map2 fun p q => .fin (p - q * trunc (p / q))
  neg := Ext.map1 fun p => .fin (-p)
  fabs := Ext.map1 fun p => .fin |p|
  floor := Ext.map1 fun p => .fin ⌊p⌋
  ceil := Ext.map1 fun p => .fin ⌈p⌉
  modf := Ext.map1 fun p => .fin (trunc p)
  v_ofInt _ := rfl
  v_add _ _ _ _ h k := by simp only [id] at h k; rw [h, k]; rfl
  v_sub _ _ _ _ h k := by simp only [id] at h k; rw [h, k]; rfl
  v_mul _ _ _ _ h k := by simp only [id] at h k; rw [h, k]; rfl
  v_div _ _ _ _ h k _ := by simp only [id] at h k; rw [h, k]; rfl
  v_fmod _ _ _ _ h k _ := by simp only [id] at h k; rw [h, k]; rfl
  v_neg _ _ h := by simp only [id] at h; rw [h]; rfl
  v_fabs _ _ h := by simp only [id] at h; rw [h]; rfl
  v_floor _ _ h := by simp only [id] at h; rw [h]; rfl
  v_ceil _ _ h := by simp only [id] at h; rw [h]; rfl
  v_modf _ _ h := by simp only [id] at h; rw [h]; rfl

theorem rhe_int (n : ℤ) : rhe n = n := by simp [rhe]

theorem rhe_mono {x y : ℚ} (h : x ≤ y) : rhe x ≤ rhe y := by
  have hf : ⌊x⌋ ≤ ⌊y⌋ := Int.floor_mono h
  by_cases he : ⌊x⌋ = ⌊y⌋
  · unfold rhe
    rw [he]
    split_ifs <;> first | omega | (exfalso; linarith)
  · unfold rhe
    split_ifs <;> omega

/-- a number with a significand of 53 bits is not changed. -/
theorem rnd_exact (n k : ℤ) (hn : |n| ≤ 2 ^ 53) (hk : -1074 ≤ k) (hk' : k ≤ 900) :
    rnd ((n : ℚ) * 2 ^ k) = .fin (n * 2 ^ k) := by
  have main : ∀ n k : ℤ, |n| < 2 ^ 53 → -1074 ≤ k → k ≤ 953 → rnd ((n : ℚ) * 2 ^ k) = .fin (n * 2 ^ k) := by
    intro n k hn hk hk'
    have hp : (0 : ℚ) < 2 ^ k := zpow_pos (by norm_num) _
    have hu : ulp ((n : ℚ) * 2 ^ k) ≤ k ∨ n = 0 := by
      by_cases h0 : n = 0
      · exact .inr h0
      left
      have h1 : |(n : ℚ) * 2 ^ k| < 2 ^ (53 + k) := by
        rw [abs_mul, abs_of_pos hp, zpow_add₀ (by norm_num)]
        refine mul_lt_mul_of_pos_right ?_ hp
        exact_mod_cast hn
      have h2 : 0 < |(n : ℚ) * 2 ^ k| := by
        refine abs_pos.mpr (mul_ne_zero (by exact_mod_cast h0) hp.ne')
      have h3 := (Int.lt_zpow_iff_log_lt (b := 2) (by norm_num) (x := 53 + k) h2).mp (by exact_mod_cast h1)
      simp only [ulp]
      omega
    have hint : ∃ m : ℤ, (n : ℚ) * 2 ^ k / 2 ^ ulp ((n : ℚ) * 2 ^ k) = m := by
      rcases hu with hu | h0
      · refine ⟨n * 2 ^ (k - ulp ((n : ℚ) * 2 ^ k)).toNat, ?_⟩
        generalize ulp ((n : ℚ) * 2 ^ k) = u at *
        have : (2 : ℚ) ^ k = 2 ^ (k - u).toNat * 2 ^ u := by
          rw [← zpow_natCast, ← zpow_add₀ (by norm_num)]
          congr 1
          omega
        rw [this]
        push_cast
        have hu' : (2 : ℚ) ^ u ≠ 0 := (zpow_pos (by norm_num) _).ne'
        field_simp
      · exact ⟨0, by simp [h0]⟩
    obtain ⟨m, hm⟩ := hint
    have hb : |(n : ℚ) * 2 ^ k| < 2 ^ (1024 : ℤ) := by
      rw [abs_mul, abs_of_pos hp]
      have h1 : |(n : ℚ)| < 2 ^ (53 : ℤ) := by exact_mod_cast hn
      have h2 : (2 : ℚ) ^ k ≤ 2 ^ (953 : ℤ) := zpow_le_zpow_right₀ (by norm_num) hk'
      calc |(n : ℚ)| * 2 ^ k < 2 ^ (53 : ℤ) * 2 ^ k := mul_lt_mul_of_pos_right h1 hp
        _ ≤ 2 ^ (53 : ℤ) * 2 ^ (953 : ℤ) := mul_le_mul_of_nonneg_left h2 (by positivity)
        _ = 2 ^ (1006 : ℤ) := by rw [← zpow_add₀ (by norm_num)]; norm_num
        _ ≤ 2 ^ (1024 : ℤ) := zpow_le_zpow_right₀ (by norm_num) (by norm_num)
    have hr : ((rhe ((n : ℚ) * 2 ^ k / 2 ^ ulp ((n : ℚ) * 2 ^ k)) : ℤ) : ℚ) * 2 ^ ulp ((n : ℚ) * 2 ^ k) = n * 2 ^ k := by
      rw [hm, rhe_int, ← hm]
      have : (2 : ℚ) ^ ulp ((n : ℚ) * 2 ^ k) ≠ 0 := (zpow_pos (by norm_num) _).ne'
      field_simp
    unfold rnd
    rw [hr, if_pos hb]
  by_cases h : |n| < 2 ^ 53
  · exact main n k h hk (by omega)
  · have hn' : n = 2 ^ 53 ∨ n = -2 ^ 53 := by
      rcases abs_cases n with ⟨h1, _⟩ | ⟨h1, _⟩ <;> omega
    have e : (2 : ℚ) ^ (k + 53) = 9007199254740992 * 2 ^ k := by rw [zpow_add₀ (by norm_num)]; norm_num; ring
    rcases hn' with rfl | rfl
    · have := main 1 (k + 53) (by norm_num) (by omega) (by omega)
      rw [e] at this
      push_cast at this ⊢
      simpa using this
    · have := main (-1) (k + 53) (by norm_num) (by omega) (by omega)
      rw [e] at this
      push_cast at this ⊢
      simpa [neg_mul] using this

theorem rnd_int (n : ℤ) (hn : |n| ≤ 2 ^ 53) : rnd n = .fin n := by
  simpa using rnd_exact n 0 hn (by norm_num) (by norm_num)

theorem rnd_half (n : ℤ) (hn : |n| ≤ 2 ^ 53) : rnd ((n : ℚ) / 2) = .fin (n / 2) := by
  have := rnd_exact n (-1) hn (by norm_num) (by norm_num)
  simpa [div_eq_mul_inv] using this

/-! ### rounding is monotone -/

theorem rhe_neg (x : ℚ) : rhe (-x) = -rhe x := by
  by_cases hi : (⌊x⌋ : ℚ) = x
  · rw [← hi, ← Int.cast_neg, rhe_int, rhe_int]
  · have hc : ⌈x⌉ = ⌊x⌋ + 1 := by
      rw [Int.ceil_eq_iff]
      have h1 := Int.floor_le x
      have h2 := Int.lt_floor_add_one x
      push_cast
      refine ⟨?_, h2.le⟩
      have := lt_of_le_of_ne h1 hi
      linarith
    unfold rhe
    rw [Int.floor_neg, hc]
    push_cast
    split_ifs <;> first | omega | (exfalso; linarith)

/-- the rounded value, overflow left aside. -/
def r0 (q : ℚ) : ℚ := rhe (q / 2 ^ ulp q) * 2 ^ ulp q

theorem r0_neg (q : ℚ) : r0 (-q) = -r0 q := by
  have : ulp (-q) = ulp q := by simp [ulp]
  simp only [r0, this, neg_div, rhe_neg]
  push_cast
  ring

theorem r0_le (q : ℚ) (m e : ℤ) (hm : |m| ≤ 2 ^ 53) (he : -1074 ≤ e) (h : q ≤ m * 2 ^ e) : r0 q ≤ m * 2 ^ e := by
  have hu : (0 : ℚ) < 2 ^ ulp q := zpow_pos (by norm_num) _
  by_cases hq0 : q = 0
  · subst hq0; simpa [r0, rhe] using h
  have key : ∀ M : ℤ, q ≤ M * 2 ^ ulp q → r0 q ≤ M * 2 ^ ulp q := by
    intro M hM
    refine mul_le_mul_of_nonneg_right ?_ hu.le
    have : q / 2 ^ ulp q ≤ M := by rwa [div_le_iff₀ hu]
    have := rhe_mono this
    rw [rhe_int] at this
    exact_mod_cast this
  by_cases hc : ulp q ≤ e
  · have : (m : ℚ) * 2 ^ e = ((m * 2 ^ (e - ulp q).toNat : ℤ) : ℚ) * 2 ^ ulp q := by
      push_cast
      rw [mul_assoc, ← zpow_natCast, ← zpow_add₀ (by norm_num)]
      congr 2
      omega
    rw [this] at h ⊢
    exact key _ h
  · have hlog : ulp q + 52 = Int.log 2 |q| := by
      have : ulp q = max (Int.log 2 |q| - 52) (-1074) := rfl
      omega
    have hpos : 0 < |q| := abs_pos.mpr hq0
    have h1 : (2 : ℚ) ^ (ulp q + 52) ≤ |q| := by
      rw [hlog]
      exact_mod_cast Int.zpow_log_le_self (b := 2) (by norm_num) hpos
    have h2 : |(m : ℚ) * 2 ^ e| ≤ 2 ^ (ulp q + 52) := by
      have hp : (0 : ℚ) < 2 ^ e := zpow_pos (by norm_num) _
      rw [abs_mul, abs_of_pos hp]
      have h3 : |(m : ℚ)| ≤ 2 ^ (53 : ℤ) := by exact_mod_cast hm
      calc |(m : ℚ)| * 2 ^ e ≤ 2 ^ (53 : ℤ) * 2 ^ e := mul_le_mul_of_nonneg_right h3 hp.le
        _ = 2 ^ (53 + e) := by rw [zpow_add₀ (by norm_num)]
        _ ≤ 2 ^ (ulp q + 52) := zpow_le_zpow_right₀ (by norm_num) (by omega)
    have h4 : (2 : ℚ) ^ (ulp q + 52) = ((2 ^ 52 : ℤ) : ℚ) * 2 ^ ulp q := by
      rw [zpow_add₀ (by norm_num), mul_comm]; norm_num
    have h5 := abs_le.mp h2
    rcases lt_or_gt_of_ne hq0 with hq | hq
    · rw [abs_of_neg hq] at h1
      have := key (-2 ^ 52) (by push_cast at h4 ⊢; linarith)
      push_cast at this h4
      linarith
    · rw [abs_of_pos hq] at h1
      have := key (2 ^ 52) (by rw [← h4]; linarith)
      rw [← h4] at this
      linarith

theorem le_r0 (q : ℚ) (m e : ℤ) (hm : |m| ≤ 2 ^ 53) (he : -1074 ≤ e) (h : m * 2 ^ e ≤ q) : m * 2 ^ e ≤ r0 q := by
  have := r0_le (-q) (-m) e (by rwa [abs_neg]) he (by push_cast; linarith)
  rw [r0_neg] at this
  push_cast at this
  linarith

theorem rnd_r0 (q : ℚ) (h : |q| ≤ 2 ^ 53) : rnd q = .fin (r0 q) := by
  have h1 := r0_le q (2 ^ 53) 0 (by norm_num) (by norm_num) (by have := (abs_le.mp h).2; norm_num at this ⊢; linarith)
  have h2 := le_r0 q (-2 ^ 53) 0 (by norm_num) (by norm_num) (by have := (abs_le.mp h).1; norm_num at this ⊢; linarith)
  have h3 : |r0 q| < 2 ^ (1024 : ℤ) := by
    have : |r0 q| ≤ 2 ^ (53 : ℤ) := by
      rw [abs_le]; norm_num at h1 h2 ⊢; exact ⟨h2, h1⟩
    exact this.trans_lt (zpow_lt_zpow_right₀ (by norm_num) (by norm_num))
  unfold rnd
  rw [show (rhe (q / 2 ^ ulp q) : ℚ) * 2 ^ ulp q = r0 q from rfl, if_pos h3]

/-- no overflow below 2¹⁰⁰. -/
theorem rnd_r0_big (q : ℚ) (h : |q| ≤ 2 ^ (100 : ℤ)) : rnd q = .fin (r0 q) := by
  have h1 := r0_le q 1 100 (by norm_num) (by norm_num) (by rw [Int.cast_one, one_mul]; exact (abs_le.mp h).2)
  have h2 := le_r0 q (-1) 100 (by norm_num) (by norm_num) (by rw [Int.cast_neg, Int.cast_one, neg_one_mul]; exact (abs_le.mp h).1)
  have h3 : |r0 q| < 2 ^ (1024 : ℤ) := by
    have : |r0 q| ≤ 2 ^ (100 : ℤ) := by
      rw [abs_le]
      rw [Int.cast_neg, Int.cast_one, neg_one_mul] at h2
      rw [Int.cast_one, one_mul] at h1
      exact ⟨h2, h1⟩
    exact this.trans_lt (zpow_lt_zpow_right₀ (by norm_num) (by norm_num))
  unfold rnd
  rw [show (rhe (q / 2 ^ ulp q) : ℚ) * 2 ^ ulp q = r0 q from rfl, if_pos h3]

/-- Rounding a quotient of integers does not reach the next integer. -/
theorem floor_r0 (x y : ℤ) (hx : |x| ≤ 2 ^ 50) (hy : 0 < y) (hy' : y ≤ 2 ^ 50) : ⌊r0 ((x : ℚ) / y)⌋ = ⌊(x : ℚ) / y⌋ := by
  have hyq : (0 : ℚ) < y := by exact_mod_cast hy
  obtain ⟨hx1, hx2⟩ := abs_le.mp hx
  set k := ⌊(x : ℚ) / y⌋ with hk
  have hk1 : (k : ℚ) ≤ x / y := Int.floor_le _
  have hk2 : (x : ℚ) / y < k + 1 := Int.lt_floor_add_one _
  rw [le_div_iff₀ hyq] at hk1
  rw [div_lt_iff₀ hyq] at hk2
  have i1 : k * y ≤ x := by exact_mod_cast hk1
  have i2 : x < (k + 1) * y := by exact_mod_cast hk2
  have b1 : -(2 ^ 50) - 1 ≤ k := by nlinarith
  have b2 : k ≤ 2 ^ 50 := by nlinarith
  rw [Int.floor_eq_iff]
  constructor
  · have := le_r0 ((x : ℚ) / y) k 0 (by rw [abs_le]; omega) (by norm_num) (by simpa using Int.floor_le ((x : ℚ) / y))
    simpa using this
  · obtain ⟨s, hs1, hs2⟩ : ∃ s : ℕ, y ≤ 2 ^ s ∧ (2 : ℤ) ^ s ≤ 2 * y := by
      obtain ⟨n, rfl⟩ := Int.eq_ofNat_of_zero_le hy.le
      refine ⟨Nat.clog 2 n, by exact_mod_cast Nat.le_pow_clog (by norm_num) n, ?_⟩
      by_cases h1 : n ≤ 1
      · have : n = 1 := by omega
        subst this; simp
      · have := Nat.pow_pred_clog_lt_self (b := 2) (by norm_num) (show 1 < n by omega)
        have h2 : 0 < Nat.clog 2 n := Nat.clog_pos (by norm_num) (by omega)
        have h3 : 2 ^ Nat.clog 2 n = 2 * 2 ^ (Nat.clog 2 n).pred := by
          conv_lhs => rw [← Nat.succ_pred_eq_of_pos h2, pow_succ]
          ring
        have h4 : 2 ^ Nat.clog 2 n ≤ 2 * n := by omega
        exact_mod_cast h4
    have hs0 : (0 : ℤ) < 2 ^ s := by positivity
    have c1 : |(k + 1) * 2 ^ s - 1| ≤ (2 : ℤ) ^ 53 := by
      have e1 : (k + 1) * y ≤ x + y := by nlinarith
      have e2 : x ≤ (k + 1) * y := by nlinarith
      rw [abs_le]
      rcases le_or_gt 0 (k + 1) with hp | hp
      · constructor <;> nlinarith
      · constructor <;> nlinarith
    have hs53 : s ≤ 60 := by
      by_contra hh
      have : (2 : ℤ) ^ 60 ≤ 2 ^ s := pow_le_pow_right₀ (by norm_num) (by omega)
      norm_num at this hy'
      omega
    have hsq : (0 : ℚ) < 2 ^ s := by positivity
    have ht : (((k + 1) * 2 ^ s - 1 : ℤ) : ℚ) * 2 ^ (-(s : ℤ)) = k + 1 - 1 / 2 ^ s := by
      rw [zpow_neg, zpow_natCast]
      push_cast
      field_simp
    have hle : (x : ℚ) / y ≤ (((k + 1) * 2 ^ s - 1 : ℤ) : ℚ) * 2 ^ (-(s : ℤ)) := by
      rw [ht]
      have d1 : (x : ℚ) ≤ (k + 1) * y - 1 := by exact_mod_cast (show x ≤ (k + 1) * y - 1 by omega)
      have d2 : (x : ℚ) / y ≤ k + 1 - 1 / y := by
        rw [div_le_iff₀ hyq, sub_mul, one_div, inv_mul_cancel₀ hyq.ne']
        exact d1
      have d3 : (1 : ℚ) / 2 ^ s ≤ 1 / y := one_div_le_one_div_of_le hyq (by exact_mod_cast hs1)
      linarith
    have := r0_le _ _ _ c1 (by omega) hle
    rw [ht] at this
    have : (0 : ℚ) < 1 / 2 ^ s := by positivity
    linarith

theorem trunc_neg (q : ℚ) : trunc (-q) = -trunc q := by
  unfold trunc
  rcases lt_trichotomy q 0 with h | h | h
  · rw [if_pos (by linarith), if_neg (by linarith), Int.floor_neg]
  · subst h; simp
  · rw [if_neg (by linarith), if_pos h.le, Int.ceil_neg]

theorem floor_r0' (x y : ℤ) (hx : |x| ≤ 2 ^ 50) (hy : y ≠ 0) (hy' : |y| ≤ 2 ^ 50) : ⌊r0 ((x : ℚ) / y)⌋ = ⌊(x : ℚ) / y⌋ := by
  rcases lt_or_gt_of_ne hy with h | h
  · have := floor_r0 (-x) (-y) (by rwa [abs_neg]) (by omega) (by rw [abs_of_neg h] at hy'; exact hy')
    push_cast at this
    rwa [neg_div_neg_eq] at this
  · exact floor_r0 x y hx h (by rwa [abs_of_pos h] at hy')

theorem trunc_r0 (x y : ℤ) (hx : |x| ≤ 2 ^ 50) (hy : y ≠ 0) (hy' : |y| ≤ 2 ^ 50) : trunc (r0 ((x : ℚ) / y)) = trunc ((x : ℚ) / y) := by
  by_cases h : 0 ≤ (x : ℚ) / y
  · have h' : 0 ≤ r0 ((x : ℚ) / y) := by simpa using le_r0 _ 0 0 (by norm_num) (by norm_num) (by simpa using h)
    simp only [trunc, if_pos h, if_pos h']
    exact floor_r0' x y hx hy hy'
  · have h1 : (x : ℚ) / y = -(((-x : ℤ) : ℚ) / y) := by push_cast; ring
    have h2 : 0 ≤ ((-x : ℤ) : ℚ) / y := by rw [h1] at h; linarith
    have h' : 0 ≤ r0 (((-x : ℤ) : ℚ) / y) := by simpa using le_r0 _ 0 0 (by norm_num) (by norm_num) (by simpa using h2)
    rw [h1, r0_neg, trunc_neg, trunc_neg]
    simp only [trunc, if_pos h2, if_pos h', floor_r0' (-x) y (by rwa [abs_neg]) hy hy']

theorem trunc_div (a b : ℤ) : trunc ((a : ℚ) / b) = a.tdiv b := by
  have nat : ∀ m n : ℕ, trunc ((m : ℚ) / n) = (m : ℤ).tdiv n := by
    intro m n
    have h : (0 : ℚ) ≤ (m : ℚ) / n := by positivity
    rw [trunc, if_pos h]
    have := Rat.floor_intCast_div_natCast (m : ℤ) n
    rw [Int.cast_natCast] at this
    rw [this, Int.tdiv_eq_ediv_of_nonneg (by omega)]
  rcases Int.natAbs_eq a with ha | ha <;> rcases Int.natAbs_eq b with hb | hb <;> rw [ha, hb] <;>
    simp only [Int.cast_neg, Int.cast_natCast, neg_div, div_neg, trunc_neg, Int.neg_tdiv, Int.tdiv_neg, nat, neg_neg]

end Verif.Tower
