import Mathlib.Tactic.Common
import Verif.Gc.Model
/-
The bit-mask test of the collector: `((char*)(o) - (char*)h) & m` with
`m = 1 | ~(s*sizeof(obj)-1)` (6.sf:414, 526, 531, 543, 575) is zero exactly for the
even addresses of the space of `s` words at `h`, when `s * 8` is a power of two.
-/
namespace Verif.Gc

/-- The mask `1 | ~(s*sizeof(obj)-1)` (6.sf:575). -/
def mask (s : BitVec 64) : BitVec 64 := 1#64 ||| ~~~(s * 8#64 - 1#64)

/-- The test as the code writes it. -/
def maskTest (o h s : BitVec 64) : Bool := (o - h) &&& mask s == 0#64

theorem and_mask_zero (d : BitVec 64) (k : Nat) (hk : k + 3 < 64) :
    (d &&& mask (BitVec.ofNat 64 (2 ^ k)) = 0#64) ↔ d.toNat % 2 = 0 ∧ d.toNat < 2 ^ (k + 3) := by
  have hp : 2 ^ (k + 3) < 2 ^ 64 := Nat.pow_lt_pow_right (by decide) hk
  have hpos : 0 < 2 ^ (k + 3) := Nat.two_pow_pos _
  have hs : (BitVec.ofNat 64 (2 ^ k) * 8#64 - 1#64).toNat = 2 ^ (k + 3) - 1 := by
    have h1 : (BitVec.ofNat 64 (2 ^ k) * 8#64).toNat = 2 ^ (k + 3) := by
      rw [BitVec.toNat_mul, BitVec.toNat_ofNat, BitVec.toNat_ofNat, Nat.mod_mul_mod,
        show 8 % 2 ^ 64 = 2 ^ 3 by decide, ← Nat.pow_add, Nat.mod_eq_of_lt hp]
    rw [BitVec.toNat_sub, h1, BitVec.toNat_ofNat, show 1 % 2 ^ 64 = 1 by decide]
    omega
  have hbit : ∀ i, i < 64 → (mask (BitVec.ofNat 64 (2 ^ k))).getLsbD i =
      (decide (i = 0) || !decide (i < k + 3)) := by
    intro i hi
    have h2 : (BitVec.ofNat 64 (2 ^ k) * 8#64 - 1#64).getLsbD i = decide (i < k + 3) := by
      rw [BitVec.getLsbD, hs, Nat.testBit_two_pow_sub_one]
    have h1 : (1#64).getLsbD i = decide (i = 0) := by
      rw [BitVec.getLsbD_one]; simp
    unfold mask
    rw [BitVec.getLsbD_or, BitVec.getLsbD_not, h1, h2]
    simp [hi]
  constructor
  · intro h
    have hb : ∀ i, i < 64 → (i = 0 ∨ k + 3 ≤ i) → d.getLsbD i = false := by
      intro i hi hc
      have := congrArg (fun x => x.getLsbD i) h
      simp only [BitVec.getLsbD_and, BitVec.getLsbD_zero, hbit i hi] at this
      have h1 : (decide (i = 0) || !decide (i < k + 3)) = true := by
        rcases hc with hc | hc <;> simp [hc]
      rw [h1] at this
      simpa using this
    constructor
    · have := hb 0 (by omega) (Or.inl rfl)
      rw [BitVec.getLsbD, Nat.testBit_zero] at this
      simpa using this
    · apply Nat.lt_pow_two_of_testBit
      intro i hi
      by_cases h64 : i < 64
      · exact hb i h64 (Or.inr hi)
      · exact Nat.testBit_lt_two_pow (Nat.lt_of_lt_of_le d.isLt (Nat.pow_le_pow_right (by decide) (by omega)))
  · rintro ⟨h1, h2⟩
    apply BitVec.eq_of_getLsbD_eq
    intro i hi
    rw [BitVec.getLsbD_and, hbit i hi, BitVec.getLsbD_zero]
    by_cases h0 : i = 0
    · subst h0
      have : d.getLsbD 0 = false := by
        rw [BitVec.getLsbD, Nat.testBit_zero]; simp [h1]
      rw [this]; rfl
    · by_cases h3 : i < k + 3
      · simp [h0, h3]
      · have : d.getLsbD i = false :=
          Nat.testBit_lt_two_pow (Nat.lt_of_lt_of_le h2 (Nat.pow_le_pow_right (by decide) (by omega)))
        rw [this]; rfl

/-- The bit-mask test is the range and parity test used in the model. -/
theorem maskTest_eq (S : Space) (k o : Nat) (hs : S.size = 2 ^ k) (hk : k + 3 < 64)
    (hlim : 8 * S.lim ≤ 2 ^ 64) (ho : o < 2 ^ 64) :
    maskTest (BitVec.ofNat 64 o) (BitVec.ofNat 64 (8 * S.base)) (BitVec.ofNat 64 S.size) =
      inSp S o := by
  have h8 : 2 ^ (k + 3) = 8 * 2 ^ k := by rw [Nat.pow_add]; omega
  have hpos : 0 < 2 ^ k := Nat.two_pow_pos _
  have h64 : (2 : Nat) ^ 64 = 18446744073709551616 := by decide
  have key := and_mask_zero (BitVec.ofNat 64 o - BitVec.ofNat 64 (8 * S.base)) k hk
  have hd : (BitVec.ofNat 64 o - BitVec.ofNat 64 (8 * S.base)).toNat =
      (2 ^ 64 - 8 * S.base + o) % 2 ^ 64 := by
    rw [BitVec.toNat_sub, BitVec.toNat_ofNat, BitVec.toNat_ofNat, Nat.mod_eq_of_lt ho,
      Nat.mod_eq_of_lt (show 8 * S.base < 2 ^ 64 by simp only [Space.lim] at hlim; omega)]
  rw [hd, h8] at key
  unfold maskTest inSp
  rw [hs, Bool.eq_iff_iff, beq_iff_eq, key, decide_eq_true_iff]
  simp only [Space.lim, hs, h64] at *
  omega

end Verif.Gc
