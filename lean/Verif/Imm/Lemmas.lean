import Verif.Imm.Model
import Mathlib.Tactic.Ring
import Mathlib.Tactic.IntervalCases
namespace Verif.Imm

theorem mask_getLsbD {w n : Nat} (h : n ≤ w) (i : Nat) :
    (BitVec.ofNat w (2^n - 1)).getLsbD i = decide (i < n) := by
  rw [BitVec.getLsbD_ofNat, Nat.testBit_two_pow_sub_one]
  by_cases hi : i < n
  · have : i < w := by omega
    simp [hi, this]
  · simp [hi]

theorem m24_32 (i : Nat) : (0xffffff#32).getLsbD i = decide (i < 24) :=
  mask_getLsbD (w := 32) (n := 24) (by omega) i
theorem m24_64 (i : Nat) : (0xffffff#64).getLsbD i = decide (i < 24) :=
  mask_getLsbD (w := 64) (n := 24) (by omega) i
theorem m8_64 (i : Nat) : (0xff#64).getLsbD i = decide (i < 8) :=
  mask_getLsbD (w := 64) (n := 8) (by omega) i
theorem m30_64 (i : Nat) : (0x3fffffff#64).getLsbD i = decide (i < 30) :=
  mask_getLsbD (w := 64) (n := 30) (by omega) i
theorem m2_64 (i : Nat) : (3#64).getLsbD i = decide (i < 2) :=
  mask_getLsbD (w := 64) (n := 2) (by omega) i

/-- payload extraction from a boxed int -/
theorem payload_mkimm (o t : BitVec 32) (ht : t.toNat < 128) :
    ((mkimm o t).sshiftRight 8 &&& 0xffffff#64) = (o.setWidth 24).setWidth 64 := by
  apply BitVec.eq_of_getLsbD_eq
  intro i hi
  have htb : ∀ j, 7 ≤ j → t.getLsbD j = false := by
    intro j hj
    rw [BitVec.getLsbD]
    apply Nat.testBit_lt_two_pow
    calc t.toNat < 2^7 := ht
      _ ≤ 2^j := Nat.pow_le_pow_right (by omega) hj
  simp only [mkimm, BitVec.getLsbD_and, m24_64, BitVec.getLsbD_sshiftRight, BitVec.getLsbD_signExtend,
    BitVec.getLsbD_or, BitVec.getLsbD_shiftLeft, m24_32, BitVec.getLsbD_setWidth, BitVec.getLsbD_one]
  by_cases h24 : i < 24
  · have h1 : 8 + i < 64 := by omega
    have h2 : 8 + i < 32 := by omega
    have h3 : ¬ (64 ≤ i) := by omega
    have := htb (7 + i) (by omega)
    simp [h24, h1, h2, h3, this, hi]
  · simp [h24]

theorem lowbyte_mkimm (o t : BitVec 32) (ht : t.toNat < 128) :
    ((mkimm o t) &&& 0xff#64) = ((t.setWidth 64) <<< 1) ||| 1#64 := by
  apply BitVec.eq_of_getLsbD_eq
  intro i hi
  have htb : ∀ j, 7 ≤ j → t.getLsbD j = false := by
    intro j hj
    rw [BitVec.getLsbD]
    apply Nat.testBit_lt_two_pow
    calc t.toNat < 2^7 := ht
      _ ≤ 2^j := Nat.pow_le_pow_right (by omega) hj
  simp only [mkimm, BitVec.getLsbD_and, m8_64, BitVec.getLsbD_signExtend,
    BitVec.getLsbD_or, BitVec.getLsbD_shiftLeft, m24_32, BitVec.getLsbD_setWidth, BitVec.getLsbD_one]
  by_cases h8 : i < 8
  · have h2 : i < 32 := by omega
    have h3 : i - 1 < 64 := by omega
    simp [h8, h2, h3, hi]
  · have := htb (i-1) (by omega)
    have h0 : ¬ i = 0 := by omega
    simp [h8, this, h0]

theorem two_pow_add_or {k y : Nat} (h : y < 2^k) : 2^k + y = 2^k ||| y := by
  have := Nat.two_pow_add_eq_or_of_lt h 1
  simpa using this

theorem xor_half (k x : Nat) (hx : x < 2^(k+1)) :
    x ^^^ 2^k = if x < 2^k then x + 2^k else x - 2^k := by
  split
  · rename_i h
    have : x + 2^k = 2^k ||| x := by rw [Nat.add_comm, two_pow_add_or h]
    rw [this]
    apply Nat.eq_of_testBit_eq
    intro i
    simp only [Nat.testBit_xor, Nat.testBit_or, Nat.testBit_two_pow]
    by_cases hi : k = i
    · subst hi; simp [Nat.testBit_lt_two_pow h]
    · simp [hi]
  · rename_i h
    obtain ⟨y, rfl⟩ : ∃ y, x = 2^k + y := ⟨x - 2^k, by omega⟩
    have hy : y < 2^k := by rw [Nat.pow_succ] at hx; omega
    rw [two_pow_add_or hy]
    have : (2^k ||| y) - 2^k = y := by rw [← two_pow_add_or hy]; omega
    rw [this]
    apply Nat.eq_of_testBit_eq
    intro i
    simp only [Nat.testBit_xor, Nat.testBit_or, Nat.testBit_two_pow]
    by_cases hi : k = i
    · subst hi; simp [Nat.testBit_lt_two_pow hy]
    · simp [hi]

/-- The `(x ^ half) - half` idiom is sign extension. -/
theorem xorsub (k : Nat) (hk : k + 1 < 64) (x : BitVec 64) (hx : x.toNat < 2^(k+1)) :
    ((x ^^^ BitVec.ofNat 64 (2^k)) - BitVec.ofNat 64 (2^k)).toInt
      = (x.toNat : Int).bmod (2^(k+1)) := by
  have hp : 2^(k+1) ≤ 2^63 := Nat.pow_le_pow_right (by omega) (by omega)
  have hp1 : (2:Nat)^(k+1) = 2 * 2^k := by rw [Nat.pow_succ]; omega
  have hx2 := xor_half k _ hx
  have e1 : (x ^^^ BitVec.ofNat 64 (2^k)).toInt = ((x.toNat ^^^ 2^k : Nat) : Int) := by
    have h2k : 2^k % 2^64 = 2^k := Nat.mod_eq_of_lt (by omega)
    have : (x ^^^ BitVec.ofNat 64 (2^k)).toNat = x.toNat ^^^ 2^k := by
      rw [BitVec.toNat_xor, BitVec.toNat_ofNat, h2k]
    rw [BitVec.toInt_eq_toNat_of_lt, this]
    rw [this, hx2]
    split <;> omega
  have e2 : (BitVec.ofNat 64 (2^k)).toInt = ((2^k : Nat) : Int) := by
    have h2k : 2^k % 2^64 = 2^k := Nat.mod_eq_of_lt (by omega)
    rw [BitVec.toInt_eq_toNat_of_lt] <;> rw [BitVec.toNat_ofNat, h2k]
    omega
  rw [BitVec.toInt_sub, e1, e2, hx2, hp1]
  rw [hp1] at hx hp
  generalize hq : 2^k = p at *
  have hpp : 0 < p := hq ▸ Nat.pow_pos (by omega)
  split
  · rename_i h
    rw [Int.bmod_eq_of_le (by push_cast; omega) (by push_cast; omega),
      Int.bmod_eq_of_le (by omega) (by omega)]
    push_cast; omega
  · rename_i h
    have : (x.toNat : Int).bmod (2*p) = ((x.toNat : Int) - (2*p : Nat)).bmod (2*p) := by
      rw [Int.sub_bmod_right]
    rw [this, Int.bmod_eq_of_le (by push_cast; omega) (by push_cast; omega),
      Int.bmod_eq_of_le (by push_cast; omega) (by push_cast; omega)]
    push_cast; omega

end Verif.Imm
