import Verif.Ints.Spec
/-!
# Bit ranges (C24)
-/

namespace Verif.Ints

theorem mask_toNat {r l : Nat} (hr : r < 64) (h : r + l ≤ 64) :
    ((((1#64 <<< r) - 1#64) <<< l : BitVec 64)).toNat = (2 ^ r - 1) * 2 ^ l := by
  have hp : 0 < 2 ^ r := Nat.two_pow_pos r
  have hlt : 2 ^ r < 2 ^ 64 := Nat.pow_lt_pow_right (by decide) hr
  have e1 : (1#64 <<< r : BitVec 64).toNat = 2 ^ r := by
    rw [BitVec.toNat_shiftLeft, Nat.shiftLeft_eq]
    show 1 * 2 ^ r % 2 ^ 64 = _
    rw [Nat.one_mul, Nat.mod_eq_of_lt hlt]
  have e2 : ((1#64 <<< r : BitVec 64) - 1#64).toNat = 2 ^ r - 1 := by
    rw [BitVec.toNat_sub_of_le (by show (1#64).toNat ≤ _; rw [e1]; exact hp), e1]
    rfl
  rw [BitVec.toNat_shiftLeft, e2, Nat.shiftLeft_eq, Nat.mod_eq_of_lt]
  have h2 : (2 ^ r - 1) * 2 ^ l < 2 ^ r * 2 ^ l := Nat.mul_lt_mul_of_pos_right (by omega) (Nat.two_pow_pos l)
  rw [← Nat.pow_add] at h2
  exact Nat.lt_of_lt_of_le h2 (Nat.pow_le_pow_right (by decide) h)

theorem bits_go {w : Nat} (hw : w ≤ 64) (v : BitVec w) {lower upper : Nat} (h : lower ≤ upper) (hu : upper < w) :
    ∃ r, bits.go v lower upper = .ok r ∧ r.toNat = v.toNat / 2 ^ lower % 2 ^ (upper - lower + 1) := by
  unfold bits.go
  dsimp only
  split
  · rename_i hf
    have : lower = 0 := by omega
    subst this
    refine ⟨v, rfl, ?_⟩
    rw [hf, Nat.pow_zero, Nat.div_one, Nat.mod_eq_of_lt v.isLt]
  · rename_i hf
    rw [if_neg (by omega)]
    refine ⟨_, rfl, ?_⟩
    rw [BitVec.toNat_ushiftRight, BitVec.toNat_and, BitVec.toNat_setWidth, mask_toNat (by omega) (by omega)]
    apply Nat.eq_of_testBit_eq
    intro i
    rw [Nat.testBit_shiftRight, Nat.testBit_and, Nat.testBit_mod_two_pow, Nat.testBit_mul_two_pow, Nat.testBit_two_pow_sub_one,
      Nat.testBit_mod_two_pow, Nat.testBit_div_two_pow, show lower + i - lower = i by omega, Nat.add_comm i lower]
    by_cases hi : i < upper - lower + 1
    · have : lower + i < w := by omega
      simp [hi, this]
    · simp [hi]

/-- C24: with the least significant bit first, a range of bits of a value. -/
theorem C24_lsb0 {w : Nat} (hw : w ≤ 64) (v : BitVec w) {lower upper : Nat} (h : lower ≤ upper) (hu : upper < w) :
    ∃ r, bits v lower upper .lsb0 = .ok r ∧ r.toNat = v.toNat / 2 ^ lower % 2 ^ (upper - lower + 1) := by
  unfold bits
  rw [if_neg (by omega), if_neg (by omega)]
  exact bits_go hw v h hu

/-- C24: with the most significant bit first, bit `k` is bit `w - 1 - k` of the value. -/
theorem C24_msb0 {w : Nat} (hw : w ≤ 64) (v : BitVec w) {lower upper : Nat} (h : lower ≤ upper) (hu : upper < w) :
    ∃ r, bits v lower upper .msb0 = .ok r ∧ r.toNat = v.toNat / 2 ^ (w - 1 - upper) % 2 ^ (upper - lower + 1) := by
  unfold bits
  rw [if_neg (by omega), if_neg (by omega)]
  obtain ⟨r, h1, h2⟩ := bits_go hw v (lower := w - upper - 1) (upper := w - lower - 1) (by omega) (by omega)
  refine ⟨r, h1, ?_⟩
  rw [h2, show w - lower - 1 - (w - upper - 1) + 1 = upper - lower + 1 by omega, show w - upper - 1 = w - 1 - upper by omega]

/-- C24: a range that is not one of the value is rejected. -/
theorem C24_invalid {w : Nat} (v : BitVec w) {lower upper : Nat} (h : upper < lower ∨ w ≤ upper) (o : BitOrder) :
    bits v lower upper o = .throw .invalidArgument := by
  unfold bits
  by_cases hl : lower > upper
  · rw [if_pos hl]
  · rw [if_neg hl, if_pos (by omega)]

/-- C24: consecutive ranges put together give the value of the whole range, so no bit is lost or read twice. -/
theorem C24_join {w : Nat} (hw : w ≤ 64) (v : BitVec w) {a b c : Nat} (h1 : a ≤ b) (h2 : b < c) (hc : c < w) :
    ∃ x y z, bits v a b .lsb0 = .ok x ∧ bits v (b + 1) c .lsb0 = .ok y ∧ bits v a c .lsb0 = .ok z ∧
      z.toNat = y.toNat * 2 ^ (b - a + 1) + x.toNat := by
  obtain ⟨x, x1, x2⟩ := C24_lsb0 hw v h1 (Nat.lt_trans h2 hc)
  obtain ⟨y, y1, y2⟩ := C24_lsb0 hw v (lower := b + 1) (upper := c) (by omega) hc
  obtain ⟨z, z1, z2⟩ := C24_lsb0 hw v (lower := a) (upper := c) (by omega) hc
  refine ⟨x, y, z, x1, y1, z1, ?_⟩
  rw [x2, y2, z2, show c - a + 1 = (b - a + 1) + (c - (b + 1) + 1) by omega, show b + 1 = a + (b - a + 1) by omega]
  rw [Nat.pow_add 2 a, ← Nat.div_div_eq_div_mul, Nat.pow_add, Nat.mod_mul]
  rw [Nat.mul_comm, Nat.add_comm]

example : bits (w := 16) 0xabcd#16 4 11 .lsb0 = .ok 0xbc#16 := by decide
example : bits (w := 16) 0xabcd#16 0 3 .msb0 = .ok 0xa#16 := by decide
example : bits (w := 8) 0xab#8 3 8 .lsb0 = .throw .invalidArgument := by decide

end Verif.Ints
