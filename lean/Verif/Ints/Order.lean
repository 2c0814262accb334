import Verif.Ints.Pack
/-!
# Integers from bytes in a byte order (C28)
-/

namespace Verif.Ints

theorem fold_value (b : List Byte) (i : BitVec 64) :
    (b.foldl (fun (i : BitVec 64) c => (i <<< 8) ||| c.toBitVec.setWidth 64) i).toNat =
      (b.foldl (fun n c => n * 256 + c.toNat) i.toNat) % 2 ^ 64 := by
  induction b generalizing i with
  | nil => exact (Nat.mod_eq_of_lt i.isLt).symm
  | cons c b ih =>
    rw [List.foldl_cons, ih, shift_or _ _ (by decide), List.foldl_cons, beValue_foldl, beValue_foldl]
    rw [Nat.add_mod, Nat.mod_mul_mod, ← Nat.add_mod]

theorem pow256_le {n : Nat} (h : n ≤ 8) : 256 ^ n ≤ 2 ^ 64 := by
  rw [← pow8]; exact Nat.pow_le_pow_right (by decide) (by omega)

theorem beValue_zeros (n : Nat) (b : List Byte) : beValue (List.replicate n 0 ++ b) = beValue b := by
  induction n with
  | zero => rfl
  | succ n ih =>
    show beValue (0 :: (List.replicate n 0 ++ b)) = _
    rw [beValue_cons, ih]
    show 0 * _ + _ = _
    omega

theorem beValue_zeros_right (n : Nat) (b : List Byte) : beValue (b ++ List.replicate n 0) = beValue b * 256 ^ n := by
  have h0 : beValue (List.replicate n 0) = 0 := by
    have := beValue_zeros n []
    rw [List.append_nil] at this
    rw [this]; rfl
  rw [beValue_append, h0, List.length_replicate, Nat.add_zero]

theorem leBytes_of_value {v : BitVec 64} {b : List Byte} (hb : b.length ≤ 8) (hv : v.toNat = beValue b) :
    leBytes 8 v = b.reverse ++ List.replicate (8 - b.length) 0 := by
  have h := leBytes_value 8 v
  rw [Nat.mod_eq_of_lt (by have := v.isLt; rw [← pow8]; exact this), hv] at h
  have : (leBytes 8 v).reverse = List.replicate (8 - b.length) 0 ++ b := by
    apply beValue_inj
    · rw [List.length_reverse, leBytes_length, List.length_append, List.length_replicate]; omega
    · rw [h, beValue_zeros]
  have h2 := congrArg List.reverse this
  rw [List.reverse_reverse, List.reverse_append, List.reverse_replicate] at h2
  exact h2

/-- `flip` reverses the order of the `n` low bytes. -/
theorem flip_value {v : BitVec 64} {b : List Byte} (hb : b.length ≤ 8) (h0 : b ≠ []) (hv : v.toNat = beValue b) :
    ∃ r, flip v b.length = .ok r ∧ r.toNat = beValue b.reverse := by
  have hl : b.length ≠ 0 := fun h => h0 (List.length_eq_zero_iff.1 h)
  unfold flip
  rw [if_neg hl, if_neg (by omega)]
  refine ⟨_, rfl, ?_⟩
  have e : flipBytes 8 v = unpackLoop (List.range (leBytes 8 v).length) (0 : BitVec 64) (leBytes 8 v) := by
    rw [leBytes_length]; rfl
  have e2 : (flipBytes 8 v).toNat = beValue (leBytes 8 v) := by
    rw [e]; exact unpack_range (by decide) _ (by rw [leBytes_length]; decide)
  rw [BitVec.toNat_ushiftRight, e2, leBytes_of_value hb hv, beValue_zeros_right, Nat.shiftRight_eq_div_pow,
    show 64 - b.length * 8 = 8 * (8 - b.length) by omega, pow8, Nat.mul_div_cancel _ (Nat.pow_pos (by decide))]

theorem toUIntFixed_value {b : List Byte} (h0 : b ≠ []) (hb : b.length ≤ 8) (little : Bool) :
    ∃ r, toUIntFixed b little = .ok r ∧ r.toNat = beValue (if little then b.reverse else b) := by
  have hl : b.length ≠ 0 := fun h => h0 (List.length_eq_zero_iff.1 h)
  unfold toUIntFixed
  rw [if_neg hl, if_neg (by omega)]
  dsimp only
  have hv : (b.foldl (fun (i : BitVec 64) c => (i <<< 8) ||| c.toBitVec.setWidth 64) 0).toNat = beValue b := by
    rw [fold_value]
    show beValue b % 2 ^ 64 = _
    exact Nat.mod_eq_of_lt (Nat.lt_of_lt_of_le (beValue_lt b) (pow256_le hb))
  cases little with
  | false => exact ⟨_, rfl, hv⟩
  | true => exact flip_value hb h0 hv

theorem toUIntOrder_value (sys : Endian) {b : List Byte} (h0 : b ≠ []) (hb : b.length ≤ 8) {o : Order} (ho : o ≠ .undef) (hh : o ≠ .host) :
    ∃ r, toUIntOrder b o = .ok r ∧ r.toNat = valueIn sys o b := by
  cases o with
  | undef => exact absurd rfl ho
  | host => exact absurd rfl hh
  | big => obtain ⟨r, h1, h2⟩ := toUIntFixed_value h0 hb false; exact ⟨r, h1, by rw [h2]; cases sys <;> rfl⟩
  | network => obtain ⟨r, h1, h2⟩ := toUIntFixed_value h0 hb false; exact ⟨r, h1, by rw [h2]; cases sys <;> rfl⟩
  | little => obtain ⟨r, h1, h2⟩ := toUIntFixed_value h0 hb true; exact ⟨r, h1, by rw [h2]; cases sys <;> rfl⟩

theorem xor_ones {x k : Nat} (h : x < 2 ^ k) : x ^^^ (2 ^ k - 1) = 2 ^ k - (x + 1) := by
  apply Nat.eq_of_testBit_eq
  intro i
  rw [Nat.testBit_two_pow_sub_succ h, Nat.testBit_xor, Nat.testBit_two_pow_sub_one]
  by_cases hi : i < k
  · simp [hi]
  · have : x.testBit i = false := Nat.testBit_lt_two_pow (Nat.lt_of_lt_of_le h (Nat.pow_le_pow_right (by decide) (by omega)))
    simp [hi, this]

theorem top_bit {x k : Nat} (hk : 0 < k) (h : x < 2 ^ k) : x.testBit (k - 1) = decide (2 ^ (k - 1) ≤ x) := by
  obtain ⟨j, rfl⟩ : ∃ j, k = j + 1 := ⟨k - 1, by omega⟩
  rw [Nat.add_sub_cancel, Nat.testBit_eq_decide_div_mod_eq]
  rw [Nat.pow_succ] at h
  congr 1
  have hp : 0 < 2 ^ j := Nat.two_pow_pos j
  apply propext
  constructor
  · intro hm
    rcases Nat.lt_or_ge x (2 ^ j) with hlt | hge
    · rw [Nat.div_eq_of_lt hlt] at hm; cases hm
    · exact hge
  · intro hge
    have : x / 2 ^ j = 1 := by
      apply Nat.div_eq_of_lt_le
      · omega
      · omega
    rw [this]

theorem signExtend_value {i : BitVec 64} {n : Nat} (h0 : 0 < n) (h8 : n ≤ 8) (hi : i.toNat < 2 ^ (8 * n)) :
    (signExtend i n).toInt = signedValue (8 * n) i.toNat := by
  have hbit : (i &&& (1#64 <<< (n * 8 - 1)) ≠ 0) ↔ 2 ^ (8 * n - 1) ≤ i.toNat := by
    have e : (1#64 <<< (n * 8 - 1)) = BitVec.twoPow 64 (n * 8 - 1) := rfl
    rw [e, BitVec.and_twoPow]
    have ht : i.getLsbD (n * 8 - 1) = decide (2 ^ (8 * n - 1) ≤ i.toNat) := by
      show i.toNat.testBit (n * 8 - 1) = _
      rw [show n * 8 - 1 = 8 * n - 1 by omega]
      exact top_bit (by omega) hi
    rw [ht]
    by_cases h : 2 ^ (8 * n - 1) ≤ i.toNat
    · simp only [h, decide_true, if_true, iff_true]
      intro hz
      have := congrArg BitVec.toNat hz
      rw [BitVec.toNat_twoPow_of_lt (by omega)] at this
      have hp : 0 < 2 ^ (n * 8 - 1) := Nat.two_pow_pos _
      exact absurd this (by show _ ≠ 0; omega)
    · simp [h]
  have hle : 2 ^ (8 * n) ≤ 2 ^ 64 := Nat.pow_le_pow_right (by decide) (by omega)
  unfold signExtend signedValue
  by_cases hb : 2 ^ (8 * n - 1) ≤ i.toNat
  · rw [if_pos (hbit.2 hb), if_neg (show ¬ i.toNat < 2 ^ (8 * n - 1) by omega)]
    by_cases hn : n = 8
    · subst hn
      rw [if_pos rfl]
      have e : -(~~~i + 1) = i := by
        show -(~~~i + 1#64) = i
        rw [← BitVec.neg_eq_not_add, BitVec.neg_neg]
      rw [e, BitVec.toInt_eq_toNat_cond, if_neg (by have : 2 ^ (8 * 8 - 1) ≤ i.toNat := hb; omega)]
      rfl
    · rw [if_neg hn]
      have hlt : 2 ^ (8 * n) ≤ 2 ^ 56 := Nat.pow_le_pow_right (by decide) (by omega)
      have hp : 0 < 2 ^ (8 * n) := Nat.two_pow_pos _
      have e1 : ((1#64 <<< (n * 8)) - 1 : BitVec 64).toNat = 2 ^ (8 * n) - 1 := by
        have e : (1#64 <<< (n * 8)) = BitVec.twoPow 64 (n * 8) := rfl
        have hn : (BitVec.twoPow 64 (n * 8)).toNat = 2 ^ (8 * n) := by
          rw [BitVec.toNat_twoPow_of_lt (by omega), Nat.mul_comm]
        rw [e, BitVec.toNat_sub_of_le (by show (1#64).toNat ≤ _; rw [hn]; exact hp), hn]
        rfl
      have e2 : (i ^^^ ((1#64 <<< (n * 8)) - 1)).toNat = 2 ^ (8 * n) - (i.toNat + 1) := by
        rw [BitVec.toNat_xor, e1, xor_ones hi]
      have e3 : (i ^^^ ((1#64 <<< (n * 8)) - 1)).toInt = ((2 ^ (8 * n) - (i.toNat + 1) : Nat) : Int) := by
        rw [BitVec.toInt_eq_toNat_cond, e2, if_pos (by omega)]
      rw [BitVec.toInt_sub, BitVec.toInt_neg, e3]
      show Int.bmod (Int.bmod (-_) _ - 1) _ = _
      have e4 : ((2 ^ (8 * n) : Nat) : Int) = (2 : Int) ^ (8 * n) := by push_cast; rfl
      rw [← e4]
      generalize 2 ^ (8 * n) = M at *
      rw [Int.bmod_def, Int.bmod_def]
      omega
  · rw [if_neg (fun h => hb (hbit.1 h)), if_pos (by omega)]
    have h63 : 2 ^ (8 * n - 1) ≤ 2 ^ 63 := Nat.pow_le_pow_right (by decide) (by omega)
    rw [BitVec.toInt_eq_toNat_cond, if_pos (by omega)]

theorem valueIn_lt (sys : Endian) (o : Order) (b : List Byte) : valueIn sys o b < 2 ^ (8 * b.length) := by
  have h1 := beValue_lt b
  have h2 := beValue_lt b.reverse
  rw [List.length_reverse] at h2
  rw [pow8]
  unfold valueIn
  cases o <;> cases sys <;> first | exact h1 | exact h2

theorem toIntOrder_value (sys : Endian) {b : List Byte} (h0 : b ≠ []) (hb : b.length ≤ 8) {o : Order} (ho : o ≠ .undef) (hh : o ≠ .host) :
    toIntOrder b o = .ok (signedValue (8 * b.length) (valueIn sys o b)) := by
  obtain ⟨r, h1, h2⟩ := toUIntOrder_value sys h0 hb ho hh
  have hl : b.length ≠ 0 := fun h => h0 (List.length_eq_zero_iff.1 h)
  unfold toIntOrder
  rw [h1]
  show Res.ok _ = _
  rw [signExtend_value (by omega) hb (by rw [h2]; exact valueIn_lt sys o b), h2]

/-- C28: one to eight bytes as an unsigned integer, for every byte order but `Host`. -/
theorem C28_toUInt (sys : Endian) {b : List Byte} (h0 : b ≠ []) (hb : b.length ≤ 8) {o : Order} (ho : o ≠ .undef) (hh : o ≠ .host) :
    toUIntBO sys b o = .ok (valueIn sys o b) := by
  unfold toUIntBO
  rw [if_neg hh]
  obtain ⟨r, h1, h2⟩ := toUIntOrder_value sys h0 hb ho hh
  rw [h1]
  show Res.ok _ = _
  rw [h2]

/-- C28: one to eight bytes as a signed integer, for every byte order but `Host`. -/
theorem C28_toInt (sys : Endian) {b : List Byte} (h0 : b ≠ []) (hb : b.length ≤ 8) {o : Order} (ho : o ≠ .undef) (hh : o ≠ .host) :
    toIntBO sys b o = .ok (signedValue (8 * b.length) (valueIn sys o b)) := by
  unfold toIntBO
  rw [if_neg hh]
  exact toIntOrder_value sys h0 hb ho hh

theorem valueIn_host (sys : Endian) (b : List Byte) : valueIn sys sys.order b = valueIn sys .host b := by
  cases sys <;> rfl

/-- C28, `Host`: only values whose top bit is not set are converted. -/
theorem C28_host_partial (sys : Endian) {b : List Byte} (h0 : b ≠ []) (hb : b.length ≤ 8) :
    (valueIn sys .host b < 2 ^ (8 * b.length - 1) →
      toUIntBO sys b .host = .ok (valueIn sys .host b) ∧ toIntBO sys b .host = .ok (valueIn sys .host b)) ∧
    (2 ^ (8 * b.length - 1) ≤ valueIn sys .host b →
      toUIntBO sys b .host = .throw .overflow ∧ toIntBO sys b .host = .throw .overflow) := by
  have hl : b.length ≠ 0 := fun h => h0 (List.length_eq_zero_iff.1 h)
  have hv := toIntOrder_value sys h0 hb (o := sys.order) (by cases sys <;> decide) (by cases sys <;> decide)
  rw [valueIn_host] at hv
  have hlt := valueIn_lt sys .host b
  have hle : 2 ^ (8 * b.length) ≤ 2 ^ 64 := Nat.pow_le_pow_right (by decide) (by omega)
  have hU : toUIntBO sys b .host = if signedValue (8 * b.length) (valueIn sys .host b) < 0 then .throw .overflow
      else .ok (signedValue (8 * b.length) (valueIn sys .host b)).toNat := by
    unfold toUIntBO
    rw [if_pos rfl, hv]
    rfl
  have hI : toIntBO sys b .host = (toUIntBO sys b .host >>= fun i => .ok (signExtend (BitVec.ofNat 64 i) b.length).toInt) := rfl
  constructor
  · intro h
    have e : signedValue (8 * b.length) (valueIn sys .host b) = (valueIn sys .host b : Int) := if_pos h
    rw [e, if_neg (by omega), Int.toNat_natCast] at hU
    refine ⟨hU, ?_⟩
    rw [hI, hU]
    show Res.ok _ = _
    have en : (BitVec.ofNat 64 (valueIn sys .host b)).toNat = valueIn sys .host b := by
      rw [BitVec.toNat_ofNat]; exact Nat.mod_eq_of_lt (by omega)
    rw [signExtend_value (by omega) hb (by rw [en]; exact hlt), en, e]
  · intro h
    have hneg : signedValue (8 * b.length) (valueIn sys .host b) < 0 := by
      unfold signedValue
      rw [if_neg (by omega)]
      have e4 : ((2 ^ (8 * b.length) : Nat) : Int) = (2 : Int) ^ (8 * b.length) := by push_cast; rfl
      omega
    rw [if_pos hneg] at hU
    exact ⟨hU, by rw [hI, hU]; rfl⟩

/-- C28: other lengths are rejected. -/
theorem C28_length (sys : Endian) {b : List Byte} (h : b = [] ∨ 8 < b.length) {o : Order} (ho : o ≠ .undef) :
    toUIntBO sys b o = .throw .invalidValue ∧ toIntBO sys b o = .throw .invalidValue := by
  have hf : ∀ l, toUIntFixed b l = .throw .invalidValue := by
    intro l
    unfold toUIntFixed
    rcases h with h | h
    · subst h; rfl
    · rw [if_neg (by omega), if_pos (by omega)]
  unfold toIntBO toUIntBO toIntOrder toUIntOrder
  cases o <;> cases sys <;> first
    | exact absurd rfl ho
    | (simp only [hf]; exact ⟨rfl, rfl⟩)

/-- C28 does not hold for `Host`: on a little-endian machine one byte of 255 gives neither 255 nor -1. -/
theorem C28_fails_host : toUIntBO .little [255] .host = .throw .overflow ∧ toIntBO .little [255] .host = .throw .overflow ∧
    toUIntBO .little [255] .little = .ok 255 ∧ toIntBO .little [255] .little = .ok (-1) := by decide

example : toUIntBO .little [1, 2, 3] .big = .ok 0x010203 := by decide
example : toIntBO .little [0xfe, 0xff, 0xff] .little = .ok (-2) := by decide

end Verif.Ints
