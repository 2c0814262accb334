import Verif.Ints.Spec
/-!
# C23: packing and unpacking
-/

namespace Verif.Ints

/-- Byte `k` of a bit pattern, the least significant one being byte 0. -/
def byteOf {w : Nat} (x : BitVec w) (k : Nat) : Byte := ⟨(x >>> (8 * k)).setWidth 8⟩

theorem byteOf_toNat {w : Nat} (x : BitVec w) (k : Nat) : (byteOf x k).toNat = x.toNat / 256 ^ k % 256 := by
  show ((x >>> (8 * k)).setWidth 8).toNat = _
  rw [BitVec.toNat_setWidth, BitVec.toNat_ushiftRight, Nat.shiftRight_eq_div_pow, show (256 : Nat) = 2 ^ 8 from rfl, ← Nat.pow_mul]

theorem beValue_foldl (b : List Byte) (n : Nat) : b.foldl (fun n c => n * 256 + c.toNat) n = n * 256 ^ b.length + beValue b := by
  unfold beValue
  induction b generalizing n with
  | nil => simp
  | cons c b ih =>
    rw [List.foldl_cons, List.foldl_cons, ih, ih (0 * 256 + c.toNat)]
    simp only [List.length_cons, Nat.pow_succ, Nat.zero_mul, Nat.zero_add, Nat.add_mul]
    rw [Nat.mul_assoc, Nat.mul_comm 256 (256 ^ b.length), Nat.add_assoc]

theorem beValue_cons (c : Byte) (b : List Byte) : beValue (c :: b) = c.toNat * 256 ^ b.length + beValue b := by
  have := beValue_foldl b (0 * 256 + c.toNat)
  unfold beValue at this ⊢
  rw [List.foldl_cons, this]; simp

theorem beValue_append (a b : List Byte) : beValue (a ++ b) = beValue a * 256 ^ b.length + beValue b := by
  rw [← beValue_foldl]
  unfold beValue
  rw [List.foldl_append]

theorem beValue_lt (b : List Byte) : beValue b < 256 ^ b.length := by
  induction b with
  | nil => decide
  | cons c b ih =>
    rw [beValue_cons, List.length_cons, Nat.pow_succ]
    have hc : c.toNat < 256 := c.toNat_lt
    have : c.toNat * 256 ^ b.length + 256 ^ b.length ≤ 256 * 256 ^ b.length := by
      rw [← Nat.succ_mul]; exact Nat.mul_le_mul_right _ hc
    omega

/-- The bytes of a bit pattern, least significant one first. -/
def leBytes {w : Nat} (n : Nat) (x : BitVec w) : List Byte := (List.range n).map (byteOf x)

theorem leBytes_length {w : Nat} (n : Nat) (x : BitVec w) : (leBytes n x).length = n := by simp [leBytes]

theorem leBytes_value {w : Nat} (n : Nat) (x : BitVec w) : beValue (leBytes n x).reverse = x.toNat % 256 ^ n := by
  induction n with
  | zero => simp [leBytes, beValue, Nat.mod_one]
  | succ n ih =>
    have : (leBytes (n + 1) x).reverse = byteOf x n :: (leBytes n x).reverse := by
      simp [leBytes, List.range_succ]
    rw [this, beValue_cons, ih, byteOf_toNat, List.length_reverse, leBytes_length]
    rw [Nat.pow_succ, Nat.mod_mul, Nat.mul_comm (256 ^ n), Nat.add_comm]

theorem pow8 (n : Nat) : 2 ^ (8 * n) = 256 ^ n := by rw [Nat.pow_mul]

/-! ## `pack` -/

theorem shr8_getLsbD {w : Nat} (t : Ty) (x : BitVec w) (i : Nat) (h : i + 8 < w) : (t.shr8 x).getLsbD i = x.getLsbD (i + 8) := by
  unfold Ty.shr8
  split
  · rw [BitVec.getLsbD_sshiftRight]
    simp only [Nat.add_comm 8 i, h, if_true]
    have : ¬ (w ≤ i) := by omega
    simp [this]
  · rw [BitVec.getLsbD_ushiftRight, Nat.add_comm]

theorem shr8_byteOf {w : Nat} (t : Ty) (x : BitVec w) (k : Nat) (h : 8 * (k + 2) ≤ w) : byteOf (t.shr8 x) k = byteOf x (k + 1) := by
  unfold byteOf
  congr 1
  apply BitVec.eq_of_getLsbD_eq
  intro i hi
  simp only [BitVec.getLsbD_setWidth, BitVec.getLsbD_ushiftRight, hi, decide_true, Bool.true_and]
  rw [shr8_getLsbD t x _ (by omega)]
  congr 1; omega

theorem low_byte {w : Nat} (x : BitVec w) (hw : 8 ≤ w) : (⟨(x &&& 0xff#w).setWidth 8⟩ : Byte) = byteOf x 0 := by
  unfold byteOf
  congr 1
  apply BitVec.eq_of_toNat_eq
  rw [BitVec.toNat_setWidth, BitVec.toNat_setWidth, BitVec.toNat_and, BitVec.toNat_ofNat, BitVec.toNat_ushiftRight]
  have h1 : 255 % 2 ^ w = 255 := Nat.mod_eq_of_lt (Nat.lt_of_lt_of_le (by decide : 255 < 2 ^ 8) (Nat.pow_le_pow_right (by decide) hw))
  rw [h1, show 255 = 2 ^ 8 - 1 from rfl, Nat.and_two_pow_sub_one_eq_mod, Nat.mod_mod]
  simp

theorem packLoop_length {w : Nat} (t : Ty) : ∀ (is : List Nat) (x : BitVec w) (dst : List Byte), (packLoop t is x dst).length = dst.length := by
  intro is
  induction is with
  | nil => intros; rfl
  | cons i is ih => intro x dst; unfold packLoop; rw [ih, List.length_set]

/-- Positions not in the list are left alone. -/
theorem packLoop_other {w : Nat} (t : Ty) : ∀ (is : List Nat) (x : BitVec w) (dst : List Byte) (p : Nat),
    (∀ i ∈ is, t.bytes - i - 1 ≠ p) → (packLoop t is x dst)[p]? = dst[p]? := by
  intro is
  induction is with
  | nil => intros; rfl
  | cons i is ih =>
    intro x dst p h
    unfold packLoop
    rw [ih _ _ _ (fun j hj => h j (by simp [hj])), List.getElem?_set_ne (h i (by simp))]

theorem packLoop_get {w : Nat} (t : Ty) : ∀ (is : List Nat) (x : BitVec w) (dst : List Byte), dst.length = t.bytes →
    is.Nodup → (∀ i ∈ is, i < t.bytes) → 8 * is.length ≤ w → ∀ k (hk : k < is.length),
    (packLoop t is x dst)[t.bytes - is[k] - 1]? = some (byteOf x k) := by
  intro is
  induction is with
  | nil => intro x dst _ _ _ _ k hk; cases hk
  | cons i is ih =>
    intro x dst hl hn hb hw k hk
    obtain ⟨hn1, hn2⟩ := List.nodup_cons.1 hn
    rw [List.length_cons] at hw
    cases k with
    | zero =>
      have hib := hb i (by simp)
      show (packLoop t (i :: is) x dst)[t.bytes - i - 1]? = _
      unfold packLoop
      rw [packLoop_other]
      · rw [List.getElem?_set_self (by omega), low_byte x (by omega)]
      · intro j hj he
        have := hb j (by simp [hj])
        have : j = i := by omega
        exact hn1 (this ▸ hj)
    | succ k =>
      have hk' : k < is.length := by simpa using hk
      show (packLoop t (i :: is) x dst)[t.bytes - is[k] - 1]? = _
      unfold packLoop
      rw [ih _ _ (by rw [List.length_set]; exact hl) hn2 (fun j hj => hb j (by simp [hj])) (by omega) k hk',
        shr8_byteOf t x k (by omega)]

theorem packLoop_little {t : Ty} (x : BitVec (8 * t.bytes)) :
    packLoop t (List.range t.bytes).reverse x (List.replicate t.bytes 0) = leBytes t.bytes x := by
  apply List.ext_getElem?
  intro p
  rcases Nat.lt_or_ge p t.bytes with hp | hp
  · have := packLoop_get t (List.range t.bytes).reverse x (List.replicate t.bytes 0) (by simp) (by rw [List.Nodup, List.pairwise_reverse]; exact (List.nodup_range (n := t.bytes)).imp (fun h => Ne.symm h))
      (by intro i hi; simpa using hi) (by simp) p (by simpa using hp)
    have e : (List.range t.bytes).reverse[p]'(by simpa using hp) = t.bytes - 1 - p := by simp
    rw [e, show t.bytes - (t.bytes - 1 - p) - 1 = p by omega] at this
    rw [this]; simp [leBytes, hp]
  · rw [List.getElem?_eq_none (by rw [packLoop_length]; simpa using hp), List.getElem?_eq_none (by rw [leBytes_length]; exact hp)]

theorem packLoop_big {t : Ty} (x : BitVec (8 * t.bytes)) :
    packLoop t (List.range t.bytes) x (List.replicate t.bytes 0) = (leBytes t.bytes x).reverse := by
  apply List.ext_getElem?
  intro p
  rcases Nat.lt_or_ge p t.bytes with hp | hp
  · have := packLoop_get t (List.range t.bytes) x (List.replicate t.bytes 0) (by simp) List.nodup_range
      (by intro i hi; simpa using hi) (by simp) (t.bytes - 1 - p) (by simp; omega)
    have e : (List.range t.bytes)[t.bytes - 1 - p]'(by simp; omega) = t.bytes - 1 - p := by simp
    rw [e, show t.bytes - (t.bytes - 1 - p) - 1 = p by omega] at this
    rw [this, List.getElem?_reverse (by rw [leBytes_length]; exact hp), leBytes_length]
    simp [leBytes, show t.bytes - 1 - p < t.bytes by omega]
  · rw [List.getElem?_eq_none (by rw [packLoop_length]; simpa using hp), List.getElem?_eq_none (by rw [List.length_reverse, leBytes_length]; exact hp)]

/-! ## `unpack` -/

theorem shift_or {w : Nat} (x : BitVec w) (c : Byte) (hw : 8 ≤ w) :
    ((x <<< 8) ||| c.toBitVec.setWidth w).toNat = (x.toNat * 256 + c.toNat) % 2 ^ w := by
  have hc : c.toNat < 256 := c.toNat_lt
  have hp : 2 ^ 8 ≤ 2 ^ w := Nat.pow_le_pow_right (by decide) hw
  rw [BitVec.toNat_or, BitVec.toNat_shiftLeft, BitVec.toNat_setWidth, Nat.shiftLeft_eq]
  have e1 : c.toBitVec.toNat % 2 ^ w = c.toNat := Nat.mod_eq_of_lt (Nat.lt_of_lt_of_le hc hp)
  rw [e1]
  obtain ⟨k, rfl⟩ : ∃ k, w = 8 + k := ⟨w - 8, by omega⟩
  have e2 : x.toNat * 2 ^ 8 % 2 ^ (8 + k) = (x.toNat % 2 ^ k) * 2 ^ 8 := by
    rw [Nat.pow_add, Nat.mul_comm (2 ^ 8) (2 ^ k), Nat.mul_mod_mul_right]
  rw [e2, ← Nat.shiftLeft_eq, ← Nat.shiftLeft_add_eq_or_of_lt (i := 8) hc, Nat.shiftLeft_eq, ← e2]
  have e3 : (x.toNat * 256 + c.toNat) % 2 ^ (8 + k) = x.toNat * 2 ^ 8 % 2 ^ (8 + k) + c.toNat := by
    rw [e2]
    have h1 : x.toNat * 256 + c.toNat = (x.toNat % 2 ^ k * 2 ^ 8 + c.toNat) + (x.toNat / 2 ^ k) * 2 ^ (8 + k) := by
      have := Nat.div_add_mod x.toNat (2 ^ k)
      rw [Nat.pow_add]
      have h3 : x.toNat / 2 ^ k * (2 ^ 8 * 2 ^ k) = 256 * (2 ^ k * (x.toNat / 2 ^ k)) := by
        rw [Nat.mul_comm (x.toNat / 2 ^ k), Nat.mul_assoc, show (2 : Nat) ^ 8 = 256 from rfl]
      rw [h3, show (2 : Nat) ^ 8 = 256 from rfl]
      omega
    rw [h1, Nat.add_mul_mod_self_right, Nat.mod_eq_of_lt]
    have : x.toNat % 2 ^ k < 2 ^ k := Nat.mod_lt _ (Nat.pow_pos (by decide))
    have : (x.toNat % 2 ^ k + 1) * 2 ^ 8 ≤ 2 ^ k * 2 ^ 8 := Nat.mul_le_mul_right _ this
    rw [Nat.pow_add, Nat.mul_comm (2 ^ 8)]
    omega
  rw [e3]

theorem unpackLoop_toNat {w : Nat} (hw : 8 ≤ w) : ∀ (is : List Nat) (x : BitVec w) (src : List Byte),
    (unpackLoop is x src).toNat = ((is.map fun i => src[i]?.getD 0).foldl (fun n c => n * 256 + c.toNat) x.toNat) % 2 ^ w := by
  intro is
  induction is with
  | nil => intro x src; simp [unpackLoop, Nat.mod_eq_of_lt x.isLt]
  | cons i is ih =>
    intro x src
    unfold unpackLoop
    rw [ih, shift_or _ _ hw, List.map_cons, List.foldl_cons, beValue_foldl, beValue_foldl]
    rw [Nat.add_mod, Nat.mod_mul_mod, ← Nat.add_mod]

theorem unpack_range {w : Nat} (hw : 8 ≤ w) (src : List Byte) (h : 8 * src.length ≤ w) :
    (unpackLoop (List.range src.length) (0 : BitVec w) src).toNat = beValue src := by
  rw [unpackLoop_toNat hw]
  have : (List.range src.length).map (fun i => src[i]?.getD 0) = src := by
    apply List.ext_getElem
    · simp
    · intro i h1 h2; simp [h2]
  rw [this]
  show beValue src % 2 ^ w = _
  apply Nat.mod_eq_of_lt
  refine Nat.lt_of_lt_of_le (beValue_lt src) ?_
  rw [← pow8]; exact Nat.pow_le_pow_right (by decide) h

theorem unpack_range_rev {w : Nat} (hw : 8 ≤ w) (src : List Byte) (h : 8 * src.length ≤ w) :
    (unpackLoop (List.range src.length).reverse (0 : BitVec w) src).toNat = beValue src.reverse := by
  rw [unpackLoop_toNat hw]
  have : (List.range src.length).map (fun i => src[i]?.getD 0) = src := by
    apply List.ext_getElem
    · simp
    · intro i h1 h2; simp [h2]
  rw [List.map_reverse, this]
  show beValue src.reverse % 2 ^ w = _
  apply Nat.mod_eq_of_lt
  refine Nat.lt_of_lt_of_le (beValue_lt src.reverse) ?_
  rw [← pow8, List.length_reverse]; exact Nat.pow_le_pow_right (by decide) h

/-! ## The property -/

/-- C23: packing gives `sizeof(T)` bytes with the value's bit pattern in the byte order, for every value except negative
    `int8_t`. -/
theorem C23_pack {sys : Endian} {t : Ty} (_ : t.Std) (x : BitVec (8 * t.bytes)) {o : Order} (ho : o ≠ .undef)
    (h8 : ¬ (t.bytes = 1 ∧ t.signed = true ∧ x.msb = true)) :
    ∃ b, pack sys t x o = .ok b ∧ b.length = t.bytes ∧ valueIn sys o b = x.toNat := by
  have hx : x.toNat % 256 ^ t.bytes = x.toNat := by rw [← pow8]; exact Nat.mod_eq_of_lt x.isLt
  have big : beValue (leBytes t.bytes x).reverse = x.toNat := by rw [leBytes_value, hx]
  have one : t.bytes = 1 → [(⟨x.setWidth 8⟩ : Byte)] = leBytes t.bytes x := by
    intro h1
    simp [leBytes, h1, byteOf]
  unfold pack
  by_cases h1 : t.bytes = 1
  · have hm : (t.signed && x.msb) = false := by
      cases hs : t.signed with
      | false => rfl
      | true =>
        cases hm : x.msb with
        | false => rfl
        | true => exact absurd ⟨h1, hs, hm⟩ h8
    have hb : beValue (leBytes t.bytes x) = x.toNat := by
      rw [← one h1]; rw [← one h1] at big; exact big
    have hmain : ∀ (sys : Endian) (o : Order), valueIn sys o (leBytes t.bytes x) = x.toNat := by
      intro sys o
      unfold valueIn
      split <;> assumption
    cases o <;> cases sys <;> simp only [hm, h1, if_true, if_false, Endian.order, reduceCtorEq, Bool.false_eq_true] <;>
      first
      | exact absurd rfl ho
      | exact ⟨_, rfl, by rw [one h1, leBytes_length]; exact h1, by rw [one h1]; exact hmain _ _⟩
  · cases o <;> cases sys <;> simp only [h1, if_true, if_false, Endian.order, reduceCtorEq, indices, packLoop_big, packLoop_little] <;>
      first
      | exact absurd rfl ho
      | exact ⟨_, rfl, by rw [List.length_reverse, leBytes_length], big⟩
      | exact ⟨_, rfl, by rw [leBytes_length], big⟩

/-- C23: unpacking reads `sizeof(T)` bytes in the byte order and leaves the rest. -/
theorem C23_unpack {sys : Endian} {t : Ty} (ht : t.Std) {b rest : List Byte} (hb : b.length = t.bytes) {o : Order} (ho : o ≠ .undef) :
    ∃ x, unpack sys t (b ++ rest) o = some (x, rest) ∧ x.toNat = valueIn sys o b := by
  have hpos : 0 < t.bytes := by unfold Ty.Std at ht; omega
  unfold unpack
  have hl : ¬ (b ++ rest).length < t.bytes := by rw [List.length_append]; omega
  have e1 : (b ++ rest).take t.bytes = b := by rw [← hb]; simp
  have e2 : (b ++ rest).drop t.bytes = rest := by rw [← hb]; simp
  simp only [if_neg hl, e1, e2]
  have hr : List.range t.bytes = List.range b.length := by rw [hb]
  have big := unpack_range (w := 8 * t.bytes) (by omega) b (by omega)
  have lit := unpack_range_rev (w := 8 * t.bytes) (by omega) b (by omega)
  by_cases h1 : t.bytes = 1
  · obtain ⟨c, rfl⟩ : ∃ c, b = [c] := by
      match b, hb with
      | [c], _ => exact ⟨c, rfl⟩
      | [], hb => simp at hb; omega
      | _ :: _ :: _, hb => simp at hb; omega
    have hv : ∀ (sys : Endian) (o : Order), valueIn sys o [c] = c.toNat := by
      intro sys o
      have hc : beValue [c] = c.toNat := by simp [beValue]
      unfold valueIn
      split <;> exact hc
    have hc : (c.toBitVec.setWidth (8 * t.bytes)).toNat = c.toNat := by
      rw [BitVec.toNat_setWidth, h1]; exact Nat.mod_eq_of_lt c.toNat_lt
    cases o <;> cases sys <;> simp only [h1, if_true, if_false, Endian.order, reduceCtorEq] <;>
      first
      | exact absurd rfl ho
      | exact ⟨_, rfl, by rw [hv]; exact hc⟩
  · cases o <;> cases sys <;> simp only [h1, if_true, if_false, Endian.order, reduceCtorEq, indices] <;>
      first
      | exact absurd rfl ho
      | exact ⟨_, rfl, by rw [hr]; exact big⟩
      | exact ⟨_, rfl, by rw [hr]; exact lit⟩

/-- C23: too little data is an error, and so is an undefined byte order. -/
theorem C23_unpack_short {sys : Endian} {t : Ty} {b : List Byte} {o : Order} (h : b.length < t.bytes) : unpack sys t b o = none := by
  unfold unpack
  rw [if_pos h]

/-- C23: packing and unpacking again. -/
theorem C23_round_trip {sys : Endian} {t : Ty} (ht : t.Std) (x : BitVec (8 * t.bytes)) {o : Order} (ho : o ≠ .undef)
    (h8 : ¬ (t.bytes = 1 ∧ t.signed = true ∧ x.msb = true)) (rest : List Byte) :
    ∃ b, pack sys t x o = .ok b ∧ unpack sys t (b ++ rest) o = some (x, rest) := by
  obtain ⟨b, h1, h2, h3⟩ := C23_pack (sys := sys) ht x ho h8
  obtain ⟨y, g1, g2⟩ := C23_unpack (sys := sys) ht (rest := rest) h2 ho
  have : y = x := BitVec.eq_of_toNat_eq (by rw [g2, h3])
  exact ⟨b, h1, this ▸ g1⟩

theorem beValue_inj {a b : List Byte} (hl : a.length = b.length) (h : beValue a = beValue b) : a = b := by
  induction a generalizing b with
  | nil => cases b with
    | nil => rfl
    | cons c b => cases hl
  | cons c a ih =>
    cases b with
    | nil => cases hl
    | cons d b =>
      have hl' : a.length = b.length := by simpa using hl
      rw [beValue_cons, beValue_cons, hl'] at h
      have h1 := beValue_lt a
      have h2 := beValue_lt b
      rw [hl'] at h1
      have hp : 0 < 256 ^ b.length := Nat.pow_pos (by decide)
      have hq : c.toNat = d.toNat := by
        have e1 : (c.toNat * 256 ^ b.length + beValue a) / 256 ^ b.length = c.toNat := by
          rw [Nat.mul_comm, Nat.mul_add_div hp, Nat.div_eq_of_lt h1, Nat.add_zero]
        have e2 : (d.toNat * 256 ^ b.length + beValue b) / 256 ^ b.length = d.toNat := by
          rw [Nat.mul_comm, Nat.mul_add_div hp, Nat.div_eq_of_lt h2, Nat.add_zero]
        rw [← e1, ← e2, h]
      have hcd : c = d := UInt8.toNat_inj.1 hq
      subst hcd
      rw [ih hl' (by omega)]

theorem valueIn_inj {sys : Endian} {o : Order} {a b : List Byte} (hl : a.length = b.length) (h : valueIn sys o a = valueIn sys o b) : a = b := by
  have hr : beValue a.reverse = beValue b.reverse → a = b := by
    intro h
    have := beValue_inj (by simpa using hl) h
    simpa using this
  unfold valueIn at h
  cases o <;> cases sys <;> first
    | exact hr h
    | exact beValue_inj hl h

/-- C23: unpacking and packing again. -/
theorem C23_round_trip_bytes {sys : Endian} {t : Ty} (ht : t.Std) {b : List Byte} (hb : b.length = t.bytes) {o : Order} (ho : o ≠ .undef)
    (h8 : ¬ (t.bytes = 1 ∧ t.signed = true ∧ 128 ≤ beValue b)) :
    ∃ x, unpack sys t b o = some (x, []) ∧ pack sys t x o = .ok b := by
  obtain ⟨x, h1, h2⟩ := C23_unpack (sys := sys) ht (rest := []) hb ho
  rw [List.append_nil] at h1
  have h8' : ¬ (t.bytes = 1 ∧ t.signed = true ∧ x.msb = true) := by
    rintro ⟨g1, g2, g3⟩
    refine h8 ⟨g1, g2, ?_⟩
    have hv : valueIn sys o b = beValue b := by
      match b, hb with
      | [c], _ => unfold valueIn; cases o <;> cases sys <;> rfl
      | [], hb => simp at hb; omega
      | _ :: _ :: _, hb => simp at hb; omega
    rw [← hv, ← h2]
    rw [BitVec.msb_eq_decide, decide_eq_true_eq] at g3
    have e : 2 ^ (8 * t.bytes - 1) = 128 := by rw [g1]
    omega
  obtain ⟨b', g1, g2, g3⟩ := C23_pack (sys := sys) ht x ho h8'
  have e : b' = b := valueIn_inj (sys := sys) (o := o) (by rw [g2, hb]) (by rw [g3, h2])
  exact ⟨x, h1, e ▸ g1⟩

/-- C23 does not hold for negative values of type `int8`: packing them throws. -/
theorem C23_fails_negative_int8 (sys : Endian) : pack sys ⟨1, true⟩ (BitVec.ofInt 8 (-1)) .big = .throw .overflow ∧
    unpack sys ⟨1, true⟩ [255] .big = some (BitVec.ofInt 8 (-1), []) := by
  cases sys <;> exact ⟨rfl, rfl⟩

example : pack .little ⟨4, true⟩ (BitVec.ofInt 32 (-2)) .host = .ok [254, 255, 255, 255] := by decide
example : (⟨4, true⟩ : Ty).Std := by unfold Ty.Std; decide

end Verif.Ints
