import Verif.Net.Spec
import Verif.Ints.Pack
/-!
# C33, C34: addresses and networks
-/

namespace Verif.Net

open Verif.Ints

theorem and_high (x : BitVec 64) {k : Nat} (hk : k < 64) :
    (x &&& (0xffffffffffffffff#64 <<< k)).toNat = x.toNat / 2 ^ k * 2 ^ k := by
  have e : x &&& (0xffffffffffffffff#64 <<< k) = (x >>> k) <<< k := by
    apply BitVec.eq_of_getLsbD_eq
    intro i hi
    have ho : (0xffffffffffffffff#64) = BitVec.allOnes 64 := by decide
    rw [ho]
    simp only [BitVec.getLsbD_and, BitVec.getLsbD_shiftLeft, BitVec.getLsbD_allOnes, BitVec.getLsbD_ushiftRight]
    by_cases h : i < k
    · simp [h]
    · simp [h, hi]
      have h1 : k + (i - k) = i := by omega
      have h2 : i - k < 64 := by omega
      rw [h1]
      rw [BitVec.getLsbD_eq_getElem hi]
      simp [h2]
  rw [e, BitVec.toNat_shiftLeft, BitVec.toNat_ushiftRight, Nat.shiftRight_eq_div_pow, Nat.shiftLeft_eq]
  apply Nat.mod_eq_of_lt
  exact Nat.lt_of_le_of_lt (Nat.div_mul_le_self _ _) x.isLt

theorem num_lt (a : Address) : a.num < 2 ^ 128 := by
  unfold Address.num
  have h1 := a.a1.isLt
  have h2 := a.a2.isLt
  omega

theorem num_inj {a b : Address} (h : a.num = b.num) : a.a1 = b.a1 ∧ a.a2 = b.a2 := by
  unfold Address.num at h
  have h1 := a.a1.isLt
  have h2 := a.a2.isLt
  have h3 := b.a1.isLt
  have h4 := b.a2.isLt
  exact ⟨BitVec.eq_of_toNat_eq (by omega), BitVec.eq_of_toNat_eq (by omega)⟩

theorem eq_iff_num (a b : Address) : a.eq b = true ↔ a.num = b.num := by
  unfold Address.eq
  rw [Bool.and_eq_true, beq_iff_eq, beq_iff_eq]
  constructor
  · rintro ⟨h1, h2⟩; unfold Address.num; rw [h1, h2]
  · exact num_inj

/-- Masking keeps the first bits of an address and clears the others. -/
theorem mask_num (a : Address) {w : Nat} (hw : w ≤ 128) :
    ∃ m, a.mask (BitVec.ofNat 32 w) = .ok m ∧ m.family = a.family ∧ m.num = a.num / 2 ^ (128 - w) * 2 ^ (128 - w) := by
  have hwn : (BitVec.ofNat 32 w).toNat = w := by rw [BitVec.toNat_ofNat]; apply Nat.mod_eq_of_lt; omega
  have ha1 := a.a1.isLt
  have ha2 := a.a2.isLt
  unfold Address.mask
  by_cases h0 : w = 0
  · subst h0
    refine ⟨_, if_pos rfl, rfl, ?_⟩
    have h := num_lt a
    rw [Nat.sub_zero, Nat.div_eq_of_lt h, Nat.zero_mul]
    show (0#64).toNat * _ + (0#64).toNat = 0
    rw [BitVec.toNat_ofNat, Nat.zero_mod, Nat.zero_mul]
  · rw [if_neg (by intro h; rw [h] at hwn; exact h0 hwn.symm)]
    by_cases h1 : w < 64
    · have c1 : BitVec.ofNat 32 w < 64#32 := by rw [BitVec.lt_def, hwn]; exact h1
      have c2 : ¬ BitVec.ofNat 32 w > 64#32 := by
        show ¬ (64#32 < BitVec.ofNat 32 w)
        rw [BitVec.lt_def, hwn]; show ¬ 64 < w; omega
      have c3 : (64#32 - BitVec.ofNat 32 w).toNat = 64 - w := by
        rw [BitVec.toNat_sub, hwn]; show (2 ^ 32 - w + 64) % 2 ^ 32 = _; omega
      rw [if_pos c1, if_neg c2]
      simp only [shl64, c3, Res.ok_bind]
      rw [if_pos (show 64 - w < 64 by omega)]
      refine ⟨_, rfl, rfl, ?_⟩
      show (a.a1 &&& _).toNat * 2 ^ 64 + 0 = _
      rw [and_high _ (by omega)]
      have e : 2 ^ (128 - w) = 2 ^ 64 * 2 ^ (64 - w) := by rw [← Nat.pow_add]; congr 1; omega
      have d : a.num / 2 ^ 64 = a.a1.toNat := by unfold Address.num; omega
      rw [e, ← Nat.div_div_eq_div_mul, d, Nat.add_zero, Nat.mul_assoc, Nat.mul_comm (2 ^ 64)]
    · have c1 : ¬ BitVec.ofNat 32 w < 64#32 := by rw [BitVec.lt_def, hwn]; exact h1
      rw [if_neg c1]
      by_cases h2 : w = 64
      · have c2 : ¬ BitVec.ofNat 32 w > 64#32 := by
          show ¬ (64#32 < BitVec.ofNat 32 w)
          rw [BitVec.lt_def, hwn]; show ¬ 64 < w; omega
        rw [if_neg c2]
        refine ⟨_, rfl, rfl, ?_⟩
        show a.a1.toNat * 2 ^ 64 + 0 = _
        have d : a.num / 2 ^ 64 = a.a1.toNat := by unfold Address.num; omega
        rw [h2, d, Nat.add_zero]
      · have c2 : BitVec.ofNat 32 w > 64#32 := by
          show 64#32 < BitVec.ofNat 32 w
          rw [BitVec.lt_def, hwn]; show 64 < w; omega
        have c3 : (128#32 - BitVec.ofNat 32 w).toNat = 128 - w := by
          rw [BitVec.toNat_sub, hwn]; show (2 ^ 32 - w + 128) % 2 ^ 32 = _; omega
        rw [if_pos c2]
        simp only [shl64, c3, Res.ok_bind]
        rw [if_pos (show 128 - w < 64 by omega)]
        refine ⟨_, rfl, rfl, ?_⟩
        show a.a1.toNat * 2 ^ 64 + (a.a2 &&& _).toNat = _
        rw [and_high _ (by omega)]
        have e : a.a1.toNat * 2 ^ 64 = 2 ^ (128 - w) * (2 ^ (64 - (128 - w)) * a.a1.toNat) := by
          rw [← Nat.mul_assoc, ← Nat.pow_add, Nat.mul_comm]; congr 2; omega
        unfold Address.num
        rw [e, Nat.mul_add_div (Nat.two_pow_pos _), Nat.add_mul, Nat.mul_comm (2 ^ (128 - w))]

/-! ## C33: binary representation and order -/

theorem isLittle_value (sys : Endian) (o : Order) (a b : List Byte) :
    valueIn sys o (if isLittle sys o then b ++ a else a ++ b) = valueIn sys o a * 256 ^ b.length + valueIn sys o b := by
  have hl : beValue ((b ++ a).reverse) = beValue a.reverse * 256 ^ b.length + beValue b.reverse := by
    rw [List.reverse_append, beValue_append, List.length_reverse]
  cases o <;> cases sys <;> simp [isLittle, valueIn, Endian.order, beValue_append]

/-- C33: what packing does: 4 or 16 bytes that are the address in the given byte order. -/
theorem C33_pack (sys : Endian) {a : Address} (hv : a.Valid) (hf : a.family ≠ .undef) {o : Order} (ho : o ≠ .undef) :
    ∃ b, a.pack sys o = .ok b ∧ b.length = a.family.bits / 8 ∧ valueIn sys o b = a.num := by
  unfold Address.pack
  cases hc : a.family with
  | undef => exact absurd hc hf
  | v4 =>
    have h := hv hc
    have h1 : a.a1.toNat = 0 := by unfold Address.num at h; omega
    have h2 : a.a2.toNat < 2 ^ 32 := by unfold Address.num at h; omega
    dsimp only
    rw [if_pos h2]
    obtain ⟨b, g1, g2, g3⟩ := C23_pack (sys := sys) (t := u32) (by unfold Ty.Std u32; decide) (a.a2.setWidth 32) ho (by
      rintro ⟨h, _⟩; exact absurd h (by decide))
    refine ⟨b, g1, g2, ?_⟩
    rw [g3]
    show (a.a2.setWidth 32).toNat = _
    rw [BitVec.toNat_setWidth, Nat.mod_eq_of_lt h2]
    unfold Address.num
    omega
  | v6 =>
    obtain ⟨x, g1, g2, g3⟩ := C23_pack (sys := sys) (t := u64) (by unfold Ty.Std u64; decide) a.a1 ho (by
      rintro ⟨h, _⟩; exact absurd h (by decide))
    obtain ⟨y, k1, k2, k3⟩ := C23_pack (sys := sys) (t := u64) (by unfold Ty.Std u64; decide) a.a2 ho (by
      rintro ⟨h, _⟩; exact absurd h (by decide))
    dsimp only
    rw [g1, k1]
    have e : (if isLittle sys o then Res.ok (y ++ x) else Res.ok (x ++ y)) = Res.ok (if isLittle sys o then y ++ x else x ++ y) := by
      split <;> rfl
    simp only [Res.ok_bind]
    rw [e]
    refine ⟨_, rfl, ?_, ?_⟩
    · have : x.length = 8 := g2
      have : y.length = 8 := k2
      show _ = 16
      split <;> rw [List.length_append] <;> omega
    · rw [isLittle_value sys o x y, g3, k3, k2]
      rfl

/-- C33: what unpacking does: the number the first 4 or 16 bytes are in the given byte order; the rest is left. -/
theorem C33_unpack (sys : Endian) {f : Family} (hf : f ≠ .undef) {b rest : List Byte} (hb : b.length = f.bits / 8)
    {o : Order} (ho : o ≠ .undef) :
    ∃ a, Address.unpack sys (b ++ rest) f o = some (a, rest) ∧ a.family = f ∧ a.num = valueIn sys o b := by
  unfold Address.unpack
  cases f with
  | undef => exact absurd rfl hf
  | v4 =>
    have hb : b.length = 4 := hb
    dsimp only
    rw [if_neg (by rw [List.length_append]; omega)]
    obtain ⟨x, h1, h2⟩ := C23_unpack (sys := sys) (t := u32) (by unfold Ty.Std u32; decide) (rest := rest) hb ho
    rw [h1]
    refine ⟨_, rfl, rfl, ?_⟩
    rw [← h2]
    show 0 * 2 ^ 64 + (x.setWidth 64).toNat = x.toNat
    rw [BitVec.toNat_setWidth, Nat.mod_eq_of_lt (by have : x.toNat < 2 ^ 32 := x.isLt; omega)]
    omega
  | v6 =>
    have hb : b.length = 16 := hb
    dsimp only
    rw [if_neg (by rw [List.length_append]; omega)]
    have hs : b = b.take 8 ++ b.drop 8 := (List.take_append_drop 8 b).symm
    have l1 : (b.take 8).length = 8 := by rw [List.length_take]; omega
    have l2 : (b.drop 8).length = 8 := by rw [List.length_drop]; omega
    generalize b.take 8 = p at hs l1
    generalize b.drop 8 = q at hs l2
    subst hs
    obtain ⟨x, h1, h2⟩ := C23_unpack (sys := sys) (t := u64) (by unfold Ty.Std u64; decide) (rest := q ++ rest) l1 ho
    obtain ⟨y, k1, k2⟩ := C23_unpack (sys := sys) (t := u64) (by unfold Ty.Std u64; decide) (rest := rest) l2 ho
    rw [List.append_assoc, h1]
    dsimp only
    rw [k1]
    dsimp only
    by_cases hl : isLittle sys o = true
    · rw [if_pos hl]
      refine ⟨_, rfl, rfl, ?_⟩
      have := isLittle_value sys o q p
      rw [if_pos hl] at this
      rw [this, ← h2, ← k2, l1]
      rfl
    · rw [if_neg hl]
      refine ⟨_, rfl, rfl, ?_⟩
      have := isLittle_value sys o p q
      rw [if_neg hl] at this
      rw [this, ← h2, ← k2, l2]
      rfl

/-- C33: too little data is an error, never a wrong address. -/
theorem C33_unpack_short (sys : Endian) {f : Family} {b : List Byte} (hb : b.length < f.bits / 8) (o : Order) :
    Address.unpack sys b f o = none := by
  unfold Address.unpack
  cases f with
  | undef => rfl
  | v4 => exact if_pos hb
  | v6 => exact if_pos hb

/-- C33: packing an address and unpacking it again. -/
theorem C33_round_trip (sys : Endian) {a : Address} (hv : a.Valid) (hf : a.family ≠ .undef) {o : Order} (ho : o ≠ .undef)
    (rest : List Byte) : ∃ b, a.pack sys o = .ok b ∧ Address.unpack sys (b ++ rest) a.family o = some (a, rest) := by
  obtain ⟨b, h1, h2, h3⟩ := C33_pack sys hv hf ho
  obtain ⟨c, g1, g2, g3⟩ := C33_unpack sys hf (rest := rest) h2 ho
  have e : c = a := by
    obtain ⟨e1, e2⟩ := num_inj (g3.trans h3)
    cases c; cases a
    simp only [Address.mk.injEq] at *
    exact ⟨e1, e2, g2⟩
  exact ⟨b, h1, e ▸ g1⟩

/-- C33: the constructors give valid addresses. -/
theorem C33_valid (sys : Endian) :
    (∀ x, (Address.ofV4 x).Valid) ∧ (∀ hi lo, (Address.ofV6 hi lo).Valid) ∧ Address.unset.Valid ∧
    (∀ r a, Address.ofText r = .ok a → a.Valid) ∧
    (∀ b f o a rest, Address.unpack sys b f o = some (a, rest) → a.Valid) ∧
    (∀ (a m : Address) (w : Nat), a.Valid → a.mask (BitVec.ofNat 32 w) = .ok m → w ≤ 128 → m.Valid) := by
  have v4 : ∀ x, (Address.ofV4 x).Valid := by
    intro x _
    have : x.toNat < 2 ^ 32 := x.isLt
    show 0 * 2 ^ 64 + (x.setWidth 64).toNat < _
    rw [BitVec.toNat_setWidth, Nat.mod_eq_of_lt (by omega)]
    omega
  have v6 : ∀ hi lo, (Address.ofV6 hi lo).Valid := by intro hi lo h; cases h
  refine ⟨v4, v6, (by intro h; cases h), ?_, ?_, ?_⟩
  · rintro (_ | x | ⟨hi, lo⟩) a h
    · cases h
    · cases h; exact v4 x
    · cases h
      intro h
      have h : (if hi = 0 ∧ lo &&& 0xffffffff00000000#64 = 0 then Family.v4 else Family.v6) = .v4 := h
      split at h
      · next hc =>
        obtain ⟨h1, h2⟩ := hc
        subst h1
        have e : (0xffffffff00000000#64) = 0xffffffffffffffff#64 <<< 32 := by decide
        have hn := and_high lo (k := 32) (by omega)
        rw [← e, h2] at hn
        show 0 * 2 ^ 64 + lo.toNat < _
        have hn : 0 = lo.toNat / 2 ^ 32 * 2 ^ 32 := hn
        omega
      · cases h
  · intro b f o a rest h
    unfold Address.unpack at h
    cases f with
    | undef => cases h
    | v4 =>
      dsimp only at h
      split at h
      · cases h
      · split at h
        · cases h; exact v4 _
        · cases h
    | v6 =>
      dsimp only at h
      split at h
      · cases h
      · split at h
        · split at h
          · split at h <;> (cases h; exact v6 _ _)
          · cases h
        · cases h
  · intro a m w hv h hw hf
    obtain ⟨m', g1, g2, g3⟩ := mask_num a hw
    rw [g1] at h
    cases h
    rw [g3]
    exact Nat.lt_of_le_of_lt (Nat.div_mul_le_self _ _) (hv (g2 ▸ hf))

/-- C33: `<` is the order of the numbers, with the family deciding between addresses that are the same number. -/
theorem C33_lt (a b : Address) : a.lt b = true ↔ a.num < b.num ∨ (a.num = b.num ∧ a.family.value < b.family.value) := by
  unfold Address.lt Address.num
  have h1 := a.a1.isLt
  have h2 := a.a2.isLt
  have h3 := b.a1.isLt
  have h4 := b.a2.isLt
  simp only [Bool.or_eq_true, Bool.and_eq_true, Bool.not_eq_true', decide_eq_true_eq, decide_eq_false_iff_not, BitVec.lt_def]
  constructor
  · rintro (h | ⟨h, g | ⟨g, k⟩⟩)
    · omega
    · omega
    · omega
  · rintro (h | ⟨h, k⟩)
    · by_cases hh : a.a1.toNat < b.a1.toNat
      · exact Or.inl hh
      · exact Or.inr ⟨by omega, Or.inl (by omega)⟩
    · exact Or.inr ⟨by omega, Or.inr ⟨by omega, k⟩⟩

/-- C33 (partial): on addresses of one family `==` and `<` are a total order. What is missing: `C33_fails_order`. -/
theorem C33_order_partial {a b : Address} (hf : a.family = b.family) :
    (a.eq b = true ↔ a = b) ∧ (a.lt b = true ↔ a.num < b.num) ∧
    ((a.lt b = true ∧ a.eq b = false ∧ b.lt a = false) ∨ (a.lt b = false ∧ a.eq b = true ∧ b.lt a = false) ∨
      (a.lt b = false ∧ a.eq b = false ∧ b.lt a = true)) := by
  have e1 : a.lt b = true ↔ a.num < b.num := by
    rw [C33_lt, hf]
    constructor
    · rintro (h | ⟨_, h⟩)
      · exact h
      · omega
    · exact Or.inl
  have e2 : b.lt a = true ↔ b.num < a.num := by
    rw [C33_lt, hf]
    constructor
    · rintro (h | ⟨_, h⟩)
      · exact h
      · omega
    · exact Or.inl
  have e3 := eq_iff_num a b
  refine ⟨?_, e1, ?_⟩
  · rw [e3]
    constructor
    · intro h
      obtain ⟨h1, h2⟩ := num_inj h
      cases a; cases b
      simp only [Address.mk.injEq] at *
      exact ⟨h1, h2, hf⟩
    · rintro rfl; rfl
  · have f1 : a.lt b = false ↔ ¬ a.num < b.num := by rw [← e1, Bool.not_eq_true]
    have f2 : b.lt a = false ↔ ¬ b.num < a.num := by rw [← e2, Bool.not_eq_true]
    have f3 : a.eq b = false ↔ ¬ a.num = b.num := by rw [← e3, Bool.not_eq_true]
    rw [e1, e2, e3, f1, f2, f3]
    omega

/-- C33: `<` is transitive and irreflexive on all addresses. -/
theorem C33_strict (a b c : Address) : a.lt a = false ∧ (a.lt b = true → b.lt c = true → a.lt c = true) := by
  constructor
  · rw [← Bool.not_eq_true, C33_lt]; omega
  · rw [C33_lt, C33_lt, C33_lt]; omega

/-- C33 does not hold across families: the text `::1` becomes an IPv4 address, the same address unpacked from 16 bytes is an IPv6
    one; they are equal and yet one is less than the other. -/
theorem C33_fails_order : ∃ x y : Address,
    Address.ofText (some (.inr (0, 1))) = .ok x ∧
    Address.unpack .little [0,0,0,0, 0,0,0,0, 0,0,0,0, 0,0,0,1] .v6 .network = some (y, []) ∧
    x.eq y = true ∧ x.lt y = true ∧ y.lt x = false :=
  ⟨⟨0, 1, .v4⟩, ⟨0, 1, .v6⟩, by decide, by decide, by decide, by decide, by decide⟩

/-- C33 does not hold for `::1` as text either: an address written as IPv6 is packed into four bytes. -/
theorem C33_fails_text : ∃ x : Address, Address.ofText (some (.inr (0, 1))) = .ok x ∧ x.pack .little .network = .ok [0, 0, 0, 1] :=
  ⟨⟨0, 1, .v4⟩, by decide, by decide⟩

example : (Address.ofV4 0x01020304#32).Valid ∧ (Address.ofV4 0x01020304#32).pack .little .little = .ok [4, 3, 2, 1] :=
  ⟨(C33_valid .little).1 _, by decide⟩

/-! ## C34: networks -/

theorem bits_or (f : Family) : f.bits = 32 ∨ f.bits = 128 := by cases f <;> simp [Family.bits]

/-- A network made with a valid length from an address. -/
theorem ofAddress_spec {p : Address} (hf : p.family ≠ .undef) {n : Nat} (hn : n ≤ p.family.bits) :
    ∃ net, Network.ofAddress p n = .ok net ∧ net.len = BitVec.ofNat 32 (n + (128 - p.family.bits)) ∧
      net.prefix'.family = p.family ∧
      net.prefix'.num = p.num / 2 ^ (p.family.bits - n) * 2 ^ (p.family.bits - n) := by
  unfold Network.ofAddress
  cases hc : p.family with
  | undef => exact absurd hc hf
  | v4 =>
    rw [hc] at hn
    have hn : n ≤ 32 := hn
    dsimp only
    rw [if_neg (by omega)]
    unfold Network.mk'
    rw [if_pos hc, if_neg (by omega)]
    have e : BitVec.ofInt 32 ((n : Int) + 96) = BitVec.ofNat 32 (n + 96) := by
      rw [show (n : Int) + 96 = ((n + 96 : Nat) : Int) by omega, BitVec.ofInt_natCast]
    rw [e]
    obtain ⟨m, g1, g2, g3⟩ := mask_num p (w := n + 96) (by omega)
    rw [g1]
    refine ⟨_, rfl, rfl, g2.trans hc, ?_⟩
    rw [g3]
    have : 128 - (n + 96) = 32 - n := by omega
    rw [this]
    rfl
  | v6 =>
    rw [hc] at hn
    have hn : n ≤ 128 := hn
    dsimp only
    rw [if_neg (by omega)]
    unfold Network.mk'
    rw [if_neg (by rw [hc]; intro h; cases h)]
    rw [BitVec.ofInt_natCast]
    obtain ⟨m, g1, g2, g3⟩ := mask_num p (w := n) (by omega)
    rw [g1]
    exact ⟨_, rfl, rfl, g2.trans hc, g3⟩

theorem len_toInt {n : Nat} (h : n ≤ 128) : (BitVec.ofNat 32 n).toInt = n := by
  rw [BitVec.toInt_eq_toNat_cond, BitVec.toNat_ofNat, Nat.mod_eq_of_lt (by omega), if_pos (by omega)]

/-- C34: a network contains an address iff the first bits of both are the same; no shift is undefined; prefix and length are what
    the network was made with. IPv4 addresses are the IPv6 addresses with 96 leading zero bits. -/
theorem C34_contains {p : Address} (hf : p.family ≠ .undef) {n : Nat} (hn : n ≤ p.family.bits) :
    ∃ net, Network.ofAddress p n = .ok net ∧ net.length = n ∧
      net.prefix'.family = p.family ∧ net.prefix'.num = p.num / 2 ^ (p.family.bits - n) * 2 ^ (p.family.bits - n) ∧
      ∀ x : Address, ∃ r, net.contains x = .ok r ∧
        (r = true ↔ SamePrefix (n + (128 - p.family.bits)) x.num p.num) := by
  obtain ⟨net, h1, h2, h3, h4⟩ := ofAddress_spec hf hn
  have hw : n + (128 - p.family.bits) ≤ 128 := by have := bits_or p.family; omega
  have hk : 128 - (n + (128 - p.family.bits)) = p.family.bits - n := by
    have := bits_or p.family; omega
  refine ⟨net, h1, ?_, h3, h4, ?_⟩
  · unfold Network.length
    rw [h2, len_toInt hw, h3]
    cases hc : p.family with
    | undef => exact absurd hc hf
    | v4 => rw [if_pos rfl]; show ((n + 96 : Nat) : Int) - 96 = _; omega
    | v6 => rw [if_neg (by decide)]; show ((n + 0 : Nat) : Int) = _; omega
  · intro x
    obtain ⟨m, g1, g2, g3⟩ := mask_num x hw
    unfold Network.contains
    rw [h2, g1]
    refine ⟨_, rfl, ?_⟩
    rw [eq_iff_num, g3, h4, hk]
    unfold SamePrefix
    rw [hk]
    constructor
    · intro h
      exact Nat.eq_of_mul_eq_mul_right (Nat.two_pow_pos _) h
    · intro h
      rw [h]

/-- C34: for two addresses of the family IPv4 it is about the first `n` of 32 bits. -/
theorem C34_v4 {p x : Address} (hp : p.Valid) (hx : x.Valid) (hpf : p.family = .v4) (hxf : x.family = .v4) {n : Nat} (hn : n ≤ 32) :
    ∃ net, Network.ofAddress p n = .ok net ∧
      (net.contains x = .ok true ↔ x.num / 2 ^ (32 - n) = p.num / 2 ^ (32 - n)) ∧ x.num < 2 ^ 32 ∧ p.num < 2 ^ 32 := by
  obtain ⟨net, h1, _, _, _, h5⟩ := C34_contains (p := p) (by rw [hpf]; decide) (n := n) (by rw [hpf]; exact hn)
  refine ⟨net, h1, ?_, hx hxf, hp hpf⟩
  obtain ⟨r, g1, g2⟩ := h5 x
  rw [hpf] at g2
  have e : 128 - (n + (128 - Family.v4.bits)) = 32 - n := by show 128 - (n + 96) = _; omega
  unfold SamePrefix at g2
  rw [e] at g2
  rw [g1, ← g2]
  constructor
  · intro h; cases h; rfl
  · rintro rfl; rfl

/-- C34: the constructor from an address rejects all other lengths and addresses without a family. -/
theorem C34_invalid (p : Address) (n : Int) (h : p.family = .undef ∨ n < 0 ∨ (p.family.bits : Int) < n) :
    Network.ofAddress p n = .throw .invalidArgument := by
  unfold Network.ofAddress
  cases hc : p.family with
  | undef => rfl
  | v4 =>
    rw [hc] at h
    have : n < 0 ∨ n > 32 := by
      rcases h with h | h | h
      · cases h
      · exact Or.inl h
      · exact Or.inr h
    exact if_pos this
  | v6 =>
    rw [hc] at h
    have : n < 0 ∨ n > 128 := by
      rcases h with h | h | h
      · cases h
      · exact Or.inl h
      · exact Or.inr h
    exact if_pos this

/-- C34: two networks are equal iff they contain the same addresses. -/
theorem C34_eq {p q : Address} {n k : Nat} (hp : p.family ≠ .undef) (hq : q.family ≠ .undef) (hn : n ≤ p.family.bits)
    (hk : k ≤ q.family.bits) : ∃ a b, Network.ofAddress p n = .ok a ∧ Network.ofAddress q k = .ok b ∧
      (a.eq b = true ↔ ∀ x, a.contains x = b.contains x) := by
  obtain ⟨a, a1, a2, a3, a4⟩ := ofAddress_spec hp hn
  obtain ⟨a', a1', _, _, _, ac⟩ := C34_contains hp hn
  obtain ⟨b, b1, b2, b3, b4⟩ := ofAddress_spec hq hk
  obtain ⟨b', b1', _, _, _, bc⟩ := C34_contains hq hk
  rw [a1] at a1'; cases a1'
  rw [b1] at b1'; cases b1'
  have hw1 : n + (128 - p.family.bits) ≤ 128 := by have := bits_or p.family; have := bits_or q.family; omega
  have hw2 : k + (128 - q.family.bits) ≤ 128 := by have := bits_or p.family; have := bits_or q.family; omega
  have e1 : p.family.bits - n = 128 - (n + (128 - p.family.bits)) := by have := bits_or p.family; have := bits_or q.family; omega
  have e2 : q.family.bits - k = 128 - (k + (128 - q.family.bits)) := by have := bits_or p.family; have := bits_or q.family; omega
  rw [e1] at a4
  rw [e2] at b4
  refine ⟨a, b, a1, b1, ?_⟩
  generalize n + (128 - p.family.bits) = w at *
  generalize k + (128 - q.family.bits) = v at *
  constructor
  · intro h x
    unfold Network.eq at h
    rw [Bool.and_eq_true, beq_iff_eq, eq_iff_num] at h
    obtain ⟨m, g1, g2, g3⟩ := mask_num x hw1
    unfold Network.contains
    rw [← h.2, a2, g1]
    show Res.ok (m.eq a.prefix') = Res.ok (m.eq b.prefix')
    congr 1
    rw [Bool.eq_iff_iff, eq_iff_num, eq_iff_num, h.1]
  · intro h
    -- addresses with a given number
    have mk : ∀ N, N < 2 ^ 128 → ∃ x : Address, x.num = N := by
      intro N hN
      refine ⟨⟨BitVec.ofNat 64 (N / 2 ^ 64), BitVec.ofNat 64 N, .v6⟩, ?_⟩
      unfold Address.num
      simp only [BitVec.toNat_ofNat]
      omega
    have key : ∀ N, N < 2 ^ 128 → (SamePrefix w N p.num ↔ SamePrefix v N q.num) := by
      intro N hN
      obtain ⟨x, hx⟩ := mk N hN
      obtain ⟨r, r1, r2⟩ := ac x
      obtain ⟨s, s1, s2⟩ := bc x
      have := h x
      rw [r1, s1] at this
      cases this
      rw [← hx]
      rw [← r2, ← s2]
    have hpn := num_lt p
    have hqn := num_lt q
    unfold SamePrefix at key
    -- the lengths are the same
    have ineq : ∀ (w v P Q : Nat), w ≤ 128 → v ≤ 128 → P < 2 ^ 128 → Q < 2 ^ 128 →
        (∀ N, N < 2 ^ 128 → (N / 2 ^ (128 - w) = P / 2 ^ (128 - w) ↔ N / 2 ^ (128 - v) = Q / 2 ^ (128 - v))) → ¬ w < v := by
      intro w v P Q hw hv hP hQ key hlt
      have sameP := (key P hP).mp rfl
      -- the number that differs from P in bit number 128 - v only
      have hd : 128 - v < 128 - w := by omega
      generalize hi : 128 - v = i at *
      generalize hj : 128 - w = j at *
      have hjb : j ≤ 128 := by omega
      have hpow : 2 ^ j = 2 ^ (i + 1) * 2 ^ (j - (i + 1)) := by rw [← Nat.pow_add]; congr 1; omega
      -- N := flip bit i of P
      have hxj : (P ^^^ 2 ^ i) / 2 ^ j = P / 2 ^ j := by
        rw [← Nat.shiftRight_eq_div_pow, ← Nat.shiftRight_eq_div_pow]
        apply Nat.eq_of_testBit_eq
        intro t
        rw [Nat.testBit_shiftRight, Nat.testBit_shiftRight, Nat.testBit_xor, Nat.testBit_two_pow]
        have : decide (i = j + t) = false := by rw [decide_eq_false_iff_not]; omega
        rw [this, Bool.xor_false]
      have hlt' : P ^^^ 2 ^ i < 2 ^ 128 := Nat.xor_lt_two_pow hP (Nat.pow_lt_pow_right (by omega) (by omega))
      have := (key _ hlt').mp hxj
      rw [← sameP, ← Nat.shiftRight_eq_div_pow, ← Nat.shiftRight_eq_div_pow] at this
      have hb := congrArg (fun z => z.testBit 0) this
      simp only [Nat.testBit_shiftRight, Nat.testBit_xor, Nat.testBit_two_pow] at hb
      revert hb
      cases P.testBit (i + 0) <;> simp
    have hwv : w = v := by
      have h1 := ineq w v p.num q.num hw1 hw2 hpn hqn key
      have h2 := ineq v w q.num p.num hw2 hw1 hqn hpn (fun N hN => (key N hN).symm)
      omega
    subst hwv
    unfold Network.eq
    rw [Bool.and_eq_true, beq_iff_eq, eq_iff_num, a2, b2, a4, b4]
    refine ⟨?_, rfl⟩
    rw [(key p.num hpn).mp rfl]

/-- C34 does not hold for networks made from text: the length is not checked, and masking shifts by a negative number. -/
theorem C34_fails_text : Network.ofText (some (.inl 0x01020304#32)) 33 = .ub ∧
    Network.ofText (some (.inr (0x2001000000000000#64, 0))) 129 = .ub ∧
    Network.ofText (some (.inl 0x01020304#32)) (-1) = .ok ⟨⟨0, 0, .v4⟩, 95⟩ := by
  decide

/-- C34 does not hold for IPv6 networks within `::/96` written as text: `::/64` is taken for an IPv4 network with length 160. -/
theorem C34_fails_v6 : Network.ofText (some (.inr (0, 0))) 64 = .ub := by decide

/-- Text with a valid length for the family the text has is fine. -/
theorem C34_text_partial {r : Option (BitVec 32 ⊕ BitVec 64 × BitVec 64)} {p : Address} (h : Address.ofText r = .ok p) {n : Nat}
    (hn : n ≤ p.family.bits) : Network.ofText r n = Network.ofAddress p n := by
  unfold Network.ofText Network.ofAddress
  rw [h]
  have hf : p.family ≠ .undef := by
    rcases r with (_ | x | ⟨hi, lo⟩)
    · cases h
    · cases h; intro h; cases h
    · cases h
      show (if _ then Family.v4 else Family.v6) ≠ _
      split <;> decide
  cases hc : p.family with
  | undef => exact absurd hc hf
  | v4 =>
    rw [hc] at hn
    have hn : n ≤ 32 := hn
    dsimp only
    rw [if_neg (by omega)]
    rfl
  | v6 =>
    rw [hc] at hn
    have hn : n ≤ 128 := hn
    dsimp only
    rw [if_neg (by omega)]
    rfl

example : ∃ net, Network.ofAddress (.ofV4 0x0a010203#32) 8 = .ok net ∧ net.contains (.ofV4 0x0a000000#32) = .ok true ∧
    net.contains (.ofV4 0x0b000000#32) = .ok false := ⟨_, rfl, by decide, by decide⟩

end Verif.Net
