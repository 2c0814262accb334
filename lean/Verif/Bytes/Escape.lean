import Verif.Bytes.Spec
/-!
# Escaping (C32)
-/

namespace Verif.Bytes

/-- Reading back a byte written as two hexadecimal digits; all 256 bytes. -/
theorem hex_byte (c : Byte) : atoiHex (2 ^ 64 - 1) [hexDigit (c.toNat / 16), hexDigit (c.toNat % 16)] = .ok (2, (c.toNat : Int)) := by
  have h : ∀ n : Fin 256, atoiHex (2 ^ 64 - 1) [hexDigit (n.val / 16), hexDigit (n.val % 16)] = .ok (2, (n.val : Int)) := by decide +kernel
  exact h ⟨c.toNat, c.toNat_lt⟩

theorem expandHex_byte (c : Byte) (rest : Str) :
    expandHex (hexDigit (c.toNat / 16) :: hexDigit (c.toNat % 16) :: rest) = .ok ([c], rest) := by
  unfold expandHex
  rw [if_neg (by simp)]
  have hn : min 2 (hexDigit (c.toNat / 16) :: hexDigit (c.toNat % 16) :: rest).length = 2 := by simp
  dsimp only
  rw [hn]
  show (match atoiHex (2 ^ 64 - 1) [hexDigit (c.toNat / 16), hexDigit (c.toNat % 16)] with
    | .throw e => Res.throw e
    | .ub => Res.ub
    | .ok (k, v) => if k ≠ 2 then Res.throw .runtimeError else Res.ok ([(⟨BitVec.ofInt 8 v⟩ : Byte)], rest)) = _
  rw [hex_byte]
  dsimp only
  rw [if_neg (by simp)]
  congr 2
  apply congrArg (fun x => [x])
  apply UInt8.toNat_inj.1
  show (BitVec.ofInt 8 (c.toNat : Int)).toNat = c.toNat
  rw [BitVec.ofInt_natCast, BitVec.toNat_ofNat]
  exact Nat.mod_eq_of_lt c.toNat_lt

theorem escapeByte_length (st : Style) (c : Byte) : 1 ≤ (escapeByte st c).length := by
  unfold escapeByte
  split
  · simp
  · split
    · simp
    · split
      · simp
      · split <;> simp

theorem expandLoop_escaped {st : Style} (ho : st.useOctal = false) (hb : st.noEscapeBackslash = false) (s : Str) (fuel : Nat)
    (hf : (escapeBytes st s).length < fuel) : expandLoop fuel (escapeBytes st s) = .ok s := by
  induction s generalizing fuel with
  | nil =>
    cases fuel with
    | zero => rfl
    | succ n => rfl
  | cons c s ih =>
    cases fuel with
    | zero => omega
    | succ n =>
      have e : escapeBytes st (c :: s) = escapeByte st c ++ escapeBytes st s := rfl
      rw [e] at hf ⊢
      have hl := escapeByte_length st c
      rw [List.length_append] at hf
      have ih := ih n (by omega)
      unfold escapeByte
      by_cases h1 : c = 92
      · rw [if_pos ⟨h1, by rw [hb]; decide⟩, h1]
        show (expandLoop n (escapeBytes st s) >>= fun r => .ok (92 :: r)) = _
        rw [ih]; rfl
      · rw [if_neg (fun h => h1 h.1)]
        by_cases h2 : c = 34 ∧ st.escapeQuotes = true
        · rw [if_pos h2, h2.1]
          show (expandLoop n (escapeBytes st s) >>= fun r => .ok (34 :: r)) = _
          rw [ih]; rfl
        · rw [if_neg h2]
          by_cases h3 : isPrint c = true
          · rw [if_pos h3]
            show expandLoop (n + 1) (c :: escapeBytes st s) = _
            unfold expandLoop
            rw [if_pos h1, ih]; rfl
          · rw [if_neg h3, if_neg (by rw [ho]; decide)]
            show (expandHex (hexDigit (c.toNat / 16) :: hexDigit (c.toNat % 16) :: escapeBytes st s) >>= fun x =>
              expandLoop n x.2 >>= fun r => .ok (x.1 ++ r)) = _
            rw [expandHex_byte]
            show (expandLoop n (escapeBytes st s) >>= fun r => .ok ([c] ++ r)) = _
            rw [ih]; rfl

/-- C32: escaped bytes are expanded to the same bytes again, with or without escaped quotes. -/
theorem C32_round_trip (st : Style) (ho : st.useOctal = false) (hb : st.noEscapeBackslash = false) (s : Str) :
    expand (escapeBytes st s) = .ok s := expandLoop_escaped ho hb s _ (Nat.lt_succ_self _)

/-- C32: so different bytes have different escaped forms. -/
theorem C32_injective (st : Style) (ho : st.useOctal = false) (hb : st.noEscapeBackslash = false) {s t : Str}
    (h : escapeBytes st s = escapeBytes st t) : s = t := by
  have h1 := C32_round_trip st ho hb s
  rw [h, C32_round_trip st ho hb t] at h1
  injection h1 with h1
  exact h1.symm

theorem hexDigit_print : ∀ n : Fin 16, isPrint (hexDigit n.val) = true := by decide

/-- C32: the escaped form is printable, in every style. -/
theorem C32_printable (st : Style) (s : Str) : ∀ c ∈ escapeBytes st s, 32 ≤ c.toNat ∧ c.toNat < 127 := by
  have hp : ∀ x : Byte, isPrint x = true → 32 ≤ x.toNat ∧ x.toNat < 127 := by
    intro x hx; unfold isPrint at hx; simpa using hx
  have hd : ∀ n : Nat, n < 16 → isPrint (hexDigit n) = true := fun n hn => hexDigit_print ⟨n, hn⟩
  intro c hc
  apply hp
  obtain ⟨x, _, hx⟩ := List.mem_flatMap.1 hc
  have hxl : x.toNat < 256 := x.toNat_lt
  unfold escapeByte at hx
  split at hx
  · simp only [List.mem_cons, List.not_mem_nil, or_false, or_self] at hx
    subst hx; decide
  · split at hx
    · simp only [List.mem_cons, List.not_mem_nil, or_false] at hx
      rcases hx with rfl | rfl <;> decide
    · split at hx
      · rename_i hpr
        simp only [List.mem_cons, List.not_mem_nil, or_false] at hx
        subst hx; exact hpr
      · split at hx
        · simp only [List.mem_cons, List.not_mem_nil, or_false] at hx
          rcases hx with rfl | rfl | rfl | rfl
          · decide
          · exact hd _ (by omega)
          · exact hd _ (by omega)
          · exact hd _ (by omega)
        · simp only [List.mem_cons, List.not_mem_nil, or_false] at hx
          rcases hx with rfl | rfl | rfl | rfl
          · decide
          · decide
          · exact hd _ (by omega)
          · exact hd _ (by omega)

/-- C32 does not hold for octal escapes: `\001` is read as a null byte and the text `01`. -/
theorem C32_fails_octal : expand (escapeBytes { useOctal := true } [1]) = .ok [0, 48, 49] := by decide

/-- ... and not if backslashes are not escaped. -/
theorem C32_fails_backslash : expand (escapeBytes { noEscapeBackslash := true } [92, 110]) = .ok [10] := by decide

/-- Expanding accepts escapes that are not well-formed: a sign instead of a digit, and characters that are no digits. -/
theorem C32_fails_malformed : expand [92, 120, 45, 49] = .ok [255] ∧ expand [92, 120, 58, 48] = .ok [160] := by decide

example : escapeBytes {} [97, 92, 255] = [97, 92, 92, 92, 120, 102, 102] := by decide
example : expand [92, 117, 48, 48, 101, 57] = .ok [195, 169] := by decide

end Verif.Bytes
