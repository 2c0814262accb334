import Verif.Text.Escape
/-!
# Constants in the generated C++ code (C55)

`codegen/ctors.cc` 82, 102, 282 render `bytes`, `error` and `stream` constants with `escapeBytesForCxx` (`base/util.h` 299-301), 290-292 and 233
render strings and patterns of regular expressions with `escapeUTF8(.., EscapeQuotes)`; the C++ compiler reads them as literals.
-/

namespace Verif.Text
open Verif.Bytes (Str Byte)

theorem cxx_nil (n : Nat) : cxx n [] = some [] := by cases n <;> rfl

theorem cxx_plain {c : Byte} (h1 : c ≠ 92) (h2 : c ≠ 34) (h3 : c ≠ 10) (n : Nat) (t : Str) : cxx (n + 1) (c :: t) = (cxx n t).map (c :: ·) := by
  simp only [cxx]
  rw [if_neg h1, if_neg (fun h => h.elim h2 h3)]

theorem cxx_simple {e b : Byte} (h : cxxSimple e = some b) (ho : octal e = false) (n : Nat) (t : Str) :
    cxx (n + 1) (92 :: e :: t) = (cxx n t).map (b :: ·) := by
  simp only [cxx]
  rw [if_pos trivial, ho, h]
  rfl

theorem cxx_zero {t : Str} (h : ∀ d, t.head? = some d → octal d = false) (n : Nat) : cxx (n + 1) (92 :: 48 :: t) = (cxx n t).map (0 :: ·) := by
  simp only [cxx]
  rw [if_pos trivial]
  have h48 : octal 48 = true := by decide
  rw [h48]
  have hd : List.takeWhile octal (List.take 3 (48 :: t)) = [48] := by
    cases t with
    | nil => rfl
    | cons d t =>
      have := h d rfl
      simp [List.takeWhile, h48, this]
  simp only [if_true, hd]
  rfl

theorem octal_digit (a : Fin 8) : Bytes.hexDigit a.val = UInt8.ofNat (48 + a.val) ∧ octal (Bytes.hexDigit a.val) = true ∧
    (Bytes.hexDigit a.val).toNat - 48 = a.val := by
  revert a; decide

theorem cxx_octal {v : Nat} (hv : v < 256) (n : Nat) (t : Str) :
    cxx (n + 1) (92 :: Bytes.hexDigit (v / 64) :: Bytes.hexDigit (v / 8 % 8) :: Bytes.hexDigit (v % 8) :: t) = (cxx n t).map (UInt8.ofNat v :: ·) := by
  obtain ⟨_, a2, a3⟩ := octal_digit ⟨v / 64, by omega⟩
  obtain ⟨_, b2, b3⟩ := octal_digit ⟨v / 8 % 8, by omega⟩
  obtain ⟨_, c2, c3⟩ := octal_digit ⟨v % 8, by omega⟩
  simp only at a2 a3 b2 b3 c2 c3
  simp only [cxx]
  rw [if_pos trivial, a2]
  have hd : List.takeWhile octal (List.take 3 (Bytes.hexDigit (v / 64) :: Bytes.hexDigit (v / 8 % 8) :: Bytes.hexDigit (v % 8) :: t)) =
      [Bytes.hexDigit (v / 64), Bytes.hexDigit (v / 8 % 8), Bytes.hexDigit (v % 8)] := by
    simp [List.takeWhile, a2, b2, c2]
  simp only [if_true, hd, List.foldl_cons, List.foldl_nil, a3, b3, c3]
  have hval : ((0 * 8 + v / 64) * 8 + v / 8 % 8) * 8 + v % 8 = v := by omega
  rw [hval, if_pos hv]
  rfl

/-- One byte of a `bytes` constant. -/
theorem cxx_byte (c : Byte) (t : Str) : ∃ k, k + 1 ≤ (Bytes.escapeByte { escapeQuotes := true, useOctal := true } c).length ∧
    ∀ n, cxx (n + 1) (Bytes.escapeByte { escapeQuotes := true, useOctal := true } c ++ t) = (cxx n t).map (c :: ·) := by
  unfold Bytes.escapeByte
  by_cases h1 : c = 92
  · rw [if_pos ⟨h1, by decide⟩, h1]
    exact ⟨0, by simp, fun n => cxx_simple rfl (by decide) n t⟩
  · rw [if_neg (fun h => h1 h.1)]
    by_cases h2 : c = 34
    · rw [if_pos ⟨h2, rfl⟩, h2]
      exact ⟨0, by simp, fun n => cxx_simple rfl (by decide) n t⟩
    · rw [if_neg (fun h => h2 h.1)]
      by_cases h3 : Bytes.isPrint c = true
      · rw [if_pos h3]
        refine ⟨0, by simp, fun n => cxx_plain h1 h2 ?_ n t⟩
        intro h; rw [h] at h3; revert h3; decide
      · rw [if_neg h3, if_pos rfl]
        refine ⟨0, by simp, fun n => ?_⟩
        have := cxx_octal (byte_lt c) n t
        rw [UInt8.ofNat_toNat] at this
        exact this

/-- **C55**: the C++ literal of a `bytes`, `stream` or `error` constant stands for exactly its bytes, whatever they are. -/
theorem C55_bytes (s : Str) : cxxLiteral (Bytes.escapeBytes { escapeQuotes := true, useOctal := true } s) = some s := by
  have key : ∀ n, (Bytes.escapeBytes { escapeQuotes := true, useOctal := true } s).length ≤ n →
      cxx n (Bytes.escapeBytes { escapeQuotes := true, useOctal := true } s) = some s := by
    unfold Bytes.escapeBytes
    induction s with
    | nil => intro n _; exact cxx_nil n
    | cons c s ih =>
      intro n hn
      rw [List.flatMap_cons] at hn ⊢
      obtain ⟨k, hk, h⟩ := cxx_byte c (s.flatMap (Bytes.escapeByte { escapeQuotes := true, useOctal := true }))
      rw [List.length_append] at hn
      have := h (n - 1)
      rw [show n - 1 + 1 = n from by omega] at this
      rw [this, ih _ (by omega)]
      rfl
  exact key _ (Nat.le_refl _)

/-- The escapes of control characters mean the same in C++. -/
theorem cxx_control : ∀ c : Fin 128, ∀ l, controlLetter c.val = some l → c.val ≠ 0 → cxxSimple l = some (UInt8.ofNat c.val) ∧ octal l = false := by
  decide +kernel

theorem cxx_many (p t : Str) (hp : ∀ b ∈ p, b ≠ 92 ∧ b ≠ 34 ∧ b ≠ 10) (n : Nat) : cxx (n + p.length) (p ++ t) = (cxx n t).map (p ++ ·) := by
  induction p with
  | nil => simp
  | cons b p ih =>
    have hb := hp b List.mem_cons_self
    rw [List.length_cons, ← Nat.add_assoc, List.cons_append, cxx_plain hb.1 hb.2.1 hb.2.2,
      ih fun x hx => hp x (List.mem_cons_of_mem _ hx)]
    cases cxx n t <;> rfl

/-- The style of string constants. -/
abbrev constStyle : Style := { escapeQuotes := true }

/-- One code point of a string constant; a NUL must not be followed by an octal digit. -/
theorem cxx_char {c : Nat} (hc : Scalar c) (t : Str) (h0 : c = 0 → ∀ d, t.head? = some d → octal d = false) :
    ∃ k, k ≤ (escapeChar constStyle c []).length ∧ ∀ n, cxx (n + k) (escapeChar constStyle c [] ++ t) = (cxx n t).map (enc8 c ++ ·) := by
  unfold escapeChar
  by_cases h1 : c = 92
  · subst h1
    exact ⟨1, by simp, fun n => cxx_simple (e := 92) (b := 92) rfl (by decide) n t⟩
  · rw [if_neg h1]
    by_cases h2 : c = 34
    · subst h2
      exact ⟨1, by simp, fun n => cxx_simple (e := 34) (b := 34) rfl (by decide) n t⟩
    · rw [if_neg (fun h => h2 h.1)]
      cases hl : controlLetter c with
      | none =>
        refine ⟨(enc8 c).length, Nat.le_refl _, fun n => cxx_many _ _ ?_ n⟩
        intro b hbm
        by_cases hlt : c < 0x80
        · rw [enc8_low hlt] at hbm
          simp only [List.mem_cons, List.not_mem_nil, or_false] at hbm
          have ht : b.toNat = c := by rw [hbm, ofNat_toNat (by omega)]
          refine ⟨?_, ?_, ?_⟩
          · intro h; rw [h] at ht; exact h1 ht.symm
          · intro h; rw [h] at ht; exact h2 ht.symm
          · intro h; rw [h] at ht
            have : c = 10 := ht.symm
            rw [this] at hl; revert hl; decide
        · have := enc8_high (by omega) hc b hbm
          refine ⟨?_, ?_, ?_⟩ <;> (intro h; rw [h] at this; revert this; decide)
      | some l =>
        simp only [Bool.false_eq_true, if_false]
        have hlt := controlLetter_lt hl
        refine ⟨1, by simp, fun n => ?_⟩
        rw [enc8_low hlt]
        by_cases hz : c = 0
        · subst hz
          have : l = 48 := by
            have : controlLetter 0 = some 48 := rfl
            rw [this] at hl; injection hl with hl; exact hl.symm
          subst this
          exact cxx_zero (h0 rfl) n
        · obtain ⟨g1, g2⟩ := cxx_control ⟨c, hlt⟩ l hl hz
          exact cxx_simple g1 g2 n t

/-- What a rendering begins with, if that is a digit, is what the text begins with. -/
theorem escape_head {cs : List Nat} (hc : Scalars cs) {d : Byte} (h : (cs.flatMap fun c => escapeChar constStyle c []).head? = some d)
    (ho : octal d = true) : (utf8 cs).head? = some d := by
  have hd92 : d ≠ 92 := by intro h; rw [h] at ho; revert ho; decide
  cases cs with
  | nil => cases h
  | cons c cs =>
    rw [List.flatMap_cons] at h
    rw [utf8_cons]
    have hesc : ∀ l, ([92, l] ++ cs.flatMap fun c => escapeChar constStyle c []).head? = some d → False := by
      intro l h
      simp at h; exact hd92 h.symm
    have hpl : (enc8 c ++ cs.flatMap fun c => escapeChar constStyle c []).head? = some d → (enc8 c ++ utf8 cs).head? = some d := by
      intro h
      rw [List.head?_append] at h ⊢
      cases he : (enc8 c) with
      | nil => exact absurd he (enc8_ne_nil c)
      | cons b r => rw [he] at h; exact h
    unfold escapeChar at h
    split at h
    · simp only [Bool.false_eq_true, false_and, if_false, not_false_eq_true, if_true] at h
      exact (hesc 92 h).elim
    · split at h
      · exact (hesc 34 h).elim
      · split at h
        · rename_i l _
          simp only [Bool.false_eq_true, if_false] at h
          exact (hesc l h).elim
        · exact hpl h

/-- A NUL byte is followed by an octal digit somewhere. -/
def NulDigit (s : Str) : Prop := ∃ d, octal d = true ∧ [0, d] <:+: s

/-- **C55**: the C++ literal of a string constant or pattern stands for exactly its bytes, if it is well-formed UTF-8 and has no NUL that an
    octal digit follows. -/
theorem C55_string_partial {s : Str} (h : IsUtf8 s) (hn : ¬ NulDigit s) : cxxLiteral (escapeUtf8 constStyle s) = some s := by
  obtain ⟨cs, hc, he⟩ := h
  subst he
  rw [escape_text rfl hc]
  have key : ∀ n, (cs.flatMap fun c => escapeChar constStyle c []).length ≤ n →
      cxx n (cs.flatMap fun c => escapeChar constStyle c []) = some (utf8 cs) := by
    induction cs with
    | nil => intro n _; exact cxx_nil n
    | cons c cs ih =>
      intro n hlen
      have hcs : Scalars cs := fun x hx => hc x (List.mem_cons_of_mem _ hx)
      rw [List.flatMap_cons] at hlen ⊢
      rw [utf8_cons] at hn
      obtain ⟨k, hk, h⟩ := cxx_char (hc c List.mem_cons_self) (cs.flatMap fun c => escapeChar constStyle c []) (by
        intro hz d hd
        cases ho : octal d with
        | false => rfl
        | true =>
          exfalso
          have hh := escape_head hcs hd ho
          refine hn ⟨d, ho, ?_⟩
          rw [hz]
          cases hu : utf8 cs with
          | nil => rw [hu] at hh; cases hh
          | cons x r =>
            rw [hu] at hh
            simp at hh; subst hh
            exact ⟨[], r, rfl⟩)
      rw [List.length_append] at hlen
      have := h (n - k)
      rw [show n - k + k = n from by omega] at this
      rw [this, ih hcs (by
        rintro ⟨d, ho, hi⟩
        exact hn ⟨d, ho, hi.trans (List.suffix_append _ _).isInfix⟩) _ (by omega)]
      rfl
  exact key _ (Nat.le_refl _)

/-- What is missing above (findings): a NUL and the digit 1 are compiled to one byte, 1; and a string that is not UTF-8 is compiled to a
    diagnostic. Both can be written in a source file, as `"\x001"` and `"\xff"`. -/
theorem C55_string_fails :
    Bytes.expand [92, 120, 48, 48, 49] = .ok [0, 49] ∧ cxxLiteral (escapeUtf8 constStyle [0, 49]) = some [1] ∧
    Bytes.expand [92, 120, 102, 102] = .ok [0xFF] ∧ cxxLiteral (escapeUtf8 constStyle [0xFF]) = some illegal := by
  decide +kernel

/-- A string that meets the hypotheses, with a NUL, a quote, a line feed and "é". -/
theorem C55_witness : IsUtf8 [0x61, 0, 0x39, 34, 10, 0xC3, 0xA9] ∧ ¬ NulDigit [0x61, 0, 0x39, 34, 10, 0xC3, 0xA9] ∧
    cxxLiteral (escapeUtf8 constStyle [0x61, 0, 0x39, 34, 10, 0xC3, 0xA9]) = some [0x61, 0, 0x39, 34, 10, 0xC3, 0xA9] := by
  refine ⟨⟨[0x61, 0, 0x39, 34, 10, 0xE9], by decide, rfl⟩, ?_, by decide +kernel⟩
  rintro ⟨d, ho, hi⟩
  obtain ⟨p, q, he⟩ := hi
  have hlen : p.length + 2 + q.length = 7 := by have := congrArg List.length he; simp at this; omega
  have h0 : ([0x61, 0, 0x39, 34, 10, 0xC3, 0xA9] : Str)[p.length]? = some 0 := by
    rw [← he]; simp
  have h1 : ([0x61, 0, 0x39, 34, 10, 0xC3, 0xA9] : Str)[p.length + 1]? = some d := by
    rw [← he]; simp
  have hp : p.length ≤ 5 := by omega
  generalize p.length = k at *
  have : k = 1 := by
    rcases k with _ | _ | _ | _ | _ | _ | k <;> first | rfl | (exfalso; revert h0; decide) | omega
  subst this
  have : d = 0x39 := by
    have h2 : ([0x61, 0, 0x39, 34, 10, 0xC3, 0xA9] : Str)[1 + 1]? = some 0x39 := rfl
    rw [h2] at h1; injection h1 with h1; exact h1.symm
  subst this
  revert ho; decide

end Verif.Text
