import Verif.Text.Utf16
import Verif.Text.Case
import Verif.Bytes.Escape
/-!
# Rendering text and reading it back (C53, C54)
-/

namespace Verif.Text
open Verif.Bytes (Str Byte expand expandLoop)

/-- Bytes of code points from 0x80 on are from 0x80 on. -/
theorem enc8_high {c : Nat} (h : 0x80 ≤ c) (hc : Scalar c) : ∀ b ∈ enc8 c, 0x80 ≤ b.toNat := by
  unfold Scalar at hc
  intro b hb
  unfold enc8 at hb
  rw [if_neg (by omega)] at hb
  split at hb
  · simp only [List.mem_cons, List.not_mem_nil, or_false] at hb
    rcases hb with hb | hb <;> rw [hb, ofNat_toNat (by omega)] <;> omega
  · split at hb
    · simp only [List.mem_cons, List.not_mem_nil, or_false] at hb
      rcases hb with hb | hb | hb <;> rw [hb, ofNat_toNat (by omega)] <;> omega
    · simp only [List.mem_cons, List.not_mem_nil, or_false] at hb
      rcases hb with hb | hb | hb | hb <;> rw [hb, ofNat_toNat (by omega)] <;> omega

theorem enc8_low {c : Nat} (h : c < 0x80) : enc8 c = [UInt8.ofNat c] := by
  unfold enc8; rw [if_pos h]

/-- Escaping a text goes code point by code point. -/
theorem escapeLoop_text (st : Style) : ∀ (cs : List Nat), Scalars cs → ∀ (rest : Str) (fuel : Nat), (utf8 cs ++ rest).length ≤ fuel →
    st.noEscapeHex = false →
    ∃ k, rest.length ≤ k ∧ escapeLoop st fuel (utf8 cs ++ rest) = cs.flatMap (fun c => escapeChar st c []) ++ escapeLoop st k rest := by
  intro cs
  induction cs with
  | nil => intro _ rest fuel hf _; exact ⟨fuel, hf, rfl⟩
  | cons c cs ih =>
    intro hc rest fuel hf hh
    rw [utf8_cons, List.append_assoc] at hf ⊢
    have hn := next8_complete (hc c List.mem_cons_self) (utf8 cs ++ rest)
    cases he : enc8 c ++ (utf8 cs ++ rest) with
    | nil => exact absurd (List.append_eq_nil_iff.1 he).1 (enc8_ne_nil c)
    | cons b s =>
      rw [he] at hn hf
      cases fuel with
      | zero => simp at hf
      | succ fuel =>
        have hi : iterate (b :: s) = some (c, utf8 cs ++ rest) := by unfold iterate; rw [hn]
        have hl := (enc8_length c).1
        obtain ⟨k, hk, h⟩ := ih (fun x hx => hc x (List.mem_cons_of_mem _ hx)) rest fuel (by
          have := congrArg List.length he
          simp only [List.length_append, List.length_cons] at this hf ⊢; omega) hh
        refine ⟨k, hk, ?_⟩
        simp only [escapeLoop, hi]
        rw [h, List.flatMap_cons, List.append_assoc]
        congr 1
        unfold escapeChar
        rw [hh]
        simp

theorem escape_text {st : Style} (hh : st.noEscapeHex = false) {cs : List Nat} (hc : Scalars cs) :
    escapeUtf8 st (utf8 cs) = cs.flatMap (fun c => escapeChar st c []) := by
  obtain ⟨k, _, h⟩ := escapeLoop_text st cs hc [] (utf8 cs).length (by simp) hh
  rw [List.append_nil] at h
  unfold escapeUtf8
  rw [h]
  cases k <;> simp [escapeLoop]

theorem expandLoop_plain (p t : Str) (hp : ∀ b ∈ p, b ≠ 92) (fuel : Nat) :
    expandLoop (fuel + p.length) (p ++ t) = (expandLoop fuel t).bind fun r => .ok (p ++ r) := by
  induction p with
  | nil => simp only [List.length_nil, Nat.add_zero, List.nil_append]; cases expandLoop fuel t <;> rfl
  | cons b p ih =>
    rw [List.length_cons, ← Nat.add_assoc, List.cons_append]
    simp only [expandLoop]
    rw [if_pos (hp b List.mem_cons_self), ih (fun x hx => hp x (List.mem_cons_of_mem _ hx))]
    cases expandLoop fuel t <;> rfl

theorem simple_control : ∀ c : Fin 128, ∀ l, controlLetter c.val = some l → Bytes.simpleEscape l = some (UInt8.ofNat c.val) ∧ l ≠ 117 ∧ l ≠ 85 ∧ l ≠ 120 ∧ l ≠ 10 := by
  decide +kernel

theorem controlLetter_lt {c : Nat} {l : Byte} (h : controlLetter c = some l) : c < 128 := by
  unfold controlLetter at h
  by_cases hc : c < 128
  · exact hc
  · rw [if_neg (by omega), if_neg (by omega), if_neg (by omega), if_neg (by omega), if_neg (by omega), if_neg (by omega), if_neg (by omega),
      if_neg (by omega), if_neg (by omega)] at h
    cases h

theorem expandLoop_simple {l b : Byte} (h : Bytes.simpleEscape l = some b) (h1 : l ≠ 117) (h2 : l ≠ 85) (h3 : l ≠ 120) (fuel : Nat) (t : Str) :
    expandLoop (fuel + 1) (92 :: l :: t) = (expandLoop fuel t).bind fun r => .ok (b :: r) := by
  simp only [expandLoop]
  rw [if_neg (fun h => h rfl), if_neg h1, if_neg h2, if_neg h3, h]
  rfl

/-- One escaped code point is read back. -/
theorem expandLoop_char {st : Style} (hb : st.noEscapeBackslash = false) (hh : st.noEscapeHex = false) {c : Nat} (hc : Scalar c) (t : Str) :
    ∃ n, n ≤ (escapeChar st c []).length ∧ ∀ fuel,
      expandLoop (fuel + n) (escapeChar st c [] ++ t) = (expandLoop fuel t).bind fun r => .ok (enc8 c ++ r) := by
  unfold escapeChar
  rw [hb, hh]
  by_cases h1 : c = 92
  · subst h1
    exact ⟨1, by simp, fun fuel => expandLoop_simple (l := 92) (b := 92) rfl (by decide) (by decide) (by decide) fuel t⟩
  · rw [if_neg h1]
    have plain : ∃ n, n ≤ (enc8 c).length ∧ ∀ fuel,
        expandLoop (fuel + n) (enc8 c ++ t) = (expandLoop fuel t).bind fun r => .ok (enc8 c ++ r) := by
      refine ⟨(enc8 c).length, Nat.le_refl _, fun fuel => expandLoop_plain _ _ ?_ _⟩
      intro b hbm he
      by_cases hlt : c < 0x80
      · rw [enc8_low hlt] at hbm
        simp only [List.mem_cons, List.not_mem_nil, or_false] at hbm
        rw [hbm] at he
        have := congrArg UInt8.toNat he
        rw [ofNat_toNat (by omega)] at this
        exact h1 this
      · have := enc8_high (by omega) hc b hbm
        rw [he] at this
        revert this; decide
    by_cases h2 : c = 34 ∧ st.escapeQuotes = true
    · rw [if_pos h2]
      obtain ⟨h2, _⟩ := h2
      subst h2
      exact ⟨1, by simp, fun fuel => expandLoop_simple (l := 34) (b := 34) rfl (by decide) (by decide) (by decide) fuel t⟩
    · rw [if_neg h2]
      cases hl : controlLetter c with
      | none => exact plain
      | some l =>
        simp only
        by_cases h3 : st.noEscapeControl = true
        · rw [if_pos h3]; exact plain
        · rw [if_neg h3]
          have hlt := controlLetter_lt hl
          obtain ⟨g1, g2, g3, g4, _⟩ := simple_control ⟨c, hlt⟩ l hl
          refine ⟨1, by simp, fun fuel => ?_⟩
          rw [enc8_low hlt]
          exact expandLoop_simple g1 g2 g3 g4 fuel t

theorem expandLoop_nil (fuel : Nat) : expandLoop fuel [] = .ok [] := by cases fuel <;> rfl

theorem expandLoop_text {st : Style} (hb : st.noEscapeBackslash = false) (hh : st.noEscapeHex = false) (cs : List Nat) (hc : Scalars cs) :
    ∀ fuel, (cs.flatMap fun c => escapeChar st c []).length ≤ fuel →
      expandLoop fuel (cs.flatMap fun c => escapeChar st c []) = .ok (utf8 cs) := by
  induction cs with
  | nil => intro fuel _; exact expandLoop_nil fuel
  | cons c cs ih =>
    intro fuel hf
    rw [List.flatMap_cons] at hf ⊢
    obtain ⟨n, hn, h⟩ := expandLoop_char hb hh (hc c List.mem_cons_self) (cs.flatMap fun c => escapeChar st c [])
    rw [List.length_append] at hf
    have := h (fuel - n)
    rw [show fuel - n + n = fuel from by omega] at this
    rw [this, ih (fun x hx => hc x (List.mem_cons_of_mem _ hx)) _ (by omega)]
    rfl

/-- **C53**: rendering a text and expanding the escapes gives the text back, for all styles that are not marked as irreversible. -/
theorem C53_round_trip {st : Style} (hb : st.noEscapeBackslash = false) (hh : st.noEscapeHex = false) {s : Str} (h : IsUtf8 s) :
    expand (escapeUtf8 st s) = .ok s := by
  obtain ⟨cs, hc, he⟩ := h
  rw [he, escape_text hh hc]
  exact expandLoop_text hb hh cs hc _ (by omega)

/-- **C53**: so different texts have different renderings. -/
theorem C53_injective {st : Style} (hb : st.noEscapeBackslash = false) (hh : st.noEscapeHex = false) {s t : Str} (hs : IsUtf8 s)
    (ht : IsUtf8 t) (h : escapeUtf8 st s = escapeUtf8 st t) : s = t := by
  have h1 := C53_round_trip hb hh hs
  rw [h, C53_round_trip hb hh ht] at h1
  injection h1 with h1; exact h1.symm

/-- **C53**: malformed data is rendered up to the first byte at which no code point begins; the rest is lost. -/
theorem C53_illegal {st : Style} (hh : st.noEscapeHex = false) {cs : List Nat} (hc : Scalars cs) {b : Byte} {rest : Str}
    (hn : ¬ Starts (b :: rest)) : escapeUtf8 st (utf8 cs ++ b :: rest) = escapeUtf8 st (utf8 cs) ++ illegal := by
  obtain ⟨k, hk, h⟩ := escapeLoop_text st cs hc (b :: rest) (utf8 cs ++ b :: rest).length (Nat.le_refl _) hh
  rw [escape_text hh hc]
  unfold escapeUtf8
  rw [h]
  cases k with
  | zero => simp at hk
  | succ k =>
    rcases iterate_cases b rest with ⟨c, r, hc, hs, _⟩ | ⟨_, hi⟩
    · exact absurd ⟨c, r, hc, hs⟩ hn
    · simp only [escapeLoop, hi]

/-- **C53**: without `NoEscapeControl` the characters NUL, BEL, BS, HT, LF, VT, FF, CR and ESC do not appear in the rendering. -/
theorem C53_control {st : Style} (hc : st.noEscapeControl = false) (hh : st.noEscapeHex = false) {s : Str} (hs : IsUtf8 s) :
    ∀ b ∈ escapeUtf8 st s, b ≠ 0 ∧ ¬ (7 ≤ b.toNat ∧ b.toNat ≤ 13) ∧ b ≠ 27 := by
  obtain ⟨cs, hcs, he⟩ := hs
  rw [he, escape_text hh hcs]
  intro b hb
  obtain ⟨c, hcm, hbc⟩ := List.mem_flatMap.1 hb
  have hsc := hcs c hcm
  unfold escapeChar at hbc
  have hlit : ∀ (l : Str), (∀ x ∈ l, x ≠ (0 : Byte) ∧ ¬ (7 ≤ x.toNat ∧ x.toNat ≤ 13) ∧ x ≠ 27) → b ∈ l → b ≠ 0 ∧ ¬ (7 ≤ b.toNat ∧ b.toNat ≤ 13) ∧ b ≠ 27 :=
    fun l h hm => h b hm
  split at hbc
  · split at hbc
    · exact hlit _ (by decide) hbc
    · split at hbc
      · exact hlit _ (by decide) hbc
      · exact hlit _ (by decide) hbc
  · split at hbc
    · exact hlit _ (by decide) hbc
    · split at hbc
      · rename_i l hl
        rw [hc] at hbc
        simp only [Bool.false_eq_true, if_false, List.mem_cons, List.not_mem_nil, or_false] at hbc
        have hctl : ∀ c : Fin 128, ∀ l, controlLetter c.val = some l → l ≠ 0 ∧ ¬ (7 ≤ l.toNat ∧ l.toNat ≤ 13) ∧ l ≠ 27 := by decide +kernel
        rcases hbc with h | h
        · rw [h]; decide
        · rw [h]; exact hctl ⟨c, controlLetter_lt hl⟩ l hl
      · rename_i hl
        by_cases hlt : c < 0x80
        · rw [enc8_low hlt] at hbc
          simp only [List.mem_cons, List.not_mem_nil, or_false] at hbc
          have hno : ∀ c : Fin 128, controlLetter c.val = none →
              UInt8.ofNat c.val ≠ 0 ∧ ¬ (7 ≤ (UInt8.ofNat c.val).toNat ∧ (UInt8.ofNat c.val).toNat ≤ 13) ∧ UInt8.ofNat c.val ≠ 27 := by decide +kernel
          rw [hbc]
          exact hno ⟨c, hlt⟩ hl
        · have := enc8_high (by omega) hsc b hbc
          refine ⟨?_, by omega, ?_⟩ <;> (intro h; rw [h] at this; revert this; decide)

/-- Other control characters are left as they are, although the documentation says that control characters are escaped (finding). -/
theorem C53_control_fails : escapeUtf8 {} [1, 2, 127] = [1, 2, 127] := rfl

/-- The styles marked as irreversible are: a backslash and an `n` read back as a line feed; an `x` escape that was text becomes a byte. -/
theorem C53_irreversible : expand (escapeUtf8 { noEscapeBackslash := true } [92, 110]) = .ok [10] ∧
    expand (escapeUtf8 { noEscapeHex := true } [92, 120, 52, 49]) = .ok [0x41] := by decide

/-- With `NoEscapeControl` alone rendering stays reversible. -/
theorem C53_witness : escapeUtf8 { escapeQuotes := true } (utf8 [0x61, 34, 92, 10, 0xE9, 0]) = [0x61, 92, 34, 92, 92, 92, 110, 0xC3, 0xA9, 92, 48] ∧
    IsUtf8 (utf8 [0x61, 34, 92, 10, 0xE9, 0]) := ⟨rfl, _, by decide, rfl⟩

theorem body_append {a b : Str} (ha : Body a) (hb : Body b) : Body (a ++ b) := by
  induction ha with
  | nil => exact hb
  | esc h _ ih => exact .esc h ih
  | plain h1 h2 _ ih => exact .plain h1 h2 ih

theorem body_plain {p : Str} (h : ∀ b ∈ p, b ≠ 92 ∧ b ≠ 34) : Body p := by
  induction p with
  | nil => exact .nil
  | cons b p ih =>
    have := h b List.mem_cons_self
    exact .plain this.1 this.2 (ih fun x hx => h x (List.mem_cons_of_mem _ hx))

/-- A literal ends at one place only: at the first quote that is not escaped. -/
theorem body_unique {a b ra rb : Str} (ha : Body a) (hb : Body b) (h : a ++ 34 :: ra = b ++ 34 :: rb) : a = b ∧ ra = rb := by
  induction ha generalizing b with
  | nil =>
    cases hb with
    | nil => injection h with _ h; exact ⟨rfl, h⟩
    | esc => injection h with h _; exact absurd h (by decide)
    | plain _ h2 _ => injection h with h _; exact absurd h.symm h2
  | @esc c t hc _ ih =>
    cases hb with
    | nil => injection h with h _; exact absurd h (by decide)
    | esc _ hb =>
      injection h with _ h; injection h with h1 h2
      obtain ⟨e1, e2⟩ := ih hb h2
      exact ⟨by rw [h1, e1], e2⟩
    | plain h1 _ _ => injection h with h _; exact absurd h.symm h1
  | @plain c t h1 h2 _ ih =>
    cases hb with
    | nil => injection h with h _; exact absurd h h2
    | esc => injection h with h _; exact absurd h h1
    | plain _ _ hb =>
      injection h with g1 g2
      obtain ⟨e1, e2⟩ := ih hb g2
      exact ⟨by rw [g1, e1], e2⟩

theorem body_char {st : Style} (hq : st.escapeQuotes = true) (hb : st.noEscapeBackslash = false) (hh : st.noEscapeHex = false) {c : Nat} (hc : Scalar c) :
    Body (escapeChar st c []) := by
  unfold escapeChar
  rw [hq, hb, hh]
  by_cases h1 : c = 92
  · rw [if_pos h1]; exact .esc (by decide) .nil
  · rw [if_neg h1]
    by_cases h2 : c = 34
    · rw [if_pos ⟨h2, rfl⟩]; exact .esc (by decide) .nil
    · rw [if_neg (fun h => h2 h.1)]
      have plain : Body (enc8 c) := by
        apply body_plain
        intro b hbm
        by_cases hlt : c < 0x80
        · rw [enc8_low hlt] at hbm
          simp only [List.mem_cons, List.not_mem_nil, or_false] at hbm
          have ht : b.toNat = c := by rw [hbm, ofNat_toNat (by omega)]
          constructor
          · intro h; rw [h] at ht; exact h1 ht.symm
          · intro h; rw [h] at ht; exact h2 ht.symm
        · have := enc8_high (by omega) hc b hbm
          constructor <;> (intro h; rw [h] at this; revert this; decide)
      cases hl : controlLetter c with
      | none => exact plain
      | some l =>
        simp only
        split
        · exact plain
        · obtain ⟨_, _, _, _, g⟩ := simple_control ⟨c, controlLetter_lt hl⟩ l hl
          exact .esc g .nil

/-- **C54**: a string constant that the compiler prints (`printer.cc` 286-290) is one literal for its scanner, whatever follows, and the
    scanner reads the same string from it. -/
theorem C54_string {s : Str} (h : IsUtf8 s) :
    Body (escapeUtf8 { escapeQuotes := true } s) ∧ expand (escapeUtf8 { escapeQuotes := true } s) = .ok s ∧
    ∀ b r r', Body b → 34 :: (escapeUtf8 { escapeQuotes := true } s ++ 34 :: r) = 34 :: (b ++ 34 :: r') →
      b = escapeUtf8 { escapeQuotes := true } s ∧ r' = r := by
  have hbody : Body (escapeUtf8 { escapeQuotes := true } s) := by
    obtain ⟨cs, hc, he⟩ := h
    rw [he, escape_text rfl hc]
    clear he
    induction cs with
    | nil => exact .nil
    | cons c cs ih =>
      rw [List.flatMap_cons]
      exact body_append (body_char rfl rfl rfl (hc c List.mem_cons_self)) (ih fun x hx => hc x (List.mem_cons_of_mem _ hx))
  refine ⟨hbody, C53_round_trip rfl rfl h, ?_⟩
  intro b r r' hb he
  injection he with _ he
  have := body_unique hb hbody he.symm
  exact ⟨this.1, this.2⟩

theorem hexDigit_plain : ∀ n : Fin 16, Bytes.hexDigit n.val ≠ 92 ∧ Bytes.hexDigit n.val ≠ 34 := by decide +kernel

theorem body_byte (c : Byte) : Body (Bytes.escapeByte { escapeQuotes := true } c) := by
  unfold Bytes.escapeByte
  have hlt := byte_lt c
  by_cases h1 : c = 92
  · rw [if_pos ⟨h1, by decide⟩]; exact .esc (by decide) .nil
  · rw [if_neg (fun h => h1 h.1)]
    by_cases h2 : c = 34
    · rw [if_pos ⟨h2, rfl⟩]; exact .esc (by decide) .nil
    · rw [if_neg (fun h => h2 h.1)]
      split
      · exact .plain h1 h2 .nil
      · simp only [Bool.false_eq_true, if_false]
        have g1 := hexDigit_plain ⟨c.toNat / 16, by omega⟩
        have g2 := hexDigit_plain ⟨c.toNat % 16, by omega⟩
        exact .esc (by decide) (.plain g1.1 g1.2 (.plain g2.1 g2.2 .nil))

/-- **C54**: the same for `bytes` constants (`printer.cc` 205), which may hold any bytes. -/
theorem C54_bytes (s : Str) :
    Body (Bytes.escapeBytes { escapeQuotes := true } s) ∧ expand (Bytes.escapeBytes { escapeQuotes := true } s) = .ok s ∧
    ∀ b r r', Body b → 34 :: (Bytes.escapeBytes { escapeQuotes := true } s ++ 34 :: r) = 34 :: (b ++ 34 :: r') →
      b = Bytes.escapeBytes { escapeQuotes := true } s ∧ r' = r := by
  have hbody : Body (Bytes.escapeBytes { escapeQuotes := true } s) := by
    unfold Bytes.escapeBytes
    induction s with
    | nil => exact .nil
    | cons c s ih => rw [List.flatMap_cons]; exact body_append (body_byte c) ih
  refine ⟨hbody, Bytes.C32_round_trip _ rfl rfl s, ?_⟩
  intro b r r' hb he
  injection he with _ he
  have := body_unique hb hbody he.symm
  exact ⟨this.1, this.2⟩

/-- Without `EscapeQuotes`, as `CodeFormatter::quoted` renders strings (`code-formatter.cc` 41-44), a quote ends the literal early. -/
theorem C54_quoted_fails : ¬ Body (escapeUtf8 { noEscapeControl := true } [0x61, 34, 0x62]) := by
  have : escapeUtf8 { noEscapeControl := true } [0x61, 34, 0x62] = [0x61, 34, 0x62] := rfl
  rw [this]
  intro h
  cases h with
  | plain _ _ h => cases h with
    | plain _ h2 _ => exact h2 rfl

end Verif.Text
