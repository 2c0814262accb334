import Verif.Bytes.Model
/-!
# Specification of Unicode text

Code points are natural numbers. `utf8` and `utf16` are the encodings of the Unicode standard (chapter 3, D92 and D91), written with
arithmetic only.
-/

namespace Verif.Text
open Verif.Bytes (Str Byte)

/-- Code points that can be encoded: up to 0x10FFFF and no surrogate. -/
def Scalar (c : Nat) : Prop := c < 0xD800 ∨ (0xE000 ≤ c ∧ c < 0x110000)

instance (c : Nat) : Decidable (Scalar c) := by unfold Scalar; infer_instance

/-- The UTF-8 form of one code point. -/
def enc8 (c : Nat) : Str :=
  if c < 0x80 then [UInt8.ofNat c]
  else if c < 0x800 then [UInt8.ofNat (0xC0 + c / 64), UInt8.ofNat (0x80 + c % 64)]
  else if c < 0x10000 then [UInt8.ofNat (0xE0 + c / 4096), UInt8.ofNat (0x80 + c / 64 % 64), UInt8.ofNat (0x80 + c % 64)]
  else [UInt8.ofNat (0xF0 + c / 262144), UInt8.ofNat (0x80 + c / 4096 % 64), UInt8.ofNat (0x80 + c / 64 % 64), UInt8.ofNat (0x80 + c % 64)]

/-- A text as UTF-8. -/
def utf8 (cs : List Nat) : Str := cs.flatMap enc8

/-- All members can be encoded. -/
def Scalars (cs : List Nat) : Prop := ∀ c ∈ cs, Scalar c

instance (cs : List Nat) : Decidable (Scalars cs) := by unfold Scalars; infer_instance

/-- Well-formed UTF-8. -/
def IsUtf8 (s : Str) : Prop := ∃ cs, Scalars cs ∧ s = utf8 cs

/-- The UTF-16 code units of one code point. -/
def enc16 (c : Nat) : List Nat :=
  if c < 0x10000 then [c] else [0xD800 + (c - 0x10000) / 1024, 0xDC00 + (c - 0x10000) % 1024]

inductive Order where
  | le | be
  deriving DecidableEq, Repr

/-- A 16-bit unit as two bytes. -/
def unit (o : Order) (u : Nat) : Str := match o with
  | .le => [UInt8.ofNat (u % 256), UInt8.ofNat (u / 256)]
  | .be => [UInt8.ofNat (u / 256), UInt8.ofNat (u % 256)]

/-- A text as UTF-16 without byte order mark. -/
def utf16 (o : Order) (cs : List Nat) : Str := (cs.flatMap enc16).flatMap (unit o)

/-- The data begins with a byte order mark of either order. -/
def Bom (s : Str) : Prop := [0xFF, 0xFE] <+: s ∨ [0xFE, 0xFF] <+: s

instance (s : Str) : Decidable (Bom s) := by unfold Bom; infer_instance

/-- What to do with data that is not in the character set. -/
inductive Strategy where
  | ignore | replace | strict
  deriving DecidableEq, Repr

/-- What a strategy puts in the place of an offending byte; strict has no answer. -/
def Strategy.subst : Strategy → List Nat
  | .replace => [0xFFFD]
  | _ => []

/-- A well-formed code point begins here. -/
def Starts (s : Str) : Prop := ∃ c r, Scalar c ∧ s = enc8 c ++ r

/-- How many bytes a first byte announces; 0 if it cannot be a first byte. -/
def announced (b : Byte) : Nat :=
  if b.toNat < 0x80 then 1 else if b.toNat < 0xC0 then 0 else if b.toNat < 0xE0 then 2 else if b.toNat < 0xF0 then 3
  else if b.toNat < 0xF8 then 4 else 0

/-- A continuation byte. -/
def Trail (b : Byte) : Prop := 0x80 ≤ b.toNat ∧ b.toNat < 0xC0

/-- The data ends in the middle of a sequence. -/
def CutShort (s : Str) : Prop := ∃ b r, s = b :: r ∧ s.length < announced b ∧ ∀ t ∈ r, Trail t

/-- A complete sequence of the UTF-8 pattern that stands for a surrogate (first byte ED, or F0 for the overlong form) or for a number
    above 0x10FFFF (first byte F4 to F7). -/
def NotAScalar (s : Str) : Prop :=
  (∃ a b r, s = 0xED :: a :: b :: r ∧ 0xA0 ≤ a.toNat ∧ a.toNat < 0xC0 ∧ Trail b) ∨
  (∃ l a b c r, s = l :: a :: b :: c :: r ∧ Trail a ∧ Trail b ∧ Trail c ∧ l.toNat < 0xF8 ∧
    (0xF5 ≤ l.toNat ∨ (l.toNat = 0xF4 ∧ 0x90 ≤ a.toNat) ∨ (l.toNat = 0xF0 ∧ a.toNat = 0x8D ∧ 0xA0 ≤ b.toNat)))

/-- `cs` is `s` read from left to right, where every byte at which no code point begins is replaced by `sub`. The text may nowhere be
    cut short or hold a sequence of a surrogate or of a number above 0x10FFFF. -/
inductive Lenient (sub : List Nat) : Str → List Nat → Prop
  | nil : Lenient sub [] []
  | char {c r cs} : Scalar c → Lenient sub r cs → Lenient sub (enc8 c ++ r) (c :: cs)
  | bad {b r cs} : ¬ Starts (b :: r) → ¬ CutShort (b :: r) → ¬ NotAScalar (b :: r) → Lenient sub r cs →
      Lenient sub (b :: r) (sub ++ cs)

/-- The same without exceptions: every byte at which no code point begins is replaced; `f` is applied to the code points. -/
inductive Forgiving (f : Nat → Nat) (sub : List Nat) : Str → List Nat → Prop
  | nil : Forgiving f sub [] []
  | char {c r cs} : Scalar c → Forgiving f sub r cs → Forgiving f sub (enc8 c ++ r) (f c :: cs)
  | bad {b r cs} : ¬ Starts (b :: r) → Forgiving f sub r cs → Forgiving f sub (b :: r) (sub ++ cs)

/-- The inside of a string literal as the scanners see it, `(\\.|[^\\"])*` (`scanner.ll`; the dot matches no line feed). -/
inductive Body : Str → Prop
  | nil : Body []
  | esc {c t} : c ≠ 10 → Body t → Body (92 :: c :: t)
  | plain {c t} : c ≠ 92 → c ≠ 34 → Body t → Body (c :: t)

/-- An octal digit. -/
def octal (b : Byte) : Bool := 48 ≤ b.toNat ∧ b.toNat ≤ 55

/-- The escapes of one letter in C++ (`[lex.ccon]`, and `\e` as a GNU extension). -/
def cxxSimple (e : Byte) : Option Byte :=
  if e = 92 then some 92 else if e = 34 then some 34 else if e = 39 then some 39 else if e = 63 then some 63
  else if e = 97 then some 7 else if e = 98 then some 8 else if e = 101 then some 27 else if e = 102 then some 12
  else if e = 110 then some 10 else if e = 114 then some 13 else if e = 116 then some 9 else if e = 118 then some 11 else none

/-- The bytes that the inside of a C++ string literal stands for; `none` if it is not one or uses escapes that this specification does
    not cover (`\x`, `\u`, `\U`). An octal escape takes as many digits as there are, up to three. -/
def cxx : Nat → Str → Option Str
  | 0, _ => some []
  | _ + 1, [] => some []
  | n + 1, c :: s =>
    if c = 92 then match s with
      | [] => none
      | e :: s =>
        if octal e then
          let ds := (e :: s).take 3 |>.takeWhile octal
          let v := ds.foldl (fun a d => a * 8 + (d.toNat - 48)) 0
          if v < 256 then (cxx n ((e :: s).drop ds.length)).map (UInt8.ofNat v :: ·) else none
        else match cxxSimple e with
          | some b => (cxx n s).map (b :: ·)
          | none => none
    else if c = 34 ∨ c = 10 then none
    else (cxx n s).map (c :: ·)

def cxxLiteral (s : Str) : Option Str := cxx s.length s

end Verif.Text
