import Verif.Text.Spec
/-!
# Model of character sets

Third-party parts, by contract: utfcpp (`utf8::next`, `append`, `next16`, `append16`, `utf8to16`, `utf16to8`) and utf8proc
(`utf8proc_iterate`, `utf8proc_encode_char`, `utf8proc_toupper`, `utf8proc_tolower`). Their sources are not in `/repo`; the contracts are
those of their released versions. The machine is little-endian.
-/

namespace Verif.Text
open Verif.Bytes (Str Byte)

/-- Outcomes of `utf8::internal::validate_next` (utfcpp). -/
inductive Err where
  | notEnoughRoom | invalidLead | incomplete | overlong | invalidCodePoint
  deriving DecidableEq, Repr

/-- utfcpp `sequence_length`: from the high bits of the first byte. -/
def seqLen (b : Byte) : Nat :=
  if b.toNat < 0x80 then 1 else if b.toNat / 32 = 6 then 2 else if b.toNat / 16 = 14 then 3 else if b.toNat / 8 = 30 then 4 else 0

/-- utfcpp `get_sequence_2`..`_4`: the continuation bytes; the end of the data is noticed one byte at a time. -/
def trails : Nat → Nat → Str → Except Err (Nat × Str)
  | 0, acc, s => .ok (acc, s)
  | _ + 1, _, [] => .error .notEnoughRoom
  | n + 1, acc, b :: s => if b.toNat / 64 = 2 then trails n (acc * 64 + b.toNat % 64) s else .error .incomplete

/-- utfcpp `validate_next`: the next code point and the rest. On an error the position stays. The code point is checked before the length
    of its form. -/
def next8 : Str → Except Err (Nat × Str)
  | [] => .error .notEnoughRoom
  | b :: s =>
    let n := seqLen b
    if n = 0 then .error .invalidLead
    else match trails (n - 1) (if n = 1 then b.toNat else if n = 2 then b.toNat % 32 else if n = 3 then b.toNat % 16 else b.toNat % 8) s with
      | .error e => .error e
      | .ok (cp, r) =>
        if cp > 0x10FFFF ∨ (0xD800 ≤ cp ∧ cp ≤ 0xDFFF) then .error .invalidCodePoint
        else if (cp < 0x80 ∧ n ≠ 1) ∨ (0x80 ≤ cp ∧ cp < 0x800 ∧ n ≠ 2) ∨ (0x800 ≤ cp ∧ cp < 0x10000 ∧ n ≠ 3) then .error .overlong
        else .ok (cp, r)

/-- The errors that `utf8::next` reports as `utf8::invalid_utf8`. The others are `utf8::not_enough_room` and
    `utf8::invalid_code_point`, which the handlers in `bytes.cc` and `string.cc` do not catch. -/
def Err.isInvalidUtf8 : Err → Bool
  | .invalidLead | .incomplete | .overlong => true
  | _ => false

/-- `bytes.cc` 119-140, `string.cc` 149-170: the loop over UTF-8 data. `utf8::append` writes the form of the code point. The exceptions that
    the loop does not catch reach the handler at the end of the function (`bytes.cc` 213-216, `string.cc` 231-234), which throws a
    `RuntimeError` too. The fuel is the number of bytes left, which every round lowers. -/
def decode8 (st : Strategy) : Nat → Str → Res Str
  | 0, _ => .ok []
  | _ + 1, [] => .ok []
  | fuel + 1, b :: s =>
    match next8 (b :: s) with
    | .ok (cp, r) => (decode8 st fuel r).bind fun t => .ok (enc8 cp ++ t)
    | .error e =>
      if e.isInvalidUtf8 then
        match st with
        | .ignore => decode8 st fuel s
        | .replace => (decode8 st fuel s).bind fun t => .ok (enc8 0xFFFD ++ t)
        | .strict => .throw .runtimeError
      else .throw .runtimeError

/-- What utfcpp's `next16` does at a surrogate without its partner. Its documentation says that it throws `invalid_utf16`; releases up to
    4.0 return without having moved, which makes the loop in `bytes.cc` 178-193 endless. -/
inductive Lib16 where
  | throws | stalls
  deriving DecidableEq, Repr

/-- Outcomes of `utf8::internal::validate_next16`. A surrogate in the last unit is always `notEnoughRoom`. -/
def next16 : List Nat → Except Err (Nat × List Nat)
  | [] => .error .notEnoughRoom
  | u :: s =>
    if ¬ (0xD800 ≤ u ∧ u ≤ 0xDFFF) then .ok (u, s)
    else match s with
      | [] => .error .notEnoughRoom
      | v :: r =>
        if u ≤ 0xDBFF then
          if 0xDC00 ≤ v ∧ v ≤ 0xDFFF then .ok (0x10000 + (u - 0xD800) * 1024 + (v - 0xDC00), r)
          else .error .incomplete
        else .error .invalidLead

/-- `bytes.cc` 178-195: the loop over UTF-16 units and the conversion of its result to UTF-8 (`append16` and `utf16to8` in one). -/
def decode16 (lib : Lib16) (st : Strategy) : Nat → List Nat → Res Str
  | 0, _ => .ok []
  | _ + 1, [] => .ok []
  | fuel + 1, u :: s =>
    match next16 (u :: s) with
    | .ok (cp, r) => (decode16 lib st fuel r).bind fun t => .ok (enc8 cp ++ t)
    | .error .notEnoughRoom => .throw .runtimeError
    | .error _ =>
      match lib with
      | .stalls => .ub
      | .throws =>
        match st with
        | .ignore => decode16 lib st fuel s
        | .replace => (decode16 lib st fuel s).bind fun t => .ok (enc8 0xFFFD ++ t)
        | .strict => .throw .runtimeError

/-- `bytes.cc` 164, 170-176 and `U16Iterator` 24-73: the units of the data, an even number of bytes. `swap` is the order `BE`. -/
def units (swap : Bool) : Str → List Nat
  | a :: b :: s => (if swap then a.toNat * 256 + b.toNat else b.toNat * 256 + a.toNat) :: units swap s
  | _ => []

inductive Charset where
  | undef | utf8 | utf16le | utf16be | ascii
  deriving DecidableEq, Repr

/-- `bytes.cc` 166-169: with a byte order mark of either order the order is `Detected`, which reads units as they are in memory. -/
def swapped (cs : Charset) (s : Str) : Bool :=
  if ¬ (s.take 2 = [0xFF, 0xFE]) ∧ ¬ (s.take 2 = [0xFE, 0xFF]) then cs ≠ .utf16le else false

/-- `bytes.cc` 145-195: UTF-16 in either order. An odd last byte is handled first. -/
def decodeUtf16 (lib : Lib16) (cs : Charset) (st : Strategy) (s : Str) : Res Str :=
  let even (s : Str) : Res Str := if s = [] then .ok [] else decode16 lib st s.length (units (swapped cs s) s)
  if s.length % 2 ≠ 0 then
    match st with
    | .strict => .throw .runtimeError
    | .ignore => even (s.take (s.length / 2 * 2))
    | .replace => (even (s.take (s.length / 2 * 2))).bind fun t => .ok (t ++ enc8 0xFFFD)
  else even s

/-- `bytes.cc` 198-213, `string.cc` 203-218: ASCII. 63 is a question mark. -/
def ascii (st : Strategy) : Str → Res Str
  | [] => .ok []
  | b :: s =>
    if 32 ≤ b.toNat ∧ b.toNat < 0x7F then (ascii st s).bind fun t => .ok (b :: t)
    else match st with
      | .ignore => ascii st s
      | .replace => (ascii st s).bind fun t => .ok (63 :: t)
      | .strict => .throw .runtimeError

/-- `bytes.cc` 109-216 `Bytes::decode`. -/
def decode (lib : Lib16) (cs : Charset) (st : Strategy) (s : Str) : Res Str :=
  if s = [] then .ok []
  else match cs with
    | .utf8 => decode8 st s.length s
    | .utf16le | .utf16be => decodeUtf16 lib cs st s
    | .ascii => ascii st s
    | .undef => .throw .runtimeError

/-- utfcpp `append16`: the units of a code point. -/
def append16 (c : Nat) : List Nat :=
  if c ≤ 0xFFFF then [c] else [0xD7C0 + c / 1024, 0xDC00 + c % 1024]

/-- utfcpp `utf8to16`. -/
def utf8to16 : Nat → Str → Except Err (List Nat)
  | 0, _ => .ok []
  | _ + 1, [] => .ok []
  | fuel + 1, b :: s =>
    match next8 (b :: s) with
    | .error e => .error e
    | .ok (cp, r) => match utf8to16 fuel r with
      | .error e => .error e
      | .ok t => .ok (append16 cp ++ t)

/-- `string.cc` 184-197: the two bytes of a unit. -/
def unitBytes (cs : Charset) (u : Nat) : Str :=
  if cs = .utf16le then [UInt8.ofNat (u % 256), UInt8.ofNat (u / 256)] else [UInt8.ofNat (u / 256), UInt8.ofNat (u % 256)]

/-- `string.cc` 141-234 `string::encode`. -/
def encode (cs : Charset) (st : Strategy) (s : Str) : Res Str :=
  if s = [] then .ok []
  else match cs with
    | .utf8 => decode8 st s.length s
    | .utf16le | .utf16be =>
      (decode8 st s.length s).bind fun t8 =>
        match utf8to16 t8.length t8 with
        | .error _ => .throw .runtimeError
        | .ok t => .ok (t.flatMap (unitBytes cs))
    | .ascii => ascii st s
    | .undef => .throw .runtimeError

/-- Outcomes of `string::size`: unlike the other functions it has no handler for the exceptions of utfcpp it does not catch itself. -/
inductive SizeRes where
  | ok (n : Nat)
  | runtimeError
  | foreign
  deriving DecidableEq, Repr

/-- `string.cc` 15-43 `string::size`; `len` is what has been counted. The code counts in 64 bits. -/
def sizeLoop (st : Strategy) : Nat → Nat → Str → SizeRes
  | 0, len, _ => .ok len
  | _ + 1, len, [] => .ok len
  | fuel + 1, len, b :: s =>
    match next8 (b :: s) with
    | .ok (_, r) => sizeLoop st fuel (len + 1) r
    | .error e =>
      if e.isInvalidUtf8 then
        match st with
        | .ignore => sizeLoop st fuel len s
        | .replace => sizeLoop st fuel (len + 1) s
        | .strict => .runtimeError
      else .foreign

def size (st : Strategy) (s : Str) : SizeRes := sizeLoop st s.length 0 s

/-- `utf8proc_iterate`: the next code point and the rest, or an error; all malformed data is an error. -/
def iterate (s : Str) : Option (Nat × Str) := match next8 s with
  | .ok p => some p
  | .error _ => none

/-- `string.cc` 45-73 `string::upper`, 75-103 `string::lower`: `conv` is `utf8proc_toupper`, `utf8proc_tolower`. A code point that
    `utf8proc_encode_char` rejects adds nothing. -/
def convert (conv : Nat → Nat) (st : Strategy) : Nat → Str → Res Str
  | 0, _ => .ok []
  | _ + 1, [] => .ok []
  | fuel + 1, b :: s =>
    match iterate (b :: s) with
    | none =>
      match st with
      | .ignore => convert conv st fuel s
      | .replace => (convert conv st fuel s).bind fun t => .ok (enc8 0xFFFD ++ t)
      | .strict => .throw .runtimeError
    | some (cp, r) => (convert conv st fuel r).bind fun t => .ok ((Bytes.utf8Encode (conv cp)).getD [] ++ t)

def changeCase (conv : Nat → Nat) (st : Strategy) (s : Str) : Res Str := convert conv st s.length s

/-- `util.h` 344-351 `render_style::UTF8`. -/
structure Style where
  escapeQuotes : Bool := false
  noEscapeBackslash : Bool := false
  noEscapeControl : Bool := false
  noEscapeHex : Bool := false
  deriving DecidableEq, Repr

/-- `util.cc` 323-348: the letter for a control character. -/
def controlLetter (c : Nat) : Option Byte :=
  if c = 0 then some 48 else if c = 7 then some 97 else if c = 8 then some 98 else if c = 0x1B then some 101
  else if c = 12 then some 102 else if c = 10 then some 110 else if c = 13 then some 114 else if c = 9 then some 116
  else if c = 11 then some 118 else none

/-- `util.cc` 311-353: one code point, `r` is what follows it. The code compares the first byte with control characters, which the code
    point equals for bytes below 0x80. 120 is an `x`. -/
def escapeChar (st : Style) (cp : Nat) (r : Str) : Str :=
  if cp = 92 then
    if st.noEscapeHex ∧ r.head? = some 120 then [92]
    else if ¬ st.noEscapeBackslash then [92, 92]
    else [92]
  else if cp = 34 ∧ st.escapeQuotes then [92, 34]
  else match controlLetter cp with
    | some l => if st.noEscapeControl then enc8 cp else [92, l]
    | none => enc8 cp

/-- "<illegal UTF8 sequence>" -/
def illegal : Str := [60, 105, 108, 108, 101, 103, 97, 108, 32, 85, 84, 70, 56, 32, 115, 101, 113, 117, 101, 110, 99, 101, 62]

/-- `util.cc` 289-357 `escapeUTF8`. -/
def escapeLoop (st : Style) : Nat → Str → Str
  | 0, _ => []
  | _ + 1, [] => []
  | fuel + 1, b :: s =>
    match iterate (b :: s) with
    | none => illegal
    | some (cp, r) => escapeChar st cp r ++ escapeLoop st fuel r

def escapeUtf8 (st : Style) (s : Str) : Str := escapeLoop st s.length s

end Verif.Text
