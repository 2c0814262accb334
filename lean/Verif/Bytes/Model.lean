import Verif.Ints.Model
/-!
# Model of the operations on bytes and strings

Sources: `hilti/runtime/src/util.cc` (`util.cc`), `hilti/runtime/include/util.h` (`util.h`), `hilti/runtime/src/types/bytes.cc`
(`bytes.cc`), `hilti/runtime/include/types/bytes.h` (`bytes.h`).

A `std::string`, `std::string_view` or `Bytes` is a list of bytes. Searching within the standard library (`find`, `rfind`,
`find_first_of`, ...) is modelled by its contract: the first or last position with the property.
-/

namespace Verif.Bytes

abbrev Byte := UInt8
abbrev Str := List Byte

/-- `std::string_view::find(needle)`: first position at which the needle starts. -/
def find : Str → Str → Option Nat
  | s, needle => if needle.isPrefixOf s then some 0 else match s with
    | [] => none
    | _ :: s => (find s needle).map (· + 1)

/-- `std::string::rfind(needle)`: last position at which the needle starts. -/
def rfind : Str → Str → Option Nat
  | s, needle => match s with
    | [] => if needle.isPrefixOf [] then some 0 else none
    | c :: s => match rfind s needle with
      | some i => some (i + 1)
      | none => if needle.isPrefixOf (c :: s) then some 0 else none

/-- `util.cc` 127-134: the loop of `split`. `fuel` bounds the iterations; each removes at least one byte. -/
def splitLoop (delim : Str) : Nat → Str → List Str
  | 0, _ => []
  | fuel + 1, s => match find s delim with
    | none => [s]
    | some p =>
      let rest := s.drop (p + delim.length)
      s.take p :: (if rest = [] then [] else splitLoop delim fuel rest)

/-- `util.cc` 116-140 `split(s, delim)`. -/
def split (s delim : Str) : List Str :=
  if delim = [] then [s]
  else if s.length < delim.length then [s]
  else
    let endsInDelim : Bool := s.drop (s.length - delim.length) = delim
    splitLoop delim (s.length + 1) s ++ (if endsInDelim then [[]] else [])

/-- `util.h` 180 `whitespace_chars` -/
def isWs (c : Byte) : Bool := c = 32 ∨ c = 9 ∨ c = 12 ∨ c = 11 ∨ c = 10 ∨ c = 13

/-- `util.h` 165-168 `ltrim` -/
def ltrim (inSet : Byte → Bool) (s : Str) : Str := s.drop ((s.findIdx? (fun c => !inSet c)).getD s.length)

/-- `std::string_view::find_last_not_of` -/
def findLast (p : Byte → Bool) : Str → Option Nat
  | [] => none
  | c :: s => match findLast p s with
    | some i => some (i + 1)
    | none => if p c then some 0 else none

/-- `util.h` 154-158 `rtrim` -/
def rtrim (inSet : Byte → Bool) (s : Str) : Str := s.take (match findLast (fun c => !inSet c) s with | some pos => pos + 1 | none => 0)

/-- `util.h` 176-178 `trim` -/
def trim (inSet : Byte → Bool) (s : Str) : Str := ltrim inSet (rtrim inSet s)

/-- `bytes.cc` 220-244 `strip`; the side is left, right or both. -/
inductive Side where
  | left | right | both
  deriving DecidableEq, Repr

def strip (inSet : Byte → Bool) (side : Side) (s : Str) : Str := match side with
  | .left => ltrim inSet s
  | .right => rtrim inSet s
  | .both => trim inSet s

/-- `util.cc` 147-155: the loop of `split(s)`. -/
def splitWsLoop : Nat → Str → List Str
  | 0, _ => []
  | fuel + 1, s =>
    if s = [] then []
    else match s.findIdx? isWs with
      | none => [s]
      | some p => s.take p :: splitWsLoop fuel (ltrim isWs (s.drop (p + 1)))

/-- `util.cc` 142-158 `split(s)`. -/
def splitWs (s : Str) : List Str := let s := trim isWs s; splitWsLoop s.length s

/-- `util.cc` 160-165 `split1(s)`. -/
def split1Ws (s : Str) : Str × Str := match s.findIdx? isWs with
  | some i => (s.take i, ltrim isWs (s.drop (i + 1)))
  | none => (s, [])

/-- `util.cc` 167-172 `rsplit1(s)`. -/
def rsplit1Ws (s : Str) : Str × Str := match findLast isWs s with
  | some i => (s.take i, rtrim isWs (s.drop (i + 1)))
  | none => ([], s)

/-- `util.cc` 174-179 `split1(s, delim)`. -/
def split1 (s delim : Str) : Str × Str := match find s delim with
  | some i => (s.take i, s.drop (i + delim.length))
  | none => (s, [])

/-- `util.cc` 181-186 `rsplit1(s, delim)`. -/
def rsplit1 (s delim : Str) : Str × Str := match rfind s delim with
  | some i => (s.take i, s.drop (i + delim.length))
  | none => ([], s)

/-- `util.h` 390-405 `join`; also `bytes.h` `Bytes::join` with the parts rendered by `render`. -/
def joinWith (render : Str → Str) (delim : Str) : List Str → Str
  | [] => []
  | [p] => render p
  | p :: ps => render p ++ delim ++ joinWith render delim ps

/-- `util.h` 390-405 `join` -/
def join (delim : Str) (parts : List Str) : Str := joinWith id delim parts

/-- `util.cc` 386-397 `replace`: `i` is the position from which to search. -/
def replaceLoop (o n : Str) : Nat → Str → Nat → Str
  | 0, s, _ => s
  | fuel + 1, s, i => match find (s.drop i) o with
    | none => s
    | some p =>
      let at' := i + p
      replaceLoop o n fuel (s.take at' ++ n ++ s.drop (at' + o.length)) (at' + n.length)

def replace (s o n : Str) : Str := if o = [] then s else replaceLoop o n (s.length + 1) s 0

/-- `util.cc` 399 `startsWith` -/
def startsWith (s p : Str) : Bool := p.isPrefixOf s

/-- `util.cc` 401-406 `endsWith` -/
def endsWith (s p : Str) : Bool := if s.length < p.length then false else s.drop (s.length - p.length) = p

/-! ## Methods of `Bytes` -/

/-- `bytes.cc` 93-103: the inner loop of `find` from position `x`; `some true` if the needle is there, `none` if the data ends. -/
def findInner (s : Str) : Nat → Str → Option Bool
  | _, [] => some true
  | x, y :: ys => match s[x]? with
    | none => none
    | some c => if c ≠ y then some false else match ys with
      | [] => some true
      | ys => findInner s (x + 1) ys

/-- `bytes.cc` 84-104: the loop of `find(needle, start)` for a needle that is not empty. The iterator may be anywhere: past the end
    it never equals `end()` and dereferencing it throws. -/
def findLoop (s needle : Str) (first : Byte) : Nat → Nat → Res (Bool × Nat)
  | 0, i => .ok (false, i)
  | fuel + 1, i =>
    if i = s.length then .ok (false, i)
    else match s[i]? with
      | none => .throw .indexError
      | some c =>
        if c ≠ first then findLoop s needle first fuel (i + 1)
        else match findInner s i needle with
          | none => .ok (false, i)
          | some true => .ok (true, i)
          | some false => findLoop s needle first fuel (i + 1)

/-- `bytes.cc` 75-104 `Bytes::find(needle, start)`, positions for iterators. -/
def bytesFind (s needle : Str) (start : Nat) : Res (Bool × Nat) := match needle with
  | [] => .ok (true, start)
  | first :: _ => findLoop s needle first (s.length + 1 - start + 1) start

/-- `bytes.h` `Bytes::find(value_type, start)`: the standard library's search for a byte, `end()` if there is none. -/
def bytesFindByte (s : Str) (c : Byte) (start : Nat) : Nat := match (s.drop start).findIdx? (· == c) with
  | some i => start + i
  | none => s.length

/-- `bytes.h` `Bytes::sub(from, to)`: `to - from` is computed with 64 bits. `std::string::substr` throws if `from` is beyond the end
    and otherwise returns at most the given number of bytes. -/
def sub (s : Str) (from_ to : Nat) : Res Str :=
  if from_ > s.length then .throw .outOfRange
  else .ok ((s.drop from_).take ((to + 2 ^ 64 - from_) % 2 ^ 64))

/-! ## Escaping -/

/-- `render_style::Bytes`, `util.h` 329-335. -/
structure Style where
  escapeQuotes : Bool := false
  useOctal : Bool := false
  noEscapeBackslash : Bool := false
  deriving DecidableEq, Repr

/-- `isprint()` in the "C" locale. -/
def isPrint (c : Byte) : Bool := 32 ≤ c.toNat ∧ c.toNat < 127

def hexDigit (n : Nat) : Byte := if n < 10 then UInt8.ofNat (48 + n) else UInt8.ofNat (97 + (n - 10))

/-- `util.cc` 362-381: one byte of `escapeBytes`. 92 is a backslash, 34 a quote, 120 an `x`. -/
def escapeByte (st : Style) (c : Byte) : Str :=
  if c = 92 ∧ ¬ st.noEscapeBackslash then [92, 92]
  else if c = 34 ∧ st.escapeQuotes then [92, 34]
  else if isPrint c then [c]
  else if st.useOctal then [92, hexDigit (c.toNat / 64), hexDigit (c.toNat / 8 % 8), hexDigit (c.toNat % 8)]
  else [92, 120, hexDigit (c.toNat / 16), hexDigit (c.toNat % 16)]

/-- `util.cc` 357-384 `escapeBytes`. -/
def escapeBytes (st : Style) (s : Str) : Str := s.flatMap (escapeByte st)

/-- `Bytes::join` renders its parts with `to_string_for_print` (`bytes.h`), which is `escapeBytes(..., NoEscapeBackslash)`. -/
def bytesJoin (sep : Str) (parts : List Str) : Str := joinWith (escapeBytes { noEscapeBackslash := true }) sep parts

/-- `util.h` 463-539 `atoi_n` in base 16 for a 1, 2, 4 or 8 character escape: number of characters used and the number, where no
    range check can fail. `char` is an 8-bit signed type; for it the constant `max_value` is negative and its conversion to 64 bits
    makes both range checks void. For `int32_t` the largest value is 2^31. -/
def atoiHex (limit : Nat) (input : Str) : Res (Nat × Int) := match input with
  | [] => .throw .invalidArgument
  | c :: cs =>
    let neg := c = 45
    let sign := neg ∨ c = 43
    match Ints.digitsLoop limit 16 (if sign then cs else c :: cs) 0 0 with
    | .throw e => .throw e
    | .ub => .ub
    | .ok (n, k) =>
      let s := if sign then k + 1 else k
      if s = 0 then .ok (0, 0) else .ok (s, if neg then -(n : Int) else n)

/-- `utf8proc_encode_char` (third party, contract): the UTF-8 encoding of a code point up to 0x10ffff, nothing for other numbers.
    Surrogates are encoded like any other number. -/
def utf8Encode (v : Int) : Option Str :=
  if v < 0 then none
  else
    let n := v.toNat
    if n < 0x80 then some [UInt8.ofNat n]
    else if n < 0x800 then some [UInt8.ofNat (0xc0 + n / 64), UInt8.ofNat (0x80 + n % 64)]
    else if n < 0x10000 then some [UInt8.ofNat (0xe0 + n / 4096), UInt8.ofNat (0x80 + n / 64 % 64), UInt8.ofNat (0x80 + n % 64)]
    else if n < 0x110000 then some [UInt8.ofNat (0xf0 + n / 262144), UInt8.ofNat (0x80 + n / 4096 % 64), UInt8.ofNat (0x80 + n / 64 % 64), UInt8.ofNat (0x80 + n % 64)]
    else none

/-- `util.cc` 205-225: the escapes of a single character. -/
def simpleEscape (c : Byte) : Option Byte :=
  if c = 92 then some 92
  else if c = 34 then some 34
  else if c = 48 then some 0
  else if c = 97 then some 7
  else if c = 98 then some 8
  else if c = 101 then some 27
  else if c = 102 then some 12
  else if c = 110 then some 10
  else if c = 114 then some 13
  else if c = 116 then some 9
  else if c = 118 then some 11
  else none

/-- `util.cc` 227-263: `\u` and `\U` with `n` characters. Returns the bytes and what is left of the input. -/
def expandUnicode (n : Nat) (s : Str) : Res (Str × Str) :=
  if s.length < n then .throw .unicodeError
  else match atoiHex (2 ^ 31) (s.take n) with
    | .throw e => .throw e
    | .ub => .ub
    | .ok (k, v) =>
      if k ≠ n then .throw .unicodeError
      else
        -- the number is converted to `int32_t`
        match utf8Encode (BitVec.ofInt 32 v).toInt with
        | none => .throw .unicodeError
        | some b => .ok (b, s.drop n)

/-- `util.cc` 265-279: `\x` with up to two characters. -/
def expandHex (s : Str) : Res (Str × Str) :=
  if s = [] then .throw .runtimeError
  else
    let n := min 2 s.length
    match atoiHex (2 ^ 64 - 1) (s.take n) with
    | .throw e => .throw e
    | .ub => .ub
    | .ok (k, v) => if k ≠ n then .throw .runtimeError else .ok ([⟨BitVec.ofInt 8 v⟩], s.drop n)

/-- `util.cc` 192-285 `expandUTF8Escapes`. The code works in place; results are never longer than the escape they are from. A
    `FormattingError` is a `RuntimeError`. -/
def expandLoop : Nat → Str → Res Str
  | 0, _ => .ok []
  | _ + 1, [] => .ok []
  | fuel + 1, c :: s =>
    if c ≠ 92 then do
      let r ← expandLoop fuel s
      .ok (c :: r)
    else match s with
      | [] => .throw .runtimeError
      | e :: s =>
        if e = 117 then do
          let (b, s) ← expandUnicode 4 s
          let r ← expandLoop fuel s
          .ok (b ++ r)
        else if e = 85 then do
          let (b, s) ← expandUnicode 8 s
          let r ← expandLoop fuel s
          .ok (b ++ r)
        else if e = 120 then do
          let (b, s) ← expandHex s
          let r ← expandLoop fuel s
          .ok (b ++ r)
        else match simpleEscape e with
          | some b => do
            let r ← expandLoop fuel s
            .ok (b :: r)
          | none => .throw .runtimeError

def expand (s : Str) : Res Str := expandLoop (s.length + 1) s

end Verif.Bytes
