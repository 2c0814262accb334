import Verif.Base
/-!
# Model of integer packing, bit ranges, powers and text conversion

Sources: `hilti/runtime/include/types/integer.h` (`integer.h`), `hilti/runtime/include/util.h` (`util.h`),
`hilti/runtime/src/types/integer.cc` (`integer.cc`), `hilti/runtime/src/types/bytes.cc` (`bytes.cc`),
`hilti/runtime/include/safe-int.h` (`safe-int.h`).

C++ integers of `n` bytes are bit vectors of width `8 * n`; C++20 makes shifts and conversions of signed integers modular.
Where the code goes through `integer::safe` (`SafeInt`, a third-party library whose source is not part of the repository) the
model uses its contract: the exact result or an exception.
-/

namespace Verif.Ints

abbrev Byte := UInt8

/-- `hilti/runtime/include/util.h` (`HILTI_RT_ENUM(ByteOrder, ...)`). -/
inductive Order where
  | big | network | little | host | undef
  deriving DecidableEq, Repr

/-- `util.cc` 408-419: what a machine's byte order can be. -/
inductive Endian where
  | little | big
  deriving DecidableEq, Repr

def Endian.order : Endian → Order
  | .little => .little
  | .big => .big

/-- The integer types: number of bytes and signedness. -/
structure Ty where
  bytes : Nat
  signed : Bool
  deriving DecidableEq, Repr

/-- The eight types the code is instantiated for. -/
def Ty.Std (t : Ty) : Prop := t.bytes = 1 ∨ t.bytes = 2 ∨ t.bytes = 4 ∨ t.bytes = 8

/-- The value of a bit pattern in a type. -/
def Ty.val {w : Nat} (t : Ty) (x : BitVec w) : Int := if t.signed then x.toInt else x.toNat

/-- `x >>= 8U` -/
def Ty.shr8 {w : Nat} (t : Ty) (x : BitVec w) : BitVec w := if t.signed then x.sshiftRight 8 else x >>> 8

/-- `integer.h` 75-82 `detail::pack`. `dst` is the array with `sizeof(x)` elements. -/
def packLoop {w : Nat} (t : Ty) : List Nat → BitVec w → List Byte → List Byte
  | [], _, dst => dst
  | i :: is, x, dst => packLoop t is (t.shr8 x) (dst.set (t.bytes - i - 1) ⟨(x &&& 0xff#w).setWidth 8⟩)

/-- `integer.h` 84-94 `detail::unpack`. -/
def unpackLoop {w : Nat} : List Nat → BitVec w → List Byte → BitVec w
  | [], x, _ => x
  | i :: is, x, src => unpackLoop is ((x <<< 8) ||| ((src[i]?.getD 0).toBitVec.setWidth w)) src

/-- The index lists `{0, 1, ...}` and `{..., 1, 0}`. -/
def indices (n : Nat) : Order → List Nat
  | .little => (List.range n).reverse
  | _ => List.range n

/-- `integer.h` 98-147 `pack`. A value of type `int8_t` is converted through `safe<int8_t>`'s checked conversion to
    `uint8_t`, which throws for negative values (110-111, 127-128). -/
def pack (sys : Endian) (t : Ty) (x : BitVec (8 * t.bytes)) (fmt : Order) : Res (List Byte) :=
  let fmt := if fmt = .host then sys.order else fmt
  match fmt with
  | .undef => .throw .runtimeError
  | .host => .ub
  | _ =>
    if t.bytes = 1 then
      if t.signed && x.msb then .throw .overflow else .ok [⟨x.setWidth 8⟩]
    else .ok (packLoop t (indices t.bytes fmt) x (List.replicate t.bytes 0))

/-- `integer.h` 149-211 `unpack`, on bytes; an error result is `none`. What is left of the data is returned as well. -/
def unpack (sys : Endian) (t : Ty) (b : List Byte) (fmt : Order) : Option (BitVec (8 * t.bytes) × List Byte) :=
  let fmt := if fmt = .host then sys.order else fmt
  if b.length < t.bytes then none
  else
    let raw := b.take t.bytes
    let rest := b.drop t.bytes
    match fmt with
    | .undef => none
    | .host => none
    | _ =>
      if t.bytes = 1 then some ((raw[0]?.getD 0).toBitVec.setWidth _, rest)
      else some (unpackLoop (indices t.bytes fmt) 0 raw, rest)

/-- `integer.h` 295 -/
inductive BitOrder where
  | lsb0 | msb0 | undef
  deriving DecidableEq, Repr

/-- `integer.h` 297-341 `bits`, for an unsigned type of `w` bits. The mask is computed with 64 bits and a shift by 64 or more is
    undefined. -/
def bits {w : Nat} (v : BitVec w) (lower upper : Nat) (bo : BitOrder) : Res (BitVec w) :=
  if lower > upper then .throw .invalidArgument
  else if upper ≥ w then .throw .invalidArgument
  else match bo with
    | .undef => .throw .runtimeError
    | .lsb0 => go v lower upper
    | .msb0 => go v (w - upper - 1) (w - lower - 1)
where
  go (v : BitVec w) (lower upper : Nat) : Res (BitVec w) :=
    let range := upper - lower + 1
    if range = w then .ok v
    else if range ≥ 64 ∨ lower ≥ 64 then .ub
    else
      let mask : BitVec 64 := ((1#64 <<< range) - 1#64) <<< lower
      .ok ((v &&& mask.setWidth w) >>> lower)

/-- `integer.cc` 11-30 `flip_impl`: reverses the bytes. -/
def flipBytes (n : Nat) (v : BitVec (8 * n)) : BitVec (8 * n) :=
  unpackLoop (List.range n) 0 ((List.range n).map fun k => ⟨(v >>> (8 * k)).setWidth 8⟩)

/-- `integer.h` 275-292 `flip`: a shift by 64 or more is undefined (`64 - n * 8` wraps around for `n > 8`). -/
def flip (v : BitVec 64) (n : Nat) : Res (BitVec 64) :=
  if n = 0 then .ok v
  else if n > 8 then .ub
  else .ok (flipBytes 8 v >>> (64 - n * 8))

/-! ## Safe integers (contract) -/

def Ty.min (t : Ty) : Int := if t.signed then -(2 ^ (8 * t.bytes - 1)) else 0
def Ty.max (t : Ty) : Int := if t.signed then 2 ^ (8 * t.bytes - 1) - 1 else 2 ^ (8 * t.bytes) - 1
def Ty.has (t : Ty) (x : Int) : Prop := t.min ≤ x ∧ x ≤ t.max

instance (t : Ty) (x : Int) : Decidable (t.has x) := inferInstanceAs (Decidable (_ ∧ _))

/-- Multiplication of safe integers (contract of `SafeInt`). -/
def Ty.mul (t : Ty) (x y : Int) : Res Int := if t.has (x * y) then .ok (x * y) else .throw .overflow

/-- `util.h` 544-559 `pow`: the loop, for a limited number of iterations; `none` if it has not ended by then. `exp >>= 1` is an
    arithmetic shift. -/
def powLoop (t : Ty) : Nat → Int → Int → Int → Option (Res Int)
  | 0, _, _, _ => none
  | n + 1, x, base, exp =>
    let x' : Res Int := if exp % 2 = 1 then t.mul x base else .ok x
    match x' with
    | .throw e => some (.throw e)
    | .ub => some .ub
    | .ok x' =>
      let exp := exp / 2
      if exp = 0 then some (.ok x')
      else match t.mul base base with
        | .throw e => some (.throw e)
        | .ub => some .ub
        | .ok base => powLoop t n x' base exp

/-! ## Numbers as text -/

/-- `util.h` 510-519: the value of a digit. -/
def digit (base : Nat) (c : Byte) : Option Nat :=
  let c := c.toNat
  if 48 ≤ c ∧ c < 48 + base then some (c - 48)
  else if 97 ≤ c ∧ c < 97 - 10 + base then some (c - 97 + 10)
  else if 65 ≤ c ∧ c < 65 - 10 + base then some (c - 65 + 10)
  else none

/-- `util.h` 506-525: digits are accumulated until the first character that is none. Returns the number and the number of
    digits. -/
def digitsLoop (max base : Nat) : List Byte → Nat → Nat → Res (Nat × Nat)
  | [], n, k => .ok (n, k)
  | c :: cs, n, k => match digit base c with
    | none => .ok (n, k)
    | some d =>
      if n > max / base ∨ d > max - n * base then .throw .outOfRange
      else digitsLoop max base cs (n * base + d) (k + 1)

/-- `util.h` 463-539 `atoi_n`, for `int64_t`: the number of characters consumed, as an `uint8_t`, and the number. -/
def atoi64 (input : List Byte) (base : Nat) : Res (Nat × Int) :=
  if base < 2 ∨ base > 36 then .throw .outOfRange
  else match input with
    | [] => .throw .invalidArgument
    | c :: cs =>
      let neg := c = 45
      let sign := neg ∨ c = 43
      match digitsLoop (2 ^ 63) base (if sign then cs else c :: cs) 0 0 with
      | .throw e => .throw e
      | .ub => .ub
      | .ok (n, k) =>
        let s := if sign then k + 1 else k
        if s = 0 then .ok (0, 0)
        else .ok (s % 256, (if neg then (BitVec.ofInt 64 (-(n : Int))).toInt else (BitVec.ofNat 64 n).toInt))

/-- `bytes.cc` 254-260 `toInt(base)`; the base is an `uint64_t` passed on as an `uint8_t`. -/
def toInt (b : List Byte) (base : Nat) : Res Int := match atoi64 b (base % 256) with
  | .ok (k, x) => if k = b.length then .ok x else .throw .runtimeError
  | .throw e => .throw e
  | .ub => .ub

/-- `bytes.cc` 262-268 `toUInt(base)`: the result is an `int64_t` converted to `safe<uint64_t>`. -/
def toUInt (b : List Byte) (base : Nat) : Res Nat := match atoi64 b (base % 256) with
  | .ok (k, x) => if k = b.length then (if x < 0 then .throw .overflow else .ok x.toNat) else .throw .runtimeError
  | .throw e => .throw e
  | .ub => .ub

/-- `bytes.cc` 293-307. -/
def toUIntFixed (b : List Byte) (little : Bool) : Res (BitVec 64) :=
  if b.length = 0 then .throw .invalidValue
  else if b.length > 8 then .throw .invalidValue
  else
    let i := b.foldl (fun (i : BitVec 64) c => (i <<< 8) ||| c.toBitVec.setWidth 64) 0
    if little then flip i b.length else .ok i

/-- `bytes.cc` 271-281: from the unsigned value. -/
def signExtend (i : BitVec 64) (size : Nat) : BitVec 64 :=
  if i &&& (1#64 <<< (size * 8 - 1)) ≠ 0 then
    if size = 8 then -(~~~i + 1) else -(i ^^^ ((1#64 <<< (size * 8)) - 1)) - 1
  else i

/-- `bytes.cc` 270-308 `toInt(ByteOrder)`, `toUInt(ByteOrder)` for byte orders other than `Host`. -/
def toUIntOrder (b : List Byte) (o : Order) : Res (BitVec 64) := match o with
  | .undef => .throw .invalidArgument
  | .host => .ub
  | .little => toUIntFixed b true
  | _ => toUIntFixed b false

def toIntOrder (b : List Byte) (o : Order) : Res Int := do
  let i ← toUIntOrder b o
  .ok (signExtend i b.length).toInt

/-- `bytes.cc` 284-308 `toUInt(ByteOrder)`: for `Host` it goes through `toInt`, with a checked conversion to `uint64_t`. -/
def toUIntBO (sys : Endian) (b : List Byte) (o : Order) : Res Nat :=
  if o = .host then do
    let x ← toIntOrder b sys.order
    if x < 0 then .throw .overflow else .ok x.toNat
  else do
    let i ← toUIntOrder b o
    .ok i.toNat

/-- `bytes.cc` 270-282 `toInt(ByteOrder)`. -/
def toIntBO (sys : Endian) (b : List Byte) (o : Order) : Res Int :=
  if o = .host then do
    let i ← toUIntBO sys b o
    .ok (signExtend (BitVec.ofNat 64 i) b.length).toInt
  else toIntOrder b o

end Verif.Ints
