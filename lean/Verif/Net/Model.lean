import Verif.Ints.Model
/-!
# Model of addresses, networks, ports, times and intervals

Sources: `hilti/runtime/src/types/address.cc` (`address.cc`), `hilti/runtime/include/types/address.h` (`address.h`),
`hilti/runtime/include/types/network.h` (`network.h`), `hilti/runtime/src/types/port.cc` (`port.cc`),
`hilti/runtime/include/types/port.h` (`port.h`), `hilti/runtime/include/types/time.h` (`time.h`),
`hilti/runtime/src/types/time.cc` (`time.cc`), `hilti/runtime/include/types/interval.h` (`interval.h`).

Not modelled: `inet_pton`, `inet_ntop`, `mktime`, `strftime` (system library); conversions from and to floating point.
-/

namespace Verif.Net

open Verif.Ints

/-! ## Addresses -/

/-- `address.h` 18 `AddressFamily`; `util.h` 64-73: enumerators compare by value, `Undef` is -1. -/
inductive Family where
  | undef | v4 | v6
  deriving DecidableEq, Repr

def Family.value : Family → Int
  | .undef => -1
  | .v4 => 0
  | .v6 => 1

/-- `address.h` 24-106. -/
structure Address where
  a1 : BitVec 64
  a2 : BitVec 64
  family : Family
  deriving DecidableEq, Repr

/-- `address.h` 63 -/
def Address.unset : Address := ⟨0, 0, .undef⟩

/-- `address.h` 50 `Address(uint32_t)` -/
def Address.ofV4 (x : BitVec 32) : Address := ⟨0, x.setWidth 64, .v4⟩

/-- `address.h` 58-59 `Address(uint64_t, uint64_t)` -/
def Address.ofV6 (hi lo : BitVec 64) : Address := ⟨hi, lo, .v6⟩

/-- `address.cc` 12-39 `_parse`: what is made of the result of `inet_pton`; an IPv4 address if the text has no colon, else an IPv6
    address. `none`: the text is not valid. -/
def Address.ofText : Option (BitVec 32 ⊕ BitVec 64 × BitVec 64) → Res Address
  | none => .throw .invalidArgument
  | some (.inl x) => .ok (.ofV4 x)
  | some (.inr (hi, lo)) =>
    .ok ⟨hi, lo, if hi = 0 ∧ lo &&& 0xffffffff00000000#64 = 0 then .v4 else .v6⟩

/-- `address.cc` 126-130 -/
def Address.eq (a b : Address) : Bool := a.a1 == b.a1 && a.a2 == b.a2

/-- `address.h` 86-88: lexicographic comparison of `(_a1, _a2, _family)`. -/
def Address.lt (a b : Address) : Bool :=
  a.a1 < b.a1 || (!(b.a1 < a.a1) && (a.a2 < b.a2 || (!(b.a2 < a.a2) && a.family.value < b.family.value)))

/-- A shift of a 64-bit number to the left; undefined for 64 or more. `n` is an `unsigned int`. -/
def shl64 (x : BitVec 64) (n : BitVec 32) : Res (BitVec 64) := if n.toNat < 64 then .ok (x <<< n.toNat) else .ub

/-- `address.cc` 58-77 `mask`. -/
def Address.mask (a : Address) (width : BitVec 32) : Res Address :=
  if width = 0 then .ok ⟨0, 0, a.family⟩
  else
    (if width < 64#32 then shl64 0xffffffffffffffff#64 (64#32 - width) >>= fun m => .ok (a.a1 &&& m) else .ok a.a1) >>= fun a1 =>
    (if width > 64#32 then shl64 0xffffffffffffffff#64 (128#32 - width) >>= fun m => .ok (a.a2 &&& m) else .ok 0) >>= fun a2 =>
    .ok ⟨a1, a2, a.family⟩

def u32 : Ty := ⟨4, false⟩
def u64 : Ty := ⟨8, false⟩

/-- `fmt == ByteOrder::Little || (fmt == ByteOrder::Host && systemByteOrder() == ByteOrder::Little)` -/
def isLittle (sys : Endian) (o : Order) : Bool := o == .little || (o == .host && sys.order == .little)

/-- `address.cc` 156-177 `pack`. Packing an IPv4 address converts `_a2` to `safe<uint32_t>`, which is checked. -/
def Address.pack (sys : Endian) (a : Address) (o : Order) : Res (List Byte) := match a.family with
  | .v4 => if a.a2.toNat < 2 ^ 32 then Ints.pack sys u32 (a.a2.setWidth 32) o else .throw .overflow
  | .v6 => do
    let x ← Ints.pack sys u64 a.a1 o
    let y ← Ints.pack sys u64 a.a2 o
    if isLittle sys o then .ok (y ++ x) else .ok (x ++ y)
  | .undef => .throw .runtimeError

/-- `address.cc` 179-216 `_unpack`, for bytes; an error result is `none`. -/
def Address.unpack (sys : Endian) (b : List Byte) (f : Family) (o : Order) : Option (Address × List Byte) := match f with
  | .v4 =>
    if b.length < 4 then none
    else match Ints.unpack sys u32 b o with
      | some (x, rest) => some (.ofV4 x, rest)
      | none => none
  | .v6 =>
    if b.length < 16 then none
    else match Ints.unpack sys u64 b o with
      | some (x, rest) => match Ints.unpack sys u64 rest o with
        | some (y, rest) => if isLittle sys o then some (.ofV6 y x, rest) else some (.ofV6 x y, rest)
        | none => none
      | none => none
  | .undef => none

/-! ## Networks -/

/-- `network.h` 18-109; the length is an `int`. -/
structure Network where
  prefix' : Address
  len : BitVec 32
  deriving DecidableEq, Repr

/-- `network.h` 99-104 `_mask`; `_length += 96` is undefined if it overflows. -/
def Network.mk' (p : Address) (length : Int) : Res Network :=
  if p.family = .v4 then
    if length + 96 ≥ 2 ^ 31 then .ub
    else do
      let m ← p.mask (BitVec.ofInt 32 (length + 96))
      .ok ⟨m, BitVec.ofInt 32 (length + 96)⟩
  else do
    let m ← p.mask (BitVec.ofInt 32 length)
    .ok ⟨m, BitVec.ofInt 32 length⟩

/-- `network.h` 29-46 `Network(Address, int)`. -/
def Network.ofAddress (p : Address) (length : Int) : Res Network := match p.family with
  | .v4 => if length < 0 ∨ length > 32 then .throw .invalidArgument else Network.mk' p length
  | .v6 => if length < 0 ∨ length > 128 then .throw .invalidArgument else Network.mk' p length
  | .undef => .throw .invalidArgument

/-- `network.h` 57 `Network(std::string, int)`, which does not look at the length. -/
def Network.ofText (text : Option (BitVec 32 ⊕ BitVec 64 × BitVec 64)) (length : Int) : Res Network := do
  let p ← Address.ofText text
  Network.mk' p length

/-- `network.h` 77 `length()` -/
def Network.length (n : Network) : Int := if n.prefix'.family = .v4 then n.len.toInt - 96 else n.len.toInt

/-- `network.h` 80 `contains` -/
def Network.contains (n : Network) (x : Address) : Res Bool := do
  let m ← x.mask n.len
  .ok (m.eq n.prefix')

/-- `network.h` 82 -/
def Network.eq (a b : Network) : Bool := a.prefix'.eq b.prefix' && a.len == b.len

/-- `network.h` 84-86 -/
def Network.lt (a b : Network) : Bool :=
  a.prefix'.lt b.prefix' || (!b.prefix'.lt a.prefix' && a.len.slt b.len)

/-! ## Ports -/

/-- `port.h` 16 -/
inductive Proto where
  | undef | tcp | udp | icmp
  deriving DecidableEq, Repr

def Proto.value : Proto → Int
  | .undef => -1
  | .tcp => 1
  | .udp => 2
  | .icmp => 3

structure Port where
  port : BitVec 16
  proto : Proto
  deriving DecidableEq, Repr

/-- `isdigit`, in the C locale. -/
def isDigit (c : Byte) : Bool := 48 ≤ c.toNat && c.toNat ≤ 57

/-- `tolower`, in the C locale. -/
def lower (c : Byte) : Byte := if 65 ≤ c.toNat ∧ c.toNat ≤ 90 then c + 32 else c

/-- `strcasecmp(t, lit) == 0`, for strings without a null character. -/
def caseEq (t lit : List Byte) : Bool := t.map lower == lit.map lower

/-- `std::stoi`, for a string that starts with a digit; `none` stands for `std::out_of_range`. -/
def stoi (s : List Byte) : Option Nat :=
  let n := (s.takeWhile isDigit).foldl (fun n c => n * 10 + (c.toNat - 48)) 0
  if n < 2 ^ 31 then some n else none

/-- "/tcp" -/
def sTcp : List Byte := [47, 116, 99, 112]
/-- "/udp" -/
def sUdp : List Byte := [47, 117, 100, 112]
/-- "/icmp" -/
def sIcmp : List Byte := [47, 105, 99, 109, 112]
/-- "/<unknown>" -/
def sUnknown : List Byte := [47, 60, 117, 110, 107, 110, 111, 119, 110, 62]

/-- `port.cc` 11-47 `_parse`. The text is read as a C string, hence up to the first null character. -/
def Port.parse (text : List Byte) : Res Port :=
  let s := text.takeWhile (· != 0)
  let t := s.dropWhile isDigit
  if s.length = t.length ∨ t = [] ∨ t.length = 1 ∨ t.head? ≠ some 47 then .throw .runtimeError
  else
    let proto := if caseEq t sTcp then some Proto.tcp else if caseEq t sUdp then some Proto.udp
      else if caseEq t sIcmp then some Proto.icmp else none
    match proto with
    | none => .throw .runtimeError
    | some p => match stoi s with
      | none => .throw .runtimeError
      | some n => if n > 65535 then .throw .runtimeError else .ok ⟨BitVec.ofNat 16 n, p⟩

/-- `%u` -/
def decimal (n : Nat) : List Byte :=
  if n < 10 then [UInt8.ofNat (48 + n)] else decimal (n / 10) ++ [UInt8.ofNat (48 + n % 10)]
decreasing_by omega

/-- `port.cc` 49-72 `operator String` -/
def Port.print (p : Port) : List Byte :=
  decimal p.port.toNat ++ match p.proto with
    | .icmp => sIcmp
    | .tcp => sTcp
    | .udp => sUdp
    | .undef => sUnknown

/-- `port.h` 56 -/
def Port.eq (a b : Port) : Bool := a.port == b.port && a.proto.value == b.proto.value

/-- `port.h` 58-60 -/
def Port.lt (a b : Port) : Bool := a.port < b.port || (!(b.port < a.port) && a.proto.value < b.proto.value)

/-! ## Times and intervals -/

def i64 : Ty := ⟨8, true⟩

/-- Result of an operation on safe integers (contract of `SafeInt`): exact, or an exception. -/
def safe (t : Ty) (x : Int) : Res Int := if t.has x then .ok x else .throw .overflow

/-- `time.h` 73-78 `Time + Interval`; times are numbers of nanoseconds in an `uint64_t`, intervals in an `int64_t`. Negating the
    smallest `int64_t` is undefined. -/
def timeAdd (t i : Int) : Res Int := do
  if i < 0 then
    if i = -2 ^ 63 then .ub
    else do
      let t' ← safe i64 t
      if t' < -i then .throw .runtimeError else safe u64 (t + i)
  else safe u64 (t + i)

/-- `time.h` 80-85 `Time - Interval`; the comparison is the one of `SafeInt` with a number of another type. -/
def timeSub (t i : Int) : Res Int := if t < i then .throw .runtimeError else safe u64 (t - i)

/-- `time.h` 87-90 `Time - Time` -/
def timeDiff (t u : Int) : Res Int := do
  let t' ← safe i64 t
  let u' ← safe i64 u
  safe i64 (t' - u')

/-- `interval.h` 67 -/
def intervalAdd (i j : Int) : Res Int := safe i64 (i + j)
/-- `interval.h` 68 -/
def intervalSub (i j : Int) : Res Int := safe i64 (i - j)
/-- `interval.h` 70-76, for both types of factors -/
def intervalMul (i k : Int) : Res Int := safe i64 (i * k)

/-- `time.cc` 42-62 `mktime`: the fields passed to the system's `mktime`, whose result is `sys`. The conversion of the result
    to nanoseconds goes through a `double` and is not modelled. -/
structure Tm where
  sec : Int
  min : Int
  hour : Int
  mday : Int
  mon : Int
  year : Int
  deriving DecidableEq, Repr

/-- `static_cast<int>` of an `uint64_t` -/
def toCInt (x : Nat) : Int := (BitVec.ofNat 32 x).toInt

def mktimeFields (y m d H M S : Nat) : Res Tm :=
  if y < 1970 ∨ (m < 1 ∨ m > 12) ∨ (d < 1 ∨ d > 31) ∨ H > 23 ∨ M > 59 ∨ S > 59 then .throw .invalidValue
  else if toCInt y - 1900 < -2 ^ 31 then .ub
  else .ok ⟨toCInt S, toCInt M, toCInt H, toCInt d, toCInt m - 1, toCInt y - 1900⟩

end Verif.Net
