import Verif.Net.Model
import Verif.Ints.Spec
/-!
# Specification of addresses, networks, ports and times
-/

namespace Verif.Net

open Verif.Ints

/-- An address as a number of 128 bits. -/
def Address.num (a : Address) : Nat := a.a1.toNat * 2 ^ 64 + a.a2.toNat

/-- The addresses of the IPv4 family are numbers of 32 bits; that is how all of the constructors make them. -/
def Address.Valid (a : Address) : Prop := a.family = .v4 → a.num < 2 ^ 32

/-- How many bits addresses of a family have. -/
def Family.bits : Family → Nat
  | .v4 => 32
  | _ => 128

/-- `x` and `y` have the same first `n` of 128 bits. -/
def SamePrefix (n : Nat) (x y : Nat) : Prop := x / 2 ^ (128 - n) = y / 2 ^ (128 - n)

/-- The text of a number in decimal: digits only, at least one. -/
def Decimal (s : List Byte) (n : Nat) : Prop := ∃ ds : List Nat, s ≠ [] ∧ s = ds.map (fun d => UInt8.ofNat (48 + d)) ∧ (∀ d ∈ ds, d < 10) ∧
  n = digitsValue 10 ds

/-- Equal as ASCII text when upper and lower case are not distinguished. -/
def SameLetter (c d : Byte) : Prop := c = d ∨ (97 ≤ d.toNat ∧ d.toNat ≤ 122 ∧ c.toNat + 32 = d.toNat)

/-- Name of a protocol in lower case. -/
def Proto.name : Proto → List Byte
  | .tcp => [116, 99, 112]
  | .udp => [117, 100, 112]
  | .icmp => [105, 99, 109, 112]
  | .undef => []

/-- `s` is the text of a port: a decimal number, a slash, and the name of a protocol. -/
def PortText (s : List Byte) (n : Nat) (p : Proto) : Prop := p ≠ .undef ∧ ∃ ds name, Decimal ds n ∧ s = ds ++ 47 :: name ∧
  name.length = p.name.length ∧ ∀ cd ∈ name.zip p.name, SameLetter cd.1 cd.2

/-- The range of times and of intervals. -/
def IsTime (t : Int) : Prop := 0 ≤ t ∧ t < 2 ^ 64
def IsInterval (i : Int) : Prop := -2 ^ 63 ≤ i ∧ i < 2 ^ 63

end Verif.Net
