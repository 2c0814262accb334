import Verif.Ints.Model
/-!
# Specification of integers as bytes and text
-/

namespace Verif.Ints

/-- Value of bytes, most significant one first. -/
def beValue (b : List Byte) : Nat := b.foldl (fun n c => n * 256 + c.toNat) 0

/-- Value of bytes in a byte order. -/
def valueIn (sys : Endian) (o : Order) (b : List Byte) : Nat := match o, sys with
  | .little, _ => beValue b.reverse
  | .host, .little => beValue b.reverse
  | _, _ => beValue b

/-- Two's complement: the signed value of the unsigned number `n` of `w` bits. -/
def signedValue (w n : Nat) : Int := if n < 2 ^ (w - 1) then n else n - 2 ^ w

/-- Value of a string of digits, most significant one first. -/
def digitsValue (base : Nat) (ds : List Nat) : Nat := ds.foldl (fun n d => n * base + d) 0

/-- The digits 0-9, a-z, A-Z with their values; `c` is a digit of a base above its value. -/
def IsDigit (base : Nat) (c : Byte) (d : Nat) : Prop := d < base ∧
  ((d < 10 ∧ c.toNat = 48 + d) ∨ (10 ≤ d ∧ c.toNat = 97 + (d - 10)) ∨ (10 ≤ d ∧ c.toNat = 65 + (d - 10)))

/-- Characters and the values of the digits they are. -/
inductive Digits (base : Nat) : List Byte → List Nat → Prop
  | nil : Digits base [] []
  | cons {c d cs ds} : IsDigit base c d → Digits base cs ds → Digits base (c :: cs) (d :: ds)

/-- `s` is the text of the number `v`: at least one digit, with an optional sign. -/
def Denotes (base : Nat) (s : List Byte) (v : Int) : Prop :=
  ∃ cs ds, cs ≠ [] ∧ Digits base cs ds ∧
    ((s = cs ∧ v = digitsValue base ds) ∨ (s = 43 :: cs ∧ v = digitsValue base ds) ∨ (s = 45 :: cs ∧ v = -(digitsValue base ds : Int)))

end Verif.Ints
