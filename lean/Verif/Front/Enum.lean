import Verif.Base
/-!
# Model of enum types

Source: `spicy/toolchain/src/compiler/parser/parser.yy` 790-798, `hilti/toolchain/src/ast/types/enum.cc` (`enum.cc`),
`hilti/toolchain/include/ast/types/enum.h` (`enum.h`), `hilti/toolchain/src/compiler/validator.cc`,
`hilti/toolchain/src/compiler/codegen/types.cc` (`types.cc`), `codegen/operators.cc` (`operators.cc`), `hilti/runtime/include/types/enum.h`
(`rt/enum.h`), `hilti/runtime/include/util.h`.
-/

namespace Verif.Front.Enum

/-- A label as it is written: its name and its value, if there is one: a `uint64_t`. -/
structure Decl where
  name : List Char
  value : Option Nat
  deriving DecidableEq

/-- What becomes of a declaration. -/
inductive Out (α : Type) where
  | ok (a : α)
  | error
  /-- undefined behaviour of the compiler -/
  | ub
  deriving DecidableEq

/-- The largest `int`. -/
def intMax : Int := 2 ^ 31 - 1

/-- A `uint64_t` given for a parameter of type `int`. -/
def toInt (n : Nat) : Int := ((n + 2 ^ 31) % 2 ^ 32 : Nat) - (2 ^ 31 : Int)

/-- `enum.h` 34-40 `Label::create`, with `parser.yy` 797-798: -1 if there is no value. -/
def Decl.label (d : Decl) : List Char × Int := (d.name, match d.value with | none => -1 | some v => toInt v)

/-- `std::max_element` of the values. -/
def maxOf : List (List Char × Int) → Option Int
  | [] => none
  | (_, v) :: ls => match maxOf ls with
    | none => some v
    | some m => some (if v < m then m else v)

/-- `util::tolower` -/
def lower (s : List Char) : List Char := s.map Char.toLower

/-- `enum.cc` 22-36: the loop over the labels; `next` is the next value to give away. -/
def number : List (List Char × Int) → Int → Out (List (List Char × Int))
  | [], _ => .ok []
  | (n, v) :: ls, next =>
    if lower n = "undef".toList then .error
    else if v < 0 then
      if next = intMax then .ub
      else match number ls (next + 1) with
        | .ok r => .ok ((n, next) :: r)
        | r => r
    else match number ls next with
      | .ok r => .ok ((n, v) :: r)
      | r => r

/-- `enum.cc` 15-46 `_setLabels` -/
def setLabels (ls : List (List Char × Int)) : Out (List (List Char × Int)) :=
  match maxOf ls with
  | none => .ok [("Undef".toList, -1)]
  | some m =>
    if m = intMax then .ub
    else match number ls (m + 1) with
      | .ok r => .ok (r ++ [("Undef".toList, -1)])
      | r => r

/-- `validator.cc` 770-779: are the values distinct? -/
def unique : List (List Char × Int) → List Int → Bool
  | [], _ => true
  | (_, v) :: ls, seen => !seen.contains v && unique ls (v :: seen)

/-- A declaration of an enum type. -/
def declare (ds : List Decl) : Out (List (List Char × Int)) :=
  match setLabels (ds.map Decl.label) with
  | .ok ls => if unique ls [] then .ok ls else .error
  | r => r

/-! ### At run time: a value is an `int64_t` (`util.h` 64-73) -/

/-- `rt/enum.h` 22-32 `has_label`, also the truth of a value (`coercions.cc` 49-52). -/
def hasLabel (ls : List (List Char × Int)) (x : Int) : Bool := ls.any fun l => l.2 != -1 && x == l.2

/-- What is printed: a label, or the number. -/
inductive Text where
  | label (name : List Char)
  | unknown (n : Int)
  deriving DecidableEq

/-- `types.cc` 452-462: a `switch` over the labels, sorted by value and without duplicates (`enum.cc` 58-69). -/
def print (ls : List (List Char × Int)) (x : Int) : Text :=
  match ls.find? fun l => l.2 == x with
  | some l => .label l.1
  | none => .unknown x

/-- `rt/enum.h` 43-49 `from_int`, and `operators.cc` 305-309. -/
def fromInt (n : Int) : Int := n

/-- `rt/enum.h` 62-73 `from_uint`; the conversion of a `safe<uint64_t>` to `int64_t` (`operators.cc` 311-315) throws for the same values. -/
def fromUint (n : Nat) : Option Int := if n > 2 ^ 63 - 1 then none else some n

/-- `operators.cc` 295-298: `static_cast` to a checked integer of the width; nothing if there is an exception. -/
def toSigned (w : Nat) (x : Int) : Option Int := if -(2 ^ (w - 1) : Int) ≤ x ∧ x < 2 ^ (w - 1) then some x else none

/-- `operators.cc` 300-303 -/
def toUnsigned (w : Nat) (x : Int) : Option Int := if 0 ≤ x ∧ x < 2 ^ w then some x else none

end Verif.Front.Enum
