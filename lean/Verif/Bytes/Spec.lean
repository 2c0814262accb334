import Verif.Bytes.Model
/-!
# Specification of operations on bytes

`a <+: b`: `a` is a prefix of `b`; `a <:+ b`: a suffix; `a <:+: b`: contained in one piece (Lean's core library).
-/

namespace Verif.Bytes

/-- `ps` are the parts of `s` between the occurrences of `o`, taken from left to right. -/
inductive Parts (o : Str) : Str → List Str → Prop
  | last {s} : ¬ o <:+: s → Parts o s [s]
  | cons {p rest ps} : (∀ q, q < p.length → ¬ o <+: (p ++ o ++ rest).drop q) → Parts o rest ps → Parts o (p ++ o ++ rest) (p :: ps)

/-- `o` overlaps with itself. -/
def Bordered (o : Str) : Prop := ∃ b, b ≠ [] ∧ b ≠ o ∧ b <+: o ∧ b <:+ o

/-- `ps` are the words of `s`: the parts between runs of characters in the set. -/
inductive Words (ws : Byte → Bool) : Str → List Str → Prop
  | nil {s} : (∀ c ∈ s, ws c = true) → Words ws s []
  | cons {a w rest ps} : (∀ c ∈ a, ws c = true) → w ≠ [] → (∀ c ∈ w, ws c = false) → (∀ c, rest.head? = some c → ws c = true) →
      Words ws rest ps → Words ws (a ++ w ++ rest) (w :: ps)

end Verif.Bytes
