import Verif.Ref.Intrusive

/-!
# Intrusive pointers: specification
-/

namespace Verif.Ref.Intrusive

/-- The variable exists. -/
def There (s : S) (i : Nat) : Prop := ∃ p, s.ptrs[i]? = some (Slot.at p)

/-- The object has not been deleted. -/
def Alive (s : S) (o : Nat) : Prop := ∃ n, s.heap[o]? = some (.live n)

/-- Somebody still has a pointer to the object, in a variable or as a raw pointer to be adopted. -/
def Held (s : S) (o : Nat) : Prop := (∃ i : Nat, s.ptrs[i]? = some (Slot.at (some o))) ∨ o ∈ s.raws

/-- What a caller has to see to: only existing variables are used, only pointers that are not null are followed, a new
reference is made to an object that is there, and only a released reference is adopted. -/
def Legal (s : S) : Op → Prop
  | .make | .null => True
  | .newRef o => Alive s o
  | .adopt o => o ∈ s.raws
  | .copy i | .move i | .release i | .destroy i => There s i
  | .swap i j | .assign i j | .assignMove i j => There s i ∧ There s j
  | .use i => ∃ o, s.ptrs[i]? = some (Slot.at (some o))

/-- What the variables point to after a step (nothing, if they do not exist): `n` variables and `m` objects have been
made so far. -/
def points (op : Op) (n m : Nat) (old : Nat → Option (Option Nat)) (j : Nat) : Option (Option Nat) :=
  match op with
  | .make => if j = n then some (some m) else old j
  | .null => if j = n then some none else old j
  | .newRef o | .adopt o => if j = n then some (some o) else old j
  | .copy i => if j = n then old i else old j
  | .move i => if j = n then old i else if j = i then some none else old j
  | .release i => if j = i then some none else old j
  | .destroy i => if j = i then none else old j
  | .swap i k => if j = k then old i else if j = i then old k else old j
  | .assign d i => if j = d then old i else old j
  | .assignMove d i => if j = d then old i else if j = i then some none else old j
  | .use _ => old j

/-- All steps of a history are legal. -/
def LegalAll : List Op → S → Prop
  | [], _ => True
  | op :: ops, s => Legal s op ∧ ∀ s', step op s = some s' → LegalAll ops s'

end Verif.Ref.Intrusive
