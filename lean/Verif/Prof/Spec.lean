import Verif.Prof.Model

/-!
# The profiler: specification

In terms of the blocks that are open.
-/

namespace Verif.Prof

/-- A block that is open, with the volume given at its start. -/
structure Blk where
  name : String
  volume : Option Nat
  deriving DecidableEq, Repr

/-- All blocks started so far, in the order of their starts; nothing, once they are stopped. -/
abbrev Opened := List (Option Blk)

/-- The blocks after a step. -/
def Opened.next (o : Opened) : Op → Opened
  | .tick _ => o
  | .start n v => o ++ [some ⟨n, v⟩]
  | .stop i _ => o.set i none

/-- It is a block of that name. -/
def isFor (n : String) : Option Blk → Bool
  | some b => b.name == n
  | none => false

/-- Some block of the name is open. -/
def Opened.active (o : Opened) (n : String) : Bool := o.any (isFor n)

/-- How often a block of the name is stopped. -/
def stops (n : String) : List Op → Opened → Nat
  | [], _ => 0
  | .stop i v :: ops, o => (if isFor n ((o[i]?).join) then 1 else 0) + stops n ops (o.next (.stop i v))
  | op :: ops, o => stops n ops (o.next op)

/-- How long blocks of the name are open. -/
def activeTime (n : String) : List Op → Opened → Nat
  | [], _ => 0
  | .tick d :: ops, o => (if o.active n then d else 0) + activeTime n ops o
  | op :: ops, o => activeTime n ops (o.next op)

/-- The volume between start and stop: what is given at the stop, less what was given at the start. -/
def span (begin «end» : Option Nat) : Option Int :=
  match «end» with
  | none => none
  | some e => some ((e : Int) - (match begin with | some b => (b : Int) | none => 0))

/-- The volume of a block that is stopped, if it has the name and the stop leaves no block of the name open. -/
def volumeOf (n : String) (o : Opened) (i : Nat) (v : Option Nat) : List Int :=
  match (o[i]?).join with
  | some b => if b.name = n ∧ (o.next (.stop i v)).active n = false then (span b.volume v).toList else []
  | none => []

/-- The volumes of the blocks of the name whose stop leaves no block of the name open. -/
def volumes (n : String) : List Op → Opened → List Int
  | [], _ => []
  | .stop i v :: ops, o =>
    volumeOf n o i v ++ volumes n ops (o.next (.stop i v))
  | op :: ops, o => volumes n ops (o.next op)

/-- Of blocks with the same name, the one started last is stopped first. -/
def Nested : List Op → Opened → Prop
  | [], _ => True
  | .stop i v :: ops, o =>
    (∀ b, o[i]? = some (some b) → ∀ j > i, ∀ c, o[j]? = some (some c) → c.name ≠ b.name) ∧
      Nested ops (o.next (.stop i v))
  | op :: ops, o => Nested ops (o.next op)

/-- All blocks have names. -/
def Named (ops : List Op) : Prop := ∀ v, Op.start "" v ∉ ops

/-- How much time passes. -/
def duration : List Op → Nat
  | [] => 0
  | .tick d :: ops => d + duration ops
  | _ :: ops => duration ops

/-- The blocks at the end. -/
def Opened.after (o : Opened) : List Op → Opened
  | [] => o
  | op :: ops => (o.next op).after ops

end Verif.Prof
