import Verif.Boot.Model

/-!
# Modules and their globals at runtime: specification
-/

namespace Verif.Boot

/-- The module registered first under a key. -/
def firstOf (k : Nat) (ms : List Mod) : Option Mod := ms.find? (fun m => m.key == k)

/-- The value assigned last. -/
def lastWrite (k : Nat) : List Op → Nat → Nat
  | [], v => v
  | .write q w :: ops, v => lastWrite k ops (if q = k then w else v)
  | _ :: ops, v => lastWrite k ops v

/-- What may happen once the runtime is initialized with some modules: modules with globals assign to them, further
modules are registered, `init()` is called again. -/
def Legal (ms : List Mod) : Op → Prop
  | .register _ | .init => True
  | .write k _ => ∃ m, firstOf k ms = some m ∧ m.globals = true
  | .newContext | .setContext _ => False

/-- It concerns globals. -/
def Ev.isGlobals : Ev → Prop
  | .globals _ => True
  | .code _ => False

/-- The key it concerns. -/
def Ev.key : Ev → Nat
  | .globals k | .code k => k

/-- The events are in the order in which the modules were first registered. -/
def InOrder (ms : List Mod) (l : List Ev) : Prop :=
  l.Pairwise (fun a b => (ms.map (·.key)).idxOf a.key < (ms.map (·.key)).idxOf b.key)

/-- One for yes. -/
def once (b : Bool) : Nat := if b then 1 else 0

/-- Whether the module that goes by the key has globals. -/
def hasGlobals (k : Nat) (ms : List Mod) : Bool := (firstOf k ms).any (·.globals)

/-- Whether the module that goes by the key has code to run. -/
def hasCode (k : Nat) (ms : List Mod) : Bool := (firstOf k ms).any (·.code)

end Verif.Boot
