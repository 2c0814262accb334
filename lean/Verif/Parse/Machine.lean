import Verif.Stream.View
import Verif.Stream.History
/-!
# Model of the parsing runtime: suspending, waiting for input, trimming

A generated parser runs inside a fiber. When it needs input it yields; the host application then appends data to the
stream (or freezes it) and resumes the fiber. A `Sched` lists what the host does at each resume. A computation (`P`) gets
the stream and the remaining schedule; if it has to wait and the schedule is exhausted, it is `suspended`. The stream is
the concrete chunk chain of `Verif.Stream`.

Sources: `spicy/runtime/src/parser.cc`, `spicy/runtime/include/parser.h`. Filters are not modelled (`filters` is null).
-/

namespace Verif.Parse
open Verif.Stream

/-- What the host does between two resumes: it appends pieces of data, and may then freeze the stream. If it lends the data
    (`lent`) instead of having it copied, it first makes the stream own the data lent before, which is what the driver does
    (`spicy/runtime/src/driver.cc` 337-388). -/
structure Item where
  data : List (List Byte)
  freeze : Bool
  lent : Bool
  deriving DecidableEq, Repr

/-- How an item appends data. -/
def Item.op (it : Item) (bs : List Byte) : Op := if it.lent then .appendNonOwning bs else .append bs

/-- The stream operations of an item. -/
def Item.ops (it : Item) : List Op :=
  (if it.lent then [.makeOwning] else []) ++ it.data.map it.op ++ (if it.freeze then [.freeze] else [])

abbrev Sched := List Item

/-- Outcome of a computation. -/
inductive Out (α : Type) where
  | done (a : α) (c : Chain) (s : Sched)      -- finished
  | throw (e : Exn) (c : Chain) (s : Sched)   -- an exception is being propagated
  | suspended (c : Chain)                     -- yielded, and the host never resumes
  | diverge                                   -- out of fuel: the computation runs on
  | ub                                        -- undefined behaviour

/-- Computations of generated parsers. -/
def P (α : Type) := Chain → Sched → Out α

namespace P
variable {α β : Type}

def bind (x : P α) (f : α → P β) : P β := fun c s => match x c s with
  | .done a c' s' => f a c' s'
  | .throw e c' s' => .throw e c' s'
  | .suspended c' => .suspended c'
  | .diverge => .diverge
  | .ub => .ub

def ret (a : α) : P α := fun c s => .done a c s
def raise (e : Exn) : P α := fun c s => .throw e c s
def diverge : P α := fun _ _ => .diverge

instance : Monad P where
  pure := ret
  bind := bind

/-- An observation of the stream. -/
def read (f : Chain → Res α) : P α := fun c s => match f c with
  | .ok a => .done a c s
  | .throw e => .throw e c s
  | .ub => .ub

end P

/-- `parser.cc` 207-237: the loop of `waitForInputOrEod(data, cur)`, with `old` the size on entry. -/
def waitLoop (cur : View) (old : Nat) : Sched → Chain → Out Bool
  | s, c => match cur.isComplete c with
    | .ok true => .done false c s
    | .ok false => match s with
      | [] => .suspended c
      | it :: s' => match cur.size (c.run it.ops) with
        | .ok new => if old = new then waitLoop cur old s' (c.run it.ops) else .done true (c.run it.ops) s'
        | .throw e => .throw e (c.run it.ops) s'
        | .ub => .ub
    | .throw e => .throw e c s
    | .ub => .ub

/-- `parser.cc` 207-237 `waitForInputOrEod(data, cur)`: waits until there is more input than before; false at the end of
    the data. -/
def waitMore (cur : View) : P Bool := fun c s => match cur.size c with
  | .ok old => waitLoop cur old s c
  | .throw e => .throw e c s
  | .ub => .ub

/-- `parser.cc` 194-205 `waitForInputOrEod(data, cur, min)`, 180-192 `waitForInputNoThrow` (same code): the loop. -/
def waitMinLoop (cur : View) (min : Nat) : Nat → P Bool
  | 0 => .diverge
  | f + 1 => do
    let n ← P.read cur.size
    if min > n then
      if ← waitMore cur then waitMinLoop cur min f else pure false
    else pure true

/-- `parser.cc` 194-205 `waitForInputOrEod(data, cur, min)`; every round of the loop uses up at least one resume. -/
def waitMin (cur : View) (min : Nat) : P Bool := fun c s => waitMinLoop cur min (s.length + 1) c s

/-- `parser.h` 572-581, `parser.cc` 163-178 `waitForInput(data, cur, min, ...)`. -/
def waitForInput (cur : View) (min : Nat) : P Unit := do
  if ← waitMin cur min then pure () else .raise .parseError

/-- `parser.cc` 151-161: how much `waitForEod` waits for. -/
def eodMin (cur : View) : Nat := match cur.end with
  | none => 2 ^ 64 - 1
  | some e => e.offset - cur.begin.offset

/-- `parser.cc` 151-161 `waitForEod`. -/
def waitForEod (cur : View) : P Unit := do
  let _ ← waitMin cur (eodMin cur)
  pure ()

/-- `parser.h` 644-650, `parser.cc` 253-262 `atEod`. -/
def atEod (cur : View) : P Bool := do
  let n ← P.read cur.size
  if n > 0 then pure false
  else if ← P.read cur.isComplete then pure true
  else
    let more ← waitMore cur
    pure (!more)

/-- `parser-builder.cc` 2783-2793 `trimInput`: `if ( trim ) data.trim(begin(cur))`. -/
def trimInput (trim : Bool) (cur : View) : P Unit := fun c s =>
  if trim then
    match c.trim cur.begin.offset with
    | (.ok (), c') => .done () c' s
    | (.throw e, c') => .throw e c' s
    | (.ub, _) => .ub
  else .done () c s

/-- `parser-builder.cc` 3013-3020 `advanceInput(n)`, followed by `trimInput`. -/
def advanceInput (trim : Bool) (cur : View) (n : Nat) : P View := do
  let cur' ← P.read (fun c => cur.advance c n)
  trimInput trim cur'
  pure cur'

/-- The same for an iterator. -/
def advanceInputTo (trim : Bool) (cur : View) (i : Iter) : P View := do
  trimInput trim (cur.advanceTo i)
  pure (cur.advanceTo i)

/-- `stream.h` 1427 `sub(to)` with an offset relative to the view's begin, and `sub(iterator)`. -/
def subTo (cur : View) (i : Iter) (c : Chain) : Res View := View.mk2 c cur.begin i

/-- `stream.h` 1412-1416 `sub(from, to)`. -/
def subFromTo (i j : Iter) (c : Chain) : Res View := View.mk2 c i j

/-- The bytes `cur.sub(cur.begin() + n).data()`. -/
def prefixData (cur : View) (n : Nat) (c : Chain) : Res (List Byte) := do
  let i ← cur.begin.incr c n
  let v ← subTo cur i c
  v.data c

/-- `parser.cc` 282-298 `extractBytes`. -/
def extractBytes (cur : View) (size : Nat) (eodOk : Bool) : P (List Byte) := do
  let enough ← waitMin cur size
  if eodOk || enough then P.read (prefixData cur size) else .raise .parseError

/-- `parser.cc` 300-316 `expectBytesLiteral`. Building the error message reads the data. -/
def expectBytesLiteral (cur : View) (lit : List Byte) : P Unit := do
  if ← waitMin cur lit.length then
    if ← P.read (fun c => cur.startsWith c lit) then pure ()
    else
      let _ ← P.read (prefixData cur lit.length)
      .raise .parseError
  else .raise .parseError

/-- `stream.h` 1160-1163: conversion of an unsafe to a safe iterator. -/
def toSafe (u : UIter) : Iter := ⟨u.offset, u.sfx.head?.map (·.id)⟩

end Verif.Parse
