import Verif.Parse.Props
/-!
# Model of `ParsingState` and of `Driver::processInput`

`ParsingState` is what host applications (Zeek among them) use to feed a connection's data into a parser: `process()` for each
piece, `finish()` at the end, in stream mode (pieces of one input) or block mode (each piece is an input of its own).

Sources: `spicy/runtime/include/driver.h`, `spicy/runtime/src/driver.cc`.

Units are grammars `G` of `Verif.Parse`; the other units they refer to are `Γ`, and `f` bounds loops. The state of a suspended
parser is represented by what the host has done to the stream so far: the parser is a function of that, so resuming it is
running it on the longer history. Not modelled: unit contexts, gaps, debug output, profiling.
-/

namespace Verif.Driver
open Verif.Stream Verif.Parse

/-- `parser.h` 139-367 `Parser`, as far as `ParsingState` uses it: the unit, and whether it can be used as entry point without
    arguments (`parse1` is not null). -/
structure Entry where
  grammar : G
  usable : Bool

/-- `driver.h` `ParsingType`. -/
inductive Kind where
  | stream | block
  deriving DecidableEq, Repr

/-- `_resumable`: the parser has finished with a value, has failed, or is suspended. -/
inductive Resumed where
  | finished (v : Val) (pos : Nat)
  | failed
  | waiting (g : G) (first : Item) (s : Sched)

/-- `driver.h` 24-146 `ParsingState`. -/
structure PState where
  kind : Kind
  parser : Option Entry := none
  skip : Bool := false
  done : Bool := false
  input : Option Chain := none
  resumable : Option Resumed := none

/-- How a call ends: `done` with the value if it is this call that completed the unit, or by an exception; or it asks for more;
    or it does not return: the parser runs on, undefined behaviour, or the process is ended by `internalError`. -/
inductive Outcome where
  | done (r : Option (Val × Nat))
  | cont
  | throw (e : Exn)
  | hangs
  | undefined
  | aborts

/-- Does the call return? -/
def Outcome.returns : Outcome → Bool
  | .hangs | .undefined | .aborts => false
  | _ => true

/-- `parse1`: a parser starts on a stream to which the first piece has been added, and is resumed with the others. -/
def start (Γ : Nat → G) (f : Nat) (g : G) (base : Chain) (first : Item) (s : Sched) : Out (Val × View) :=
  match wholeView (base.run first.ops) with
  | .ok v => run Γ f g true v (base.run first.ops) s
  | .throw e => .throw e (base.run first.ops) s
  | .ub => .ub

/-- `driver.cc` 376-388, 391-404: what stream mode does once the parser has returned. -/
def settle (st : PState) (eod : Bool) (g : G) (first : Item) (s : Sched) (onThrow : Option Resumed) : Out (Val × View) → Outcome × PState
  | .done r c _ => (.done (some (r.1, r.2.begin.offset)),
      { st with done := true, input := some c, resumable := some (.finished r.1 r.2.begin.offset) })
  | .throw e c _ => (.throw e, { st with done := true, input := some c, resumable := onThrow })
  | .suspended c =>
    if eod then (.aborts, st)
    else (.cont, { st with input := some c.makeOwning, resumable := some (.waiting g first s) })
  | .diverge => (.hangs, st)
  | .ub => (.undefined, st)

/-- The piece of data a call adds; empty ones add nothing. -/
def piece (d : List Byte) (eod : Bool) : Item := ⟨if d = [] then [] else [d], eod, true⟩

/-- `driver.cc` 320-388: stream mode, for an input that has not ended. -/
def feedStream (Γ : Nat → G) (f : Nat) (st : PState) (p : Entry) (d : List Byte) (eod : Bool) : Outcome × PState :=
  match st.input with
  | none =>
    if p.usable then settle st eod p.grammar (piece d eod) [] st.resumable (start Γ f p.grammar {} (piece d eod) [])
    else (.throw .invalidArgument, { st with done := true, input := some (({} : Chain).run (piece d eod).ops) })
  | some _ => match st.resumable with
    | some (.waiting g first s) =>
      settle st eod g first (s ++ [piece d eod]) (some .failed) (start Γ f g {} first (s ++ [piece d eod]))
    | some _ => (.throw .logicError, { st with done := true })     -- `Resumable::resume()` without a fiber
    | none => (.undefined, st)

/-- `driver.cc` 287-299: the stream a block is put into: a new one, or the one of the block before, reset. -/
def blockBase : Option Chain → Chain
  | none => {}
  | some c => c.reset

/-- `driver.cc` 281-318: block mode. A function pointer that is null is called without a check from the second block on. -/
def feedBlock (Γ : Nat → G) (f : Nat) (st : PState) (p : Entry) (d : List Byte) : Outcome × PState :=
  if p.usable then
    match start Γ f p.grammar (blockBase st.input) (piece d true) [] with
    | .done r c _ => (.done (some (r.1, r.2.begin.offset)), { st with input := some c, resumable := some (.finished r.1 r.2.begin.offset) })
    | .throw e c _ => (.throw e, { st with done := true, input := some c })
    | .suspended _ => (.aborts, st)
    | .diverge => (.hangs, st)
    | .ub => (.undefined, st)
  else match st.input with
    | none => (.throw .invalidArgument, { st with done := true, input := some ((blockBase st.input).run (piece d false).ops) })
    | some _ => (.undefined, st)

/-- `driver.cc` 262-407 `_process`. -/
def PState.feed (Γ : Nat → G) (f : Nat) (st : PState) (d : List Byte) (eod : Bool) : Outcome × PState :=
  match st.parser with
  | none => (.done none, st)
  | some p =>
    if st.skip then (.done none, st)
    else match st.kind with
      | .block => feedBlock Γ f st p d
      | .stream => if st.done then (.done none, st) else feedStream Γ f st p d eod

/-- `driver.cc` 248-260: the offset `finish()` returns. -/
def PState.offset (st : PState) : Option Nat := match st.resumable with
  | some (.finished _ pos) => some pos
  | _ => none

/-- What a host can do with a `ParsingState`. -/
inductive Call where
  | process (d : List Byte)
  | finish
  | setParser (p : Option Entry)
  | skipRemaining
  | reset
  | isFinished

/-- What a host gets back. -/
structure Reply where
  outcome : Outcome := .done none
  offset : Option Nat := none
  flag : Bool := false

/-- One call: `driver.h` 57-141, `driver.cc` 248-407. -/
def PState.call (Γ : Nat → G) (f : Nat) (st : PState) : Call → Reply × PState
  | .process d => ({ outcome := (st.feed Γ f d false).1 }, (st.feed Γ f d false).2)
  | .finish => match st.kind with
    | .block => ({ offset := st.offset }, st)
    | .stream =>
      let r := st.feed Γ f [] true
      match r.1 with
      | .done v => ({ outcome := .done v, offset := r.2.offset }, r.2)
      | .cont => ({ outcome := .done none, offset := r.2.offset }, r.2)
      | o => ({ outcome := o }, r.2)
  | .setParser p => ({}, { st with parser := p })
  | .skipRemaining => ({}, { st with skip := true })
  | .reset => ({}, { st with input := none, resumable := none, done := false, skip := false })
  | .isFinished => ({ flag := st.done || st.skip }, st)

/-- A history of calls; it ends with a call that does not return. -/
def PState.calls (Γ : Nat → G) (f : Nat) (st : PState) : List Call → List Reply × PState
  | [] => ([], st)
  | c :: cs =>
    let r := st.call Γ f c
    if r.1.outcome.returns then
      let q := r.2.calls Γ f cs
      (r.1 :: q.1, q.2)
    else ([r.1], r.2)

/-! ## `Driver::processInput` -/

/-- `driver.cc` 186: the size of the buffer. -/
def bufferSize : Nat := 4096

/-- `driver.cc` 195: how much is read at a time. -/
def readLength (increment : Int) : Nat := if increment > 0 then increment.toNat else bufferSize

/-- `driver.cc` 194-227: the reads until the end of the input: each one is a piece, and the last one freezes the stream. -/
def reads (len : Nat) : Nat → List Byte → List Item
  | 0, _ => []
  | n + 1, rest =>
    let d := rest.take len
    let rest' := rest.drop len
    ⟨if d = [] then [] else [d], rest' = [], false⟩ :: (if rest' = [] then [] else reads len n rest')

/-- `driver.cc` 176-236 `processInput` for an input stream with the given content that is in a good state. Reading more than
    the buffer holds is undefined. The unit is returned whether or not it is complete. -/
def processInput (Γ : Nat → G) (f : Nat) (g : G) (content : List Byte) (increment : Int) : Result :=
  if readLength increment > bufferSize ∧ content.length > bufferSize then .undefined
  else match reads (readLength increment) (content.length + 1) content with
    | [] => .needsMore
    | first :: s => parseUnit Γ f g true first s

end Verif.Driver
