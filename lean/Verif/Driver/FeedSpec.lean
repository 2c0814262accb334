import Verif.Driver.Feed
/-!
# Feeding data to parsers: specification

A session as a host sees it, in terms of the data given so far and `meaning` (`Verif.Parse.Spec`), which is a function of a whole
input: no streams, buffers, fibers or histories of appends.
-/

namespace Verif.Driver
open Verif.Stream Verif.Parse

/-- The state of an input. -/
inductive Phase where
  | idle                                   -- nothing has been given yet
  | going (g : G) (data : List Byte)       -- this data has been given to a parser for `g`, which needs more
  | over (r : Option (Val × Nat))          -- the parser is finished; the value and where the input was left, unless it failed

/-- A session. For blocks: `last` is where the last block that was parsed was left, `failed` says that some block was not. -/
structure Session where
  kind : Kind
  parser : Option Entry := none
  skip : Bool := false
  phase : Phase := .idle
  last : Option Nat := none
  failed : Bool := false

/-- How a call is answered that makes the parser see an input with this meaning. -/
def answer : Result → Outcome
  | .value v pos => .done (some (v, pos))
  | .error e => .throw e
  | .needsMore => .cont
  | .runsOn => .hangs
  | .undefined => .undefined

/-- What becomes of the input. -/
def phaseAfter (g : G) (data : List Byte) : Result → Phase
  | .value v pos => .over (some (v, pos))
  | .error _ => .over none
  | .needsMore => .going g data
  | .runsOn => .going g data
  | .undefined => .going g data

/-- Data for a parser for `g` that has been given `old` before. -/
def Session.give (Γ : Nat → G) (f : Nat) (s : Session) (g : G) (old d : List Byte) (eod : Bool) : Outcome × Session :=
  let m := meaning Γ f g ⟨old ++ d, eod⟩
  (answer m, { s with phase := phaseAfter g (old ++ d) m })

/-- Data for a session. -/
def Session.feed (Γ : Nat → G) (f : Nat) (s : Session) (d : List Byte) (eod : Bool) : Outcome × Session :=
  match s.parser with
  | none => (.done none, s)
  | some p =>
    if s.skip then (.done none, s)
    else match s.kind with
      | .stream => match s.phase with
        | .over _ => (.done none, s)
        | .going g old => s.give Γ f g old d eod
        | .idle => if p.usable then s.give Γ f p.grammar [] d eod else (.throw .invalidArgument, { s with phase := .over none })
      | .block => match meaning Γ f p.grammar ⟨d, true⟩ with
        | .value v pos => (.done (some (v, pos)), { s with last := some pos })
        | m => (answer m, { s with failed := true })

/-- Where the input was left. -/
def Session.offset (s : Session) : Option Nat := match s.kind with
  | .block => s.last
  | .stream => match s.phase with
    | .over r => r.map (·.2)
    | _ => none

/-- One call. -/
def Session.call (Γ : Nat → G) (f : Nat) (s : Session) : Call → Reply × Session
  | .process d => ({ outcome := (s.feed Γ f d false).1 }, (s.feed Γ f d false).2)
  | .finish => match s.kind with
    | .block => ({ offset := s.last }, s)
    | .stream =>
      let r := s.feed Γ f [] true
      match r.1 with
      | .done v => ({ outcome := .done v, offset := r.2.offset }, r.2)
      | o => ({ outcome := o }, r.2)
  | .setParser p => ({}, { s with parser := p })
  | .skipRemaining => ({}, { s with skip := true })
  | .reset => ({}, { s with phase := .idle, last := none, failed := false, skip := false })
  | .isFinished => ({ flag := s.skip || (match s.kind with
      | .block => s.failed
      | .stream => match s.phase with
        | .over _ => true
        | _ => false) }, s)

/-- A history of calls; it ends with a call that does not return. -/
def Session.calls (Γ : Nat → G) (f : Nat) (s : Session) : List Call → List Reply
  | [] => []
  | c :: cs =>
    let r := s.call Γ f c
    if r.1.outcome.returns then r.1 :: r.2.calls Γ f cs else [r.1]

/-- The length of the data of a history. -/
def volume : List Call → Nat
  | [] => 0
  | .process d :: cs => d.length + volume cs
  | _ :: cs => volume cs

/-- The parsers of a history. -/
def parsers : List Call → List Entry
  | [] => []
  | .setParser (some p) :: cs => p :: parsers cs
  | _ :: cs => parsers cs

/-- A parser that is covered: its grammar is `Sound` (see `Verif.Parse.Spec`), and it can be used for blocks if it is to. -/
def Entry.Fine (kind : Kind) (p : Entry) : Prop := Sound p.grammar ∧ (kind = .block → p.usable = true)

end Verif.Driver
