import Verif.Sync.Props
/-!
# Error recovery in units: model and specification

A unit with one field marked `&synchronize`: if a field before it fails, the input is searched for the literal the marked field
begins with, and the unit goes on there, in trial mode until a hook confirms. If a field fails in trial mode, the search goes on.

Source: `spicy/toolchain/src/compiler/codegen/parser-builder.cc` (`pb.cc`). The marked field is the literal itself; only one field is
marked. Not modelled: `%skip`, `&size`, `&max-size`, `%sync_advance`, `%synchronize-at`, `%synchronize-after`.
-/

namespace Verif.Sync
open Verif.Stream Verif.Parse

/-- Fields of a unit, one after the other, each with its hook; later ones may depend on the values of earlier ones. A `&requires` is
    a further field that fails; the `%done` hook is the hook of a last field that consumes nothing. -/
inductive Fields where
  | done
  | field (g : G) (hook : Val → Hook) (rest : Val → Fields)

/-- `pb.cc` 1869-1905: fields inside of a `try` block. The result is the frame at the end of the block, what was observed, and the exception if
    one was thrown: a field that throws has not changed the variables; a hook that throws runs after the field. -/
def fieldsP (trim : Bool) : Fields → Frame → List Ev → P (Frame × List Ev × Option Exn)
  | .done, fr, log => pure (fr, log, none)
  | .field g hook rest, fr, log => (attempt (bodyP g trim fr.cur)) >>= (fun q => match q with
    | .error x => pure (fr, log, some x)
    | .ok r => match runHook (hook r.1) fr.err (log ++ [.value r.1]) with
      | .ok y => fieldsP trim (rest r.1) { fr with cur := r.2, err := y.1 } y.2
      | .error x => pure ({ fr with cur := r.2 }, log ++ [.value r.1], some x))

/-- A unit: the fields before the literal `lit` that is marked `&synchronize`, the ones after it, and the `%synced` hook. -/
structure SyncUnit where
  before : Fields
  lit : List Byte
  after : Fields
  hook : Hook := .nothing

/-- The literal, and the fields after it. -/
def afterP (U : SyncUnit) (trim : Bool) (fr : Frame) (log : List Ev) : P (Frame × List Ev × Option Exn) :=
  (attempt (litPending U.lit trim fr.cur fr.lah)) >>= (fun q => match q with
    | .error x => pure (fr, log, some x)
    | .ok v => fieldsP trim U.after { fr with cur := v, lah := none } (log ++ [.value (.bytes U.lit)]))

/-- `pb.cc` 1560-1577: the `try` block with its handler; `trial` is `is_trial_mode`. -/
def trialTry (U : SyncUnit) (trim trial : Bool) (fr : Frame) (log : List Ev) : P Round :=
  (afterP U trim fr log) >>= (fun r => match r.2.2 with
    | none => pure (.stop r.1 r.2.1)
    | some x =>
      if trial && r.1.err.isSome then (nextData trim r.1.cur) >>= (fun v => pure (.next { r.1 with cur := v } r.2.1))
      else .raise x)

/-- `pb.cc` 1533-1581 `startSynchronize`: one round of the loop. The synchronization and its hook are outside of the `try` block. -/
def trialRound (U : SyncUnit) (trim : Bool) (f : Nat) (fr : Frame) (log : List Ev) : P Round := match fr.err with
  | none => trialTry U trim false fr log
  | some _ => (syncP U.lit trim f fr) >>= (fun fr' =>
    match runHook U.hook fr'.err (log ++ [.synced fr'.cur.begin.offset]) with
    | .ok y => trialTry U trim true { fr' with err := y.1 } y.2
    | .error e => .raise e)

/-- `pb.cc` 1533-1588: the loop. -/
def trialLoop (U : SyncUnit) (trim : Bool) (f : Nat) : Nat → Frame → List Ev → P (Frame × List Ev)
  | 0, _, _ => .diverge
  | k + 1, fr, log => (trialRound U trim f fr log) >>= (fun r => match r with
    | .next fr' log' => trialLoop U trim f k fr' log'
    | .stop fr' log' => pure (fr', log'))

/-- `pb.cc` 1876-1913: the unit. -/
def unitP (U : SyncUnit) (trim : Bool) (f : Nat) (fr : Frame) : P (Frame × List Ev) :=
  (fieldsP trim U.before fr []) >>= (fun r => match r.2.2 with
    | none => trialLoop U trim f f r.1 r.2.1
    | some x => trialLoop U trim f f { r.1 with err := some x } r.2.1)

/-- What the host sees of such a unit. -/
def parseSync (U : SyncUnit) (trim : Bool) (f : Nat) (first : Item) (s : Sched) : ListResult :=
  parseWith (unitP U trim f) first s

/-! ## Specification -/

/-- Where the unit is: position, the error that is not yet confirmed, what was observed; and the error that stopped it, if any. -/
structure Place where
  pos : Nat
  err : Option Exn := none
  log : List Ev := []
  stopped : Option Exn := none

/-- Fields, up to the first one that fails. -/
def fieldsS (I : Input) : Fields → Nat → Option Exn → List Ev → SRes Place
  | .done, pos, err, log => .ok ⟨pos, err, log, none⟩
  | .field g hook rest, pos, err, log => match bodyS g I none pos with
    | .fail x => if recoverable x then .ok ⟨pos, err, log, some x⟩ else .fail x
    | .more => .more
    | .diverge => .diverge
    | .ok r => match runHook (hook r.1) err (log ++ [.value r.1]) with
      | .ok y => fieldsS I (rest r.1) r.2 y.1 y.2
      | .error x => .ok ⟨r.2, err, log ++ [.value r.1], some x⟩

/-- The literal, and the fields after it. -/
def afterS (U : SyncUnit) (I : Input) (pos : Nat) (err : Option Exn) (log : List Ev) : SRes Place :=
  match I.has none pos U.lit.length with
  | .ok true =>
    if U.lit <+: I.rest none pos then fieldsS I U.after (pos + U.lit.length) err (log ++ [.value (.bytes U.lit)])
    else .ok ⟨pos, err, log, some .parseError⟩
  | .ok false => .ok ⟨pos, err, log, some .parseError⟩
  | .fail x => .fail x
  | .more => .more
  | .diverge => .diverge

/-- Going on at `pos`: without an unconfirmed error, an error is final. With one, the unit goes on at the next place where the literal is;
    if it fails there and the error still is not confirmed, the search goes on one byte behind the place of the failure. -/
def trialS (U : SyncUnit) (I : Input) : Nat → Nat → Option Exn → List Ev → SRes Place
  | 0, _, _, _ => .diverge
  | _ + 1, pos, none, log => do
    let t ← afterS U I pos none log
    match t.stopped with
    | none => .ok t
    | some x => .fail x
  | k + 1, pos, some e, log => match firstOcc U.lit (I.rest none pos) with
    | none => if I.complete none then .fail .parseError else .more
    | some q => match runHook U.hook (some e) (log ++ [.synced (pos + q)]) with
      | .error x => .fail x
      | .ok y => do
        let t ← afterS U I (pos + q) y.1 y.2
        match t.stopped with
        | none => .ok t
        | some x => if t.err.isSome then trialS U I k (t.pos + 1) t.err t.log else .fail x

/-- The unit. -/
def unitS (U : SyncUnit) (I : Input) : SRes Place := do
  let t ← fieldsS I U.before 0 none []
  match t.stopped with
  | none => trialS U I (I.data.length + 2) t.pos t.err t.log
  | some x => trialS U I (I.data.length + 2) t.pos (some x) t.log

/-- What the host is to see: at the end of the top-level unit, an error that was not confirmed is an error. -/
def unitResult : SRes Place → ListResult
  | .ok t => if t.err.isSome then .unconfirmed t.log t.pos else .list t.log t.pos
  | .fail x => .error x
  | .more => .waiting
  | .diverge => .runsOn

/-- The same, from all the input. -/
def expectedUnit (U : SyncUnit) (I : Input) : ListResult := unitResult (unitS U I)

end Verif.Sync
