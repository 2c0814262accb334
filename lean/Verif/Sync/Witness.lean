import Verif.Sync.Props
/-! # Error recovery: concrete cases, and what is not true -/

namespace Verif.Sync
open Verif.Stream Verif.Parse

/-- What was observed, in a form that can be compared: only values that are bytes occur here. -/
inductive Mark where
  | value (bs : List Byte)
  | otherValue
  | synced (off : Nat)
  | confirmed
  deriving DecidableEq

inductive Shown where
  | list (log : List Mark) (pos : Nat)
  | unconfirmed (log : List Mark) (pos : Nat)
  | error (e : Exn)
  | waiting | runsOn | undefined
  deriving DecidableEq

def Ev.mark : Ev → Mark
  | .value (.bytes bs) => .value bs
  | .value _ => .otherValue
  | .synced n => .synced n
  | .confirmed => .confirmed

def ListResult.shown : ListResult → Shown
  | .list log pos => .list (log.map Ev.mark) pos
  | .unconfirmed log pos => .unconfirmed (log.map Ev.mark) pos
  | .error e => .error e
  | .waiting => .waiting
  | .runsOn => .runsOn
  | .undefined => .undefined

def Seen.shown : Seen → Shown
  | .list vs pos => .list (vs.map (fun v => Ev.mark (.value v))) pos
  | .unconfirmed vs pos => .unconfirmed (vs.map (fun v => Ev.mark (.value v))) pos
  | .failed => .error .parseError
  | .waiting => .waiting
  | .runsOn => .runsOn
  | .undefined => .undefined

/-- Records `AB`, then `:`, then one byte. -/
def recBody : G := .seq (.lit [58]) (fun _ => .bytesSize 1)

theorem recBody_quiet : Quiet recBody := .seq (.lit _) (fun _ => .bytesSize _)

/-- A list of such records up to the end of the data; synchronizations are confirmed. -/
def recList : ListField := { lit := [65, 66], follow := [], hook := .confirm }

/-- `AB:1`, `AB!2`, `xx`, `AB:3`, in two pieces. -/
def recFirst : Item := ⟨[[65, 66, 58, 49, 65, 66, 33]], false, false⟩
def recRest : Sched := [⟨[[50, 120, 120, 65], [66, 58, 51]], false, false⟩, ⟨[], true, false⟩]

theorem rec_hyps : recList.lit ≠ [] ∧ recList.hook ≠ .reject ∧ (total (recFirst :: recRest)).length < 2 ^ 64 - 1 ∧
    (total (recFirst :: recRest)).length < 20 := by decide

/-- The hypotheses of C63 can be met, and the result is not trivial: the record with the error is skipped. -/
theorem C63_example : (parseList recList (bodyP recBody) true 20 recFirst recRest).seen =
    expected recList (elemOf recBody) true (input (recFirst :: recRest)) ∧
    (expected recList (elemOf recBody) true (input (recFirst :: recRest))).shown = .list [.value [49], .value [51]] 14 ∧
    (parseList recList (bodyP recBody) true 20 recFirst recRest).seen.shown = .list [.value [49], .value [51]] 14 :=
  ⟨(C63_recovers_partial rec_hyps.1 rec_hyps.2.1 recBody_quiet.body true _ _ rec_hyps.2.2.1 rec_hyps.2.2.2
    (recBody_quiet.neverLate _)).1, by decide +kernel, by decide +kernel⟩

example : (parseList recList (bodyP recBody) true 20 recFirst recRest).seen =
    (parseList recList (bodyP recBody) true 20 ⟨[total (recFirst :: recRest)], true, false⟩ []).seen :=
  C63_chunking_is_unobservable_partial rec_hyps.1 rec_hyps.2.1 recBody_quiet.body true _ _ _ _ rec_hyps.2.2.1 rec_hyps.2.2.2
    (recBody_quiet.neverLate _) rfl rfl

/-- Without errors. -/
example : strictS recList (elemOf recBody) ⟨[65, 66, 58, 49, 65, 66, 58, 50], true⟩ 9 0 [] =
    .ok ([.bytes [49], .bytes [50]], 8) := rfl

/-- A hook that rejects: an error is an error. -/
example : (parseList { recList with hook := .reject } (bodyP recBody) true 20 recFirst recRest).shown = .error .parseError := by decide +kernel
example : (parseList { recList with hook := .reject } (bodyP recBody) true 20 ⟨[[65, 66, 58, 49]], true, false⟩ []).shown =
    .list [.value [49]] 4 := by decide +kernel

/-- A synchronization that is not confirmed is an error in the end. -/
example : (parseList { recList with hook := .nothing } (bodyP recBody) true 20 ⟨[[65, 66, 33, 65, 66, 58, 49]], true, false⟩ []).shown =
    .unconfirmed [.synced 2, .synced 3, .value [49]] 7 := by decide +kernel

/-- Counted lists. -/
example : (parseCounted recList (bodyP recBody) true 20 3 recFirst recRest).shown =
    .list [.value [49], .synced 10, .confirmed, .value [51]] 14 := by decide +kernel

/-! ## Stale look-ahead symbols

A literal that is pending stays pending when the element that was to begin with it fails; the next search then ends at once,
wherever it is. -/

/-- `AB!xxAB:1`: the hooks `%synced` and `%confirmed` run at four places (offsets 2 to 5), of which only the last is one where a record
    begins. -/
theorem C63_spurious_synchronizations :
    (parseList recList (bodyP recBody) true 20 ⟨[[65, 66, 33, 120, 120, 65, 66, 58, 49]], true, false⟩ []).shown =
      .list [.synced 2, .confirmed, .synced 3, .confirmed, .synced 4, .confirmed, .synced 5, .confirmed,
        .value [49]] 9 := by decide +kernel

/-- `AB!AB!xxAB:1`, as a list of three records: the first two have errors, the third has not; but it is not found, because the skipped
    bytes count as records. -/
theorem C64_skipped_bytes_count :
    (parseCounted recList (bodyP recBody) true 20 3 ⟨[[65, 66, 33, 65, 66, 33, 120, 120, 65, 66, 58, 49]], true, false⟩ []).shown =
      .list [.synced 3, .confirmed, .synced 5, .confirmed, .synced 6, .confirmed] 6 ∧
    (expected recList (elemOf recBody) true ⟨[65, 66, 33, 65, 66, 33, 120, 120, 65, 66, 58, 49], true⟩).shown =
      .list [.value [49]] 12 := by decide +kernel

/-! ## Elements that fail late -/

/-- Records `AB` with two bytes, which must not be `!!` (`&requires`). -/
def lateBody : G := .seq (.bytesSize 2) (fun v => match v with
  | .bytes [33, 33] => .fail .parseError
  | v => .ret v)

theorem lateBody_body : Body lateBody := .seq (.bytesSize _) (fun v => by
  split
  · exact .fail _
  · exact .ret _)

/-- C63 is false for them, and chunking does matter: `AB!!AB::` in one piece gives the second record; if the second record comes with
    the next piece, parsing fails with an `InvalidIterator`. -/
theorem C63_fails_for_late_errors :
    (parseList recList (bodyP lateBody) true 20 ⟨[[65, 66, 33, 33, 65, 66, 58, 58]], true, false⟩ []).shown =
      .list [.synced 4, .confirmed, .value [58, 58]] 8 ∧
    (parseList recList (bodyP lateBody) true 20 ⟨[[65, 66, 33, 33]], false, false⟩ [⟨[[65, 66, 58, 58]], true, false⟩]).shown =
      .error .invalidIterator := by decide +kernel

end Verif.Sync
