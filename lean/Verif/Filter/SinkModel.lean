import Verif.Filter.Props
import Verif.Sink.Reassembly
/-!
# Model of sinks with filters: `spicy/runtime/src/sink.cc` (`sink.cc`), `spicy/runtime/include/sink.h` (`sink.h`)

`Sink/Model.lean` models sinks without filters. Here, filters can be connected as well: data is passed through them right
before it is given to the units, that is after reassembly.

The filters of a sink run as fibers whose state is a function of the pieces of data they got so far; it is given by these
pieces. `stage` (`Filter/Model.lean`) tells what they have written to their output, and what the last resume did.
-/

namespace Verif.Filter
open Verif.Stream (Byte)
open Verif.Parse
open Verif.Sink (Sink Op Event Chunk Status add64 sub64)

/-- A sink with filters (`sink.h` 250-256, 333-341). -/
structure FSink where
  core : Sink := {}
  filters : List Filter := []                    -- `_filter`
  late : Bool := false                           -- a filter was connected after the filters had been started
  given : Option (List (List Byte)) := none      -- `_filter_data`, if set: what the filters got as input
  seen : Nat := 0                                -- the offset of `output_cur`

/-- Outcome of an operation. -/
inductive FR (α : Type) where
  | ok (a : α) (t : FSink)
  | throw (e : Exn) (t : FSink)
  | ub
  | diverge

def FR.bind {α β : Type} (x : FR α) (f : α → FSink → FR β) : FR β := match x with
  | .ok a t => f a t
  | .throw e t => .throw e t
  | .ub => .ub
  | .diverge => .diverge

/-- An operation that does not concern filters. -/
def FSink.lift {α : Type} (t : FSink) : Sink.R α → FR α
  | .ok a s => .ok a { t with core := s }
  | .throw e s => .throw e { t with core := s }
  | .ub => .ub

/-- The input of the filters as they get it: they are started without any (`sink.cc` 125-128), and resumed after each piece
    (131-132). -/
def pieces (l : List (List Byte)) : Sched := ⟨[], false, false⟩ :: l.map (fun b => ⟨[b], false, false⟩)

/-- The output of the filters, as a schedule: what each start and resume added. -/
def FSink.outputs (Γ : Nat → G) (f n : Nat) (fs : List Filter) (l : List (List Byte)) : Sched × Ending :=
  fs.foldl (stage Γ f n) (pieces l, .waiting)

/-- What resuming filters one more time throws, when `k` resumes (or starts) were fine of the `m` there have been. A filter that has
    thrown or is finished before has no fiber any more (`fiber.h` 394-397). -/
def lastError (k m : Nat) : Ending → Exn
  | .threw e => if k + 1 = m ∨ (k = 0 ∧ m = 2) then e else .logicError
  | _ => .logicError

/-- `sink.cc` 122-139: passing data through the filters, giving the new output. -/
def FSink.filter (Γ : Nat → G) (f n : Nat) (t : FSink) (bs : List Byte) : FR (List Byte) :=
  let l := t.given.getD [] ++ [bs]
  let t := { t with given := some l }
  match FSink.outputs Γ f n t.filters l with
  | (_, .diverge) => .diverge
  | (_, .ub) => .ub
  | (out, e) =>
    if out.length < l.length + 1 then .throw (lastError out.length (l.length + 1) e) t
    else if t.late then .throw .logicError t                    -- `resume` of a filter not started
    else .ok ((total out).drop t.seen) { t with seen := t.seen + ((total out).drop t.seen).length }

/-- `sink.cc` 103-176 `_deliver`. -/
def FSink.deliver (Γ : Nat → G) (f n : Nat) (t : FSink) (data : Option (List Byte)) (rseq rupper : Nat) : FR Bool := match data with
  | none => t.lift (t.core.deliver none rseq rupper)
  | some bs =>
    if bs.length = 0 then .ok true t
    else if t.filters.isEmpty then t.lift (t.core.deliver (some bs) rseq rupper)
    else match t.filter Γ f n bs with
      | .ok new t => if new.length = 0 then .ok true t else t.lift (t.core.deliver (some new) rseq rupper)
      | .throw e t => .throw e t
      | .ub => .ub
      | .diverge => .diverge

/-- `sink.cc` 276-291: the loop of `_tryDeliver` over the chunks from `c` on. -/
def fdeliverLoop (Γ : Nat → G) (f n : Nat) : List Chunk → FSink → FR Unit
  | [], t => .ok () t
  | c :: cs, t =>
    if c.rseq = t.core.last then
      match FSink.deliver Γ f n { t with core := { t.core with last := add64 t.core.last (sub64 c.rupper c.rseq) } } c.data c.rseq c.rupper with
      | .ok true t' => fdeliverLoop Γ f n cs t'
      | .ok false t' => .ok () (if t'.core.autoTrim then { t' with core := t'.core.trimTo c.rseq } else t')
      | .throw e t' => .throw e t'
      | .ub => .ub
      | .diverge => .diverge
    else fdeliverLoop Γ f n cs t

/-- `sink.cc` 269-295 `_tryDeliver`, starting at position `i`. -/
def FSink.tryDeliver (Γ : Nat → G) (f n : Nat) (t : FSink) (i : Nat) : FR Unit :=
  (fdeliverLoop Γ f n (t.core.chunks.drop i) t).bind fun _ t =>
    .ok () (if t.core.autoTrim then { t with core := t.core.trimTo t.core.last } else t)

/-- `sink.cc` 197-226: buffering, after data below the trim position has been cut off; `len` is the original length. -/
def FSink.buffer (Γ : Nat → G) (f n : Nat) (t : FSink) (data : Option (List Byte)) (rseq rupper len : Nat) : FR Unit :=
  let r : Sink.Added := if t.core.chunks.isEmpty then ⟨.ok (some 0), [⟨data, rseq, add64 rseq len⟩], []⟩
    else Sink.addAndCheck data rseq rupper [] t.core.chunks
  let t := { t with core := { t.core with chunks := r.chunks, log := t.core.log ++ r.log } }
  match r.res with
  | .throw e => .throw e t
  | .ub => .ub
  | .ok none => .ub                                     -- dereferences an uninitialized iterator
  | .ok (some i) => match t.core.chunks[i]? with
    | none => .ub
    | some c => if c.rseq > t.core.last ∨ c.rupper ≤ t.core.last then .ok () t else t.tryDeliver Γ f n i

/-- `sink.cc` 178-232 `_newData`. -/
def FSink.newData (Γ : Nat → G) (f n : Nat) (t : FSink) (data : Option (List Byte)) (rseq len : Nat) : FR Unit :=
  if len = 0 then .ok () t
  else if t.core.autoTrim && t.core.chunks.isEmpty && decide (rseq = t.core.cur) then
    (t.deliver Γ f n data rseq (add64 rseq len)).bind fun _ t => .ok () t
  else
    let rupper := add64 rseq len
    if rupper ≤ t.core.trim then .ok () t
    else if rseq < t.core.trim then
      match data with
      | none => t.buffer Γ f n none t.core.trim rupper len
      | some bs => match Sink.dropBytes bs (t.core.trim - rseq) with
        | .ok bs' => t.buffer Γ f n (some bs') t.core.trim rupper len
        | .throw e => .throw e t
        | .ub => .ub
    else t.buffer Γ f n data rseq rupper len

/-- `sink.cc` 234-246 `_skip`. -/
def FSink.skipTo (Γ : Nat → G) (f n : Nat) (t : FSink) (rseq : Nat) : FR Unit :=
  let s := if t.core.autoTrim then t.core.trimTo rseq else t.core.reportUpTo rseq
  let s := { s with cur := rseq, last := rseq }.emit (.skipped rseq)
  { t with core := s }.tryDeliver Γ f n 0

/-- `sink.cc` 426-455 `_close`: the filters are aborted first; they do not get to know that there will be no more data. -/
def FSink.close (t : FSink) : FSink := { core := t.core.close }

/-- The operations of a sink, and `connect_filter`. -/
inductive FOp where
  | op (o : Op)
  | filter (F : Filter)

/-- `sink.h` 129-139 `connect_filter`; `sink.cc` 457-493; otherwise like `Sink.step`. -/
def FSink.step (Γ : Nat → G) (f n : Nat) (t : FSink) : FOp → FR Unit
  | .filter F =>
    if t.core.size ≠ 0 then .throw .sinkError t
    else if t.given.isSome then .ok () { t with late := true }
    else .ok () { t with filters := t.filters ++ [F] }
  | .op (.write bs seq len) =>
    if bs.length = 0 then .ok () t
    else t.newData Γ f n (some bs) (match seq with
      | some q => t.core.rel q
      | none => t.core.cur) (len.getD bs.length)
  | .op (.gap seq len) => t.newData Γ f n none (t.core.rel seq) len
  | .op (.skip seq) => t.skipTo Γ f n (t.core.rel seq)
  | .op (.setInitial seq) =>
    if t.core.cur ≠ 0 ∨ t.core.chunks ≠ [] then .throw .sinkError t.close
    else .ok () { t with core := { t.core with initial := seq } }
  | .op .close => .ok () t.close
  | .op o => t.lift (t.core.step o)              -- `connect`, `trim`, `set_auto_trim`

/-- A history; exceptions are caught by the caller, which goes on. `none` is undefined behaviour, or a filter that does not return. -/
def FSink.run (Γ : Nat → G) (f n : Nat) (t : FSink) : List FOp → Option FSink
  | [] => some t
  | op :: ops => match t.step Γ f n op with
    | .ok _ t' => FSink.run Γ f n t' ops
    | .throw _ t' => FSink.run Γ f n t' ops
    | .ub => none
    | .diverge => none

/-- All operations return normally, ending in `t'`. -/
def FSink.Completes (Γ : Nat → G) (f n : Nat) (t : FSink) : List FOp → FSink → Prop
  | [], t' => t = t'
  | op :: ops, t' => ∃ t1, t.step Γ f n op = .ok () t1 ∧ FSink.Completes Γ f n t1 ops t'

end Verif.Filter
