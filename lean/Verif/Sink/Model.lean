import Verif.Base
/-!
# Model of sinks: `spicy/runtime/src/sink.cc` (`sink.cc`), `spicy/runtime/include/sink.h` (`sink.h`)

A sink reassembles data written at sequence numbers and passes it on to the connected units. Sequence numbers are `uint64_t`
with wrap-around, modelled as natural numbers with explicit `% 2^64`. `std::list` iterators are modelled as positions in the
list of chunks; an uninitialized iterator is `none`. Connected units are arbitrary: a unit is given by what becomes of its
parser once it has seen some data.

Not modelled: filters (`_filter` is null), hooks of units that call back into the sink, debug output, `connect_mime_type`
(see `Verif.Mime`), the policy (there is only one).
-/

namespace Verif.Sink

abbrev Byte := UInt8

/-- Addition of `uint64_t`. -/
def add64 (a b : Nat) : Nat := (a + b) % 2 ^ 64
/-- Subtraction of `uint64_t`. -/
def sub64 (a b : Nat) : Nat := (a + 2 ^ 64 - b % 2 ^ 64) % 2 ^ 64

/-- `sink.h` 246-253: a chunk; no data for a gap. -/
structure Chunk where
  data : Option (List Byte)
  rseq : Nat
  rupper : Nat
  deriving DecidableEq, Repr

/-- State of a connected unit's parser (`sink.h` 46-58): waiting for data; completed (`resumable` is true); failed
    (`skip_delivery`). -/
inductive Status where
  | waiting | finished | failed
  deriving DecidableEq, Repr

/-- A connected unit: what it received so far, and how its parser behaves as a function of that. -/
structure Unit_ where
  received : List Byte
  status : Status
  beh : List Byte → Status

/-- What the connected units get to see: data, and the calls of hooks (`sink.cc` 325-384). Sequence numbers are relative to
    the initial one; hooks see `initial + rseq`. -/
inductive Event where
  | data (rseq rupper : Nat) (bs : List Byte)
  | gap (rseq len : Nat)
  | overlap (rseq : Nat) (old new : List Byte)
  | skipped (rseq : Nat)
  | undelivered (rseq : Nat) (bs : List Byte)
  | closed
  deriving DecidableEq, Repr

/-- `sink.h` 298-323 and the log of everything the units have seen. -/
structure Sink where
  autoTrim : Bool := true
  size : Nat := 0
  initial : Nat := 0
  cur : Nat := 0
  last : Nat := 0
  trim : Nat := 0
  chunks : List Chunk := []
  units : List Unit_ := []
  log : List Event := []

/-- Outcome of an operation; the state after an exception matters, since the caller can go on. -/
inductive R (α : Type) where
  | ok (a : α) (s : Sink)
  | throw (e : Exn) (s : Sink)
  | ub

namespace R
variable {α β : Type}
def bind (x : R α) (f : α → Sink → R β) : R β := match x with
  | .ok a s => f a s
  | .throw e s => .throw e s
  | .ub => .ub
end R

def Sink.emit (s : Sink) (e : Event) : Sink := { s with log := s.log ++ [e] }

/-- `bytes.h` 370-375, 392-398: `data->sub(data->begin() + n, data->end())`. The offset is computed as a signed difference
    of safe integers. -/
def dropBytes (bs : List Byte) (n : Nat) : Res (List Byte) :=
  if n ≥ 2 ^ 63 then .throw .overflow
  else if n > bs.length then .throw .outOfRange
  else .ok (bs.drop n)

/-- `bytes.h` 392-398 `sub(from, to)`: `substr(from, to - from)`. -/
def subBytes (bs : List Byte) (a b : Nat) : Res (List Byte) :=
  if a > bs.length then .throw .outOfRange else .ok ((bs.drop a).take (sub64 b a))

/-- Result of `_addAndCheck`: the returned iterator (`none`: uninitialized) or an exception, the new list, and the overlaps
    reported. -/
structure Added where
  res : Res (Option Nat)
  chunks : List Chunk
  log : List Event
  deriving DecidableEq, Repr

/-- `rseq == _chunks.back().rupper`. -/
def atBack (l : List Chunk) (rseq : Nat) : Bool := match l.getLast? with
  | some b => rseq == b.rupper
  | none => false

/-- `sink.cc` 89-97: the return value if `new_c` is `c`, which is at position `i`, or the prefix inserted before `c`. -/
def pick (hasPrefix : Bool) (i : Nat) (r : Res (Option Nat)) : Res (Option Nat) := match r with
  | .ok j => .ok (if hasPrefix then some i else j)
  | e => e

/-- `sink.cc` 56-68: what is left of the data after splitting off the prefix before `c`. -/
def afterPrefix (data : Option (List Byte)) (hasPrefix : Bool) (n : Nat) : Res (Option (List Byte)) := match data with
  | some bs =>
    if hasPrefix then (match dropBytes bs n with
      | .ok x => .ok (some x)
      | .throw e => .throw e
      | .ub => .ub)
    else .ok (some bs)
  | none => .ok none

/-- `sink.cc` 56-68: the chunks before `c`, with the prefix inserted. -/
def withPrefix (data : Option (List Byte)) (hasPrefix : Bool) (rseq n : Nat) (pre : List Chunk) : List Chunk := match data with
  | some bs => if hasPrefix then pre ++ [⟨some (bs.take n), rseq, add64 rseq n⟩] else pre
  | none => pre

/-- `sink.cc` 81-82: the old data of the overlap. -/
def oldData (c : Chunk) (start len : Nat) : Res (List Byte) := match c.data with
  | some o => subBytes o (sub64 start c.rseq) (add64 (sub64 start c.rseq) len)
  | none => .ok []

/-- How `_addAndCheck` goes on after an overlap with `c`: it is done, or it adds the remaining data at `rseq`. `pre` are the
    chunks before `c`. -/
inductive Next where
  | done (r : Added)
  | again (bs : List Byte) (rseq : Nat) (pre : List Chunk) (ev : Event)

/-- `sink.cc` 70-97: the overlap, once the prefix has been split off; `newC` is the iterator to return. -/
def resolve (data : Option (List Byte)) (start rupper : Nat) (pre : List Chunk) (c : Chunk) (post : List Chunk)
    (newC : Option Nat) : Next :=
  let newLen := sub64 rupper start
  let cLen := sub64 c.rupper start
  let len := if newLen < cLen then newLen else cLen
  match oldData c start len with
  | .throw e => .done ⟨.throw e, pre ++ c :: post, []⟩
  | .ub => .done ⟨.ub, pre ++ c :: post, []⟩
  | .ok old =>
    let ev := Event.overlap start old ((data.getD []).take len)
    match data with
    | none => .done ⟨.ok newC, pre ++ c :: post, [ev]⟩
    | some bs =>
      if len < newLen then
        match dropBytes bs len with
        | .throw e => .done ⟨.throw e, pre ++ c :: post, [ev]⟩
        | .ub => .done ⟨.ub, pre ++ c :: post, [ev]⟩
        | .ok bs' => .again bs' (add64 start len) pre ev
      else .done ⟨.ok newC, pre ++ c :: post, [ev]⟩

/-- `sink.cc` 52-97: new data overlapping with `c`. -/
def overlapWith (data : Option (List Byte)) (rseq rupper : Nat) (pre : List Chunk) (c : Chunk) (post : List Chunk) : Next :=
  let hasPrefix := decide (rseq < c.rseq)
  let n := c.rseq - rseq
  let pre' := withPrefix data hasPrefix rseq n pre
  let newC : Option Nat := if hasPrefix && data.isNone then none else some pre.length
  match afterPrefix data hasPrefix n with
  | .throw e => .done ⟨.throw e, pre' ++ c :: post, []⟩
  | .ub => .done ⟨.ub, pre' ++ c :: post, []⟩
  | .ok data' => resolve data' (if hasPrefix then add64 rseq n else rseq) rupper pre' c post newC

/-- `sink.cc` 26-101 `_addAndCheck`. The list is `pre ++ post` and the iterator `c` points to the first of `post`. The
    recursive call for the remainder starts at `c` with `rseq = c.rupper`, so it moves on to the next chunk at once. -/
def addAndCheck : Option (List Byte) → Nat → Nat → List Chunk → List Chunk → Added
  | data, rseq, rupper, pre, [] => ⟨.ok (some pre.length), pre ++ [⟨data, rseq, rupper⟩], []⟩       -- 33-36, 42-46
  | data, rseq, rupper, pre, c :: post =>
    if atBack (pre ++ c :: post) rseq then
      ⟨.ok (some (pre.length + 1 + post.length)), pre ++ c :: post ++ [⟨data, rseq, rupper⟩], []⟩   -- 33-36
    else if c.rupper ≤ rseq then addAndCheck data rseq rupper (pre ++ [c]) post                     -- 39-40
    else if rupper ≤ c.rseq then
      ⟨.ok (some pre.length), pre ++ ⟨data, rseq, rupper⟩ :: c :: post, []⟩                         -- 48-50
    else match overlapWith data rseq rupper pre c post with
      | .done r => r
      | .again bs rseq' pre' ev =>                                                                  -- 90-98
        let r := addAndCheck (some bs) rseq' rupper (pre' ++ [c]) post
        ⟨pick (decide (rseq < c.rseq)) pre.length r.res, r.chunks, ev :: r.log⟩

/-- `sink.cc` 156-165: passing data on to a unit; errors in the unit end its delivery. -/
def Unit_.deliver (u : Unit_) (bs : List Byte) : Unit_ := match u.status with
  | .failed => u
  | _ => { u with received := u.received ++ bs, status := u.beh (u.received ++ bs) }

/-- `sink.cc` 103-176 `_deliver`. -/
def Sink.deliver (s : Sink) (data : Option (List Byte)) (rseq rupper : Nat) : R Bool := match data with
  | none =>
    if s.cur ≠ rupper then .ok false { s.emit (.gap rseq (sub64 rupper rseq)) with cur := rupper }
    else .ok false s
  | some bs =>
    if bs.length = 0 then .ok true s
    else
      let s := { s with size := add64 s.size bs.length }
      if s.units.any (fun u => u.status = .finished) then .throw .parseError s
      else .ok true { s.emit (.data rseq rupper bs) with
        units := s.units.map (·.deliver bs), cur := rupper, last := rupper }

/-- `sink.cc` 256-264: the chunks that trimming removes, as a prefix of the list. -/
def trimmed (rseq : Nat) (l : List Chunk) : List Chunk := l.takeWhile (fun c => c.rseq < rseq)
def kept (rseq : Nat) (l : List Chunk) : List Chunk := l.dropWhile (fun c => c.rseq < rseq)

/-- `sink.cc` 261-262: the report for a trimmed chunk. -/
def undeliveredReport (cur : Nat) (c : Chunk) : List Event := match c.data with
  | some bs => if cur < c.rseq then [.undelivered c.rseq bs] else []
  | none => []

/-- `sink.cc` 248-267 `_trim`. -/
def Sink.trimTo (s : Sink) (rseq : Nat) : Sink :=
  { s with chunks := kept rseq s.chunks, trim := rseq,
           log := s.log ++ (trimmed rseq s.chunks).flatMap (undeliveredReport s.cur) }

/-- `sink.cc` 276-291: the loop of `_tryDeliver` over the chunks from `c` on. -/
def deliverLoop : List Chunk → Sink → R Unit
  | [], s => .ok () s
  | c :: cs, s =>
    if c.rseq = s.last then
      let s := { s with last := add64 s.last (sub64 c.rupper c.rseq) }
      match s.deliver c.data c.rseq c.rupper with
      | .ok true s' => deliverLoop cs s'
      | .ok false s' => .ok () (if s'.autoTrim then s'.trimTo c.rseq else s')
      | .throw e s' => .throw e s'
      | .ub => .ub
    else deliverLoop cs s

/-- `sink.cc` 269-295 `_tryDeliver`, starting at position `i`. -/
def Sink.tryDeliver (s : Sink) (i : Nat) : R Unit :=
  (deliverLoop (s.chunks.drop i) s).bind fun _ s => .ok () (if s.autoTrim then s.trimTo s.last else s)

/-- `sink.cc` 197-226: buffering, after data below the trim position has been cut off; `len` is the original length. -/
def Sink.buffer (s : Sink) (data : Option (List Byte)) (rseq rupper len : Nat) : R Unit :=
  let r : Added := if s.chunks.isEmpty then ⟨.ok (some 0), [⟨data, rseq, add64 rseq len⟩], []⟩
    else addAndCheck data rseq rupper [] s.chunks
  let s := { s with chunks := r.chunks, log := s.log ++ r.log }
  match r.res with
  | .throw e => .throw e s
  | .ub => .ub
  | .ok none => .ub                                     -- dereferences an uninitialized iterator
  | .ok (some i) => match s.chunks[i]? with
    | none => .ub
    | some c => if c.rseq > s.last ∨ c.rupper ≤ s.last then .ok () s else s.tryDeliver i

/-- `sink.cc` 178-232 `_newData`. -/
def Sink.newData (s : Sink) (data : Option (List Byte)) (rseq len : Nat) : R Unit :=
  if len = 0 then .ok () s
  else if s.autoTrim && s.chunks.isEmpty && decide (rseq = s.cur) then
    (s.deliver data rseq (add64 rseq len)).bind fun _ s => .ok () s
  else
    let rupper := add64 rseq len
    if rupper ≤ s.trim then .ok () s
    else if rseq < s.trim then
      match data with
      | none => s.buffer none s.trim rupper len
      | some bs => match dropBytes bs (s.trim - rseq) with
        | .ok bs' => s.buffer (some bs') s.trim rupper len
        | .throw e => .throw e s
        | .ub => .ub
    else s.buffer data rseq rupper len

/-- `sink.cc` 364-384: the report of `_reportUndeliveredUpTo` for a chunk. -/
def upToReport (rupper : Nat) (c : Chunk) : List Event := match c.data with
  | none => []
  | some bs => [.undelivered c.rseq (if c.rupper ≤ rupper then bs else bs.take (sub64 c.rupper rupper))]

/-- `sink.cc` 364-384 `_reportUndeliveredUpTo`. -/
def Sink.reportUpTo (s : Sink) (rupper : Nat) : Sink :=
  { s with log := s.log ++ (s.chunks.takeWhile (fun c => c.rseq < rupper)).flatMap (upToReport rupper) }

/-- `sink.cc` 234-246 `_skip`. -/
def Sink.skipTo (s : Sink) (rseq : Nat) : R Unit :=
  let s := if s.autoTrim then s.trimTo rseq else s.reportUpTo rseq
  let s := { s with cur := rseq, last := rseq }.emit (.skipped rseq)
  s.tryDeliver 0

/-- `sink.cc` 475-505, 14-24: `_close` and `_init`. Remaining units are told and disconnected. -/
def Sink.close (s : Sink) : Sink := { log := s.log ++ [.closed] }

/-- `sink.h` 272-281 `_rseq`. -/
def Sink.rel (s : Sink) (seq : Nat) : Nat := sub64 seq s.initial

/-- `sink.h` 186 `sequence_number`. -/
def Sink.sequenceNumber (s : Sink) : Nat := add64 s.initial s.cur

/-- The operations of a sink. -/
inductive Op where
  | connect (beh : List Byte → Status)
  | write (bs : List Byte) (seq len : Option Nat)
  | gap (seq len : Nat)
  | skip (seq : Nat)
  | trim (seq : Nat)
  | setAutoTrim (b : Bool)
  | setInitial (seq : Nat)
  | close

/-- `sink.h` 98-107 (`connect`; starting the unit's parser may throw), 193, 199-207, 147; `sink.cc` 507-539. -/
def Sink.step (s : Sink) : Op → R Unit
  | .connect beh =>
    if beh [] = .failed then .throw .runtimeError s
    else .ok () { s with units := s.units ++ [⟨[], beh [], beh⟩] }
  | .write bs seq len =>
    if bs.length = 0 then .ok () s
    else s.newData (some bs) (match seq with
      | some q => s.rel q
      | none => s.cur) (len.getD bs.length)
  | .gap seq len => s.newData none (s.rel seq) len
  | .skip seq => s.skipTo (s.rel seq)
  | .trim seq => .ok () (s.trimTo (s.rel seq))
  | .setAutoTrim b => .ok () { s with autoTrim := b }
  | .setInitial seq =>
    if s.cur ≠ 0 ∨ s.chunks ≠ [] then .throw .sinkError s.close
    else .ok () { s with initial := seq }
  | .close => .ok () s.close

/-- A history; exceptions are caught by the caller, which goes on. `none` is undefined behaviour. -/
def Sink.run (s : Sink) : List Op → Option Sink
  | [] => some s
  | op :: ops => match s.step op with
    | .ok _ s' => s'.run ops
    | .throw _ s' => s'.run ops
    | .ub => none

end Verif.Sink
