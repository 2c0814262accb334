import Verif.Base
/-!
# Model of `hilti::rt::Stream`

Sources: `hilti/runtime/include/types/stream.h` (abbreviated `stream.h`) and `hilti/runtime/src/types/stream.cc`
(abbreviated `stream.cc`).

General simplifications (all cited definitions): offsets are unbounded naturals, where the code uses
`integer::safe<uint64_t>` and throws `Overflow` beyond 2^64-1; one chain at a time (the "incompatible iterators" checks
for iterators of two different streams are not modelled); memory allocation does not fail; non-owning chunks are assumed
to refer to memory that the caller keeps alive and unchanged, as `Stream`'s documentation demands; `assert`s are not
modelled as checks (they are compiled out in release builds), what follows a violated one is modelled instead.
-/

namespace Verif.Stream

abbrev Byte := UInt8

/-- A chunk's payload: data, or a gap of some length (`stream.h` 98-101 `Gap`, 290-296 `Chunk::_size/_data`). -/
inductive Payload where
  | data (bs : List Byte)
  | gap (n : Nat)
  deriving DecidableEq, Repr

/-- `stream.h` 113-300 `Chunk`. `id` stands for the chunk's address; the `_next` pointer is the position in the chain's
    list; `_chain` is dropped (one chain). `allocated` is zero for non-owning chunks. -/
structure Chunk where
  id : Nat
  offset : Nat
  payload : Payload
  allocated : Nat
  deriving DecidableEq, Repr

namespace Chunk
/-- `stream.h` 211 `size()`. -/
def size (k : Chunk) : Nat := match k.payload with
  | .data bs => bs.length
  | .gap n => n
/-- `stream.h` 188 `endOffset()`. -/
def endOffset (k : Chunk) : Nat := k.offset + k.size
/-- `stream.h` 189 `isGap()`. -/
def isGap (k : Chunk) : Bool := match k.payload with
  | .data _ => false
  | .gap _ => true
/-- `stream.h` 190 `isOwning()`. -/
def isOwning (k : Chunk) : Bool := decide (k.allocated > 0)
/-- `stream.h` 191 `inRange()`. -/
def inRange (k : Chunk) (o : Nat) : Bool := decide (k.offset ≤ o) && decide (o < k.endOffset)
/-- `stream.h` 200-203 `data(offset)` followed by a read of one byte: throws `MissingData` for a gap; reading outside of
    the chunk is undefined (the code only asserts). -/
def readAt (k : Chunk) (o : Nat) : Res Byte := match k.payload with
  | .gap _ => .throw .missingData
  | .data bs => if k.offset ≤ o then (match bs[o - k.offset]? with | some b => .ok b | none => .ub) else .ub
/-- `stream.h` 228-236 `makeOwning()`: a data chunk which owns nothing gets an allocation of its size. -/
def makeOwning (k : Chunk) : Chunk := match k.payload with
  | .data bs => if bs.length = 0 ∨ k.allocated > 0 then k else { k with allocated := bs.length }
  | .gap _ => k
end Chunk

/-- `stream.h` 449-453 `Chain::State`. -/
inductive State where
  | mutable | frozen | invalid
  deriving DecidableEq, Repr

/-- `stream.h` 42-62 `Statistics`. -/
structure Statistics where
  dataBytes : Nat := 0
  dataChunks : Nat := 0
  gapBytes : Nat := 0
  gapChunks : Nat := 0
  deriving DecidableEq, Repr

/-- `stream.h` 319-477 `Chain`. `chunks` is the linked list from `_head`; `tail` is the `_tail` pointer; `cached` is
    `_cached`; `nextId` is the next fresh address (an address is never reused by the allocator in the model, which only
    makes use-after-free more visible). -/
structure Chain where
  state : State := .mutable
  chunks : List Chunk := []
  headOffset : Nat := 0
  tail : Option Nat := none
  stats : Statistics := {}
  cached : Option Chunk := none
  nextId : Nat := 0
  deriving DecidableEq, Repr

namespace Chain

/-- Following a chunk pointer: the chunk with its successors, if it is in the chain; the cached chunk (which has been
    detached: no successor), if it is that; otherwise the memory has been freed. -/
def resolve (c : Chain) (p : Nat) : Res (List Chunk) :=
  match c.chunks.dropWhile (fun k => k.id != p) with
  | k :: ks => .ok (k :: ks)
  | [] => match c.cached with
    | some k => if k.id = p then .ok [k] else .ub
    | none => .ub

/-- Following a possibly null chunk pointer; `[]` stands for null. -/
def resolve? (c : Chain) : Option Nat → Res (List Chunk)
  | none => .ok []
  | some p => c.resolve p

/-- `stream.h` 351 `endOffset()`. -/
def endOffset (c : Chain) : Res Nat := do
  match ← c.resolve? c.tail with
  | [] => .ok c.headOffset
  | k :: _ => .ok k.endOffset

/-- `stream.h` 345 `size()`; `Offset` subtraction is checked. -/
def size (c : Chain) : Res Nat := do
  let e ← c.endOffset
  if c.headOffset ≤ e then .ok (e - c.headOffset) else .throw .overflow

/-- `stream.h` 348 `inRange()`. -/
def inRange (c : Chain) (o : Nat) : Res Bool := do
  let e ← c.endOffset
  .ok (decide (c.headOffset ≤ o) && decide (o < e))

/-- `stream.h` 347 `isValid()`. -/
def isValid (c : Chain) : Bool := c.state != .invalid
/-- `stream.h` 346 `isFrozen()`. -/
def isFrozen (c : Chain) : Bool := c.state == .frozen

/-- `stream.h` 1104-1127 `findChunk() const`, with the hint already followed (`[]` = null). The result is the chunk with
    its successors, `[]` for null. -/
def findFrom (c : Chain) (o : Nat) (hint : List Chunk) : Res (List Chunk) := do
  if c.isValid then
    let hint ← (match hint with | [] => c.resolve? c.tail | h => .ok h)
    let start := match hint with
      | [] => c.chunks
      | k :: ks => if k.offset ≤ o then k :: ks else c.chunks
    .ok (start.dropWhile (fun k => !k.inRange o))
  else .throw .invalidIterator

/-- `stream.h` 1104-1127 `findChunk(offset, hint_prev) const`: the hint pointer is dereferenced. -/
def findChunk (c : Chain) (o : Nat) (hint : Option Nat) : Res (List Chunk) := do
  if c.isValid then
    let h ← c.resolve? hint
    c.findFrom o h
  else .throw .invalidIterator

/-- `stream.cc` 113-120: statistics update of `append(std::unique_ptr<Chunk>)`. -/
def countChunk (s : Statistics) (k : Chunk) : Statistics :=
  if k.isGap then { s with gapBytes := s.gapBytes + k.size, gapChunks := s.gapChunks + 1 }
  else { s with dataBytes := s.dataBytes + k.size, dataChunks := s.dataChunks + 1 }

/-- `stream.h` 266-279 `Chunk::setNext` applied to the tail: the tail becomes owning, the new chunk's offset follows. -/
def linkLast : List Chunk → Chunk → List Chunk
  | [], k => [k]
  | [t], k => [t.makeOwning, { k with offset := t.endOffset }]
  | x :: y :: r, k => x :: linkLast (y :: r) k

/-- `stream.cc` 108-132 `append(std::unique_ptr<Chunk>)`. Linking happens at `_tail`; it is undefined if that pointer is
    not the chain's last chunk (the model does not follow such a chain further). -/
def appendChunk (c : Chain) (k : Chunk) : Res Unit × Chain :=
  match c.state with
  | .invalid => (.throw .invalidIterator, c)
  | .frozen => (.throw .frozen, c)
  | .mutable =>
    let st := countChunk c.stats k
    match c.tail with
    | none =>
      (.ok (), { c with stats := st, chunks := [{ k with offset := c.headOffset }], tail := some k.id })
    | some t =>
      if c.chunks.getLast?.map (·.id) = some t then
        (.ok (), { c with stats := st, chunks := linkLast c.chunks k, tail := some k.id })
      else (.ub, c)

/-- `stream.cc` 66-78 `append(const Byte*, size_t)` and 94-106 `append(Bytes&&)` (same logic): reuses the cached chunk
    if its allocation is big enough. If appending throws, the cached chunk has already been moved away. -/
def append (c : Chain) (bs : List Byte) : Res Unit × Chain :=
  if bs.length = 0 then (.ok (), c)
  else
    match c.cached with
    | some k =>
      if k.allocated ≥ bs.length then
        -- `memcpy` into the chunk's buffer: writing more than was allocated is undefined
        if bs.length > k.allocated then (.ub, c)
        else ({ c with cached := none } : Chain).appendChunk { k with payload := .data bs }
      else
        ({ c with nextId := c.nextId + 1 } : Chain).appendChunk
          { id := c.nextId, offset := 0, payload := .data bs, allocated := bs.length }
    | none =>
      ({ c with nextId := c.nextId + 1 } : Chain).appendChunk
        { id := c.nextId, offset := 0, payload := .data bs, allocated := bs.length }

/-- `stream.cc` 80-92 `append(const Byte*, size_t, NonOwning)`: reuses the cached chunk if that is non-owning. -/
def appendNonOwning (c : Chain) (bs : List Byte) : Res Unit × Chain :=
  if bs.length = 0 then (.ok (), c)
  else
    match c.cached with
    | some k =>
      if !k.isOwning then
        ({ c with cached := none } : Chain).appendChunk { k with payload := .data bs }
      else
        ({ c with nextId := c.nextId + 1 } : Chain).appendChunk
          { id := c.nextId, offset := 0, payload := .data bs, allocated := 0 }
    | none =>
      ({ c with nextId := c.nextId + 1 } : Chain).appendChunk
        { id := c.nextId, offset := 0, payload := .data bs, allocated := 0 }

/-- `stream.cc` 149-154 `appendGap`. -/
def appendGap (c : Chain) (n : Nat) : Res Unit × Chain :=
  if n = 0 then (.ok (), c)
  else ({ c with nextId := c.nextId + 1 } : Chain).appendChunk
    { id := c.nextId, offset := 0, payload := .gap n, allocated := 0 }

/-- `stream.cc` 176-184: which chunk to keep in the cache when dropping `h`. `detach()` (`stream.h` 283-287) clears the
    offset. -/
def cacheAfterDrop (h : Chunk) (cached : Option Chunk) : Option Chunk :=
  if !h.isGap && (match cached with
      | none => true
      | some k => !h.isOwning || decide (h.allocated > k.allocated)) then
    some { h with offset := 0 }
  else cached

/-- `stream.cc` 188-189: `if ( ! _head || _head->isLast() ) _tail = _head.get()` after dropping the head. -/
def tailAfterDrop (rest : List Chunk) (t : Option Nat) : Option Nat := match rest with
  | [] => none
  | [x] => some x.id
  | _ :: _ :: _ => t

/-- `stream.cc` 168-201: the loop of `trim`. `cannot_be_reached()` aborts the program; the model says `none`. -/
def trimLoop (o : Nat) : List Chunk → Option Chunk → Option Nat → Option (List Chunk × Option Chunk × Option Nat)
  | [], ca, t => some ([], ca, t)
  | h :: rest, ca, t =>
    if o ≥ h.endOffset then
      trimLoop o rest (cacheAfterDrop h ca) (tailAfterDrop rest t)
    else if h.inRange o then some (h :: rest, ca, t)
    else none

/-- `stream.cc` 156-204 `trim(offset)`. -/
def trim (c : Chain) (o : Nat) : Res Unit × Chain :=
  if c.isValid then
    match c.chunks with
    | [] => (.ok (), c)
    | h :: rest =>
      if o < h.offset then (.ok (), c)
      else
        match trimLoop o (h :: rest) c.cached c.tail with
        | some (ks, ca, t) => (.ok (), { c with chunks := ks, cached := ca, tail := t, headOffset := o })
        | none => (.ub, c)
  else (.throw .invalidIterator, c)

/-- `stream.h` 404-410 `invalidate()`; runs when the stream is destroyed or assigned to. -/
def invalidate (c : Chain) : Chain :=
  { c with state := .invalid, chunks := [], headOffset := 0, tail := none, stats := {} }

/-- `stream.h` 413-419 `reset()`. -/
def reset (c : Chain) : Chain :=
  { c with state := .mutable, chunks := [], headOffset := 0, tail := none, stats := {} }

/-- `stream.h` 421-424 `freeze()`. -/
def freeze (c : Chain) : Chain := if c.isValid then { c with state := .frozen } else c
/-- `stream.h` 426-429 `unfreeze()`. -/
def unfreeze (c : Chain) : Chain := if c.isValid then { c with state := .mutable } else c

/-- `stream.h` 1832-1838 `Stream::makeOwning()`: the tail chunk becomes owning. -/
def makeOwning (c : Chain) : Chain :=
  { c with chunks := c.chunks.map (fun k => if some k.id = c.tail then k.makeOwning else k) }

/-- `stream.cc` 206-219 `copy()`, with the copied chunks numbered from 0. Each chunk is appended to a new chain through
    `append(std::unique_ptr<Chunk>)`. -/
def copyChunks : List Chunk → Chain → Res Unit × Chain
  | [], n => (.ok (), n)
  | k :: ks, n =>
    -- `Chunk(const Chunk&)`, `stream.h` 130-134: same data; an owning chunk is copied into an allocation of its size.
    let k' : Chunk := { k with id := n.nextId, allocated := if k.isOwning then k.size else 0 }
    match ({ n with nextId := n.nextId + 1 } : Chain).appendChunk k' with
    | (.ok (), n') => copyChunks ks n'
    | r => r

/-- `stream.cc` 206-219 `copy()`. -/
def copy (c : Chain) : Res Chain :=
  if c.isValid then
    match copyChunks c.chunks {} with
    | (.ok (), n) => .ok { n with stats := c.stats }
    | (.throw e, _) => .throw e
    | (.ub, _) => .ub
  else .throw .invalidIterator

/-- `stream.h` 324-337 `Chain(std::unique_ptr<Chunk>)` and `stream.cc` 44-53, 499 `Stream(Bytes)`: a stream made from
    given data is a chain with one chunk, which may be empty; empty chunks are not counted. -/
def ofBytes (bs : List Byte) : Chain :=
  { chunks := [{ id := 0, offset := 0, payload := .data bs, allocated := bs.length }], tail := some 0, nextId := 1,
    stats := if bs.length = 0 then {} else { dataBytes := bs.length, dataChunks := 1 } }

end Chain

/-! ## Safe iterators -/

/-- `stream.h` 492-817 `SafeConstIterator`, bound to the chain at hand (unbound, i.e. default-constructed iterators are
    treated by the functions that accept them). `chunk` is the cached chunk pointer `_chunk`. -/
structure Iter where
  offset : Nat
  chunk : Option Nat
  deriving DecidableEq, Repr

namespace Chain

/-- `stream.h` 1063-1066 `begin()`. -/
def begin (c : Chain) : Res Iter :=
  if c.isValid then .ok { offset := c.headOffset, chunk := c.chunks.head?.map (·.id) } else .throw .invalidIterator

/-- `stream.h` 1068-1071 `end()`: carries the tail pointer. -/
def «end» (c : Chain) : Res Iter := do
  if c.isValid then
    let e ← c.endOffset
    .ok { offset := e, chunk := c.tail }
  else .throw .invalidIterator

/-- `stream.h` 1073-1075 `at(offset)`. -/
def «at» (c : Chain) (o : Nat) : Res Iter := do
  let s ← c.findChunk o none
  .ok { offset := o, chunk := s.head?.map (·.id) }

end Chain

namespace Iter

/-- `stream.h` 683 `chunk()`: the pointer, if the iterator's offset is inside the chain's range. -/
def chunkPtr (i : Iter) (c : Chain) : Res (Option Nat) := do
  if c.isValid then
    if ← c.inRange i.offset then .ok i.chunk else .ok none
  else .ok none

/-- `stream.h` 712-741 `_increment(n)` (for a bound iterator). -/
def incr (i : Iter) (c : Chain) (n : Nat) : Res Iter := do
  if n = 0 then .ok i
  else if c.isValid then
    if ← c.inRange i.offset then
      let s ← c.resolve? i.chunk
      match s with
      | k :: _ =>
        if k.inRange (i.offset + n) then .ok { i with offset := i.offset + n }
        else
          let r ← c.findFrom (i.offset + n) s
          .ok { offset := i.offset + n, chunk := r.head?.map (·.id) }
      | [] =>
        let r ← c.findFrom (i.offset + n) []
        .ok { offset := i.offset + n, chunk := r.head?.map (·.id) }
    else
      let r ← c.findFrom (i.offset + n) c.chunks
      .ok { offset := i.offset + n, chunk := r.head?.map (·.id) }
  else .ok { offset := i.offset + n, chunk := none }

/-- `stream.h` 743-775 `_decrement(n)` (for a bound iterator). -/
def decr (i : Iter) (c : Chain) (n : Nat) : Res Iter := do
  if n > i.offset then .throw .invalidIterator
  else if n = 0 then .ok i
  else if c.isValid then
    if ← c.inRange i.offset then
      let s ← c.resolve? i.chunk
      match s with
      | k :: _ =>
        if k.inRange (i.offset - n) then .ok { i with offset := i.offset - n }
        else
          let r ← c.findFrom (i.offset - n) s
          .ok { offset := i.offset - n, chunk := r.head?.map (·.id) }
      | [] =>
        let r ← c.findFrom (i.offset - n) []
        .ok { offset := i.offset - n, chunk := r.head?.map (·.id) }
    else
      let r ← c.findFrom (i.offset - n) c.chunks
      .ok { offset := i.offset - n, chunk := r.head?.map (·.id) }
  else .ok { offset := i.offset - n, chunk := none }

/-- `stream.h` 777-793 `_dereference()`. A null result of `findChunk` is dereferenced (the code only asserts). -/
def deref (i : Iter) (c : Chain) : Res Byte := do
  if c.isValid then
    if ← c.inRange i.offset then
      let p ← i.chunkPtr c
      match ← c.findChunk i.offset p with
      | [] => .ub
      | k :: _ => k.readAt i.offset
    else .throw .invalidIterator
  else .throw .invalidIterator

/-- `stream.h` 660-666 `isEnd()`. -/
def isEnd (i : Iter) (c : Chain) : Res Bool := do
  if c.isValid then
    let e ← c.endOffset
    .ok (decide (i.offset ≥ e))
  else .throw .invalidIterator

end Iter

/-! ## Unsafe iterators

The chain does not change while an unsafe iterator is in use, so the chunk pointer is represented by the chunk with its
successors, `[]` for null. -/

/-- `stream.h` 836-1053 `UnsafeConstIterator`. -/
structure UIter where
  offset : Nat
  sfx : List Chunk
  deriving DecidableEq, Repr

namespace UIter

/-- `stream.h` 1004-1014 `_increment(n)`. -/
def incr (i : UIter) (c : Chain) (n : Nat) : Res UIter := do
  if n = 0 then .ok i
  else
    match i.sfx with
    | k :: ks =>
      if i.offset + n < k.endOffset then .ok { offset := i.offset + n, sfx := k :: ks }
      else
        let r ← c.findFrom (i.offset + n) (k :: ks)
        .ok { offset := i.offset + n, sfx := r }
    | [] =>
      let r ← c.findFrom (i.offset + n) []
      .ok { offset := i.offset + n, sfx := r }

/-- `stream.h` 1016-1026 `_decrement(n)`; the offset subtraction is checked. -/
def decr (i : UIter) (c : Chain) (n : Nat) : Res UIter := do
  if n = 0 then .ok i
  else if n > i.offset then .throw .overflow
  else
    match i.sfx with
    | k :: ks =>
      if i.offset - n > k.offset then .ok { offset := i.offset - n, sfx := k :: ks }
      else
        let r ← c.findFrom (i.offset - n) (k :: ks)
        .ok { offset := i.offset - n, sfx := r }
    | [] =>
      let r ← c.findFrom (i.offset - n) []
      .ok { offset := i.offset - n, sfx := r }

/-- `stream.h` 1028-1037 `_dereference()`: null or out-of-range chunk is undefined. -/
def deref (i : UIter) : Res Byte := match i.sfx with
  | [] => .ub
  | k :: _ => k.readAt i.offset

/-- `stream.h` 921-923 `operator==`, with 967-972 `isEnd()`. -/
def eq (i : UIter) (c : Chain) (j : UIter) : Res Bool := do
  if i.offset = j.offset then .ok true
  else
    let e ← c.endOffset
    .ok (decide (i.offset ≥ e) && decide (j.offset ≥ e))

/-- `stream.h` 1055-1056 constructor from a safe iterator. -/
def ofSafe (i : Iter) (c : Chain) : Res UIter := do
  let p ← i.chunkPtr c
  let s ← c.findChunk i.offset p
  .ok { offset := i.offset, sfx := s }

end UIter
end Verif.Stream
