import Verif.Stream.Model
/-!
# Model of `hilti::rt::stream::View`

Sources: `stream.h` 1155-1663 and `stream.cc` 226-600. Views are bound to a chain (default-constructed, unbound views are
not modelled). Loops that step an unsafe iterator take a fuel argument; running out of fuel is `ub` (the loop does not
terminate); all theorems show that the fuel used suffices. Functions with two views take two chains; pointers of
different chains are never equal.
-/

namespace Verif.Stream

/-- `stream.h` 1155-1633 `View`: `_begin` and, unless the view is open-ended, `_end`. -/
structure View where
  begin : Iter
  «end» : Option Iter
  deriving DecidableEq, Repr

namespace View

/-- `stream.h` 1608-1617 `_ensureValid()`. All iterators are bound to the chain at hand. -/
def ensureValid (v : View) (c : Chain) : Res Unit :=
  if c.isValid then
    if v.begin.offset < c.headOffset then .throw .invalidIterator else .ok ()
  else .throw .invalidIterator

/-- `stream.h` 1175-1182 `View(begin, end)`. -/
def mk2 (c : Chain) (b e : Iter) : Res View := do
  (View.mk b (some e)).ensureValid c
  .ok ⟨b, some e⟩

/-- `stream.h` 1638-1657 `size()`. -/
def size (v : View) (c : Chain) : Res Nat := do
  match ← c.resolve? c.tail with
  | [] => .ok 0
  | t :: _ =>
    if v.begin.offset > t.endOffset then .ok 0
    else match v.end with
      | none => .ok (t.endOffset - v.begin.offset)
      | some e =>
        if e.offset ≥ t.endOffset then .ok (t.endOffset - v.begin.offset)
        else .ok (if e.offset > v.begin.offset then e.offset - v.begin.offset else 0)

/-- `stream.h` 1212 `isEmpty()`. -/
def isEmpty (v : View) (c : Chain) : Res Bool := do
  let n ← v.size c
  .ok (decide (n = 0))

/-- `stream.cc` 226-236 `isComplete()`. -/
def isComplete (v : View) (c : Chain) : Res Bool := do
  v.ensureValid c
  if c.isFrozen then .ok true
  else match v.end with
    | some e => do
      let ce ← c.endOffset
      .ok (decide (e.offset ≤ ce))
    | none => .ok false

/-- `stream.h` 1376-1379 `advance(iterator)`. The private constructor used does not check validity. -/
def advanceTo (v : View) (i : Iter) : View := ⟨i, v.end⟩

/-- `stream.h` 1386 `advance(n)`. -/
def advance (v : View) (c : Chain) (n : Nat) : Res View := do
  let i ← v.begin.incr c n
  .ok ⟨i, v.end⟩

/-- `stream.h` 1435 `sub(from, to)` with offsets relative to the view's begin. -/
def sub (v : View) (c : Chain) (a b : Nat) : Res View := do
  let i ← v.begin.incr c a
  let j ← v.begin.incr c b
  mk2 c i j

/-- `stream.h` 1452-1462 `trim(nbegin)`: the public constructors are used. -/
def trim (v : View) (c : Chain) (nb : Iter) : Res View :=
  match v.end with
  | none => .ok ⟨nb, none⟩
  | some e => if nb.offset > e.offset then mk2 c e e else mk2 c nb e

/-- `stream.h` 1469-1474 `limit(offset)`: how far the limited view reaches. The size of a closed view is computed with raw,
    wrapping `uint64_t` arithmetic. -/
def limitTo (v : View) (n : Nat) : Nat :=
  match v.end with
  | none => n
  | some e => min n (if v.begin.offset ≤ e.offset then e.offset - v.begin.offset
                     else 2 ^ 64 - (v.begin.offset - e.offset))

/-- `stream.h` 1469-1477 `limit(offset)`. -/
def limit (v : View) (c : Chain) (n : Nat) : Res View := do
  let j ← v.begin.incr c (v.limitTo n)
  mk2 c v.begin j

/-- `stream.h` 1503-1514: copying loop of `extract`. `ks` is the chunk looked at with its successors. -/
def extractLoop : List Chunk → Nat → Nat → Res (List Byte)
  | _, _, 0 => .ok []
  | [], _, _ + 1 => .ub
  | k :: ks, o, n + 1 =>
    if k.offset ≤ o ∧ o ≤ k.endOffset then
      let into := o - k.offset
      let m := min (n + 1) (k.size - into)
      match k.payload with
      | .gap _ => .throw .missingData
      | .data bs => do
        let r ← extractLoop ks (o + m) (n + 1 - m)
        .ok ((bs.drop into).take m ++ r)
    else .ub

/-- `stream.h` 1486-1517 `extract(dst, n)`: the bytes written to `dst`, and the new view. -/
def extract (v : View) (c : Chain) (n : Nat) : Res (List Byte × View) := do
  v.ensureValid c
  let sz ← v.size c
  if n > sz then .throw .wouldBlock
  else
    let ks ← c.findChunk v.begin.offset none
    let bs ← extractLoop ks v.begin.offset n
    let i ← v.begin.incr c n
    .ok (bs, ⟨i, v.end⟩)

/-- `stream.h` 1534 `unsafeBegin()`. -/
def unsafeBegin (v : View) (c : Chain) : Res UIter := UIter.ofSafe v.begin c

/-- `stream.h` 1537-1545 `unsafeEnd()`, 1081-1084 `Chain::unsafeEnd()`: for an open-ended view it carries the tail chunk
    although the offset is outside of it. -/
def unsafeEnd (v : View) (c : Chain) : Res UIter :=
  match v.end with
  | some e => UIter.ofSafe e c
  | none => do
    if c.isValid then
      let e ← c.endOffset
      let t ← c.resolve? c.tail
      .ok ⟨e, t⟩
    else .throw .invalidIterator

/-- Enough fuel for every loop stepping an iterator through the chain. -/
def fuel (v : View) (c : Chain) : Nat := c.chunks.foldl (fun n k => n + k.endOffset) 0 + v.begin.offset + 2

/-- `stream.cc` 286-293: loop of `find(Byte, n)`. -/
def findByteLoop (v : View) (c : Chain) (b : Byte) : Nat → UIter → Res UIter
  | 0, _ => .ub
  | f + 1, i => do
    let e ← v.unsafeEnd c
    if ← i.eq c e then .ok e
    else
      let x ← i.deref
      if x = b then .ok i
      else
        let i' ← i.incr c 1
        v.findByteLoop c b f i'

/-- `stream.h` 1236-1239 `find(Byte)`, `stream.cc` 282-294. -/
def findByte (v : View) (c : Chain) (b : Byte) : Res UIter := do
  v.ensureValid c
  let i ← v.unsafeBegin c
  v.findByteLoop c b (v.fuel c) i

/-- Outcome of the inner loop of a search: match, mismatch, or ran into the end. -/
inductive Inner where
  | found | mismatch | atEnd
  deriving DecidableEq, Repr

/-- `stream.cc` 343-352: inner loop of `_findForward`; `needle` are the bytes from `y` on. -/
def matchLoop (v : View) (c : Chain) : List Byte → UIter → Res Inner
  | [], _ => .ub
  | y :: ys, x => do
    let e ← v.unsafeEnd c
    if ← x.eq c e then .ok .atEnd
    else
      let b ← x.deref
      let x' ← x.incr c 1
      if b ≠ y then .ok .mismatch
      else if ys = [] then .ok .found
      else v.matchLoop c ys x'

/-- `stream.cc` 333-353: outer loop of `_findForward`. -/
def findLoop (v : View) (c : Chain) (needle : List Byte) : Nat → UIter → Res (Bool × UIter)
  | 0, _ => .ub
  | f + 1, i => do
    let e ← v.unsafeEnd c
    if ← i.eq c e then .ok (false, i)
    else
      let b ← i.deref
      if some b ≠ needle.head? then
        let i' ← i.incr c 1
        v.findLoop c needle f i'
      else
        match ← v.matchLoop c needle i with
        | .atEnd => .ok (false, i)
        | .found => .ok (true, i)
        | .mismatch =>
          let i' ← i.incr c 1
          v.findLoop c needle f i'

/-- `stream.cc` 324-354 `_findForward(needle, n)` with `n` given. -/
def findForward (v : View) (c : Chain) (needle : List Byte) (n : UIter) : Res (Bool × UIter) :=
  if needle = [] then .ok (true, n) else v.findLoop c needle (v.fuel c + n.offset) n

/-- `stream.h` 1328-1333 `find(Bytes, Direction::Forward)`. -/
def find (v : View) (c : Chain) (needle : List Byte) : Res (Bool × UIter) := do
  v.ensureValid c
  let i ← v.unsafeBegin c
  v.findForward c needle i

/-- `stream.h` 1346-1353 `find(Bytes, n, Direction::Forward)`. -/
def findAt (v : View) (c : Chain) (needle : List Byte) (n : Iter) : Res (Bool × UIter) := do
  v.ensureValid c
  let i ← UIter.ofSafe n c
  v.findForward c needle i

/-- `stream.cc` 312-321: inner loop of `find(View)`; `y` iterates the needle view `w` over chain `d`. -/
def matchViewLoop (v : View) (c : Chain) (w : View) (d : Chain) : Nat → UIter → UIter → Res Inner
  | 0, _, _ => .ub
  | f + 1, x, y => do
    let e ← v.unsafeEnd c
    if ← x.eq c e then .ok .atEnd
    else
      let b ← x.deref
      let x' ← x.incr c 1
      let b' ← y.deref
      let y' ← y.incr d 1
      if b ≠ b' then .ok .mismatch
      else
        let e' ← w.unsafeEnd d
        if ← y'.eq d e' then .ok .found
        else v.matchViewLoop c w d f x' y'

/-- `stream.cc` 303-322: outer loop of `find(View)`. -/
def findViewLoop (v : View) (c : Chain) (w : View) (d : Chain) (first : Byte) : Nat → UIter → Res (Bool × UIter)
  | 0, _ => .ub
  | f + 1, i => do
    let e ← v.unsafeEnd c
    if ← i.eq c e then .ok (false, i)
    else
      let b ← i.deref
      if b ≠ first then
        let i' ← i.incr c 1
        v.findViewLoop c w d first f i'
      else
        let y ← w.unsafeBegin d
        match ← v.matchViewLoop c w d (w.fuel d) i y with
        | .atEnd => .ok (false, i)
        | .found => .ok (true, i)
        | .mismatch =>
          let i' ← i.incr c 1
          v.findViewLoop c w d first f i'

/-- `stream.h` 1274-1278 `find(View)`, `stream.cc` 296-322. -/
def findView (v : View) (c : Chain) (w : View) (d : Chain) : Res (Bool × UIter) := do
  v.ensureValid c
  let n ← v.unsafeBegin c
  if ← w.isEmpty d then .ok (true, n)
  else
    let y ← w.unsafeBegin d
    let first ← y.deref
    v.findViewLoop c w d first (v.fuel c) n

/-- `stream.cc` 388-399: inner loop of `_findBackward`; there is no check for the end of the data. -/
def matchBackLoop (c : Chain) : List Byte → UIter → Res Bool
  | [], _ => .ub
  | y :: ys, x => do
    let b ← x.deref
    let x' ← x.incr c 1
    if b ≠ y then .ok false
    else if ys = [] then .ok true
    else matchBackLoop c ys x'

/-- `stream.cc` 387-406: outer loop of `_findBackward`. -/
def findBackLoop (v : View) (c : Chain) (needle : List Byte) : Nat → UIter → Res (Bool × UIter)
  | 0, _ => .ub
  | f + 1, j => do
    let b ← j.deref
    let m ← (if some b = needle.head? then matchBackLoop c needle j else .ok false)
    if m then .ok (true, j)
    else
      let bg ← v.unsafeBegin c
      if ← j.eq c bg then .ok (false, j)
      else
        let j' ← j.decr c 1
        v.findBackLoop c needle f j'

/-- `stream.cc` 356-407 `_findBackward(needle, i)` with `i` given. A not-found result for lack of space is the unset
    iterator, here `none`. -/
def findBackward (v : View) (c : Chain) (needle : List Byte) (i : UIter) : Res (Bool × Option UIter) := do
  if needle = [] then .ok (true, some i)
  else
    let sz ← v.size c
    if i.offset > v.begin.offset + sz then .throw .invalidIterator
    else if i.offset < v.begin.offset then .throw .invalidIterator
    else if needle.length > i.offset - v.begin.offset then .ok (false, none)
    else
      let i' ← i.decr c (needle.length - 1)
      let r ← v.findBackLoop c needle (v.fuel c + i'.offset) i'
      .ok (r.1, some r.2)

/-- `stream.h` 1328-1333 `find(Bytes, Direction::Backward)`. -/
def rfind (v : View) (c : Chain) (needle : List Byte) : Res (Bool × Option UIter) := do
  v.ensureValid c
  let i ← v.unsafeEnd c
  v.findBackward c needle i

/-- `stream.h` 1346-1353 `find(Bytes, n, Direction::Backward)`. -/
def rfindAt (v : View) (c : Chain) (needle : List Byte) (n : Iter) : Res (Bool × Option UIter) := do
  v.ensureValid c
  let i ← UIter.ofSafe n c
  v.findBackward c needle i

/-- `stream.cc` 422-427: loop of `startsWith`, `e` is `unsafeEnd()`. -/
def startsWithLoop (c : Chain) (e : UIter) : List Byte → UIter → Res Bool
  | [], _ => .ok true
  | y :: ys, i => do
    if ← i.eq c e then .ok false
    else
      let b ← i.deref
      let i' ← i.incr c 1
      if b ≠ y then .ok false else startsWithLoop c e ys i'

/-- `stream.cc` 411-428 `startsWith`. -/
def startsWith (v : View) (c : Chain) (bs : List Byte) : Res Bool := do
  v.ensureValid c
  let s ← v.unsafeBegin c
  let e ← v.unsafeEnd c
  if ← v.isEmpty c then .ok bs.isEmpty
  else startsWithLoop c e bs s

/-- `stream.cc` 430-433 `copyRaw`: the bytes written. -/
def copyRawLoop (v : View) (c : Chain) : Nat → UIter → Res (List Byte)
  | 0, _ => .ub
  | f + 1, i => do
    let e ← v.unsafeEnd c
    if ← i.eq c e then .ok []
    else
      let b ← i.deref
      let i' ← i.incr c 1
      let r ← v.copyRawLoop c f i'
      .ok (b :: r)

def copyRaw (v : View) (c : Chain) : Res (List Byte) := do
  let i ← v.unsafeBegin c
  v.copyRawLoop c (v.fuel c) i

/-- `stream.h` 1562-1569 `Block`; `bytes` is what `start`/`size` delimit, `next` is `_block` with its successors. -/
structure Block where
  bytes : List Byte
  offset : Nat
  isFirst : Bool
  isLast : Bool
  next : List Chunk
  deriving DecidableEq, Repr

/-- Reading the memory delimited by `start` (at offset `o` inside chunk `k`) and a size. -/
def blockBytes (k : Chunk) (o n : Nat) : Res (List Byte) := match k.payload with
  | .gap _ => .throw .missingData
  | .data bs => if k.offset ≤ o ∧ o - k.offset + n ≤ bs.length then .ok ((bs.drop (o - k.offset)).take n) else .ub

/-- `stream.cc` 449 and 477: `is_last`. -/
def isLastBlock (v : View) (k : Chunk) (ks : List Chunk) : Bool :=
  ks.isEmpty || (match v.end with | some e => decide (e.offset ≤ k.endOffset) | none => false)

/-- `stream.cc` 451-458 and 479-486: the block's size. -/
def blockSize (v : View) (c : Chain) (k : Chunk) (o : Nat) (isLast : Bool) : Res Nat := match v.end with
  | some e => if isLast then do
        let ce ← c.endOffset
        .ok (max (min e.offset ce) o - o)
      else .ok (k.endOffset - o)
  | none => .ok (k.endOffset - o)

/-- `stream.cc` 448-465 and 476-495: the block for the part of chunk `k` from offset `o` on. -/
def blockAt (v : View) (c : Chain) (k : Chunk) (ks : List Chunk) (o : Nat) (first : Bool) : Res Block := do
  let n ← v.blockSize c k o (v.isLastBlock k ks)
  let bs ← blockBytes k o n
  .ok { bytes := bs, offset := o, isFirst := first, isLast := v.isLastBlock k ks,
        next := if v.isLastBlock k ks then [] else ks }

/-- `stream.cc` 435-466 `firstBlock()`. -/
def firstBlock (v : View) (c : Chain) : Res (Option Block) := do
  v.ensureValid c
  let b ← v.unsafeBegin c
  let e ← v.unsafeEnd c
  if ← b.eq c e then .ok none
  else match b.sfx with
    | [] => .ok none
    | k :: ks => do
      match ← c.findFrom b.offset (k :: ks) with
      | [] => .throw .invalidIterator
      | k :: ks => do
        let r ← v.blockAt c k ks b.offset true
        .ok (some r)

/-- `stream.cc` 468-496 `nextBlock(current)`. -/
def nextBlock (v : View) (c : Chain) (cur : Block) : Res (Option Block) := do
  v.ensureValid c
  match cur.next with
  | [] => .ok none
  | k :: ks => do
    let r ← v.blockAt c k ks k.offset false
    .ok (some r)

/-- `bytes.cc` 347-348, the loop of `Bytes::append(View)`; it runs at most once per chunk of the chain. -/
def dataLoop (v : View) (c : Chain) : Nat → Option Block → Res (List Byte)
  | _, none => .ok []
  | 0, some _ => .ub
  | f + 1, some b => do
    let n ← v.nextBlock c b
    let r ← v.dataLoop c f n
    .ok (b.bytes ++ r)

/-- `stream.h` 1659-1663 `data()`. -/
def data (v : View) (c : Chain) : Res (List Byte) := do
  let b ← v.firstBlock c
  v.dataLoop c (c.chunks.length + 1) b

/-- `stream.cc` 566-580: loop of `operator==(View)`. -/
def eqLoop (v : View) (c : Chain) (d : Chain) : Nat → UIter → UIter → Res Bool
  | 0, _, _ => .ub
  | f + 1, i, j => do
    let e ← v.unsafeEnd c
    if ← i.eq c e then .ok true
    else match i.sfx, j.sfx with
      | [], [] => .ok (decide (i.offset = j.offset))
      | [], _ :: _ => .ok false
      | _ :: _, [] => .ok false
      | k :: _, l :: _ =>
        if k.isGap ≠ l.isGap then .ok false
        else do
          let differ ← (if !k.isGap then do
              let a ← i.deref
              let b ← j.deref
              .ok (decide (a ≠ b))
            else .ok false)
          if differ then .ok false
          else
            let i' ← i.incr c 1
            let j' ← j.incr d 1
            v.eqLoop c d f i' j'

/-- `stream.cc` 559-583 `operator==(View)`. -/
def eqView (v : View) (c : Chain) (w : View) (d : Chain) : Res Bool := do
  let m ← v.size c
  let n ← w.size d
  if m ≠ n then .ok false
  else
    let i ← v.unsafeBegin c
    let j ← w.unsafeBegin d
    v.eqLoop c d (v.fuel c) i j

/-- `stream.cc` 592-598: loop of `operator==(Bytes)`; the bytes iterator is only dereferenced inside of its range because
    the sizes are equal, beyond it is undefined. -/
def eqBytesLoop (v : View) (c : Chain) : Nat → UIter → List Byte → Res Bool
  | 0, _, _ => .ub
  | f + 1, i, bs => do
    let e ← v.unsafeEnd c
    if ← i.eq c e then .ok true
    else match i.sfx with
      | [] => .ok false
      | _ :: _ => do
        let a ← i.deref
        let i' ← i.incr c 1
        match bs with
        | [] => .ub
        | b :: r => if a ≠ b then .ok false else v.eqBytesLoop c f i' r

/-- `stream.cc` 585-601 `operator==(Bytes)`. -/
def eqBytes (v : View) (c : Chain) (bs : List Byte) : Res Bool := do
  let m ← v.size c
  if m ≠ bs.length then .ok false
  else
    let i ← v.unsafeBegin c
    v.eqBytesLoop c (v.fuel c) i bs

/-- `stream.cc` 254-266: where the search for data ends: at a data chunk, or after the last chunk (a gap). -/
def skipGaps : List Chunk → Nat → Nat
  | [], last => last
  | k :: ks, _ => if k.isGap then skipGaps ks k.endOffset else k.offset

/-- `stream.cc` 238-280 `advanceToNextData()`. -/
def advanceToNextData (v : View) (c : Chain) : Res View := do
  let i ← (if v.begin.offset < c.headOffset then c.begin else v.begin.incr c 1)
  let p ← i.chunkPtr c
  match ← c.resolve? p with
  | [] => v.advance c 1
  | k :: ks =>
    if !k.isGap then .ok ⟨i, v.end⟩
    else do
      let zero ← v.begin.decr c v.begin.offset
      let j ← zero.incr c (skipGaps (k :: ks) 0)
      .ok ⟨j, v.end⟩

end View
end Verif.Stream
