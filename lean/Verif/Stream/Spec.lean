import Verif.Stream.Model
/-!
# Specification of streams: an append log

Independent of the chunk structure: a stream is a start offset and the list of cells from there on. A cell is a byte or
missing (part of a gap).
-/

namespace Verif.Stream

/-- One position of a stream: `some b` is the byte `b`, `none` is a position inside a gap. -/
abbrev Cell := Option Byte

/-- The abstract stream: available cells, the first one sitting at absolute offset `start`. -/
structure Log where
  start : Nat
  cells : List Cell
  deriving DecidableEq, Repr

/-- Offset one past the last available cell. -/
def Log.stop (l : Log) : Nat := l.start + l.cells.length

/-- Reading the cell at an absolute offset; `none` if that is not available. -/
def Log.get? (l : Log) (o : Nat) : Option Cell := if o < l.start then none else l.cells[o - l.start]?

/-- The cells at absolute offsets `a ≤ o < b`. -/
def Log.slice (l : Log) (a b : Nat) : List Cell := (l.cells.drop (a - l.start)).take (b - a)

/-- Operations on a stream object. -/
inductive Op where
  | append (bs : List Byte)           -- `Stream::append(const Bytes&)`, `append(Bytes&&)`, `append(const char*, len)`
  | appendNonOwning (bs : List Byte)  -- `Stream::append(const char*, len, NonOwning)`
  | appendGap (n : Nat)               -- `Stream::append(nullptr, len)`
  | trim (o : Nat)                    -- `Stream::trim(iterator at offset o)`
  | freeze
  | unfreeze
  | makeOwning
  deriving DecidableEq, Repr

/-- The cells an operation appends to the stream. -/
def Op.cells : Op → List Cell
  | .append bs => bs.map some
  | .appendNonOwning bs => bs.map some
  | .appendGap n => List.replicate n none
  | _ => []

/-! ## The ideal stream

What a history of operations is supposed to do, without chunks, caches or pointers. `all` holds every cell ever
appended, at its absolute position; `start` is the first offset still available. -/

structure Ideal where
  frozen : Bool := false
  start : Nat := 0
  all : List Cell := []
  deriving DecidableEq, Repr

/-- One operation on the ideal stream. Appending to a frozen stream is rejected. Trimming moves `start` forward, never
    backward. Trimming a non-empty stream beyond its end drops everything and makes later data start there (the skipped
    positions are never available); an empty stream has nothing to trim. -/
def Ideal.step (s : Ideal) : Op → Ideal
  | .append bs => if s.frozen then s else { s with all := s.all ++ bs.map some }
  | .appendNonOwning bs => if s.frozen then s else { s with all := s.all ++ bs.map some }
  | .appendGap n => if s.frozen then s else { s with all := s.all ++ List.replicate n none }
  | .trim o =>
    if o < s.start ∨ s.start = s.all.length then s
    else { s with start := o, all := s.all ++ List.replicate (o - s.all.length) none }
  | .freeze => { s with frozen := true }
  | .unfreeze => { s with frozen := false }
  | .makeOwning => s

def Ideal.run (s : Ideal) (ops : List Op) : Ideal := ops.foldl Ideal.step s

/-- No operation of the history tries to trim to an offset before the current start. -/
def ForwardTrims (s : Ideal) : List Op → Prop
  | [] => True
  | .trim o :: ops => s.start ≤ o ∧ ForwardTrims (s.step (.trim o)) ops
  | op :: ops => ForwardTrims (s.step op) ops

instance : (s : Ideal) → (ops : List Op) → Decidable (ForwardTrims s ops)
  | _, [] => isTrue trivial
  | s, op :: ops => by
    have := instDecidableForwardTrims (s.step op) ops
    cases op <;> simp only [ForwardTrims] <;> infer_instance

/-- What reading the ideal stream at an absolute offset gives. -/
def Ideal.read (s : Ideal) (o : Nat) : Res Byte :=
  if s.start ≤ o then
    match s.all[o]? with
    | some (some b) => .ok b
    | some none => .throw .missingData
    | none => .throw .invalidIterator
  else .throw .invalidIterator

/-- The operations of a history that are carried out, i.e. without appends attempted while frozen. -/
def accepted (frozen : Bool) : List Op → List Op
  | [] => []
  | .freeze :: ops => .freeze :: accepted true ops
  | .unfreeze :: ops => .unfreeze :: accepted false ops
  | .append bs :: ops => if frozen then accepted frozen ops else .append bs :: accepted frozen ops
  | .appendNonOwning bs :: ops => if frozen then accepted frozen ops else .appendNonOwning bs :: accepted frozen ops
  | .appendGap n :: ops => if frozen then accepted frozen ops else .appendGap n :: accepted frozen ops
  | op :: ops => op :: accepted frozen ops

/-- Does the operation add a (non-empty) chunk of data? -/
def Op.addsData : Op → Bool
  | .append bs => !bs.isEmpty
  | .appendNonOwning bs => !bs.isEmpty
  | _ => false

/-- Does the operation add a (non-empty) gap? -/
def Op.addsGap : Op → Bool
  | .appendGap n => n != 0
  | _ => false

end Verif.Stream
