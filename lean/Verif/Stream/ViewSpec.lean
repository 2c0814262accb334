import Verif.Stream.Spec
/-!
# Specification of views

A view is a window of cells. All observers are list functions of that window, which do not know about chunks.
-/

namespace Verif.Stream

/-- The bytes of a list of cells; `MissingData` if there is a gap among them. -/
def bytesOf : List Cell → Res (List Byte)
  | [] => .ok []
  | none :: _ => .throw .missingData
  | some b :: r => match bytesOf r with
    | .ok bs => .ok (b :: bs)
    | e => e

/-- Position of the first `b`; `none` if there is none; `MissingData` if a gap comes before it. -/
def firstByte (b : Byte) : List Cell → Res (Option Nat)
  | [] => .ok none
  | none :: _ => .throw .missingData
  | some x :: r => if x = b then .ok (some 0) else
    match firstByte b r with
    | .ok p => .ok (p.map (· + 1))
    | e => e

/-- `needle` occurs in `bs` at position `p`. -/
def OccursAt (needle bs : List Byte) (p : Nat) : Prop := needle <+: bs.drop p

/-- `bs` from position `p` on is the beginning of an occurrence of `needle` that would need more data. -/
def PartialAt (needle bs : List Byte) (p : Nat) : Prop := bs.drop p <+: needle ∧ bs.length - p < needle.length

end Verif.Stream
