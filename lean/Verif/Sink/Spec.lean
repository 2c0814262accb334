import Verif.Sink.Model
/-!
# Specification of reassembly

What a user of a sink expects, in terms of the data written at positions and of the data and reports the connected units
see. Nothing here knows about buffering.
-/

namespace Verif.Sink

/-- The byte that data `bs` written at position `a` has for position `p`. -/
def byteAt (a : Nat) (bs : List Byte) (p : Nat) : Option Byte := if a ≤ p then bs[p - a]? else none

/-- The byte for position `p` after some writes; the first one that covers `p` counts (policy "first"). -/
def valueAt : List (Nat × List Byte) → Nat → Option Byte
  | [], _ => none
  | (a, bs) :: W, p => (byteAt a bs p).or (valueAt W p)

/-- All data passed on to the units, in order. -/
def deliveredData : List Event → List Byte
  | [] => []
  | .data _ _ bs :: l => bs ++ deliveredData l
  | _ :: l => deliveredData l

/-- `d` is the data from position 0 up to the first position that nothing was written for. -/
def Reassembled (W : List (Nat × List Byte)) (d : List Byte) : Prop :=
  (∀ p, p < d.length → valueAt W p = d[p]?) ∧ valueAt W d.length = none

/-- Two writes have no position in common. -/
def Disjoint (x y : Nat × List Byte) : Prop := x.1 + x.2.length ≤ y.1 ∨ y.1 + y.2.length ≤ x.1

/-- The sequence intervals of the data passed on, in order. -/
def intervals : List Event → List (Nat × Nat)
  | [] => []
  | .data a b _ :: l => (a, b) :: intervals l
  | _ :: l => intervals l

/-- Position `p` is accounted for by what the units have seen from `pos` on: by data, by a reported gap, or by a skip from
    the current position to a later one. -/
def AccountedFrom : Nat → List Event → Nat → Prop
  | _, [], _ => False
  | _, .data a b bs :: l, p => (a ≤ p ∧ p < b ∧ b = a + bs.length) ∨ AccountedFrom b l p
  | _, .gap a n :: l, p => (a ≤ p ∧ p < a + n) ∨ AccountedFrom (a + n) l p
  | pos, .skipped a :: l, p => (pos ≤ p ∧ p < a) ∨ AccountedFrom a l p
  | pos, _ :: l, p => AccountedFrom pos l p

/-- Position `p` is accounted for. -/
def Accounted (l : List Event) (p : Nat) : Prop := AccountedFrom 0 l p

/-- Every byte of `bs`, placed at position `a`, was written there. -/
def WrittenAt (W : List (Nat × List Byte)) (a : Nat) (bs : List Byte) : Prop :=
  ∀ i, i < bs.length → ∃ w ∈ W, byteAt w.1 w.2 (a + i) = bs[i]?

/-- All operations return normally, ending in `s'`. -/
def Sink.Completes (s : Sink) : List Op → Sink → Prop
  | [], s' => s = s'
  | op :: ops, s' => ∃ s1, s.step op = .ok () s1 ∧ s1.Completes ops s'

/-- Connecting units; each is given by how its parser behaves. -/
def connects (behs : List (List Byte → Status)) : List Op := behs.map .connect

/-- Writing data at positions, for sequence numbers starting at `init`. -/
def writes (init : Nat) (W : List (Nat × List Byte)) : List Op := W.map fun w => .write w.2 (some (add64 init w.1)) none

/-- Writes in order, each without a sequence number or with the next one; `n` bytes have been written before. Automatic
    trimming may be switched on and off in between. The data is what is written altogether. -/
inductive InOrder (init : Nat) : Nat → List Op → List Byte → Prop
  | nil {n} : InOrder init n [] []
  | next {n bs ops d} : InOrder init (n + bs.length) ops d → InOrder init n (.write bs none none :: ops) (bs ++ d)
  | at {n bs ops d} : InOrder init (n + bs.length) ops d →
      InOrder init n (.write bs (some (add64 init n)) none :: ops) (bs ++ d)
  | auto {n b ops d} : InOrder init n ops d → InOrder init n (.setAutoTrim b :: ops) d

/-- Consecutive segments at their positions. -/
def place : Nat → List (List Byte) → List (Nat × List Byte)
  | _, [] => []
  | n, s :: l => (n, s) :: place (n + s.length) l

/-- `w` is a part of `D`, at its position. -/
def PartOf (D : List Byte) (w : Nat × List Byte) : Prop := ∀ i, i < w.2.length → w.2[i]? = D[w.1 + i]? ∧ w.1 + i < D.length

/-- Two writes concern the same positions or have none in common. -/
def SameOrDisjoint (x y : Nat × List Byte) : Prop := (x.1 = y.1 ∧ x.2.length = y.2.length) ∨ Disjoint x y

/-- The units have seen nothing but data. -/
def OnlyData (l : List Event) : Prop := ∀ e ∈ l, ∃ a b bs, e = .data a b bs

/-- The units have seen nothing but data and reports of overlaps. -/
def OnlyDataAndOverlaps (l : List Event) : Prop := ∀ e ∈ l, (∃ a b bs, e = .data a b bs) ∨ (∃ p o n, e = .overlap p o n)

end Verif.Sink
