import Verif.Sync.UnitProps
/-! # Error recovery in units: concrete cases, and what is not true -/

namespace Verif.Sync
open Verif.Stream Verif.Parse

theorem piece_ret (trim : Bool) (v : Val) : Piece trim (.ret v) := ⟨.ret v, fun _ _ _ _ => rfl⟩
theorem piece_fail (trim : Bool) (e : Exn) : Piece trim (.fail e) := ⟨.fail e, fun _ _ _ _ => rfl⟩
theorem piece_offset (trim : Bool) : Piece trim .offset := ⟨.offset, fun _ _ _ _ => rfl⟩
theorem piece_unpack (trim : Bool) (n : Nat) (f : List Byte → Val) : Piece trim (.unpack n n f) := ⟨.unpack n f, fun _ _ _ _ => rfl⟩
theorem piece_bytes (trim : Bool) (n : Nat) : Piece trim (.bytesSize n) := ⟨.bytesSize n, fun _ _ _ _ => rfl⟩
theorem piece_lit (trim : Bool) (bs : List Byte) : Piece trim (.lit bs) := ⟨.lit bs, fun _ _ _ _ => rfl⟩
/-- Without trimming, several parts will do. -/
theorem piece_untrimmed {g : G} (h : Body g) : Piece false g := ⟨h, (fun h => by cases h)⟩

/-- A field without a hook. -/
def plainField (g : G) (rest : Fields) : Fields := .field g (fun _ => .nothing) (fun _ => rest)

/-- Hook of the byte after the literal: `1` confirms, `0` rejects. -/
def verdict : Val → Hook
  | .bytes [49] => .confirm
  | .bytes [48] => .reject
  | _ => .nothing

/-- A unit: `H`, one byte, the literal `##` marked `&synchronize`, one byte whose hook confirms or rejects, `.`. -/
def demo : SyncUnit where
  before := plainField (.lit [72]) (plainField (.bytesSize 1) .done)
  lit := [35, 35]
  after := .field (.bytesSize 1) verdict (fun _ => plainField (.lit [46]) .done)

theorem demo_ok (trim : Bool) : demo.lit ≠ [] ∧ demo.before.Ok trim ∧ demo.after.Ok trim :=
  ⟨by decide, .field (piece_lit _ _) (fun _ => .field (piece_bytes _ _) (fun _ => .done)),
    .field (piece_bytes _ _) (fun _ => .field (piece_lit _ _) (fun _ => .done))⟩

/-- `x##0x##1.` in three pieces: the `H` is missing; the first `##` is rejected, the second one confirmed. -/
def demoFirst : Item := ⟨[[120, 35]], false, false⟩
def demoRest : Sched := [⟨[[35, 48]], false, false⟩, ⟨[[120, 35, 35], [49, 46]], true, false⟩]

/-- The hypotheses of C65 can be met, and the result is not trivial. -/
theorem C65_example : parseSync demo true 20 demoFirst demoRest = expectedUnit demo (input (demoFirst :: demoRest)) ∧
    (expectedUnit demo (input (demoFirst :: demoRest))).shown =
      .list [.synced 1, .value [35, 35], .value [48], .synced 5, .value [35, 35], .value [49], .confirmed, .value [46]] 9 ∧
    (parseSync demo true 20 demoFirst demoRest).shown =
      .list [.synced 1, .value [35, 35], .value [48], .synced 5, .value [35, 35], .value [49], .confirmed, .value [46]] 9 :=
  ⟨C65_parses_as_specified_partial (demo_ok true).1 true (demo_ok true).2.1 (demo_ok true).2.2 _ _ (by decide) (by decide),
    by decide +kernel, by decide +kernel⟩

example : ∀ o ∈ syncs [Ev.synced 1, .value (.bytes [35, 35]), .synced 5], demo.lit <+: [120, 35, 35, 48, 120, 35, 35, 49, 46].drop o := by
  decide

/-- Not confirmed: an error in the end. -/
example : (parseSync demo true 20 ⟨[[120, 35, 35, 50, 46]], true, false⟩ []).shown =
    .unconfirmed [.synced 1, .value [35, 35], .value [50], .value [46]] 5 := by decide +kernel

/-- An error after the confirmation is an error. -/
example : (parseSync demo true 20 ⟨[[120, 35, 35, 49, 120, 35, 35, 49, 46]], true, false⟩ []).shown = .error .parseError := by decide +kernel

/-- No error before the literal. -/
example : (∀ x, plainFields ⟨[72, 120, 35, 35, 50, 46], true⟩ demo.before 0 [] = .fail x → recoverable x = false) ∧
    (plainUnit demo ⟨[72, 120, 35, 35, 50, 46], true⟩).shown = .list [.value [72], .value [120], .value [35, 35], .value [50], .value [46]] 6 ∧
    (parseSync demo true 20 ⟨[[72, 120, 35, 35, 50, 46]], true, false⟩ []).shown =
      .list [.value [72], .value [120], .value [35, 35], .value [50], .value [46]] 6 :=
  ⟨fun x h => (by
    have e : plainFields ⟨[72, 120, 35, 35, 50, 46], true⟩ demo.before 0 [] = .ok (2, [.value (.bytes [72]), .value (.bytes [120])]) := rfl
    rw [e] at h; cases h), by decide +kernel, by decide +kernel⟩

/-- C65. The search goes on one byte behind the place of the failure, even if that is where the literal is: in `x##0##1.` the second `##`
    comes directly after the byte that was rejected, and is not found. In `x##0x##1.` it is. The same happens when a field fails. -/
theorem C65_adjacent_literal_is_missed :
    (parseSync demo true 20 ⟨[[120, 35, 35, 48, 35, 35, 49, 46]], true, false⟩ []).shown = .error .parseError ∧
    firstOcc demo.lit [35, 35, 49, 46] = some 0 ∧
    (parseSync { demo with after := plainField (.lit [46]) (.field (.bytesSize 1) verdict (fun _ => .done)) } true 20
      ⟨[[120, 35, 35, 35, 35, 46, 49]], true, false⟩ []).shown = .error .parseError := by decide +kernel

/-- C65. A `%synced` hook that rejects does not make the search go on, it ends the unit: it runs outside of the block whose errors are
    handled. -/
theorem C65_reject_in_synced_is_final :
    (parseSync { demo with hook := .reject } true 20 demoFirst demoRest).shown = .error .parseError := by decide +kernel

/-- A sub-unit of two bytes and `!` before the literal. -/
def subUnit : SyncUnit where
  before := plainField (.seq (.bytesSize 2) (fun _ => .lit [33])) .done
  lit := [35, 35]
  after := .field (.bytesSize 1) verdict (fun _ => .done)

/-- C65 is false for a sub-unit that fails having consumed input, when trimming: the unit still is where the sub-unit began, which is no longer
    part of the stream. Without trimming the unit is resumed. -/
theorem C65_fails_for_subunits :
    (parseSync subUnit true 20 ⟨[[120, 120, 120, 35, 35, 49]], true, false⟩ []).shown = .error .invalidIterator ∧
    (parseSync subUnit false 20 ⟨[[120, 120, 120, 35, 35, 49]], true, false⟩ []).shown =
      .list [.synced 3, .value [35, 35], .value [49], .confirmed] 6 := by decide +kernel

end Verif.Sync
