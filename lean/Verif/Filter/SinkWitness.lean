import Verif.Filter.SinkHistory
import Verif.Filter.Witness
/-!
# Sinks with filters: cases, and what fails
-/

namespace Verif.Filter
open Verif.Stream (Byte)
open Verif.Parse
open Verif.Sink (Sink Op Event Chunk Status deliveredData Open)

theorem feed_flip (d : List Byte) (st : Bool) : feed (fun (s : Bool) bs => .ok (bs.map (· ^^^ 32), s)) false st d = (d.map (· ^^^ 32), .ok st) := by
  induction d generalizing st with
  | nil => rfl
  | cons b d ih =>
    simp only [feed]
    rw [if_neg (by simp), ih]
    rfl

/-- A filter at an action for all data waits for more data as long as the input stays open. -/
theorem effect_chunks (Γ : Nat → G) (f : Nat) (F : Filter) (d : List Byte) (n : Nat) (st : F.σ) (fz : Bool) (pos : Nat)
    {piece : F.σ → List Byte → Except Exn (List Byte × F.σ)} {k : F.σ → List Fwd × F.σ} (h : F.next st = .chunks piece k)
    {bs : List Byte} {st' : F.σ} (hf : feed piece fz st (Input.rest ⟨d, false⟩ none pos) = (bs, .ok st')) :
    effect Γ f F ⟨d, false⟩ none (n + 1) st fz pos = ⟨⟨bs, fz⟩, .waits⟩ := by
  rw [effect]
  simp only [h, hf]
  rw [if_neg (by simp [Input.complete])]

theorem through_flip (d : List Byte) : through Γex 20 20 flipF ⟨d, false⟩ = ⟨⟨d.map (· ^^^ 32), false⟩, .waits⟩ := by
  have hr : Input.rest ⟨d, false⟩ none 0 = d := by simp [Input.rest, Input.stop]
  exact effect_chunks Γex 20 flipF d 19 true false 0 (piece := fun (s : Bool) bs => .ok (bs.map (· ^^^ 32), s)) (k := fun _ => ([], false)) rfl
    (by rw [hr]; exact feed_flip d true)

/-- A filter that meets the conditions of `C71_reassembled_data_is_filtered_partial`. -/
theorem steady_flip : Steady Γex 20 20 [flipF] (2 ^ 62) := by
  have h : ∀ d : List Byte, throughAll Γex 20 20 [flipF] ⟨d, false⟩ = (⟨d.map (· ^^^ 32), false⟩, [.waits]) := by
    intro d; simp only [throughAll, through_flip]
  constructor
  · intro d hd
    refine ⟨by show d.length < _; omega, ?_⟩
    rw [through_flip]
    show (d.map (· ^^^ 32)).length < _
    rw [List.length_map]; omega
  · intro d _ x hx
    rw [h] at hx
    simpa using hx
  · intro d e he _ hc
    unfold filtered at hc
    have hde : d ++ e ≠ [] := fun h => he (List.append_eq_nil_iff.mp h).2
    rw [if_neg hde] at hc
    have hl := congrArg List.length hc
    have hle : 0 < e.length := List.length_pos_iff.2 he
    have h1 : (after Γex 20 20 [flipF] (d ++ e)).length = d.length + e.length := by unfold after; rw [h]; simp
    rw [h1] at hl
    by_cases hd : d = []
    · rw [if_pos hd, List.length_nil] at hl; omega
    · rw [if_neg hd] at hl
      have h2 : (after Γex 20 20 [flipF] d).length = d.length := by unfold after; rw [h]; simp
      omega

/-- Segments out of order, through a filter. -/
example : ∃ t, FSink.run Γex 20 20 {} (setup [flipF] [fun _ => .waiting] ++
      (Op.setInitial 7 :: Sink.writes 7 [(2, [67]), (0, [65, 66])]).map .op) = some t ∧ deliveredData t.core.log = [97, 98, 99] := by
  obtain ⟨t, h1, h2, -⟩ := C71_any_order_partial (Γ := Γex) (f := 20) (n := 20) (fun _ => sound_msgG) (fs := [flipF])
    (by simpa using sound_flipF) (by simp) steady_flip (behs := [fun _ => .waiting])
    (by intro b hb; simp at hb; subst hb; exact ⟨by simp, by simp⟩) (init := 7) (segments := [[65, 66], [67]]) (W := [(2, [67]), (0, [65, 66])])
    (by decide) (by decide) (by decide)
  refine ⟨t, h1, ?_⟩
  rw [h2]
  decide +kernel

/-- What is visible of a sink from outside. -/
structure Seen where
  received : List (List Byte)
  number : Nat
  size : Nat
  deriving DecidableEq

def FSink.show (t : FSink) : Seen := ⟨t.core.units.map (·.received), t.core.sequenceNumber, t.core.size⟩

/-- The outcome of the last of some operations. -/
def lastStep (t : FSink) (ops : List FOp) (o : FOp) : Option (Except Exn Seen) := match FSink.run Γex 20 20 t ops with
  | none => none
  | some t => match t.step Γex 20 20 o with
    | .ok _ t' => some (.ok t'.show)
    | .throw e _ => some (.error e)
    | _ => none

def unitOp : FOp := .op (.connect (fun _ => .waiting))
def appendOp (bs : List Byte) : FOp := .op (.write bs none none)
def writeOp (a : Nat) (bs : List Byte) : FOp := .op (.write bs (some a) none)

instance : DecidableEq (Except Exn Seen)
  | .ok a, .ok b => if h : a = b then isTrue (by rw [h]) else isFalse (by intro e; injection e with e; exact h e)
  | .error a, .error b => if h : a = b then isTrue (by rw [h]) else isFalse (by intro e; injection e with e; exact h e)
  | .ok _, .error _ => isFalse (by intro e; cases e)
  | .error _, .ok _ => isFalse (by intro e; cases e)

/-- The hypotheses of `C71_appended_data_is_filtered_partial`, for a filter that holds data back, and what it gives. -/
theorem unpack_case : Fits Γex 20 20 [unpackF] ⟨[[2], [65, 66], [1]].flatten, false⟩ ∧ Waits Γex 20 20 [unpackF] [[2], [65, 66], [1]].flatten ∧
    filtered Γex 20 20 [unpackF] [[2], [65, 66], [1]].flatten = [65, 66] := by
  refine ⟨⟨by decide, ?_⟩, ?_, by decide +kernel⟩
  · show (through Γex 20 20 unpackF ⟨[[2], [65, 66], [1]].flatten, false⟩).out.data.length < 2 ^ 64 - 1
    decide +kernel
  · have : (throughAll Γex 20 20 [unpackF] ⟨[[2], [65, 66], [1]].flatten, false⟩).2 = [.waits] := by decide +kernel
    intro x hx
    rw [this] at hx
    simpa using hx

/-- Appending gives the units the body of the message. -/
example : lastStep {} [.filter unpackF, unitOp, appendOp [2]] (appendOp [65, 66]) = some (.ok ⟨[[65, 66]], 2, 2⟩) := by decide +kernel

/-- Finding: the same with sequence numbers, and everything in order. The filters forward nothing for the first byte, so that the
    sink does not note that it has passed it on; what comes next waits for ever. -/
theorem C71_fails_with_sequence_numbers :
    lastStep {} [.filter unpackF, unitOp, writeOp 0 [2]] (writeOp 1 [65, 66]) = some (.ok ⟨[[]], 0, 0⟩) ∧
    lastStep {} [.filter unpackF, unitOp, writeOp 0 [2], writeOp 1 [65, 66]] (writeOp 3 [1, 67]) = some (.ok ⟨[[]], 0, 0⟩) := by
  constructor <;> decide +kernel

/-- A filter that forwards one message. -/
def onceF : Filter where
  σ := Bool
  start := true
  next b := if b then .parse (.call 0) (fun v => match v with
      | .bytes bs => ([.data bs], false)
      | _ => ([], false)) else .finish

/-- A filter that forwards what it gets once it has all of it. -/
def holdF : Filter where
  σ := Bool
  start := true
  next b := if b then .parse .eod (fun v => match v with
      | .bytes bs => ([.data bs], false)
      | _ => ([], false)) else .finish

/-- Finding: after a filter is finished, writing throws an exception that is no `RuntimeError`. -/
theorem C71_fails_after_end_of_filter :
    lastStep {} [.filter onceF, unitOp] (appendOp [1, 65]) = some (.ok ⟨[[65]], 2, 1⟩) ∧
    lastStep {} [.filter onceF, unitOp, appendOp [1, 65]] (appendOp [66]) = some (.error .logicError) := by
  constructor <;> decide +kernel

/-- Finding: closing a sink does not tell its filters that there is no more data. What a filter has not forwarded by then is lost. -/
theorem C71_fails_at_close :
    (FSink.run Γex 20 20 {} [.filter holdF, unitOp, appendOp [65, 66], .op .close]).map (fun t => deliveredData t.core.log) = some [] ∧
    (throughAll Γex 20 20 [holdF] ⟨[65, 66], true⟩).1.data = [65, 66] := by
  constructor <;> decide +kernel

/-- Finding: connecting a filter after data has been written is meant to be rejected; if the filters have not forwarded anything yet
    it is not, and then the next write throws, as the new filter was never started. -/
theorem C71_fails_for_late_filters :
    lastStep {} [.filter flipF, unitOp, appendOp [1]] (.filter flipF) = some (.error .sinkError) ∧
    lastStep {} [.filter unpackF, unitOp, appendOp [1]] (.filter flipF) = some (.ok ⟨[[]], 0, 0⟩) ∧
    lastStep {} [.filter unpackF, unitOp, appendOp [1], .filter flipF] (appendOp [65]) = some (.error .logicError) := by
  refine ⟨?_, ?_, ?_⟩ <;> decide +kernel

/-- An exception of a filter goes to the writer; it is not the unit's. All later writes throw as well. -/
theorem C71_failing_filter :
    lastStep {} [.filter checkF, unitOp] (appendOp [1, 33]) = some (.error .parseError) ∧
    lastStep {} [.filter checkF, unitOp, appendOp [1, 33]] (appendOp [2]) = some (.error .logicError) := by
  constructor <;> decide +kernel

end Verif.Filter
