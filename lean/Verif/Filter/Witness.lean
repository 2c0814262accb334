import Verif.Filter.Props
/-!
# Filters: cases, and what fails
-/

namespace Verif.Filter
open Verif.Stream Verif.Parse

/-- A filter that unpacks messages (a length and that many bytes), forwarding the bodies:
    `type Unpack = unit { %filter; msgs: Msg[] &eod foreach { self.forward($$.body); } };` -/
def unpackF : Filter where
  σ := Bool
  start := true
  next b := if b then .parse (.foreach true (.call 0) (fun _ => .keep)) (fun v => match v with
      | .list [.bytes bs] => ([.data bs], true)
      | _ => ([], false))
    else .finish

/-- A filter that flips a bit of each byte, as the data comes in:
    `type Flip = unit { %filter; : bytes &eod &chunked { self.forward(flip($$)); } };` -/
def flipF : Filter where
  σ := Bool
  start := true
  next b := if b then .chunks (fun s bs => .ok (bs.map (· ^^^ 32), s)) (fun _ => ([], false)) else .finish

/-- The hook of `checkF`. -/
def checkPiece (s : Bool) (bs : List Byte) : Except Exn (List Byte × Bool) := if 33 ∈ bs then .error .parseError else .ok (bs, s)

theorem law_check : Law checkPiece := by
  intro s a b _ _
  unfold checkPiece
  by_cases ha : (33 : Byte) ∈ a
  · rw [if_pos (List.mem_append_left _ ha), if_pos ha]; rfl
  · by_cases hb : (33 : Byte) ∈ b
    · rw [if_pos (List.mem_append_right _ hb), if_neg ha]; simp only [bind, Except.bind]; rw [if_pos hb]
    · rw [if_neg (fun h => (List.mem_append.mp h).elim ha hb), if_neg ha]; simp only [bind, Except.bind]; rw [if_neg hb]

/-- A filter that forwards everything, but fails if it sees an exclamation mark. -/
def checkF : Filter where
  σ := Bool
  start := true
  next b := if b then .chunks checkPiece (fun _ => ([], false)) else .finish

theorem sound_unpackF : unpackF.Sound := by
  constructor
  · intro st g k h
    unfold unpackF at h
    dsimp only at h
    split at h
    · injection h with h1 h2
      subst h1
      exact .foreach _ _ (.call 0)
    · cases h
  · intro st p k h
    unfold unpackF at h
    dsimp only at h
    split at h <;> cases h

theorem sound_flipF : flipF.Sound := by
  constructor
  · intro st g k h
    unfold flipF at h
    dsimp only at h
    split at h <;> cases h
  · intro st p k h
    unfold flipF at h
    dsimp only at h
    split at h
    · injection h with h1 h2
      subst h1
      intro s a b _ _
      simp only [List.map_append]
      rfl
    · cases h

theorem sound_checkF : checkF.Sound := by
  constructor
  · intro st g k h
    unfold checkF at h
    dsimp only at h
    split at h <;> cases h
  · intro st p k h
    unfold checkF at h
    dsimp only at h
    split at h
    · injection h with h1 h2
      subst h1
      exact law_check
    · cases h

/-- Results in a form that can be compared. -/
inductive Shown where
  | bytes (bs : List Byte) (pos : Nat)
  | list (vs : List (List Byte)) (pos : Nat)
  | other (pos : Nat)
  | error (e : Exn)
  | needsMore
  | runsOn
  | undefined
  deriving DecidableEq

def bytesIn : Val → List Byte
  | .bytes bs => bs
  | _ => []

def shown : Result → Shown
  | .value (.bytes bs) p => .bytes bs p
  | .value (.list vs) p => .list (vs.map bytesIn) p
  | .value _ p => .other p
  | .error e => .error e
  | .needsMore => .needsMore
  | .runsOn => .runsOn
  | .undefined => .undefined

/-- The unit of the examples: `b"SP"` and then messages to the end. -/
theorem sound_unit : Parse.Sound unitG := sound_unitG

/-- Two messages, whose bodies with a bit flipped are the input "SP" 1 9. -/
def wire : List Byte := [2, 115, 112, 0, 2, 33, 41]

/-- It comes byte by byte. -/
def wireRest : Sched := wire.map (fun b => (⟨[[b]], false, false⟩ : Item)) ++ [⟨[], true, false⟩]

/-- Both filters: the hypotheses are met. -/
theorem wire_case : (∀ F ∈ [unpackF, flipF], F.Sound) ∧ Fits Γex 20 20 [unpackF, flipF] (input (⟨[], false, false⟩ :: wireRest)) ∧
    Well (throughAll Γex 20 20 [unpackF, flipF] (input (⟨[], false, false⟩ :: wireRest))).2 := by
  refine ⟨?_, ⟨?_, ?_, ?_⟩, ?_⟩
  · intro F hF
    simp only [List.mem_cons, List.not_mem_nil, or_false] at hF
    rcases hF with rfl | rfl
    · exact sound_unpackF
    · exact sound_flipF
  · decide +kernel
  · decide +kernel
  · show (through Γex 20 20 flipF (through Γex 20 20 unpackF (input (⟨[], false, false⟩ :: wireRest))).out).out.data.length < 2 ^ 64 - 1
    decide +kernel
  · have hf : (throughAll Γex 20 20 [unpackF, flipF] (input (⟨[], false, false⟩ :: wireRest))).2 = [.done, .done] := by decide +kernel
    intro x hx
    rw [hf] at hx
    left
    simpa using hx

example : shown (parseFiltered Γex 20 20 [unpackF, flipF] unitG true ⟨[], false, false⟩ wireRest) = .list [[9]] 4 := by
  rw [C70_transparent_partial (Γ := Γex) (fun _ => sound_msgG) sound_unitG 20 20 wire_case.1 true _ _ wire_case.2.1 wire_case.2.2]
  decide +kernel

/-- The same without the proof: the machine itself, in two pieces. -/
example : shown (parseFiltered Γex 20 20 [unpackF, flipF] unitG true ⟨[[2, 115]], false, false⟩ [⟨[[112, 0, 2, 33, 41]], true, false⟩]) = .list [[9]] 4 := by decide +kernel

/-- While a message is not complete, nothing of it goes on. -/
example : shown (parseFiltered Γex 20 20 [unpackF, flipF] (.lit [83, 80]) true ⟨[[2, 115]], false, false⟩ []) = .needsMore ∧
    shown (parseFiltered Γex 20 20 [unpackF, flipF] (.lit [83, 80]) true ⟨[[2, 115]], false, false⟩ [⟨[[112]], false, false⟩]) = .bytes [83, 80] 2 := by
  constructor <;> decide +kernel

/-- Finding: if a filter fails, the exception gets to the unit before the unit has seen what the filter forwarded just before. So
    whether a unit that only needs the first two bytes succeeds depends on how the input is cut up. -/
theorem C70_fails_for_failing_filters :
    shown (parseFiltered Γex 20 20 [checkF] (.bytesSize 2) true ⟨[], false, false⟩ [⟨[[120, 121]], false, false⟩, ⟨[[33]], false, false⟩]) = .bytes [120, 121] 2 ∧
    shown (parseFiltered Γex 20 20 [checkF] (.bytesSize 2) true ⟨[], false, false⟩ [⟨[[120, 121, 33]], false, false⟩]) = .error .parseError ∧
    shown (meaning Γex 20 (.bytesSize 2) (throughAll Γex 20 20 [checkF] ⟨[120, 121, 33], false⟩).1) = .bytes [120, 121] 2 := by
  refine ⟨?_, ?_, ?_⟩ <;> decide +kernel

/-- Finding: the same with a filter that parses messages one by one: here it fails at the second one, although the unit is content
    with the first. -/
def strictF : Filter where
  σ := Bool
  start := true
  next b := if b then .parse (.seq (.call 0) (fun v => match v with
      | .bytes [] => .fail .parseError
      | _ => .ret v)) (fun v => match v with
      | .bytes bs => ([.data bs], true)
      | _ => ([], false))
    else .finish

theorem C70_fails_for_strict_messages :
    shown (parseFiltered Γex 20 20 [strictF] (.bytesSize 2) true ⟨[[2, 120, 121]], false, false⟩ [⟨[[0]], false, false⟩]) = .bytes [120, 121] 2 ∧
    shown (parseFiltered Γex 20 20 [strictF] (.bytesSize 2) true ⟨[[2, 120, 121, 0]], false, false⟩ []) = .error .parseError := by
  constructor <;> decide +kernel

/-- A filter whose hook treats pieces of data as units, here by putting a dot after each: what comes out depends on how the input
    is cut up. This is why `Sound` asks for hooks that do not do that. -/
def dotF : Filter where
  σ := Bool
  start := true
  next b := if b then .chunks (fun s bs => .ok (bs ++ [46], s)) (fun _ => ([], false)) else .finish

theorem C70_fails_for_piecewise_hooks :
    shown (parseFiltered Γex 20 20 [dotF] .eod true ⟨[[1, 2]], true, false⟩ []) = .bytes [1, 2, 46] 3 ∧
    shown (parseFiltered Γex 20 20 [dotF] .eod true ⟨[[1]], false, false⟩ [⟨[[2]], true, false⟩]) = .bytes [1, 46, 2, 46] 4 := by
  constructor <;> decide +kernel

/-- A filter that signals the end of its output by itself: the unit is done although the input goes on. -/
def firstF : Filter where
  σ := Nat
  start := 0
  next i := match i with
    | 0 => .parse (.call 0) (fun v => match v with
      | .bytes bs => ([.data bs, .eod], 1)
      | _ => ([], 2))
    | 1 => .parse .skipEod (fun _ => ([], 2))
    | _ => .finish

example : shown (parseFiltered Γex 20 20 [firstF, flipF] .eod true ⟨[[2, 1, 2, 77]], false, false⟩ []) = .bytes [33, 34] 2 := by decide +kernel

/-- Forwarding after that is an error. -/
def badF : Filter where
  σ := Bool
  start := true
  next b := if b then .parse (.call 0) (fun v => match v with
      | .bytes bs => ([.eod, .data bs], false)
      | _ => ([], false)) else .finish

example : shown (parseFiltered Γex 20 20 [badF] .eod true ⟨[[2, 1, 2, 77]], false, false⟩ []) = .error .frozen := by decide +kernel

end Verif.Filter
