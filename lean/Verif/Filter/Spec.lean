import Verif.Filter.Model
/-!
# Specification of filters: functions from whole inputs to whole outputs

What a filter makes of an input that is known as a whole. There are no resumes, no streams and no pieces here.
-/

namespace Verif.Filter
open Verif.Stream Verif.Parse

/-- What becomes of a filter. -/
inductive Fate where
  | done              -- it is finished
  | waits             -- it waits for more input
  | fails (e : Exn)
  | runsOn            -- not terminating (within the given bound)
  deriving DecidableEq

/-- The output of a filter, and what becomes of it. -/
structure Effect where
  out : Input
  fate : Fate

/-- More output. -/
def Effect.after (bs : List Byte) (x : Effect) : Effect := ⟨⟨bs ++ x.out.data, x.out.closed⟩, x.fate⟩

/-- The bytes a hook forwards, and whether the output is closed then; forwarding data to a closed output is an error. -/
def forwarded : Bool → List Fwd → List Byte × Except Exn Bool
  | fz, [] => ([], .ok fz)
  | fz, .data bs :: r =>
    if bs ≠ [] ∧ fz = true then ([], .error .frozen) else (bs ++ (forwarded fz r).1, (forwarded fz r).2)
  | _, .eod :: r => forwarded true r

/-- The output for data that comes byte by byte, and the state or an error at the end. -/
def feed {σ : Type} (piece : σ → List Byte → Except Exn (List Byte × σ)) (fz : Bool) : σ → List Byte → List Byte × Except Exn σ
  | st, [] => ([], .ok st)
  | st, b :: bs => match piece st [b] with
    | .ok x =>
      if x.1 ≠ [] ∧ fz = true then ([], .error .frozen) else (x.1 ++ (feed piece fz x.2 bs).1, (feed piece fz x.2 bs).2)
    | .error e => ([], .error e)

/-- The output of a filter in state `st` on the input `I` (with limit `lim`) from `pos` on; `fz` says if the output is closed. -/
def effect (Γ : Nat → G) (f : Nat) (F : Filter) (I : Input) (lim : Option Nat) : Nat → F.σ → Bool → Nat → Effect
  | 0, _, fz, _ => ⟨⟨[], fz⟩, .runsOn⟩
  | n + 1, st, fz, pos => match F.next st with
    | .finish => ⟨⟨[], true⟩, .done⟩
    | .parse g k => match eval Γ f g I lim pos with
      | .ok r => match forwarded fz (k r.1).1 with
        | (bs, .ok fz') => (effect Γ f F I lim n (k r.1).2 fz' r.2).after bs
        | (bs, .error e) => ⟨⟨bs, true⟩, .fails e⟩
      | .fail e => ⟨⟨[], fz⟩, .fails e⟩
      | .more => ⟨⟨[], fz⟩, .waits⟩
      | .diverge => ⟨⟨[], fz⟩, .runsOn⟩
    | .chunks piece k => match feed piece fz st (I.rest lim pos) with
      | (bs, .error e) => ⟨⟨bs, fz⟩, .fails e⟩
      | (bs, .ok st') =>
        if I.complete lim then match forwarded fz (k st').1 with
          | (bs', .ok fz') => (effect Γ f F I lim n (k st').2 fz' (I.stop lim)).after (bs ++ bs')
          | (bs', .error e) => ⟨⟨bs ++ bs', true⟩, .fails e⟩
        else ⟨⟨bs, fz⟩, .waits⟩

/-- What a filter makes of an input. -/
def through (Γ : Nat → G) (f n : Nat) (F : Filter) (I : Input) : Effect := effect Γ f F I none n F.start false 0

/-- What several filters, one after the other, make of an input: the output of the last one, and what becomes of each. -/
def throughAll (Γ : Nat → G) (f n : Nat) : List Filter → Input → Input × List Fate
  | [], I => (I, [])
  | F :: fs, I => ((throughAll Γ f n fs (through Γ f n F I).out).1,
      (through Γ f n F I).fate :: (throughAll Γ f n fs (through Γ f n F I).out).2)

/-- Filters covered: their grammars are `Sound` for parsing, and a hook for pieces of data treats a piece just as two smaller
    ones. -/
structure Filter.Sound (F : Filter) : Prop where
  parse : ∀ st g k, F.next st = .parse g k → Parse.Sound g
  chunks : ∀ st piece k, F.next st = .chunks piece k → ∀ s a b, a ≠ [] → b ≠ [] →
    piece s (a ++ b) = (do
      let x ← piece s a
      let y ← piece x.2 b
      .ok (x.1 ++ y.1, y.2))

end Verif.Filter
