import Verif.Parse.Props
/-!
# Model of filters

A filter is a unit that parses its input and calls `self.forward(...)` from its hooks; what it forwards is the input of the
next filter, or of the unit the filters are connected to. All filters run as fibers of their own. The unit resumes them, one
after the other, whenever it was suspended for lack of input and gets resumed itself.

A `Filter` is a transition system: in each state it either parses a grammar (`parse`) and then forwards something that depends
on the value, or it hands all data to a hook as it comes in (`chunks`, that is `bytes &eod &chunked`), or it is finished.

A filter runs against the schedule of what becomes available on its input, just as a parser does. Each thing it forwards is
recorded together with the number of resumes still to come, which says during which `flush` it happened (`Ev`); this gives the
schedule for the next stage (`cutAll`).

Sources: `spicy/runtime/include/filter.h`, `spicy/runtime/src/parser.cc` 207-237, `hilti/runtime/src/fiber.cc` 743-797,
`spicy/toolchain/src/compiler/codegen/parser-builder.cc` (`pb.cc`) 392-450, 2815-2862, `parsers/types.cc` 329-350.
Not modelled: filters of filters, `Backtrack` exceptions of a filter being caught by a `&try` of the unit.
-/

namespace Verif.Filter
open Verif.Stream Verif.Parse

/-- What a hook of a filter does to the filter's output: `self.forward(bs)`, `self.forward_eod()`. -/
inductive Fwd where
  | data (bs : List Byte)
  | eod
  deriving DecidableEq, Repr

/-- What a filter does next. -/
inductive Act (σ : Type) where
  | finish                                                -- all fields are parsed, and the `%done` hook has run
  | parse (g : G) (k : Val → List Fwd × σ)                -- parses something, then a hook runs
  | chunks (piece : σ → List Byte → Except Exn (List Byte × σ)) (k : σ → List Fwd × σ)
      -- `bytes &eod &chunked`: the hook `piece` forwards something for each piece of data, `k` runs after the last one

/-- A filter unit. -/
structure Filter where
  σ : Type
  start : σ
  next : σ → Act σ

/-- Something forwarded, with the number of resumes still to come. -/
abbrev Ev := Nat × Fwd

/-- How a filter ended. -/
inductive End where
  | waiting                       -- it is suspended
  | finished (m : Nat)            -- it is finished; `m` resumes were still to come
  | threw (e : Exn) (m : Nat)     -- it has thrown
  | diverge
  | ub

/-- `filter.h` 240-289 `forward`, `forward_eod`: a filter's output is a stream; appending something to it after it was
    frozen throws (`stream.cc` 66-78, 108-110). The flag says if it is frozen. -/
def emit (m : Nat) : Bool → List Fwd → List Ev × Except Exn Bool
  | fz, [] => ([], .ok fz)
  | fz, .data bs :: r =>
    if bs = [] then emit m fz r
    else if fz then ([], .error .frozen)
    else ((m, .data bs) :: (emit m fz r).1, (emit m fz r).2)
  | _, .eod :: r => ((m, .eod) :: (emit m true r).1, (emit m true r).2)

/-- Outcome of the loop over pieces of data. -/
inductive COut (σ : Type) where
  | done (st : σ) (cur : View) (c : Chain) (s : Sched)
  | stop (e : End)

/-- `types.cc` 331-334: the data of the view, which is then advanced. -/
def takeAll (cur : View) : P (List Byte × View) := do
  let bs ← P.read cur.data
  let n ← P.read cur.size
  let cur' ← advanceInput true cur n
  pure (bs, cur')

/-- What was forwarded before, and what comes then. -/
def before {α : Type} (evs : List Ev) (r : List Ev × α) : List Ev × α := (evs ++ r.1, r.2)

/-- `types.cc` 329-350 `bytes &eod &chunked`: waits for data, runs the hook on all there is, until the end. -/
def chunkLoop {σ : Type} (piece : σ → List Byte → Except Exn (List Byte × σ)) :
    Nat → σ → Bool → View → Chain → Sched → List Ev × COut σ
  | 0, _, _, _, _, _ => ([], .stop .diverge)
  | f + 1, st, fz, cur, c, s => match waitMin cur 1 c s with
    | .done true c1 s1 => match takeAll cur c1 s1 with
      | .done r c2 s2 => match piece st r.1 with
        | .ok x => match emit s2.length fz [.data x.1] with
          | (evs, .ok fz') => before evs (chunkLoop piece f x.2 fz' r.2 c2 s2)
          | (evs, .error e) => (evs, .stop (.threw e s2.length))
        | .error e => ([], .stop (.threw e s2.length))
      | .throw e _ s2 => ([], .stop (.threw e s2.length))
      | .suspended _ => ([], .stop .waiting)
      | .diverge => ([], .stop .diverge)
      | .ub => ([], .stop .ub)
    | .done false c1 s1 => ([], .done st cur c1 s1)
    | .throw e _ s1 => ([], .stop (.threw e s1.length))
    | .suspended _ => ([], .stop .waiting)
    | .diverge => ([], .stop .diverge)
    | .ub => ([], .stop .ub)

/-- `pb.cc` 2528-2570 (`parse2`, which trims), 2815-2862 `finalizeUnit`: a filter's fiber. At its end it signals the end of its
    output (`forward_eod`). `n` bounds the number of actions. -/
def exec (Γ : Nat → G) (f : Nat) (F : Filter) : Nat → F.σ → Bool → View → Chain → Sched → List Ev × End
  | 0, _, _, _, _, _ => ([], .diverge)
  | n + 1, st, fz, cur, c, s => match F.next st with
    | .finish => ([(s.length, .eod)], .finished s.length)
    | .parse g k => match run Γ f g true cur c s with
      | .done r c1 s1 => match emit s1.length fz (k r.1).1 with
        | (evs, .ok fz') => before evs (exec Γ f F n (k r.1).2 fz' r.2 c1 s1)
        | (evs, .error e) => (evs, .threw e s1.length)
      | .throw e _ s1 => ([], .threw e s1.length)
      | .suspended _ => ([], .waiting)
      | .diverge => ([], .diverge)
      | .ub => ([], .ub)
    | .chunks piece k => match chunkLoop piece (s.length + 2) st fz cur c s with
      | (evs, .stop e) => (evs, e)
      | (evs, .done st1 cur1 c1 s1) => match emit s1.length fz (k st1).1 with
        | (evs', .ok fz') => before evs (before evs' (exec Γ f F n (k st1).2 fz' cur1 c1 s1))
        | (evs', .error e) => (evs ++ evs', .threw e s1.length)

/-- What happens at a `flush` after those a schedule lists: nothing new ever (the host does not resume), an exception, or the
    attempt to resume a finished fiber. -/
inductive Ending where
  | waiting
  | finished
  | threw (e : Exn)
  | diverge
  | ub

/-- What became available during one `flush`. -/
def itemOf (evs : List Ev) : Item :=
  ⟨evs.filterMap (fun e => match e.2 with
    | .data bs => some bs
    | .eod => none), evs.any (fun e => e.2 == .eod), false⟩

/-- The schedule for the next stage: `k` items, the first of them for what was forwarded when `m` resumes were to come. -/
def cutAll : Nat → Nat → List Ev → Sched
  | 0, _, _ => []
  | k + 1, m, evs =>
    itemOf (evs.takeWhile (fun e => e.1 == m)) :: cutAll k (m - 1) (evs.dropWhile (fun e => e.1 == m))

/-- The schedule after a filter's run with the schedule's ending `e0`, and its ending. If the filter throws during a `flush`, the
    exception goes to whoever called that, so that what was forwarded before is not looked at (`fiber.cc` 778-788). -/
def outcome (e0 : Ending) (len : Nat) : List Ev × End → Sched × Ending
  | (evs, .waiting) => (cutAll (len + 1) len evs, e0)
  | (evs, .finished m) => (cutAll (len + 1 - m) len evs, .finished)
  | (evs, .threw e m) => (cutAll (len - m) len evs, .threw e)
  | (_, .diverge) => ([], .diverge)
  | (_, .ub) => ([], .ub)

/-- `filter.h` 199-232 `init`, 296-315 `flush`: one filter of the chain, reading from the stream the previous stage writes to. -/
def stage (Γ : Nat → G) (f n : Nat) (x : Sched × Ending) (F : Filter) : Sched × Ending := match x.1 with
  | [] => x
  | first :: s => match wholeView (({} : Chain).run first.ops) with
    | .ok v => outcome x.2 s.length (exec Γ f F n F.start false v (({} : Chain).run first.ops) s)
    | .throw e => ([], .threw e)
    | .ub => ([], .ub)

/-- What comes of a unit that calls `flush` once more. Resuming a finished fiber is an error (`fiber.cc` 754-755). -/
def Ending.result : Ending → Result
  | .waiting => .needsMore
  | .finished => .error .logicError
  | .threw e => .error e
  | .diverge => .runsOn
  | .ub => .undefined

/-- `pb.cc` 392-450, `parser.cc` 207-237: a unit with filters connected, in this order, parses what comes out of the last one. -/
def parseFiltered (Γ : Nat → G) (f n : Nat) (fs : List Filter) (g : G) (trim : Bool) (first : Item) (s : Sched) : Result :=
  match fs.foldl (stage Γ f n) (first :: s, .waiting) with
  | ([], e) => e.result
  | (it :: r, e) => match parseUnit Γ f g trim it r with
    | .needsMore => e.result
    | x => x

end Verif.Filter
