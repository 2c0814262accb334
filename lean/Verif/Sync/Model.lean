import Verif.Parse.Grammar
/-!
# Model of error recovery (`&synchronize`)

What the parser generator emits for fields and lists with `&synchronize`, on top of `Verif.Parse`: searching for a
synchronization token (one bytes literal), restarting a list after an element that failed, and trial mode in units (`confirm`, `reject`).

Source: `spicy/toolchain/src/compiler/codegen/parser-builder.cc` (`pb.cc`), `parsers/literals.cc`,
`spicy/runtime/include/util.h`. Every parse function has its own copy of the current view, the pending look-ahead symbol
and the remembered error (`Frame`); a callee's copies reach the caller only if the callee returns normally.

Not modelled: gaps in the input (so no `MissingData`), regular expressions as synchronization tokens,
`%synchronize-at`/`%synchronize-after`, the `%sync_advance` hook, `%skip`. Hooks are reduced to what they do to trial mode.
-/

namespace Verif.Sync
open Verif.Stream Verif.Parse

/-- `hilti::RecoverableFailure` and its subclasses (`exception.h` 133, 179; `parser.h` 405, 413). -/
def recoverable : Exn → Bool
  | .parseError => true
  | .missingData => true
  | .backtrack => true
  | _ => false

/-- `try { x } catch ( hilti::RecoverableFailure e )`, the first part. -/
def attempt {α : Type} (x : P α) : P (Except Exn α) := fun c s => match x c s with
  | .done a c' s' => .done (.ok a) c' s'
  | .throw e c' s' => if recoverable e then .done (.error e) c' s' else .throw e c' s'
  | .suspended c' => .suspended c'
  | .diverge => .diverge
  | .ub => .ub

/-- A pending look-ahead symbol: the token and the iterator behind it (`lahead`, `lahead_end`). Token numbers are unique for
    literals (`production.cc` 88-96), so the literal itself is used here. Simplification: the symbol for end-of-data is not
    kept, see `getLah`. -/
abbrev Pending := Option (List Byte × Iter)

/-- The variables of a parse function: `cur`, `lahead` with `lahead_end`, `error`. -/
structure Frame where
  cur : View
  lah : Pending := none
  err : Option Exn := none

/-- What is observable: values that were parsed, synchronizations (the `%synced` hook) with
    the offset, and the `%confirmed` hook. -/
inductive Ev where
  | value (v : Val)
  | synced (off : Nat)
  | confirmed

/-- What a hook does to trial mode. -/
inductive Hook where
  | nothing | confirm | reject
  deriving DecidableEq, Repr

/-- `literals.cc` 134-140, `pb.cc` 1258-1270: is the literal at `cur`? If so, it becomes the pending symbol; if not,
    the pending symbol stays what it was. -/
def tokenAt (lit : List Byte) (fr : Frame) : P Pending := do
  let here ← (do
    if ← waitMin fr.cur lit.length then P.read (fun c => fr.cur.startsWith c lit) else pure false : P Bool)
  let stop ← (if here then P.read (fun c => fr.cur.begin.incr c lit.length) else pure fr.cur.begin : P Iter)
  if stop.offset ≠ fr.cur.begin.offset then pure (some (lit, stop)) else pure fr.lah

/-- `pb.cc` 2981-3011 `advanceToNextData`. -/
def nextData (trim : Bool) (cur : View) : P View := do
  let v ← P.read (fun c => cur.advanceToNextData c)
  trimInput trim v
  pure v

/-- `pb.cc` 1313-1322: the loop of `getLookAhead` in search mode, for one literal. The pending symbol is not reset when the
    literal is not there. -/
def searchLoop (lit : List Byte) (trim : Bool) : Nat → Frame → P Frame
  | 0, _ => .diverge
  | f + 1, fr => do
    let p ← tokenAt lit fr
    let e ← atEod fr.cur
    if e || p.isSome then pure { fr with lah := p }
    else do
      let v ← nextData trim fr.cur
      searchLoop lit trim f { fr with cur := v, lah := p }

/-- `pb.cc` 1330-1442 `syncProduction`, with 1135-1137 of `getLookAhead`. At the end of the data the search is not started,
    and 1355 (which asks again whether it is the end of the data) throws. -/
def syncP (lit : List Byte) (trim : Bool) (f : Nat) (fr : Frame) : P Frame := do
  if ← atEod fr.cur then .raise .parseError
  else do
    let fr' ← searchLoop lit trim f fr
    let e ← atEod fr'.cur
    if e || fr'.lah.isNone then .raise .parseError else pure fr'

/-- `util.h` 45-68 `confirm`, `reject`; `pb.cc` 3023-3061. The state of trial mode and the log after a hook, or the exception
    it throws. -/
def runHook (h : Hook) (err : Option Exn) (log : List Ev) : Except Exn (Option Exn × List Ev) := match h with
  | .nothing => .ok (err, log)
  | .confirm => match err with
    | none => .ok (none, log)
    | some _ => .ok (none, log ++ [.confirmed])
  | .reject => match err with
    | none => .error .parseError
    | some e => .error e

/-- `pb.cc` 1449-1486: the loop of `syncProductionNext`, up to the hook. -/
def syncNextLoop (lit : List Byte) (trim : Bool) (start : View) (f : Nat) : Nat → Frame → P Frame
  | 0, _ => .diverge
  | k + 1, fr => do
    let v ← nextData trim fr.cur
    let fr' ← syncP lit trim f { fr with cur := v }
    let same ← P.read (fun c => start.eqView c fr'.cur c)
    if same then do
      let w ← nextData trim fr'.cur
      syncNextLoop lit trim start f k { fr' with cur := w }
    else pure fr'

/-- `pb.cc` 1449-1486 `syncProductionNext`, with the `%synced` hook. -/
def syncNext (lit : List Byte) (hook : Hook) (trim : Bool) (f : Nat) (fr : Frame) (log : List Ev) :
    P (Frame × List Ev) := do
  let fr' ← syncNextLoop lit trim fr.cur f f fr
  match runHook hook fr'.err (log ++ [.synced fr'.cur.begin.offset]) with
  | .ok (err, log') => pure ({ fr' with err := err }, log')
  | .error e => .raise e

/-- `literals.cc` 82-112: a literal when a look-ahead symbol is pending; 114-130 when none is.
    The element's own parse function consumes it. -/
def litPending (lit : List Byte) (trim : Bool) (cur : View) (lah : Pending) : P View := match lah with
  | none => do
    expectBytesLiteral cur lit
    advanceInput trim cur lit.length
  | some (t, e) =>
    if t ≠ lit then .raise .parseError
    else do
      let same ← P.read (fun c => do
        let v ← subFromTo cur.begin e c
        v.eqBytes c lit)
      if same then advanceInputTo trim cur e else .raise .parseError

/-- An element (a unit) that begins with a literal, with the rest `g`. -/
def elemP (lit : List Byte) (g : Parser) (trim : Bool) (cur : View) (lah : Pending) : P (Val × View) := do
  let cur' ← litPending lit trim cur lah
  g trim cur'

/-- A list field `X[]` whose elements begin with the literal `lit`, followed by one of the literals `follow` (or by the
    end of the data if there are none), marked `&synchronize`. The `%synced` hook of the unit is `hook`. -/
structure ListField where
  lit : List Byte
  follow : List (List Byte)
  hook : Hook := .nothing

/-- How one round of a list ends: it goes on, or the list ends. -/
inductive Round where
  | next (fr : Frame) (log : List Ev)
  | stop (fr : Frame) (log : List Ev)

/-- What the look-ahead says about how to go on. -/
inductive Sym where
  | elem | follow | none | eod

/-- `pb.cc` 1128-1316, 1945-2008: the look-ahead symbol that decides how to go on; a pending one is used. -/
def getLah (L : ListField) (fr : Frame) : P (Sym × Pending) := match fr.lah with
  | some (t, e) => pure (if t = L.lit then .elem else if t ∈ L.follow then .follow else .none, some (t, e))
  | none => do
    if ← atEod fr.cur then pure (.eod, none)
    else match ← lahLoop fr.cur (L.lit :: L.follow) 0 none with
      | some (i, e) => do
        let it ← P.read (fun c => fr.cur.begin.incr c (e - fr.cur.begin.offset))
        pure (if i = 0 then .elem else .follow, some ((L.lit :: L.follow).getD i [], it))
      | none => pure (.none, none)

/-- `pb.cc` 2124-2158: the `try` block of a round of `production::While` with `&synchronize`; the frame is the one at its end,
    also if an exception is thrown. A value means that an element was parsed. Simplification: ambiguous look-ahead tokens
    (two equal literals, which the grammar check refuses) leave nothing pending. -/
def whileTry (L : ListField) (g : Parser) (trim : Bool) (fr : Frame) : P (Frame × Except Exn (Option Val)) := do
  match ← attempt (getLah L fr) with
  | .error x => pure (fr, .error x)
  | .ok (.eod, p) => pure ({ fr with lah := p }, if L.follow.isEmpty then .ok none else .error .parseError)
  | .ok (.none, p) => pure ({ fr with lah := p }, .error .parseError)
  | .ok (.follow, p) => pure ({ fr with lah := p }, .ok none)
  | .ok (.elem, p) => do
    match ← attempt (elemP L.lit g trim fr.cur p) with
    | .error x => pure ({ fr with lah := p }, .error x)
    | .ok r => do
      match ← attempt (finishLoopBody fr.cur.begin r.2) with
      | .ok () => pure ({ fr with cur := r.2, lah := none }, .ok (some r.1))
      | .error x => pure ({ fr with cur := r.2, lah := none }, .error x)

/-- `pb.cc` 2104-2165: one round of `production::While` with `&synchronize`. -/
def whileRound (L : ListField) (g : Parser) (trim : Bool) (f : Nat) (fr : Frame) (log : List Ev) : P Round := do
  let _ ← waitMin fr.cur 1
  let r ← whileTry L g trim fr
  match r.2 with
  | .ok (some v) => pure (.next r.1 (log ++ [.value v]))
  | .ok none => pure (.stop r.1 log)
  | .error x => do
    let q ← syncNext L.lit L.hook trim f { r.1 with err := some x } log
    pure (.next q.1 q.2)

/-- `pb.cc` 2104-2165 `production::While`. -/
def whileLoop (L : ListField) (g : Parser) (trim : Bool) (f : Nat) : Nat → Frame → List Ev → P (Frame × List Ev)
  | 0, _, _ => .diverge
  | k + 1, fr, log => do
    match ← whileRound L g trim f fr log with
    | .next fr' log' => whileLoop L g trim f k fr' log'
    | .stop fr' log' => pure (fr', log')

/-- `pb.cc` 1669-1727 `production::Counter` with `&synchronize`: every round counts, whether an element was parsed or not. -/
def counterLoop (L : ListField) (g : Parser) (trim : Bool) (f : Nat) : Nat → Frame → List Ev → P (Frame × List Ev)
  | 0, fr, log => pure (fr, log)
  | n + 1, fr, log => do
    match ← attempt (elemP L.lit g trim fr.cur fr.lah) with
    | .ok r => counterLoop L g trim f n { fr with cur := r.2, lah := none } (log ++ [.value r.1])
    | .error x => do
      let q ← syncNext L.lit L.hook trim f { fr with err := some x } log
      counterLoop L g trim f n q.1 q.2

end Verif.Sync
