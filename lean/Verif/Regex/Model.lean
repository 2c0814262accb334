import Verif.Stream.ViewLemmas3
import Verif.Net.Model
/-!
# Model of regular expressions

Sources: `hilti/runtime/include/types/regexp.h`, `hilti/runtime/src/types/regexp.cc`.

The matching engine justrx is not in the repository (empty submodule). It is represented by an automaton (`Auto`) and by
`feed`/`exec`, which follow what the tests in `hilti/runtime/src/tests/regexp.cc` pin down: matching is anchored and takes
the longest match; it jams at the first byte that cannot be part of a match, and that byte is not consumed ("Xa" gives
(0, 0)); a match that cannot be extended is reported at once ("123" gives (1, 3) without being final); a match found is
reported at the end of the data only if that is final, and else it is remembered ("abc", "1", "2", "X" for `abc(123)?`
gives (1, -2)); with no match and more to come the result is -1, final or not ("no match in limit"); an empty match is
possible ("" on "123" gives (1, 0)).

Simplified: offsets do not overflow (`jrx_offset` has 32 bits); capture groups are not modelled (the standard and the
minimal matcher are taken to find the same matches).
-/

namespace Verif.Regex
open Verif.Stream

/-! ## Patterns and the cache of compiled expressions -/

/-- `regexp.h` 27-37 `Flags`. -/
structure Flags where
  noSub : Bool := false
  useStd : Bool := false
  deriving DecidableEq, Repr

/-- `regexp.h` 33-36 `cacheKey()`. -/
def Flags.cacheKey (f : Flags) : List Byte := [if f.noSub then 49 else 48, if f.useStd then 49 else 48]

/-- `regexp.h` 43-75 `Pattern`. -/
structure Pattern where
  value : List Byte
  ci : Bool := false
  id : Nat := 0
  deriving DecidableEq, Repr

/-- `regexp.h` 77-81 `to_string(Pattern)`: `/value/i$(id)`. -/
def Pattern.print (p : Pattern) : List Byte :=
  47 :: p.value ++ 47 :: ((if p.ci then [105] else []) ++
    (if p.id ≠ 0 then [36, 40] ++ Net.decimal p.id ++ [41] else []))

/-- `join(..., "|")`, `util.h`. -/
def join : List (List Byte) → List Byte
  | [] => []
  | [a] => a
  | a :: b :: r => a ++ 124 :: join (b :: r)

/-- `regexp.cc` 311-314: the key under which a compiled expression is kept. -/
def key (ps : List Pattern) (f : Flags) : List Byte :=
  if ps.isEmpty then [] else join (ps.map Pattern.print) ++ 124 :: f.cacheKey

/-- A compiled expression (`regexp.h` 179-208 `CompiledRegExp`). -/
structure Compiled where
  patterns : List Pattern
  flags : Flags
  deriving DecidableEq, Repr

/-- The global cache and all compiled expressions; a `RegExp` is a pointer to one of them. -/
structure World where
  cache : List (List Byte × Nat) := []
  heap : List Compiled := []

/-- `regexp.cc` 295-308 `_compileOne`: `ok` says which patterns justrx accepts. -/
def compileAll (ok : Pattern → Bool) : List Pattern → List Pattern → Res (List Pattern)
  | [], acc => .ok acc
  | p :: r, acc => if ok p then compileAll ok r (acc ++ [p]) else .throw .patternError

/-- `regexp.cc` 267-293 `CompiledRegExp`; `_newJrx` clears the patterns. -/
def compile (ok : Pattern → Bool) (ps : List Pattern) (f : Flags) : Res Compiled :=
  (compileAll ok ps []).bind fun qs => .ok ⟨qs, f⟩

/-- `regexp.cc` 310-321 `RegExp::RegExp`. If compiling throws, the cache keeps a null pointer, which is like no entry. -/
def construct (ok : Pattern → Bool) (w : World) (ps : List Pattern) (f : Flags) : Res Nat × World :=
  match w.cache.lookup (key ps f) with
  | some h => (.ok h, w)
  | none => match compile ok ps f with
    | .ok c => (.ok w.heap.length, { cache := (key ps f, w.heap.length) :: w.cache, heap := w.heap ++ [c] })
    | .throw e => (.throw e, w)
    | .ub => (.ub, w)

/-- A history of constructions, with what each one gave. -/
def constructAll (ok : Pattern → Bool) : World → List (List Pattern × Flags) → List (Res Nat) × World
  | w, [] => ([], w)
  | w, r :: rs =>
    let x := construct ok w r.1 r.2
    let y := constructAll ok x.2 rs
    (x.1 :: y.1, y.2)

/-- `regexp.h` 246-247 `patterns()`, `flags()`. -/
def World.get (w : World) (h : Nat) : Res Compiled := match w.heap[h]? with
  | some c => .ok c
  | none => .ub

/-- `regexp.cc` 299: the ID a match reports: `static_cast<jrx_accept_id>(pattern.matchID())`, a 16-bit integer. -/
def acceptId (id : Nat) : Int := (BitVec.ofNat 16 id).toInt

/-! ## The matcher (justrx, by contract) -/

/-- A compiled automaton. `step s b first last` also gets whether the byte is the first one after the beginning of the data
    (`JRX_ASSERTION_BOL|BOD`) or the last one before its end (`JRX_ASSERTION_EOL|EOD`). `acc` is the number of the pattern
    accepted, `more` says whether there are transitions. `late`: what `jrx_current_accept` gives in a state that accepts
    nothing after a match seen before (see `currentAccept`). -/
structure Auto where
  init : Nat
  step : Nat → Byte → Bool → Bool → Nat
  acc : Nat → Nat
  more : Nat → Bool
  late : Bool
  stuck : ∀ s b f l, more s = false → acc (step s b f l) = 0 ∧ more (step s b f l) = false

/-- No match is possible any more. -/
def Auto.dead (A : Auto) (s : Nat) : Bool := A.acc s == 0 && !A.more s

/-- `jrx_match_state`: the state, the offset (starting with 1), the longest match seen and its end. -/
structure MS where
  st : Nat
  offset : Nat
  acc : Nat
  eo : Nat
  deriving DecidableEq, Repr

/-- `jrx_match_state_init`. -/
def MS.init (A : Auto) : MS := ⟨A.init, 1, A.acc A.init, 1⟩

/-- Feeding bytes; the result says whether the automaton jammed. -/
def feed (A : Auto) : List Byte → Bool → Bool → MS → Bool × MS
  | [], _, _, m => (false, m)
  | b :: r, first, last, m =>
    let s := A.step m.st b first (last && r.isEmpty)
    if A.dead s then (true, m)
    else feed A r false last
      ⟨s, m.offset + 1, if A.acc s > 0 then A.acc s else m.acc, if A.acc s > 0 then m.offset + 1 else m.eo⟩

/-- `jrx_regexec_partial_min`, `jrx_regexec_partial_std`. -/
def exec (A : Auto) (bs : List Byte) (first last final : Bool) (m : MS) : Int × MS :=
  match feed A bs first last m with
  | (true, m') => (m'.acc, m')
  | (false, m') => if m'.acc > 0 ∧ (final = true ∨ A.more m'.st = false) then (m'.acc, m') else (-1, m')

/-- `jrx_current_accept`. -/
def currentAccept (A : Auto) (m : MS) : Int :=
  if A.acc m.st > 0 then A.acc m.st else if A.late then m.acc else 0

/-! ## Match states -/

/-- `regexp.cc` 71-89 `MatchState::Pimpl`. -/
structure Pimpl where
  acc : Int := 0
  first : Bool := true
  done : Bool := false
  ms : MS

/-- `regexp.cc` 82-84. -/
def Pimpl.new (A : Auto) : Pimpl := { ms := MS.init A }

/-- `regexp.cc` 86-88: the copy constructor. `_done` is not copied. -/
def Pimpl.copy (p : Pimpl) : Pimpl := { acc := p.acc, first := p.first, ms := p.ms }

/-- `regexp.cc` 186-239: the loop over the blocks of the data (each one with its `is_last`). `first` stays as it is for all
    of them. The result is `rc` and the bytes consumed. -/
def blockLoop (A : Auto) (final first : Bool) (start : Nat) : List (List Byte × Bool) → Int → Pimpl → (Int × Int) × Pimpl
  | [], rc, p =>
    let p := if rc < 0 ∧ p.acc = 0 then { p with acc := -1 } else p
    if rc > 0 then ((p.acc, (p.ms.eo : Int) - start), p) else ((p.acc, (p.ms.offset : Int) - start), p)
  | b :: bs, _, p =>
    match exec A b.1 first (final && b.2) (final && b.2) p.ms with
    | (rc, m) =>
      if rc = 0 then ((if p.acc > 0 then p.acc else 0, (m.offset : Int) - start), { p with ms := m })
      else if rc > 0 then ((rc, (m.eo : Int) - start), { p with acc := rc, ms := m })
      else blockLoop A final first start bs rc { p with ms := m }

/-- `regexp.cc` 175-180: `_advance` for empty data. -/
def advanceEmpty (A : Auto) (final : Bool) (p : Pimpl) : (Int × Int) × Pimpl :=
  let p := if final = true ∧ p.acc ≤ 0 then { p with acc := currentAccept A p.ms } else p
  ((if final then p.acc else -1, 0), p)

/-- `regexp.cc` 168-239 `_advance` on data that comes in the given blocks. -/
def advanceBlocks (A : Auto) (bs : List (List Byte × Bool)) (final : Bool) (p : Pimpl) : (Int × Int) × Pimpl :=
  if bs.isEmpty then advanceEmpty A final p
  else blockLoop A final p.first p.ms.offset bs 0 { p with first := false }

/-- `regexp.cc` 143-146 and 160-163: matching is complete. -/
def finish (r : (Int × Int) × Pimpl) : (Int × Int) × Pimpl :=
  if r.1.1 ≥ 0 then (r.1, { r.2 with done := true }) else r

/-- A `MatchState`; none if default-constructed or moved from. -/
abbrev MState := Option Pimpl

/-- `regexp.cc` 151-166 `advance(Bytes, is_final)`; a stream made of bytes has one block. -/
def advanceBytes (A : Auto) (data : List Byte) (final : Bool) : MState → Res (Int × Int) × MState
  | none => (.throw .patternError, none)
  | some p =>
    if p.done then (.throw .matchStateReuse, some p)
    else
      let r := finish (advanceBlocks A (if data = [] then [] else [(data, true)]) final p)
      (.ok r.1, some r.2)

/-- `regexp.cc` 98-118: copying a match state. -/
def MState.copy (f : Flags) : MState → Res MState
  | none => .ub
  | some p => if f.useStd ∧ ¬ f.noSub then .throw .invalidArgument else .ok (some p.copy)

/-- A sequence of calls of `advance(data, final)`, with what each one gave. -/
def advanceAll (A : Auto) : MState → List (List Byte × Bool) → List (Res (Int × Int)) × MState
  | m, [] => ([], m)
  | m, d :: ds =>
    let x := advanceBytes A d.1 d.2 m
    let y := advanceAll A x.2 ds
    (x.1 :: y.1, y.2)

/-! ### On views -/

/-- `regexp.cc` 186-227: the loop, fetching blocks one after the other. -/
def viewLoop (A : Auto) (v : View) (c : Chain) (final first : Bool) (start : Nat) :
    Nat → Option View.Block → Int → Pimpl → Res ((Int × Int) × Pimpl)
  | _, none, rc, p => .ok (blockLoop A final first start [] rc p)
  | 0, some _, _, _ => .ub
  | f + 1, some b, _, p =>
    match exec A b.bytes first (final && b.isLast) (final && b.isLast) p.ms with
    | (rc, m) =>
      if rc = 0 then .ok ((if p.acc > 0 then p.acc else 0, (m.offset : Int) - start), { p with ms := m })
      else if rc > 0 then .ok ((rc, (m.eo : Int) - start), { p with acc := rc, ms := m })
      else (v.nextBlock c b).bind fun n => viewLoop A v c final first start f n rc { p with ms := m }

/-- `regexp.cc` 168-239 `_advance` on a view. -/
def advanceViewRaw (A : Auto) (v : View) (c : Chain) (final : Bool) (p : Pimpl) : Res ((Int × Int) × Pimpl) :=
  (v.size c).bind fun n =>
    if n = 0 then .ok (advanceEmpty A final p)
    else (v.firstBlock c).bind fun b =>
      viewLoop A v c final p.first p.ms.offset (c.chunks.length + 1) b 0 { p with first := false }

/-- `regexp.cc` 135-141: the rest of the data. -/
def remaining (v : View) (c : Chain) (off : Int) : Res View :=
  if off ≥ 0 then (v.begin.incr c off.toNat).bind fun i => v.trim c i
  else (v.begin.decr c (-off).toNat).bind fun i => v.trim c i

/-- `regexp.cc` 126-149 `advance(View)`. -/
def advanceView (A : Auto) (v : View) (c : Chain) (p : Pimpl) : Res ((Int × View) × Pimpl) :=
  if p.done then .throw .matchStateReuse
  else (v.isComplete c).bind fun final => (advanceViewRaw A v c final p).bind fun r =>
    (remaining v c r.1.2).bind fun nd => .ok ((r.1.1, nd), (finish r).2)

/-! ## Matching and searching in bytes -/

/-- `regexp.cc` 422-484 `_search_pattern`: the result and the end of the match. -/
def searchPattern (A : Auto) (data : List Byte) : Int × Nat :=
  if data = [] then (-1, 0)
  else match exec A data true true true (MS.init A) with
    | (rc, m) => (rc, m.eo - 1)

/-- `regexp.cc` 327-332 `match`. -/
def matchBytes (A : Auto) (data : List Byte) : Int := (searchPattern A data).1

/-- The best match so far in `find`: result, start and end. -/
structure Best where
  rc : Int := 0
  so : Int := -1
  eo : Int := -1

/-- `regexp.cc` 383-409: the loop of `find`, at position `pos`. -/
def findLoop (A : Auto) : List Byte → Nat → Best → Best
  | [], _, best => best
  | b :: r, pos, best =>
    match searchPattern A (b :: r) with
    | (rc, eo) =>
      let better : Best := ⟨rc, pos, (eo : Int) + pos⟩
      findLoop A r (pos + 1)
        (if rc > 0 ∧ (eo : Int) ≥ best.eo - best.so ∧
            ((eo : Int) > best.eo - best.so ∨ (pos : Int) < best.so ∨ best.so < 0) then better else best)

/-- `regexp.cc` 375-418 `find`. -/
def find (A : Auto) (data : List Byte) : Int × List Byte :=
  let b := findLoop A data 0 {}
  if b.rc > 0 then (b.rc, (data.drop b.so.toNat).take (b.eo - b.so).toNat) else (-1, [])

end Verif.Regex
