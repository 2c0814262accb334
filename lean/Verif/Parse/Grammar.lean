import Verif.Parse.Machine
import Verif.Regex.Model
/-!
# Model of generated parsers

What the parser generator emits for the productions of a unit, as an interpreter over the runtime functions of
`Verif.Parse.Machine`. A grammar `G` is a unit's body; later parts can depend on the values parsed before (sizes,
switches, conditions, `&requires`), hence the functions inside. Expressions are pure functions of values. Fields write
their values into the unit; the model hands them on instead.

Sources: `spicy/toolchain/src/compiler/codegen/parser-builder.cc` (`pb.cc`), `parsers/types.cc`, `parsers/literals.cc`.
Not modelled: hooks, `&synchronize`, filters and sinks, captures, regular expressions as look-ahead symbols, `&convert`, containers of
look-ahead loops, error messages.
-/

namespace Verif.Parse
open Verif.Stream

/-- Parsed values. -/
inductive Val where
  | unit
  | int (n : Int)
  | bytes (bs : List Byte)
  | list (vs : List Val)

/-- What to do after a container element (`pb.cc` 2669-2755 `newContainerItem`): go on, stop without keeping the element
    (`&until`, `&while`), stop and keep it (`&until-including`). -/
inductive Stop where
  | go | drop | keep
  deriving DecidableEq, Repr

/-- A look-ahead symbol (`pb.cc` 1128-1316 `getLookAhead`): one of the tokens, none of them, or end of data. -/
inductive Lah where
  | token (i : Nat) | none | eod
  deriving DecidableEq, Repr

/-- Grammars. -/
inductive G where
  | ret (v : Val)                                     -- nothing (`production::Epsilon`, computed values)
  | fail (e : Exn)                                    -- a failing `&requires`, `throw`, `self.backtrack()`
  | offset                                            -- the current offset
  | unpack (wait n : Nat) (f : List Byte → Val)       -- integers, addresses, reals, bitfields
  | bytesSize (n : Nat)                               -- `bytes &size=n`
  | bytesSizeEod (n : Nat)                            -- `bytes &size=n &eod`
  | lit (bs : List Byte)                              -- a bytes literal
  | until (needle : List Byte) (incl : Bool)          -- `bytes &until=`, `bytes &until-including=`
  | eod                                               -- `bytes &eod`
  | chunkedEod                                        -- `bytes &eod &chunked`; the value is all the data seen by the hook
  | skip (n : Nat)                                    -- `skip bytes &size=n`
  | skipEod                                           -- `skip bytes &eod`
  | seq (g : G) (k : Val → G)                         -- one after the other
  | limit (n : Nat) (g : G)                           -- `&size=n`
  | maxSize (n : Nat) (g : G)                         -- `&max-size=n`
  | try_ (g : G)                                      -- `&try`
  | counter (n : Nat) (g : G) (stop : Val → Stop)     -- `g[n]`
  | foreach (eodOk : Bool) (g : G) (stop : Val → Stop) -- `g[]` with `&eod`, or with `&until` etc.
  | lah (lits : List (List Byte)) (k : Lah → G)       -- a look-ahead switch over bytes literals
  | regexp (A : Regex.Auto)                           -- a regular expression (compiled)
  | parseFrom (bs : List Byte) (g : G)                -- `&parse-from=bs`
  | random (k : Nat → G)                              -- a unit that uses random access; gets the offset where it begins
  | parseAt (p : Nat) (g : G)                         -- `&parse-at=` a position of the current stream
  | call (i : Nat)                                    -- another unit

/-- A running parser: gets the trim flag and the current view, returns a value and the new view. -/
abbrev Parser := Bool → View → P (Val × View)

/-- `types.cc` 55-86 `performUnpack`; the unpack operators (`integer.h` 153-160, `real.cc` 30-48) check the size and then
    extract. An insufficient size gives an error result, whose dereferencing throws. Afterwards `parseType` trims
    (`types.cc` 488-489). -/
def unpackP (wait n : Nat) (f : List Byte → Val) : Parser := fun trim cur => do
  waitForInput cur wait
  let sz ← P.read cur.size
  if sz < n then .raise .runtimeError
  else
    let r ← P.read (fun c => cur.extract c n)
    trimInput trim r.2
    pure (f r.1, r.2)

/-- `types.cc` 443-461, the optimized parsing of `bytes &size=n`. -/
def bytesSizeP (eodOk : Bool) (n : Nat) : Parser := fun trim cur => do
  let bs ← extractBytes cur n eodOk
  let cur' ← advanceInput trim cur n
  pure (.bytes bs, cur')

/-- `literals.cc` 114-130: a bytes literal with no look-ahead symbol pending. -/
def litP (bs : List Byte) : Parser := fun trim cur => do
  expectBytesLiteral cur bs
  let cur' ← advanceInput trim cur bs.length
  pure (.bytes bs, cur')

/-- `types.cc` 390-431: the part of the `&until` loop after a successful search. `u` is the match, `acc` the data so far. -/
def untilFound (trim : Bool) (cur : View) (len : Nat) (incl : Bool) (it : Iter) (acc : List Byte) :
    P (Val × View) := do
  let it' ← P.read (fun c => it.incr c len)
  let m ← (if incl then P.read (fun c => do
      let v ← subFromTo it it' c
      v.data c) else pure [])
  let cur' ← advanceInputTo trim cur it'
  pure (.bytes (acc ++ m), cur')

/-- `types.cc` 378-433: the loop for `&until` and `&until-including`; with `&chunked` the hook sees the pieces that are
    joined here. -/
def untilLoop (needle : List Byte) (incl : Bool) (trim : Bool) : Nat → View → List Byte → P (Val × View)
  | 0, _, _ => .diverge
  | f + 1, cur, acc => do
    waitForInput cur needle.length
    let r ← P.read (fun c => cur.find c needle)
    let m ← P.read (fun c => do
      let v ← subTo cur (toSafe r.2) c
      v.data c)
    if r.1 then untilFound trim cur needle.length incl (toSafe r.2) (acc ++ m)
    else do
      let cur' ← advanceInputTo trim cur (toSafe r.2)
      untilLoop needle incl trim f cur' (acc ++ m)

/-- `types.cc` 355-434. Every round but the last one uses up at least one resume. -/
def untilP (needle : List Byte) (incl : Bool) : Parser := fun trim cur c s =>
  untilLoop needle incl trim (s.length + 2) cur [] c s

/-- `literals.cc` 195-247: the loop for a regular expression: `ncur` is the data not read yet, `p` the match state. Not modelled:
    captures. -/
def regexLoop (A : Regex.Auto) (trim : Bool) (cur : View) : Nat → View → Regex.Pimpl → P (Val × View)
  | 0, _, _ => .diverge
  | f + 1, ncur, p => do
    let r ← P.read (fun c => Regex.advanceView A ncur c p)
    if r.1.1 = -1 then do
      let _ ← waitMore r.1.2
      regexLoop A trim cur f r.1.2 r.2
    else if r.1.1 = 0 then .raise .parseError
    else do
      let bs ← P.read (fun c => do
        let v ← subTo cur r.1.2.begin c
        v.data c)
      trimInput trim r.1.2
      pure (.bytes bs, r.1.2)

/-- `literals.cc` 147-255: a regular expression with no look-ahead symbol pending. -/
def regexP (A : Regex.Auto) : Parser := fun trim cur c s =>
  regexLoop A trim cur (s.length + 2) cur (Regex.Pimpl.new A) c s

/-- `types.cc` 338-342: all data up to the end. -/
def eodP : Parser := fun trim cur => do
  waitForEod cur
  let bs ← P.read cur.data
  let n ← P.read cur.size
  let cur' ← advanceInput trim cur n
  pure (.bytes bs, cur')

/-- `types.cc` 314-335: the loop of `&eod &chunked`. -/
def chunkedLoop (trim : Bool) : Nat → View → List Byte → P (Val × View)
  | 0, _, _ => .diverge
  | f + 1, cur, acc => do
    let more ← waitMin cur 1
    let n ← P.read cur.size
    let r ← (if n > 0 then do
        let bs ← P.read cur.data
        let cur' ← advanceInput trim cur n
        pure (acc ++ bs, cur')
      else pure (acc, cur) : P (List Byte × View))
    if more then chunkedLoop trim f r.2 r.1 else pure (.bytes r.1, r.2)

/-- `types.cc` 314-335. -/
def chunkedP : Parser := fun trim cur c s => chunkedLoop trim (s.length + 2) cur [] c s

/-- `pb.cc` 2967-2979 `skip(size)`. -/
def skipLoop (trim : Bool) : Nat → Nat → View → P View
  | 0, n, cur => if n > 0 then .diverge else pure cur
  | f + 1, n, cur =>
    if n > 0 then do
      waitForInput cur 1
      let sz ← P.read cur.size
      let cur' ← advanceInput trim cur (min sz n)
      skipLoop trim f (n - min sz n) cur'
    else pure cur

/-- `pb.cc` 2967-2979; every round skips at least one byte. -/
def skipP (n : Nat) : Parser := fun trim cur => do
  let cur' ← skipLoop trim n n cur
  pure (.unit, cur')

/-- `pb.cc` 2047-2050: the loop of `skip bytes &eod`. -/
def skipEodLoop (trim : Bool) : Nat → View → P View
  | 0, _ => .diverge
  | f + 1, cur => do
    if ← waitMore cur then
      let n ← P.read cur.size
      let cur' ← advanceInput trim cur n
      skipEodLoop trim f cur'
    else pure cur

/-- `pb.cc` 2045-2052 `skip bytes &eod`. -/
def skipEodP : Parser := fun trim cur => do
  let cur' ← (fun c s => skipEodLoop trim (s.length + 1) cur c s : P View)
  let n ← P.read cur'.size
  let cur'' ← advanceInput trim cur' n
  pure (.unit, cur'')

/-- `pb.cc` 881-913 `initFullFieldParsing`, 944-948 and 201-223 `_checkSizeAmount`, 1033-1034: `&size`. -/
def limitP (n : Nat) (g : Parser) : Parser := fun trim cur => do
  let limited ← P.read (fun c => cur.limit c n)
  let ncur ← P.read (fun c => cur.advance c n)
  let r ← g trim limited
  if r.2.begin.offset < ncur.begin.offset then .raise .parseError
  else pure (r.1, ncur)

/-- `pb.cc` 881-913, 926-942, 959-967 `advanceLimited`, 1030-1034: `&max-size`. -/
def maxSizeP (n : Nat) (g : Parser) : Parser := fun trim cur => do
  let limited ← P.read (fun c => cur.limit c (n + 1))
  let ncur ← P.read (fun c => cur.advance c (n + 1))
  let r ← g trim limited
  if r.2.begin.offset ≥ ncur.begin.offset then .raise .parseError
  else
    let cur' ← P.read (fun c => cur.advance c (r.2.begin.offset - cur.begin.offset))
    pure (r.1, cur')

/-- Catching `Backtrack`. -/
def catchBacktrack (x : P (Val × View)) (cur : View) : P (Val × View) := fun c s => match x c s with
  | .throw .backtrack c' s' => .done (.unit, cur) c' s'
  | o => o

/-- `pb.cc` 3095-3111 `initBacktracking`, `finishBacktracking`: `&try`. -/
def tryP (g : Parser) : Parser := fun trim cur => do
  let r ← catchBacktrack (g false cur) cur
  trimInput trim r.2
  pure r

/-- `pb.cc` 1691-1727: the loop of `production::Counter` (without `&synchronize`). -/
def counterLoop (g : Parser) (stop : Val → Stop) (trim : Bool) : Nat → View → List Val → P (Val × View)
  | 0, cur, acc => pure (.list acc, cur)
  | n + 1, cur, acc => do
    let r ← g trim cur
    match stop r.1 with
    | .go => counterLoop g stop trim n r.2 (acc ++ [r.1])
    | .drop => pure (.list acc, r.2)
    | .keep => pure (.list (acc ++ [r.1]), r.2)

/-- `pb.cc` 3113-3121 `finishLoopBody`: an error if the body did not move the input (`stream.h` 611-614: iterators are
    equal if their offsets are or if both are at the end). -/
def finishLoopBody (old : Iter) (cur : View) : P Unit := do
  let bothEnd ← P.read (fun c => do
    let a ← cur.begin.isEnd c
    let b ← old.isEnd c
    .ok (a && b))
  if cur.begin.offset = old.offset ∨ bothEnd = true then
    if ← atEod cur then pure () else .raise .parseError
  else pure ()

/-- The loop condition of `production::ForEach`. -/
def foreachCond (eodOk : Bool) (cur : View) : P Bool :=
  if eodOk then do
    let e ← atEod cur
    pure (!e)
  else pure true

/-- `pb.cc` 1736-1752 `production::ForEach`. -/
def foreachLoop (eodOk : Bool) (g : Parser) (stop : Val → Stop) (trim : Bool) :
    Nat → View → List Val → P (Val × View)
  | 0, _, _ => .diverge
  | f + 1, cur, acc => do
    if ← foreachCond eodOk cur then
      let r ← g trim cur
      match stop r.1 with
      | .go => do
        finishLoopBody cur.begin r.2
        foreachLoop eodOk g stop trim f r.2 (acc ++ [r.1])
      | .drop => pure (.list acc, r.2)
      | .keep => pure (.list (acc ++ [r.1]), r.2)
    else pure (.list acc, cur)

/-- `pb.cc` 1240-1292, `literals.cc` 136-141: trying the literals one after the other. `i` is the token's number, the last
    argument holds the best token so far with the offset of its end. The longest match wins; two of the same length are
    ambiguous. -/
def lahLoop (cur : View) : List (List Byte) → Nat → Option (Nat × Nat) → P (Option (Nat × Nat))
  | [], _, best => pure best
  | l :: ls, i, best => do
    let here ← (do
      if ← waitMin cur l.length then P.read (fun c => cur.startsWith c l) else pure false : P Bool)
    let stop := if here then cur.begin.offset + l.length else cur.begin.offset
    match best with
    | none => lahLoop cur ls (i + 1) (if stop ≠ cur.begin.offset then some (i, stop) else none)
    | some (j, e) =>
      if stop ≠ cur.begin.offset ∧ stop ≥ e then
        if stop = e then .raise .parseError else lahLoop cur ls (i + 1) (some (i, stop))
      else lahLoop cur ls (i + 1) (some (j, e))

/-- `pb.cc` 1128-1316 `getLookAhead` for bytes literals. The token is not consumed here; consuming it later
    (`literals.cc` 85-112) is modelled by parsing the literal. -/
def lahP (lits : List (List Byte)) (cur : View) : P Lah := do
  if ← atEod cur then pure .eod
  else match ← lahLoop cur lits 0 none with
    | some (i, _) => pure (.token i)
    | none => pure .none

/-- The view of all of a chain's data. -/
def wholeView (c : Chain) : Res View := do
  let i ← c.begin
  .ok ⟨i, none⟩

/-- `pb.cc` 1505-1521 `redirectInputToBytesValue`: parses a new, frozen stream without trimming; the original input stays
    where it is. -/
def parseFromP (bs : List Byte) (g : Parser) : Parser := fun _ cur c s =>
  match wholeView (Chain.ofBytes bs).freeze with
  | .ok v => match g false v (Chain.ofBytes bs).freeze [] with
    | .done r _ _ => .done (r.1, cur) c s
    | .throw e _ _ => .throw e c s
    | .suspended _ => .suspended c
    | .diverge => .diverge
    | .ub => .ub
  | .throw e => .throw e c s
  | .ub => .ub

/-- `pb.cc` 374-376: a unit that uses random access does not trim, nor do the units it calls. The grammar gets the offset where
    the unit begins, which `self.input()` and `self.offset()` are relative to. -/
def randomP (k : Nat → Parser) : Parser := fun _ cur => k cur.begin.offset false cur

/-- `pb.cc` 864-865, 1015, 1526-1537 `redirectInputToStreamPosition`: `&parse-at`. The view is moved to the position and keeps its
    end; there is no check that the position exists. Afterwards the original view is back. The position is given by its offset;
    iterators are made with `at()` here (`stream.h` 1073-1076), instead of adding to the iterator `self.input()`. -/
def parseAtP (p : Nat) (g : Parser) : Parser := fun _ cur => do
  let i ← P.read (fun c => c.at p)
  let r ← g false (cur.advanceTo i)
  pure (r.1, cur)

/-- `pb.cc` 630-757 `_parseProduction`: the parser for a grammar, given the parsers of the units it refers to. `f` bounds
    the rounds of loops that need not terminate. -/
def runWith (callee : Nat → Parser) (f : Nat) : G → Parser
  | .ret v => fun _ cur => pure (v, cur)
  | .fail e => fun _ _ => .raise e
  | .offset => fun _ cur => pure (.int cur.begin.offset, cur)
  | .unpack w n fn => unpackP w n fn
  | .bytesSize n => bytesSizeP false n
  | .bytesSizeEod n => bytesSizeP true n
  | .lit bs => litP bs
  | .until needle incl => untilP needle incl
  | .regexp A => regexP A
  | .eod => eodP
  | .chunkedEod => chunkedP
  | .skip n => skipP n
  | .skipEod => skipEodP
  | .seq g k => fun trim cur => do
    let r ← runWith callee f g trim cur
    runWith callee f (k r.1) trim r.2
  | .limit n g => limitP n (runWith callee f g)
  | .maxSize n g => maxSizeP n (runWith callee f g)
  | .try_ g => tryP (runWith callee f g)
  | .counter n g stop => fun trim cur => counterLoop (runWith callee f g) stop trim n cur []
  | .foreach eodOk g stop => fun trim cur => foreachLoop eodOk (runWith callee f g) stop trim f cur []
  | .lah lits k => fun trim cur => do
    let t ← lahP lits cur
    runWith callee f (k t) trim cur
  | .parseFrom bs g => parseFromP bs (runWith callee f g)
  | .random k => randomP (fun p => runWith callee f (k p))
  | .parseAt p g => parseAtP p (runWith callee f g)
  | .call i => callee i

/-- A parser for grammar `g`, where unit `i` is `Γ i`; `f` bounds loops and the nesting of units. -/
def run (Γ : Nat → G) : Nat → G → Parser
  | 0, _ => fun _ _ => .diverge
  | f + 1, g => runWith (fun i => run Γ f (Γ i)) f g

end Verif.Parse
