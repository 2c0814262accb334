import Verif.Driver.Feed
import Verif.Bytes.Search
/-!
# Model of batches: `Driver::processPreBatchedInput` and `spicy-batch-extract`

A batch is a file with the interleaved data of any number of flows and connections.

Sources: `spicy/runtime/src/driver.cc` 409-615, `spicy/runtime/include/driver.h` 148-190,
`spicy/toolchain/bin/spicy-batch-extract.cc`.

The parsers are an arbitrary machine (`Machine`): what one does with its state and with the context it shares with the other side of
its connection is left open. Memory of flows is explicit: the two flows of a connection are referred to by pointers into a table, so
a flow has an identity beyond its ID, and using a pointer to a flow that has been erased is undefined. Not modelled: debug output,
statistics, failing allocations (beyond the maximal length of a string).
-/

namespace Verif.Driver
open Verif.Bytes

/-! ## Reading -/

def sMagic : Str := [33, 115, 112, 105, 99, 121, 45, 98, 97, 116, 99, 104, 32, 118, 50]         -- !spicy-batch v2
def sBeginFlow : Str := [64, 98, 101, 103, 105, 110, 45, 102, 108, 111, 119]                    -- @begin-flow
def sBeginConn : Str := [64, 98, 101, 103, 105, 110, 45, 99, 111, 110, 110]                     -- @begin-conn
def sData : Str := [64, 100, 97, 116, 97]                                                       -- @data
def sGap : Str := [64, 103, 97, 112]                                                            -- @gap
def sEndFlow : Str := [64, 101, 110, 100, 45, 102, 108, 111, 119]                               -- @end-flow
def sEndConn : Str := [64, 101, 110, 100, 45, 99, 111, 110, 110]                                -- @end-conn
def sStream : Str := [115, 116, 114, 101, 97, 109]                                              -- stream
def sBlock : Str := [98, 108, 111, 99, 107]                                                     -- block

/-- A command with its arguments. -/
inductive Cmd where
  | beginFlow (id : Str) (kind : Kind) (parser : Str)
  | beginConn (cid : Str) (kind : Kind) (orig origParser resp respParser : Str)
  | data (id : Str) (bytes : List Byte)
  | gap (id : Str) (size : Nat)
  | endFlow (id : Str)
  | endConn (cid : Str)

/-- How reading a batch ends. -/
inductive Ending where
  | ok
  | notABatch | arguments | sessionType | premature | unknownCommand    -- the errors that are returned
  | throws                                                              -- an exception of `std::stoul` or of an allocation
  | undefined
  deriving DecidableEq, Repr

/-- `std::getline(in, line)` on a stream that is good: the line, what is left, and whether the stream is still good. -/
def getline (s : List Byte) : Str × List Byte × Bool := match s.findIdx? (· = 10) with
  | some i => (s.take i, s.drop (i + 1), true)
  | none => (s, [], false)

def isDigit (c : Byte) : Bool := 48 ≤ c ∧ c ≤ 57

/-- The number some digits stand for. -/
def number (s : Str) : Nat := s.foldl (fun a c => 10 * a + (c.toNat - 48)) 0

/-- `std::stoul` for a text without leading white space: a sign is accepted, and so is anything after the digits. -/
def stoul (s : Str) : Option Nat :=
  let neg := s.head? = some 45
  let s := if s.head? = some 45 ∨ s.head? = some 43 then s.tail else s
  let ds := s.takeWhile isDigit
  if ds = [] then none
  else if number ds ≥ 2 ^ 64 then none
  else some (if neg then (2 ^ 64 - number ds) % 2 ^ 64 else number ds)

/-- `std::string::max_size()` -/
def maxSize : Nat := 2 ^ 63 - 1

/-- `driver.cc` 452-459, 476-483: the kind of a session. -/
def kindOf (s : Str) : Option Kind := if s = sStream then some .stream else if s = sBlock then some .block else none

/-- `driver.cc` 525-534 (and `spicy-batch-extract.cc` 60-69): the bytes behind a `@data` line, and the newline after them. -/
def readData (size : Nat) (rest : List Byte) (good : Bool) : Option (List Byte × List Byte) :=
  if good ∧ size < rest.length then some (rest.take size, rest.drop (size + 1)) else none

inductive Parsed where
  | cmd (c : Cmd) (rest : List Byte)
  | stop (e : Ending)

/-- `driver.cc` 449-611: a line that is not empty, as words. -/
def parseCmd (ws : List Str) (rest : List Byte) (good : Bool) : Parsed := match ws with
  | [] => .stop .undefined
  | t :: args =>
    if t = sBeginFlow then match args with
      | [id, k, p] => match kindOf k with
        | some k => .cmd (.beginFlow id k p) rest
        | none => .stop .sessionType
      | _ => .stop .arguments
    else if t = sBeginConn then match args with
      | [cid, k, o, po, r, pr] => match kindOf k with
        | some k => .cmd (.beginConn cid k o po r pr) rest
        | none => .stop .sessionType
      | _ => .stop .arguments
    else if t = sData then match args with
      | [id, n] => match stoul n with
        | none => .stop .throws
        | some n => if n ≥ maxSize then .stop .throws else match readData n rest good with
          | some (d, rest') => .cmd (.data id d) rest'
          | none => .stop .premature
      | _ => .stop .arguments
    else if t = sGap then match args with
      | [id, n] => match stoul n with
        | none => .stop .throws
        | some n => .cmd (.gap id n) rest
      | _ => .stop .arguments
    else if t = sEndFlow then match args with
      | [id] => .cmd (.endFlow id) rest
      | _ => .stop .arguments
    else if t = sEndConn then match args with
      | [cid] => .cmd (.endConn cid) rest
      | _ => .stop .arguments
    else .stop .unknownCommand

/-- `driver.cc` 441-611: the loop; each command is executed before the next one is read. -/
def readLoop : Nat → List Byte → List Cmd × Ending
  | 0, _ => ([], .ok)
  | n + 1, s =>
    let l := getline s
    let cmd := trim isWs l.1
    if cmd = [] then (if l.2.2 then readLoop n l.2.1 else ([], .ok))
    else match parseCmd (splitWs cmd) l.2.1 l.2.2 with
      | .stop e => ([], e)
      | .cmd c rest => if l.2.2 then let r := readLoop n rest; (c :: r.1, r.2) else ([c], .ok)

/-- `driver.cc` 410-414: the first line. -/
def readBatch (s : List Byte) : List Cmd × Ending :=
  let l := getline s
  if l.1 ≠ sMagic then ([], .notABatch)
  else if l.2.2 then readLoop (s.length + 1) l.2.1 else ([], .ok)

/-! ## Executing -/

/-- What can happen to a parser. -/
inductive Event where
  | data (bs : List Byte)
  | gap (n : Nat)
  | finish

/-- Parsers: how they are found, the context they have, and what a `ParsingState` with one of them does. -/
structure Machine where
  Par : Type
  St : Type
  Ctx : Type
  Out : Type
  lookup : Str → Option Par                                       -- `lookupParser`
  context : Par → Option Ctx                                      -- `Parser::createContext`
  init : Par → Kind → St
  step : Par → Kind → St → Option Ctx → Event → Option (St × Option Ctx × List Out)     -- none: the call does not return

/-- `driver.h` 151-186 `ParsingStateForDriver`; the context is a reference. -/
structure Flow (M : Machine) where
  par : M.Par
  kind : Kind
  st : M.St
  ctx : Option (Str × Nat)

/-- `driver.h` 188-194 `ConnectionState`; the pointers by the identity of what they point to. -/
structure Conn where
  origId : Str
  respId : Str
  orig : Option Nat
  resp : Option Nat

/-- The tables. `gen id` is the identity of the entry for `id` if there is one; `ctxs` are the contexts that were created, named by the
    ID of the flow they were created for and a number. -/
structure World (M : Machine) where
  flows : Str → Option (Flow M) := fun _ => none
  gen : Str → Nat := fun _ => 0
  conns : Str → Option Conn := fun _ => none
  ctxs : Str → Nat → Option M.Ctx := fun _ _ => none
  made : Str → Nat := fun _ => 0
  log : List (Str × M.Out) := []

/-- How executing ends. -/
inductive Exec (α : Type) where
  | ok (a : α)
  | stuck        -- a parser does not return
  | ub           -- undefined behaviour
  deriving DecidableEq

def Exec.bind {α β : Type} : Exec α → (α → Exec β) → Exec β
  | .ok a, f => f a
  | .stuck, _ => .stuck
  | .ub, _ => .ub

/-- An update of a table. -/
def set {β : Type} (f : Str → β) (k : Str) (v : β) : Str → β := fun x => if x = k then v else f x

variable {M : Machine}

/-- `unordered_map::erase`: a new entry for that ID will be another one. -/
def World.erase (w : World M) (id : Str) : World M :=
  { w with flows := set w.flows id none, gen := set w.gen id (w.gen id + 1) }

/-- `driver.cc` 423-428: the context: the given one, or a new one if the parser has any. -/
def World.contextFor (w : World M) (p : M.Par) (id : Str) : Option (Str × Nat) → World M × Option (Str × Nat)
  | some c => (w, some c)
  | none => match M.context p with
    | none => (w, none)
    | some c => ({ w with ctxs := set w.ctxs id (fun n => if n = w.made id then some c else w.ctxs id n), made := set w.made id (w.made id + 1) },
        some (id, w.made id))

/-- `driver.cc` 420-441 `create_state`: the context, if a parser was found. -/
def World.create (w : World M) (kind : Kind) (parser id : Str) (ctx : Option (Str × Nat)) : World M × Option (Option (Str × Nat)) :=
  match M.lookup parser with
  | none => (w, none)
  | some p =>
    let x := w.contextFor p id ctx
    ({ x.1 with flows := set x.1.flows id (some ⟨p, kind, M.init p kind, x.2⟩) }, some x.2)

/-- What context a reference refers to. -/
def World.context (w : World M) : Option (Str × Nat) → Option M.Ctx
  | none => none
  | some r => w.ctxs r.1 r.2

/-- A parser changes the context of its flow. -/
def World.setContext (w : World M) (r : Option (Str × Nat)) (c : Option M.Ctx) : World M := match r with
  | none => w
  | some r => { w with ctxs := set w.ctxs r.1 (fun n => if n = r.2 then c else w.ctxs r.1 n) }

/-- `driver.cc` 538-547, 556-565, 574-580: a flow gets something to do; if it throws, that is printed. -/
def World.feed (w : World M) (id : Str) (ev : Event) : Exec (World M) := match w.flows id with
  | none => .ok w
  | some f => match M.step f.par f.kind f.st (w.context f.ctx) ev with
    | none => .stuck
    | some (st, c, out) =>
      let w := w.setContext f.ctx c
      .ok { w with flows := set w.flows id (some { f with st := st }), log := w.log ++ out.map (id, ·) }

/-- `driver.cc` 592-606: a flow of a connection is finished through its pointer. -/
def World.finishPtr (w : World M) (id : Str) : Option Nat → Exec (World M)
  | none => .ok w
  | some n => if (w.flows id).isSome ∧ w.gen id = n then w.feed id .finish else .ub

/-- `driver.cc` 449-611: one command. -/
def World.exec (w : World M) : Cmd → Exec (World M)
  | .beginFlow id kind parser => .ok (w.create kind parser id none).1
  | .beginConn cid kind o po r pr => match w.conns cid with
    | some _ => .ok w
    | none =>
      let x := w.create kind po o none
      let y := x.1.create kind pr r (x.2.getD none)
      if x.2.isNone ∧ y.2.isNone then .ok ((y.1.erase o).erase r)
      else .ok { y.1 with conns := set y.1.conns cid (some ⟨o, r, x.2.map (fun _ => y.1.gen o), y.2.map (fun _ => y.1.gen r)⟩) }
  | .data id bs => w.feed id (.data bs)
  | .gap id n => w.feed id (.gap n)
  | .endFlow id => match w.flows id with
    | none => .ok w
    | some _ => (w.feed id .finish).bind (fun w => .ok (w.erase id))
  | .endConn cid => match w.conns cid with
    | none => .ok w
    | some c =>
      (w.finishPtr c.origId c.orig).bind (fun w =>
        (w.finishPtr c.respId c.resp).bind (fun w =>
          let w := (w.erase c.origId).erase c.respId
          .ok { w with conns := set w.conns cid none }))

/-- All commands. -/
def World.run (w : World M) : List Cmd → Exec (World M)
  | [] => .ok w
  | c :: cs => (w.exec c).bind (fun w => w.run cs)

/-- `driver.cc` 409-615 `processPreBatchedInput`. -/
def processBatch (M : Machine) (s : List Byte) : Exec (World M) × Ending :=
  (World.run (M := M) {} (readBatch s).1, (readBatch s).2)

/-! ## `spicy-batch-extract` -/

/-- `spicy-batch-extract.cc` 38-94: what is written for a line, with the needles after it and what is left to be read. -/
def extractCmd (needles : List Str) (cmd : Str) (ws : List Str) (rest : List Byte) (good : Bool) :
    Except Ending (List Byte × List Str × List Byte) :=
  let out := fun (id : Str) (more : List Byte) => if id ∈ needles then cmd ++ [10] ++ more else []
  match ws with
  | [] => .error .undefined
  | t :: args =>
    if t = sBeginFlow then match args with
      | [id, _, _] => .ok (out id [], needles, rest)
      | _ => .error .arguments
    else if t = sBeginConn then match args with
      | [cid, _, o, _, r, _] => .ok (out cid [], if cid ∈ needles then o :: r :: needles else needles, rest)
      | _ => .error .arguments
    else if t = sData then match args with
      | [id, n] => match stoul n with
        | none => .error .throws
        | some n => if n ≥ maxSize then .error .throws else match readData n rest good with
          | some (d, rest') => .ok (out id (d ++ [10]), needles, rest')
          | none => .error .premature
      | _ => .error .arguments
    else if t = sEndFlow then match args with
      | [id] => .ok (out id [], needles, rest)
      | _ => .error .arguments
    else if t = sEndConn then match args with
      | [cid] => .ok (out cid [], needles, rest)
      | _ => .error .arguments
    else .error .unknownCommand

/-- `spicy-batch-extract.cc` 27-96: the loop. -/
def extractLoop : Nat → List Str → List Byte → List Byte × Ending
  | 0, _, _ => ([], .ok)
  | n + 1, needles, s =>
    let l := getline s
    let cmd := trim isWs l.1
    if cmd = [] then (if l.2.2 then extractLoop n needles l.2.1 else ([], .ok))
    else match extractCmd needles cmd (splitWs cmd) l.2.1 l.2.2 with
      | .error e => ([], e)
      | .ok (out, needles', rest) => if l.2.2 then let r := extractLoop n needles' rest; (out ++ r.1, r.2) else (out, .ok)

/-- `spicy-batch-extract.cc` 15-97 `processPreBatchedInput`: what is written to the output. -/
def extract (needle : Str) (s : List Byte) : List Byte × Ending :=
  let l := getline s
  if l.1 ≠ sMagic then ([], .notABatch)
  else
    let r := if l.2.2 then extractLoop (s.length + 1) [needle] l.2.1 else ([], .ok)
    (sMagic ++ [10] ++ r.1, r.2)

end Verif.Driver
