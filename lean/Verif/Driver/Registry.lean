import Verif.Base
import Verif.Bytes.Split
import Verif.Bytes.Search
/-!
# Model of the parser registry

Compiled parsers register themselves when their library is loaded (`registerParser`), `spicy::rt::init` then builds the
tables of names and MIME types, and `registerParserAlias` adds further names. `lookupParser` and `Sink::connect_mime_type`
use the tables.

Sources: `spicy/runtime/src/init.cc`, `spicy/runtime/src/parser.cc`, `spicy/runtime/include/parser.h`,
`spicy/runtime/include/mime.h`, `spicy/runtime/src/sink.cc`.

A `const Parser*` is the position of the parser in the list of registered parsers. A `std::map` with vectors as values is a
function that gives the empty list for a key that is absent; the code only ever adds entries with `emplace_back`. Message
texts of errors are represented by constants.
-/

namespace Verif.Driver
open Verif.Bytes

/-- `parser.h` 33 `Direction`. -/
inductive Dir where
  | orig | resp | both | undef
  deriving DecidableEq, Repr

/-- `mime.h` 35-146 `MIMEType`. An empty part means that the instance is not initialized. -/
structure Mime where
  main : Str
  sub : Str
  deriving DecidableEq, Repr

/-- `parser.h` 139-367 `Parser`: the members the registry uses. `ports` holds the textual form of the ports; `sinks` says
    that `__parse_sink` is set. -/
structure Parser where
  name : Str
  isPublic : Bool
  scope : Nat
  ports : List (Str × Dir)
  mimes : List Mime
  sinks : Bool
  deriving DecidableEq, Repr

/-- The text `*`. -/
def star : Str := [42]

/-- The text `/`. -/
def slash : Str := [47]

/-- The text `%orig`. -/
def pctOrig : Str := [37, 111, 114, 105, 103]

/-- The text `%resp`. -/
def pctResp : Str := [37, 114, 101, 115, 112]

/-- `mime.h` 54-66: the constructor from a string. -/
def Mime.ofText (s : Str) : Res Mime :=
  if s = star then .ok ⟨star, star⟩
  else
    let x := split1 s slash
    let main := trim isWs x.1
    let sub := trim isWs x.2
    if main = [] ∨ sub = [] then .throw .invalidArgument else .ok ⟨main, sub⟩

/-- `mime.h` 137-140 `ensureValid`. -/
def Mime.ensureValid (m : Mime) : Res Unit := if m.main = [] ∨ m.sub = [] then .throw .invalidArgument else .ok ()

/-- `mime.h` 83 `isWildcard`. -/
def Mime.isWildcard (m : Mime) : Bool := m.main = star ∨ m.sub = star

/-- `mime.h` 91 conversion to a string. -/
def Mime.text (m : Mime) : Res Str := m.ensureValid >>= fun _ => .ok (m.main ++ slash ++ m.sub)

/-- `mime.h` 100-110 `asKey`. -/
def Mime.asKey (m : Mime) : Res Str := m.ensureValid >>= fun _ =>
  if m.main = star then .ok []
  else if m.sub = star then .ok m.main
  else m.text

/-- The tables map a key to the parsers registered under it. -/
abbrev Table := Str → List Nat

/-- `table[key].emplace_back(p)`. -/
def Table.add (t : Table) (key : Str) (p : Nat) : Table := fun k => if k = key then t k ++ [p] else t k

/-- `global-state.h` 32-63 `GlobalState`: the members of the registry. -/
structure Registry where
  parsers : List Parser := []
  dflt : Option Nat := none
  byName : Table := fun _ => []
  byMime : Table := fun _ => []
  initialized : Bool := false

/-- `parser.h` 461-470 `registerParser`. -/
def Registry.register (r : Registry) (p : Parser) : Registry := { r with parsers := r.parsers ++ [p] }

/-- `init.cc` 34-39: the choice of the default parser, one round. -/
def pickDefault (d : Option Nat) (p : Parser) (i : Nat) : Option Nat :=
  if p.isPublic then (if d = none then some i else none) else d

/-- `init.cc` 43-59: one port. -/
def addPort (t : Table) (i : Nat) (x : Str × Dir) : Table := match x.2 with
  | .orig => t.add (x.1 ++ pctOrig) i
  | .resp => t.add (x.1 ++ pctResp) i
  | .both => ((t.add x.1 i).add (x.1 ++ pctOrig) i).add (x.1 ++ pctResp) i
  | .undef => t

/-- `init.cc` 61-66: the MIME types of a parser. -/
def addMimes (i : Nat) : List Mime → Table × Table → Res (Table × Table)
  | [], ts => .ok ts
  | m :: ms, ts => do
    let names ← (if m.isWildcard then .ok ts.1 else m.text >>= fun t => .ok (ts.1.add t i))
    let key ← m.asKey
    addMimes i ms (names, ts.2.add key i)

/-- `init.cc` 33-67: the loop over the parsers, from position `i`. -/
def initLoop : Nat → List Parser → Option Nat → Table × Table → Res (Option Nat × Table × Table)
  | _, [], d, ts => .ok (d, ts)
  | i, p :: ps, d, ts => do
    let names := p.ports.foldl (fun t x => addPort t i x) (ts.1.add p.name i)
    let ts ← addMimes i p.mimes (names, ts.2)
    initLoop (i + 1) ps (pickDefault d p i) ts

/-- `init.cc` 17-86 `init`. -/
def Registry.init (r : Registry) : Res Registry :=
  if r.initialized then .ok r
  else do
    let (d, names, mimes) ← initLoop 0 r.parsers none (r.byName, r.byMime)
    pure { r with dflt := d, byName := names, byMime := mimes, initialized := true }

/-- `parser.cc` 50-63: the search for the parser to alias. -/
def findPublic (name : Str) : Nat → List Parser → Option Nat
  | _, [] => none
  | i, p :: ps => if p.isPublic ∧ p.name = name then some i else findPublic name (i + 1) ps

/-- The outcomes of the functions that return a `Result`. -/
inductive Err where
  | emptyName | emptyAlias | unknownParser | noParsers | needSelection | multiple | noMatch
  deriving DecidableEq, Repr

/-- `parser.cc` 42-67 `registerParserAlias`: the state afterwards, and the error if any. -/
def Registry.alias (r : Registry) (parser al : Str) : Registry × Option Err :=
  if parser = [] then (r, some .emptyName)
  else if al = [] then (r, some .emptyAlias)
  else match findPublic parser 0 r.parsers with
    | none => (r, some .unknownParser)
    | some i =>
      let t := r.byName.add al i
      ({ r with byName := if (37 : Byte) ∈ al then t else (t.add (al ++ pctOrig) i).add (al ++ pctResp) i }, none)

/-- `parser.cc` 69-97 `lookupParser`. -/
def Registry.lookup (r : Registry) (name : Str) (scope : Option Nat) : Except Err Nat :=
  if r.parsers.filter (·.isPublic) = [] then .error .noParsers
  else if name = [] then match r.dflt with
    | some d => .ok d
    | none => .error .needSelection
  else
    let l := r.byName name
    if l.length > 1 then .error .multiple
    else match l.find? (fun i => scope = none ∨ (r.parsers[i]?.map (·.scope)) = scope) with
      | some i => .ok i
      | none => .error .noMatch

/-- `sink.cc` 397-419: the function `connect_matching`: the parsers it connects, in order. -/
def Registry.matching (r : Registry) (scope : Nat) (m : Mime) : Res (List Nat) := m.asKey >>= fun key =>
  .ok ((r.byMime key).filter (fun i => match r.parsers[i]? with
    | some p => (p.isPublic || p.scope == scope) && p.sinks
    | none => false))

/-- `sink.cc` 396-424 `Sink::connect_mime_type`: the parsers that get connected to the sink, in order. -/
def Registry.connectMime (r : Registry) (m : Mime) (scope : Nat) : Res (List Nat) := do
  let a ← r.matching scope m
  let _ ← m.ensureValid      -- `mt.mainType()`
  let b ← r.matching scope ⟨m.main, star⟩
  let c ← r.matching scope ⟨star, star⟩
  pure (a ++ b ++ c)

end Verif.Driver
