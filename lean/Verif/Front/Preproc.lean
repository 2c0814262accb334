import Verif.Bytes.Model
/-!
# Model of conditional compilation

Sources: `hilti/toolchain/src/base/preprocessor.cc` (`preprocessor.cc`), `hilti/toolchain/include/base/preprocessor.h`
(`preprocessor.h`), `spicy/toolchain/src/compiler/parser/driver.cc` (`driver.cc`), `spicy/toolchain/src/compiler/parser/scanner.ll`
(`scanner.ll`), `hilti/runtime/include/util.h` (`util.h`).

The scanner is modelled by what it does with directives and with everything in between: the input is a list of pieces, each a
directive (a match of `@[a-zA-Z_][a-zA-Z_0-9-]*` with the trimmed rest of its line) or a piece of other text, of any type. How the
text is cut into tokens is not modelled.
-/

namespace Verif.Front

open Verif.Bytes (Str splitWs)
open Verif.Ints (digitsLoop)

/-- `util.h` 463-539 `atoi_n` for `int` and base 10: the number of characters consumed, as an `uint8_t`, and the number. Like
    `Verif.Ints.atoi64` with 32 bits. -/
def atoi32 (input : Str) : Res (Nat × Int) := match input with
  | [] => .throw .invalidArgument
  | c :: cs =>
    let neg := c = 45
    let sign := neg ∨ c = 43
    match digitsLoop (2 ^ 31) 10 (if sign then cs else c :: cs) 0 0 with
    | .throw e => .throw e
    | .ub => .ub
    | .ok (n, k) =>
      let s := if sign then k + 1 else k
      if s = 0 then .ok (0, 0)
      else .ok (s % 256, (if neg then (BitVec.ofInt 32 (-(n : Int))).toInt else (BitVec.ofNat 32 n).toInt))

/-- `preprocessor.h` 15 `_constants`: a value for each name, `none` for one that is not defined. -/
abbrev Consts := Str → Option Int

/-- `"!"` -/
def bang : Str := [33]
/-- `"@if"` -/
def dIf : Str := [64, 105, 102]
/-- `"@else"` -/
def dElse : Str := [64, 101, 108, 115, 101]
/-- `"@endif"` -/
def dEndif : Str := [64, 101, 110, 100, 105, 102]

/-- `preprocessor.cc` 90-104: comparing by the name of the operator; `none` is the error for an unknown one. -/
def compare (op : Str) (have_ want : Int) : Option Bool :=
  if op = [61, 61] then some (have_ = want)
  else if op = [33, 61] then some (have_ ≠ want)
  else if op = [60] then some (have_ < want)
  else if op = [60, 61] then some (have_ ≤ want)
  else if op = [62] then some (have_ > want)
  else if op = [62, 61] then some (have_ ≥ want)
  else none

/-- `preprocessor.cc` 66-82: the operator and the number of an expression of one or three words. `none` is a reported error; the
    exceptions of `atoi_n` pass through. -/
def operand (m : List Str) : Res (Option (Str × Str × Int)) := match m with
  | [id] => .ok (some (id, [33, 61], 0))
  | [id, op, val] => match atoi32 val with
    | .ok (n, want) => if n = val.length then .ok (some (id, op, want)) else .ok none
    | .throw e => .throw e
    | .ub => .ub
  | _ => .ok none

/-- `preprocessor.cc` 52-107 `_parseIf`: `none` is a reported error. -/
def parseIf (consts : Consts) (expression : Str) : Res (Option Bool) :=
  let m := splitWs expression
  let negate : Bool := m.head? = some bang
  match operand (if negate then m.drop 1 else m) with
  | .throw e => .throw e
  | .ub => .ub
  | .ok none => .ok none
  | .ok (some (id, op, want)) =>
    match compare op ((consts id).getD 0) want with
    | none => .ok none
    | some result => .ok (some (if negate then !result else result))

/-- `preprocessor.h` 52 `state()`: true for `Include`. The head of the list is the back of `_stack`. -/
def included (stack : List Int) : Bool := match stack with
  | x :: _ => x = 1
  | [] => false

/-- `preprocessor.cc` 10-50 `processLine`: the new stack, or `none` for a reported error, which leaves the stack alone. -/
def processLine (consts : Consts) (stack : List Int) (directive expression : Str) : Res (Option (List Int)) :=
  if directive = dIf then
    if included stack then match parseIf consts expression with
      | .throw e => .throw e
      | .ub => .ub
      | .ok none => .ok none
      | .ok (some b) => .ok (some ((if b then 1 else 0) :: stack))
    else .ok (some (-1 :: stack))
  else if directive = dElse then
    if expression.length ≠ 0 then .ok none
    else if stack.length = 1 then .ok none
    else match stack with
      | x :: rest => .ok (some (if x ≥ 0 then (1 - x) :: rest else stack))
      | [] => .ub
  else if directive = dEndif then
    if expression.length ≠ 0 then .ok none
    else if stack.length = 1 then .ok none
    else match stack with
      | _ :: rest => .ok (some rest)
      | [] => .ub
  else .ok none

/-- A piece of a source file: text, or a directive and the trimmed rest of its line (`scanner.ll` 275-281). -/
inductive Piece (α : Type) where
  | text (t : α)
  | dir (directive expression : Str)

/-- The state of scanning: `preprocessor.h` 64 `_stack`; whether the scanner's state is `IGNORE`; the errors reported; and the text
    it hands to the parser. -/
structure Scan (α : Type) where
  stack : List Int
  ignore : Bool
  errors : Nat
  kept : List α

/-- `preprocessor.h` 64: what scanning starts with. -/
def Scan.init {α : Type} : Scan α := ⟨[1], false, 0, []⟩

/-- `scanner.ll` 275-281 (what happens in the states `IGNORE` and other ones), `driver.cc` 139-152 `processPreprocessorLine`,
    `scanner.ll` 345-354 `setIgnoreMode`. -/
def scanPiece {α : Type} (consts : Consts) (s : Scan α) : Piece α → Res (Scan α)
  | .text t => .ok (if s.ignore then s else { s with kept := s.kept ++ [t] })
  | .dir d e => match processLine consts s.stack d e with
    | .throw x => .throw x
    | .ub => .ub
    | .ok none => .ok { s with errors := s.errors + 1 }
    | .ok (some stack) => .ok { s with stack := stack, ignore := !included stack }

/-- Scanning a source file up to its end, where nothing is checked (`expectingDirective()`, `preprocessor.h` 58, is called
    nowhere). -/
def scan {α : Type} (consts : Consts) : List (Piece α) → Scan α → Res (Scan α)
  | [], s => .ok s
  | p :: ps, s => match scanPiece consts s p with
    | .throw x => .throw x
    | .ub => .ub
    | .ok s => scan consts ps s

end Verif.Front
