import Verif.Grammar.Model
/-
Model of the parsers that `parser-builder.cc` and `parsers/literals.cc` generate
for a grammar: a stack machine over the symbols still to be parsed.  Input is
complete (suspending for more input is the subject of the stream and parser
modules), so `waitForInputOrEod(n)` only tells whether `n` bytes are left.
-/
namespace Verif.Grammar

abbrev Byte := UInt8

/-- A terminal production: `production::Ctor` with a bytes constant (ctor.h),
`production::Skip` of one (skip.h; `skip = true`), or a `production::Variable`
of a fixed-size type (variable.h; not a literal).  Simplified: other literal
types (regular expressions, integers) and variable-size types are left out. -/
inductive Tm where
  | lit (b : List Byte) (skip : Bool)
  | var (len : Nat)
deriving DecidableEq, Repr

/-- `state().lahead`: `look_ahead::None`, `look_ahead::Eod` or a token ID
(parser-builder.h 88-103).  A token ID stands for the literal's value
(ctor.h 34-36, production.cc `tokenID`). -/
inductive Lah where
  | none
  | eod
  | tok (b : List Byte)
deriving DecidableEq, Repr

/-- The parser state: `cur` as an offset plus the input left, and the pending
look-ahead with the offset of its end (`lahead`, `lahead_end`). -/
structure St where
  pos : Nat
  rest : List Byte
  lah : Lah
  lend : Nat
deriving DecidableEq, Repr

/-- The literal of a terminal, if it is one (`isLiteral()`). -/
def Tm.lit? : Tm → Option (List Byte)
  | .lit b _ => some b
  | .var _ => Option.none

/-- Insertion into a list sorted by symbol. -/
def insertSym (x : Nat) : List Nat → List Nat
  | [] => [x]
  | y :: ys => if x ≤ y then x :: y :: ys else y :: insertSym x ys

/-- `production::Set` iterates in symbol order (production.h, `CompareProductions`);
terminals are numbered in that order. -/
def sortSyms : List Nat → List Nat
  | [] => []
  | x :: xs => insertSym x (sortSyms xs)

/-- One token of the loop "Parse non-regexps successively" (parser-builder.cc
1253-1303); `first` is `first_token`.  The result of `parseLiteral` in `Try` mode
(literals.cc 129-135) is `pos` if the literal is not there.  `none` is the
"ambiguous look-ahead token match" error. -/
def tryToken (tm : Nat → Tm) (st : St) (first : Bool) (i : Nat) : Option (St × Bool) :=
  match (tm i).lit? with
  | .none => some (st, first)
  | some b =>
    let m := if b.isPrefixOf st.rest then st.pos + b.length else st.pos
    if first then
      if m = st.pos then some (st, false)
      else some ({ st with lah := .tok b, lend := m }, false)
    else if m ≠ st.pos ∧ m ≥ st.lend then
      if st.lah ≠ .none ∧ m = st.lend then Option.none
      else some ({ st with lah := .tok b, lend := m }, false)
    else some (st, false)

/-- The loop over all tokens (parser-builder.cc 1253-1303). -/
def tryTokens (tm : Nat → Tm) (st : St) (first : Bool) : List Nat → Option St
  | [] => some st
  | i :: is =>
    match tryToken tm st first i with
    | .none => Option.none
    | some (st', f) => tryTokens tm st' f is

/-- `getLookAhead` (parser-builder.cc 1122-1330) in `LiteralMode::Try`. -/
def getLookAhead (tm : Nat → Tm) (st : St) (tokens : List Nat) : Option St :=
  if st.rest = [] then some { st with lah := .eod }
  else tryTokens tm st true tokens

/-- The branches of the switch `parseLookAhead` generates. -/
inductive Branch where
  | alt1
  | alt2
  | dflt
  | error
deriving DecidableEq, Repr

/-- Token IDs of the literals in a look-ahead set (parser-builder.cc 1957-1965). -/
def lits (tm : Nat → Tm) (l : List Nat) : List (List Byte) := l.filterMap fun i => (tm i).lit?

/-- The switch over the look-ahead symbol (parser-builder.cc 1967-2009). -/
def branch (tm : Nat → Tm) (l1 l2 : List Nat) (a b : Sym) (d : Default) (lah : Lah) : Branch :=
  match lah with
  | .tok x => if x ∈ lits tm l1 then .alt1 else if x ∈ lits tm l2 then .alt2 else .dflt
  | .none =>
    match d with
    | .first => .alt1
    | .second => .alt2
    | .none => .dflt
  | .eod =>
    if l1 = [] ∧ a = Sym.eps then .alt1
    else if l2 = [] ∧ b = Sym.eps then .alt2
    else .error

/-- `parseLookAhead` (parser-builder.cc 1945-2016): fetch a look-ahead symbol if
none is pending, then switch.  `none` is a parse error while fetching.
Simplified: no condition. -/
def parseLookAhead (tm : Nat → Tm) (l1 l2 : List Nat) (a b : Sym) (d : Default) (st : St) :
    Option (St × Branch) :=
  if st.lah = .none then
    match getLookAhead tm st (sortSyms (union l1 l2)) with
    | .none => Option.none
    | some st' => some (st', branch tm l1 l2 a b d st'.lah)
  else some (st, branch tm l1 l2 a b d st.lah)

/-- Parsing a literal or a fixed-size value (literals.cc 73-127 with
`consumeLookAhead`, parser-builder.cc 3079-3093; types.cc).  `inUse` is
`needToCheckForLookAhead` (literals.cc 59-74).  `none` is a parse error. -/
def parseTerm (inUse : List Byte → Bool) (st : St) : Tm → Option St
  | .lit b _ =>
    if inUse b ∧ st.lah ≠ .none then
      if st.lah ≠ .tok b then Option.none
      else if st.rest.take (st.lend - st.pos) ≠ b then Option.none
      else some { pos := st.lend, rest := st.rest.drop (st.lend - st.pos), lah := .none,
                  lend := st.lend }
    else if b.isPrefixOf st.rest then
      some { st with pos := st.pos + b.length, rest := st.rest.drop b.length }
    else Option.none
  | .var k =>
    if k ≤ st.rest.length then some { st with pos := st.pos + k, rest := st.rest.drop k }
    else Option.none

/-- What is left to do: parse a symbol; run the rest of a counted loop (`chk` if
its rounds have to move the position); check that a loop body has moved the
position (`finishLoopBody`, parser-builder.cc 3115-3121). -/
inductive K where
  | sym (s : Sym)
  | times (chk : Bool) (s : Sym) (k : Nat)
  | finish (q : Nat)
deriving DecidableEq, Repr

/-- The machine: work stack, parser state, and the values that user expressions
(conditions, switch expressions, repeat counts) will evaluate to. -/
structure Cfg where
  stack : List K
  st : St
  ds : List Nat

/-- Everything the generated code depends on: the grammar, its terminals, the
look-ahead sets in effect and the tokens in use as look-aheads. -/
structure Env where
  g : Gram
  tm : Nat → Tm
  la : Nat → List Nat × List Nat
  inUse : List Byte → Bool

/-- Parsing one nonterminal (parser-builder.cc, `ProductionVisitor`): Unit,
Sequence 2033-2036, Block 1637-1665, Enclosure 1730-1734, Switch 1760-1788,
Counter 1669-1728, ForEach 1736-1752, LookAhead 2018-2031, While 2094-2175.  `none` is a parse error.  Simplified: which branch a
condition or switch expression selects, and how often a counted or `ForEach` loop
runs, is read from `ds`. -/
def stepNt (e : Env) (p : Nat) (k : List K) (st : St) (ds : List Nat) : Option Cfg :=
  match e.g.prod p with
  | .seq ss => some ⟨ss.map K.sym ++ k, st, ds⟩
  | .block cond ss els =>
    if cond then
      match ds with
      | [] => Option.none
      | d :: ds' => some ⟨(if d = 0 then ss else els).map K.sym ++ k, st, ds'⟩
    else some ⟨ss.map K.sym ++ k, st, ds⟩
  | .enclosure s => some ⟨K.sym s :: k, st, ds⟩
  | .counter s =>
    match ds with
    | [] => Option.none
    | d :: ds' => some ⟨K.times false s d :: k, st, ds'⟩
  | .forEach s =>
    match ds with
    | [] => Option.none
    | d :: ds' => some ⟨K.times true s d :: k, st, ds'⟩
  | .while_ l1 => some ⟨K.sym (Sym.n l1) :: k, st, ds⟩
  | .lookAhead a b d loop =>
    match parseLookAhead e.tm (e.la p).1 (e.la p).2 a b d st with
    | .none => Option.none
    | some (st', br) =>
      match loop with
      | .none =>
        match br with
        | .alt1 => some ⟨K.sym a :: k, st', ds⟩
        | .alt2 => some ⟨K.sym b :: k, st', ds⟩
        | _ => Option.none
      | some body =>
        match br with
        | .alt1 => some ⟨k, st', ds⟩
        | .alt2 => some ⟨K.sym body :: K.finish st'.pos :: K.sym (Sym.n p) :: k, st', ds⟩
        | .dflt => some ⟨k, st', ds⟩
        | .error => Option.none
  | .switch cases dflt =>
    match ds with
    | [] => Option.none
    | d :: ds' =>
      match cases[d]? with
      | some s => some ⟨K.sym s :: k, st, ds'⟩
      | .none =>
        match dflt with
        | some s => some ⟨K.sym s :: k, st, ds'⟩
        | .none => Option.none

/-- One step of the generated parser; `none` is a parse error (or nothing left to
do). -/
def mstep (e : Env) (c : Cfg) : Option Cfg :=
  match c.stack with
  | [] => Option.none
  | K.sym Sym.eps :: k => some ⟨k, c.st, c.ds⟩
  | K.sym (Sym.t i) :: k =>
    match parseTerm e.inUse c.st (e.tm i) with
    | .none => Option.none
    | some st' => some ⟨k, st', c.ds⟩
  | K.sym (Sym.n p) :: k => stepNt e p k c.st c.ds
  | K.times _ _ 0 :: k => some ⟨k, c.st, c.ds⟩
  | K.times false s (m + 1) :: k => some ⟨K.sym s :: K.times false s m :: k, c.st, c.ds⟩
  | K.times true s (m + 1) :: k =>
    some ⟨K.sym s :: K.finish c.st.pos :: K.times true s m :: k, c.st, c.ds⟩
  | K.finish q :: k =>
    if c.st.pos = q ∧ c.st.rest ≠ [] then Option.none else some ⟨k, c.st, c.ds⟩

/-- Run for at most `n` steps. -/
def mrun (e : Env) : Nat → Cfg → Option Cfg
  | 0, c => some c
  | n + 1, c => if c.stack = [] then some c else
    match mstep e c with
    | .none => Option.none
    | some c' => mrun e n c'

/-- Steps of the generated parser. -/
inductive Reaches (e : Env) : Cfg → Cfg → Prop
  | refl (c : Cfg) : Reaches e c c
  | head {c c' d : Cfg} : mstep e c = some c' → Reaches e c' d → Reaches e c d

/-- Start of parsing: the root on the stack, no look-ahead pending
(parser-builder.cc 2423-2447). -/
def start (e : Env) (input : List Byte) (ds : List Nat) : Cfg :=
  ⟨[K.sym (Sym.n e.g.root)], ⟨0, input, .none, 0⟩, ds⟩

/-- The unit's parser accepts the first part of `input`, leaving `tail`. -/
def Accepts (e : Env) (input tail : List Byte) (ds : List Nat) : Prop :=
  ∃ c, Reaches e (start e input ds) c ∧ c.stack = [] ∧ c.st.rest = tail ∧ c.ds = []

/-- The environment `Grammar::finalize` produces from a grammar: look-ahead sets
from the tables (grammar.cc 289-312), and every token of such a set in use
(`lookAheadsInUse`, codegen.cc 77-78). -/
def Env.of (g : Gram) (tm : Nat → Tm) (T : Tab) : Env where
  g := g
  tm := tm
  la := fun p => (T.lahs g p).getD ([], [])
  inUse := fun b => g.nterms.any fun p =>
    match T.lahs g p with
    | some (l1, l2) => (lits tm l1).contains b || (lits tm l2).contains b
    | .none => false

/-- What bytes a terminal stands for: a literal for itself, a value for any bytes
of its size. -/
def TermYields : Tm → List Byte → Prop
  | .lit b _, bs => bs = b
  | .var k, bs => bs.length = k

/-- What bytes a string of terminals stands for. -/
inductive Yields (tm : Nat → Tm) : List Nat → List Byte → Prop
  | nil : Yields tm [] []
  | cons {i : Nat} {is : List Nat} {b bs : List Byte} : TermYields (tm i) b → Yields tm is bs →
      Yields tm (i :: is) (b ++ bs)

end Verif.Grammar
