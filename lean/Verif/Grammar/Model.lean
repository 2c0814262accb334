import Verif.Grammar.Spec
/-
Model of the grammar layer of the Spicy compiler:
`spicy/toolchain/src/compiler/codegen/grammar.cc` and the productions under
`spicy/toolchain/include/compiler/detail/codegen/productions/`.
-/
namespace Verif.Grammar

/-- `production::look_ahead::Default` (productions/look-ahead.h 15-17). -/
inductive Default where
  | first
  | second
  | none
deriving DecidableEq, Repr

/-- The nonterminal production kinds (productions/*.h).  Simplified: conditions
are kept only as flags; meta data, filters and sinks are left out;
`production::Reference` and `production::Deferred` are followed (production.cc
`follow`, grammar.cc 41-56), so a symbol denotes the production itself. -/
inductive Prod where
  /-- `production::Unit` (unit.h 49-51) and `production::Sequence`
  (sequence.h 37-39). -/
  | seq (ss : List Sym)
  /-- `production::Block` (block.h 51-60); `cond` is set if it has an `if`. -/
  | block (cond : Bool) (ss els : List Sym)
  /-- `production::Enclosure` (enclosure.h 36). -/
  | enclosure (s : Sym)
  /-- `production::Counter` (counter.h 38). -/
  | counter (s : Sym)
  /-- `production::ForEach` (for-each.h 34). -/
  | forEach (s : Sym)
  /-- `production::While` in its look-ahead form (while.h 71-73, while.cc 27-62);
  `l1` is `_body_for_grammar`. -/
  | while_ (l1 : Nat)
  /-- `production::LookAhead` (look-ahead.h 62-64).  `loop` marks the `List1`
  production `While::preprocessLookAhead` creates (while.cc 44-49), which the
  parser only ever runs through the loop; it holds the loop's body. -/
  | lookAhead (a b : Sym) (d : Default) (loop : Option Sym)
  /-- `production::Switch` (switch.cc 10-20). -/
  | switch (cases : List Sym) (dflt : Option Sym)
deriving Repr

/-- `rhss()` of each production kind (same lines as above). -/
def Prod.rhss : Prod → List (List Sym)
  | .seq ss => [ss]
  | .block _ ss els => if els = [] then [ss] else [ss, els]
  | .enclosure s => [[s]]
  | .counter s => [[s]]
  | .forEach s => [[s]]
  | .while_ l1 => [[Sym.n l1]]
  | .lookAhead a b _ _ => [[a], [b]]
  | .switch cases d =>
    cases.map (fun c => [c]) ++ (match d with | some x => [[x]] | none => [])

/-- `class Grammar` (grammar.h): the nonterminals in insertion order
(`_nterms`), the productions (`_prods`) and the root.  Simplified: `_addProduction`
and `_simplify` (grammar.cc 94-154) are not modelled; what they establish is
`Gram.WF`. -/
structure Gram where
  nterms : List Nat
  prod : Nat → Prod
  root : Nat

/-- Right-hand sides of a nonterminal (`Grammar::_rhss`, grammar.cc 41-56). -/
def Gram.rhss (g : Gram) (p : Nat) : List (List Sym) := (g.prod p).rhss

/-- What `_addProduction` and `_simplify` (grammar.cc 94-154) establish: the
table of nonterminals contains the root, is closed under right-hand sides and
holds nothing unreachable. -/
structure Gram.WF (g : Gram) : Prop where
  root : g.root ∈ g.nterms
  closed : ∀ p ∈ g.nterms, ∀ r ∈ g.rhss p, ∀ q, Sym.n q ∈ r → q ∈ g.nterms
  reach : ∀ p ∈ g.nterms, Reachable g.rhss g.root p

/-- The tables `_nullable`, `_first`, `_follow` (grammar.h) and the loop's
`changed` flag.  Sets of symbols are duplicate-free lists. -/
structure Tab where
  nul : Nat → Bool
  first : Nat → List Nat
  follow : Nat → List Nat
  changed : Bool

/-- `Grammar::_isNullable(const Production*)` (grammar.cc 178-186). -/
def Tab.isNul (T : Tab) : Sym → Bool
  | .eps => true
  | .t _ => false
  | .n p => T.nul p

/-- `Grammar::_isNullable(i, j)` (grammar.cc 188-198). -/
def Tab.allNul (T : Tab) : List Sym → Bool
  | [] => true
  | x :: xs => if T.isNul x then T.allNul xs else false

/-- `Grammar::_getFirst` (grammar.cc 200-208). -/
def Tab.getFirst (T : Tab) : Sym → List Nat
  | .eps => []
  | .t i => [i]
  | .n p => T.first p

/-- `hilti::util::setUnion` (hilti/toolchain/include/base/util.h). -/
def union (a : List Nat) : List Nat → List Nat
  | [] => a
  | x :: xs => union (if x ∈ a then a else a ++ [x]) xs

/-- Table update. -/
def setAt {α : Type} (f : Nat → α) (k : Nat) (v : α) : Nat → α :=
  fun i => if i = k then v else f i

/-- `Grammar::_add` on `_first` (grammar.cc 158-176). -/
def Tab.addFirst (T : Tab) (dst : Nat) (src : List Nat) : Tab :=
  if (union (T.first dst) src).length = (T.first dst).length then T
  else { T with first := setAt T.first dst (union (T.first dst) src), changed := true }

/-- `Grammar::_add` on `_follow` (grammar.cc 158-176). -/
def Tab.addFollow (T : Tab) (dst : Nat) (src : List Nat) : Tab :=
  if (union (T.follow dst) src).length = (T.follow dst).length then T
  else { T with follow := setAt T.follow dst (union (T.follow dst) src), changed := true }

/-- The inner `for j` loop (grammar.cc 274-278): `mid` is what lies between
`next` and `j`. -/
def Tab.scanRest (T : Tab) (q : Nat) (mid : List Sym) : List Sym → Tab
  | [] => T
  | y :: ys =>
    (if T.allNul mid then T.addFollow q (T.getFirst y) else T).scanRest q (mid ++ [y]) ys

/-- The FOLLOW part for one right-hand side element `x` with the elements `rest`
after it (grammar.cc 265-278). -/
def Tab.followStep (T : Tab) (p : Nat) (x : Sym) (rest : List Sym) : Tab :=
  match x with
  | .n q => (if T.allNul rest then T.addFollow q (T.follow p) else T).scanRest q [] rest
  | _ => T

/-- The `for i` loop over one right-hand side (grammar.cc 259-279): `pre` is
what lies before `i`. -/
def Tab.scan (T : Tab) (p : Nat) (pre : List Sym) : List Sym → Tab
  | [] => T
  | x :: rest =>
    ((if T.allNul pre then T.addFirst p (T.getFirst x) else T).followStep p x rest).scan p
      (pre ++ [x]) rest

/-- One right-hand side (grammar.cc 250-280). -/
def Tab.rhsStep (T : Tab) (p : Nat) (r : List Sym) : Tab :=
  (if T.allNul r && !T.nul p then { T with nul := setAt T.nul p true, changed := true }
   else T).scan p [] r

/-- All right-hand sides of one nonterminal (grammar.cc 249-281). -/
def Tab.prodStep (T : Tab) (p : Nat) : List (List Sym) → Tab
  | [] => T
  | r :: rs => (T.rhsStep p r).prodStep p rs

/-- The `for sym : _nterms` loop (grammar.cc 246-282). -/
def Tab.pass (g : Gram) (T : Tab) : List Nat → Tab
  | [] => T
  | p :: ps => Tab.pass g (T.prodStep p (g.rhss p)) ps

/-- The tables at the start (grammar.cc 236-240). -/
def Tab.init : Tab := ⟨fun _ => false, fun _ => [], fun _ => [], false⟩

/-- `while ( true )` (grammar.cc 243-286), with fuel; `none` means that the fuel
ran out before the loop was left. -/
def loop (g : Gram) : Nat → Tab → Option Tab
  | 0, _ => none
  | k + 1, T =>
    let T' := Tab.pass g { T with changed := false } g.nterms
    if T'.changed then loop g k T' else some T'

/-- All terminals that occur in a right-hand side. -/
def Gram.terms (g : Gram) : List Nat :=
  g.nterms.flatMap fun p => (g.rhss p).flatMap fun r =>
    r.flatMap fun | .t i => [i] | _ => []

/-- Number of loop rounds allowed: one more than there are possible table
entries. -/
def Gram.rounds (g : Gram) : Nat := g.nterms.length * (1 + 2 * g.terms.length) + 1

/-- The table part of `Grammar::_computeTables` (grammar.cc 231-286). -/
def computeTables (g : Gram) : Option Tab := loop g g.rounds Tab.init

/-- `Grammar::lookAheadsForProduction` (grammar.cc 352-382) for alternative `s` of
the look-ahead production `parent`.  Simplified: the non-terminal error cannot
occur, as FIRST and FOLLOW sets hold terminals only. -/
def Tab.lookAheads (T : Tab) (s : Sym) (parent : Nat) : List Nat :=
  if T.isNul s then union (T.getFirst s) (T.follow parent) else T.getFirst s

/-- The two look-ahead sets of a production, if it is a look-ahead one
(grammar.cc 289-304). -/
def Tab.lahs (T : Tab) (g : Gram) (p : Nat) : Option (List Nat × List Nat) :=
  match g.prod p with
  | .lookAhead a b _ _ => some (T.lookAheads a p, T.lookAheads b p)
  | _ => none

/-- `Grammar::_check` (grammar.cc 318-350) for one nonterminal; `dump` is the
terminals' `dump()`.  The last test, for non-terminals, cannot fail. -/
def Tab.checkOne (T : Tab) (g : Gram) (dump : Nat → Nat) (p : Nat) : Bool :=
  match T.lahs g p with
  | none => true
  | some (l1, l2) =>
    if l1 = [] ∧ l2 = [] then false
    else !(l1.any fun x => l2.any fun y => dump x == dump y)

/-- `Grammar::_check` (grammar.cc 318-350): true if no error is reported. -/
def Tab.check (T : Tab) (g : Gram) (dump : Nat → Nat) : Bool :=
  g.nterms.all (T.checkOne g dump)

end Verif.Grammar
