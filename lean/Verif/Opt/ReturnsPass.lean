import Verif.Opt.Returns

/-!
# The pass that removes what functions return only as they got it

`hilti/toolchain/src/compiler/optimizer/passes/propagate-function-returns.cc`, function by function. Not modelled: tuple assignments whose source is a
grouping with a temporary (`:124-127`, made for coercions), and coerced tuples in `return` (`:336`, `:376`): an assignment has the call itself as its
source. IDs of parameters are numbers. A global's ID is qualified, so that it is never that of a parameter.
-/

namespace Verif.Opt.Ret

open Whole (Fn Kind)

/-! ## Uses of a function -/

/-- A call, by what it is part of: `(ts) = f(as)`, `return f(as)` in the function `g`, or anything else. `CollectorCallers`
    (`collector-callers.h`), and what `:124-131` and `:229` look at. -/
inductive Use where
  | asg (ts : List Lhs) (as : Exprs)
  | tail (g : Fn)
  | other

section
variable (f : Fn)

mutual
/-- Calls of `f` within an expression. -/
def Expr.uses : Expr → List Use
  | .lit _ => []
  | .name _ => []
  | .fld _ => []
  | .op _ as => as.uses
  | .tup as => as.uses
  | .call h as => (if h = f then [.other] else []) ++ as.uses
/-- Calls of `f` within expressions. -/
def Exprs.uses : Exprs → List Use
  | .nil => []
  | .cons e r => e.uses ++ r.uses
end

/-- Calls of `f` in the source of a tuple assignment. -/
def asgUses (ts : List Lhs) : Expr → List Use
  | .call h as => (if h = f then [.asg ts as] else []) ++ as.uses f
  | e => e.uses f

/-- Calls of `f` in a `return` of the function `g`. -/
def retUses (g : Fn) : Option Expr → List Use
  | none => []
  | some (.call h as) => (if h = f then [.tail g] else []) ++ as.uses f
  | some e => e.uses f

mutual
/-- Calls of `f` in a statement of the function `g`. -/
def Stmt.uses (g : Fn) : Stmt → List Use
  | .expr e => e.uses f
  | .set _ e => e.uses f
  | .tset ts e => asgUses f ts e
  | .decl _ e => e.uses f
  | .ret e => retUses f g e
  | .throw_ e => e.uses f
  | .brk => []
  | .cont => []
  | .block b => b.uses g
  | .ite q t e => q.uses f ++ (t.uses g ++ e.uses g)
  | .while_ q b => q.uses f ++ b.uses g
  | .try_ b h => b.uses g ++ h.uses g
/-- Calls of `f` in statements of the function `g`. -/
def Stmts.uses (g : Fn) : Stmts → List Use
  | .nil => []
  | .cons s r => s.uses g ++ r.uses g
end
end

/-- All calls of a function. `CollectorCallers::uses`. -/
def Prog.uses (P : Prog) (f : Fn) : List Use := P.flatMap fun x => x.2.body.uses f x.1

/-! ## Placements -/

/-- Which parameter a name is passed for: the last one. A name is looked up by its ID; within one statement an ID is one variable. `makeParamMap`, `:18-29`. -/
def paramOf : List Nat → Exprs → Name → Option Nat
  | p :: ps, .cons (.name y) r, x => match paramOf ps r x with
    | some q => some q
    | none => if x = y then some p else none
  | _ :: ps, .cons _ r, x => paramOf ps r x
  | _, _, _ => none

/-- What one use expects at a position. `:154-158`. -/
def entry (params : List Nat) (as : Exprs) : Lhs → Option Nat
  | .name x => paramOf params as x
  | .fld _ => none

/-- What all uses up to now agree on, and the next one. `:153-164`. -/
def agree : List (Option Nat) → List (Option Nat) → List (Option Nat)
  | r, [] => r
  | [], e => e
  | r :: rs, e :: es => (if r = e then r else none) :: agree rs es

/-- All uses; `none` if one is no tuple assignment. `:123-165`. -/
def placesOf (params : List Nat) : List Use → List (Option Nat) → Option (List (Option Nat))
  | [], r => some r
  | .asg ts as :: us, r => placesOf params us (agree r (ts.map (entry params as)))
  | _ :: _, _ => none

/-- Parameters at two positions are removed. `:167-180`. -/
def dedup (r : List (Option Nat)) : List (Option Nat) :=
  r.map fun x => if x.isSome ∧ r.count x > 1 then none else x

/-- `calculatePlacements`, `:117-183`. -/
def calculate (params : List Nat) (us : List Use) : List (Option Nat) :=
  if us.isEmpty then [] else
  match placesOf params us [] with
  | some r => dedup r
  | none => []

/-- `CollectorPlacements::Placements`, `:67-86`. -/
structure Placements where
  pl : List (Option Nat) := []
  tailCaller : Option Fn := none
  tailCallee : Option Fn := none

/-- `fn_placements` and `revisit`, `:88-92`. -/
structure Col where
  m : Fn → Option Placements := fun _ => none
  revisit : List Fn := []

/-- The entry of a function (`fn_placements[f]`). -/
def Col.at (c : Col) (f : Fn) : Placements := (c.m f).getD {}

/-- Change the entry of a function. -/
def Col.upd (c : Col) (f : Fn) (k : Placements → Placements) : Col :=
  { c with m := fun g => if g = f then some (k (c.at f)) else c.m g }

/-- `mergePlacements`, `:104-109`. -/
def Col.merge (c : Col) (self other : Fn) : Col :=
  if (c.at self).tailCaller.isSome then c.upd self fun p => { p with pl := (c.at other).pl }
  else c.upd other fun p => { p with pl := (c.at self).pl }

/-- Calls in `return` statements. `none` as the second component: `return` from `collectFn`. `:226-276`. -/
def tails (P : Prog) (f : Fn) (revisiting : Bool) : List Use → Col → Col × Bool
  | [], c => (c, true)
  | .tail g :: us, c =>
    if (c.at f).tailCallee.isNone then
      if (c.m g).isNone ∨ (c.at g).pl.isEmpty then (if revisiting then c else { c with revisit := f :: c.revisit }, false)
      else if (c.at g).tailCallee.isSome ∧ (c.at g).tailCallee ≠ some f then
        ((c.upd g fun p => { p with pl := [] }).upd f fun p => { p with pl := [] }, false)
      else if ((Prog.get P f).bind Fun.res) ≠ ((Prog.get P g).bind Fun.res) then
        ((c.upd g fun p => { p with pl := [] }).upd f fun p => { p with pl := [] }, false)
      else
        tails P f revisiting us
          (((c.upd f fun p => { p with tailCaller := some g }).upd g fun p => { p with tailCallee := some f }).merge f g)
    else if (c.at f).tailCaller.isSome then (c.upd f fun p => { p with pl := [] }, false)
    else tails P f revisiting us c
  | _ :: us, c =>
    if (c.at f).tailCaller.isSome then (c.upd f fun p => { p with pl := [] }, false) else tails P f revisiting us c

/-- What follows. `:278-303`. -/
def settle (F : Fun) (n : Nat) (us : List Use) (f : Fn) (c : Col) : Col :=
  let c := if (c.at f).tailCaller.isNone ∧ (c.at f).pl.isEmpty then c.upd f fun p => { p with pl := calculate F.params us } else c
  if (c.at f).pl.length ≠ n then c.upd f fun p => { p with pl := [] }
  else match (c.at f).tailCallee with
    | some h => c.merge f h
    | none => c

/-- `collectFn`, `:185-304`. -/
def collectFn (P : Prog) (f : Fn) (F : Fun) (revisiting : Bool) (c : Col) : Col :=
  if ¬ revisiting ∧ (c.m f).isSome then c else
  let c := if (c.m f).isSome then c else c.upd f id
  if F.fixed ∨ F.ext then c else
  match F.res with
  | none => c
  | some ts =>
    let us := P.uses f
    if us.isEmpty then c else
    match tails P f revisiting us c with
    | (c, false) => c
    | (c, true) => settle F ts.length us f c

/-- A first visit of all functions. `:96`. -/
def visitAll (P : Prog) : Prog → Col → Col
  | [], c => c
  | (f, F) :: Q, c => visitAll P Q (collectFn P f F false c)

/-- Functions to be visited again; a set of pointers, so in any order. `:97-99`. -/
def visitAgain (P : Prog) : List Fn → Col → Col
  | [], c => c
  | f :: fs, c => visitAgain P fs (match Prog.get P f with | some F => collectFn P f F true c | none => c)

/-- `CollectorPlacements::run`, `:94-101`. -/
def collect (ord : List Fn → List Fn) (P : Prog) : Col :=
  let c := visitAll P P {}
  visitAgain P (ord c.revisit) c

/-! ## Pruning -/

/-- IDs of local variables. -/
def Name.ids : Name → List Nat
  | .loc x => [x.id]
  | .glob _ => []

section
variable (meth : Fn → Bool)

mutual
/-- IDs of names in an expression other than direct arguments of methods. `CollectorPrunePlacements::operator()(expression::Name*)`, `:319-352`. -/
def Expr.ids : Expr → List Nat
  | .lit _ => []
  | .name x => x.ids
  | .fld _ => []
  | .op _ as => as.ids
  | .tup as => as.ids
  | .call f as => if meth f then as.inner else as.ids
/-- The same for a list. -/
def Exprs.ids : Exprs → List Nat
  | .nil => []
  | .cons e r => e.ids ++ r.ids
/-- The same for a list whose elements may be names. -/
def Exprs.inner : Exprs → List Nat
  | .nil => []
  | .cons (.name _) r => r.inner
  | .cons e r => e.ids ++ r.inner
end

/-- IDs in a `return`: names as elements of the tuple are fine. -/
def retIds : Option Expr → List Nat
  | none => []
  | some (.tup as) => as.inner meth
  | some e => e.ids meth

/-- IDs in a target. -/
def Lhs.ids : Lhs → List Nat
  | .name x => x.ids
  | .fld _ => []

mutual
/-- IDs in a statement that are no direct elements of a returned tuple and no direct arguments of methods. -/
def Stmt.ids : Stmt → List Nat
  | .expr e => e.ids meth
  | .set t e => t.ids ++ e.ids meth
  | .tset ts e => ts.flatMap Lhs.ids ++ e.ids meth
  | .decl _ e => e.ids meth
  | .ret e => retIds meth e
  | .throw_ e => e.ids meth
  | .brk => []
  | .cont => []
  | .block b => b.ids
  | .ite q t e => q.ids meth ++ (t.ids ++ e.ids)
  | .while_ q b => q.ids meth ++ b.ids
  | .try_ b h => b.ids ++ h.ids
/-- The same for statements. -/
def Stmts.ids : Stmts → List Nat
  | .nil => []
  | .cons s r => s.ids ++ r.ids
end
end

mutual
/-- The `return` statements of a statement. -/
def Stmt.rets : Stmt → List (Option Expr)
  | .ret e => [e]
  | .block b => b.rets
  | .ite _ t e => t.rets ++ e.rets
  | .while_ _ b => b.rets
  | .try_ b h => b.rets ++ h.rets
  | _ => []
/-- The `return` statements of statements. -/
def Stmts.rets : Stmts → List (Option Expr)
  | .nil => []
  | .cons s r => s.rets ++ r.rets
end

/-- Is this a name of that ID? -/
def Expr.isId (p : Nat) : Expr → Bool
  | .name (.loc x) => x.id == p
  | _ => false

/-- A `return` of a tuple has the name at the position. `:388-394`. -/
def retHas (i p : Nat) : Option Expr → Bool
  | some (.tup as) => match as.toList[i]? with
    | some e => e.isId p
    | none => false
  | _ => false

/-- Does a `return` return a tuple? `:367-386`. -/
def isTup : Option Expr → Bool
  | some (.tup _) => true
  | _ => false

/-- Is `P`'s function a method? -/
def Prog.meth (P : Prog) (f : Fn) : Bool :=
  match Prog.get P f with
  | some F => F.method
  | none => false

/-- What pruning leaves, by position. `CollectorPrunePlacements`, `:313-396`. All its steps only remove, so their order does not matter. -/
def pruneFrom (meth : Fn → Bool) (b : Stmts) : Nat → List (Option Nat) → List (Option Nat)
  | _, [] => []
  | i, none :: r => none :: pruneFrom meth b (i + 1) r
  | i, some p :: r => (if ! (b.ids meth).contains p && b.rets.all (retHas i p) then some p else none) :: pruneFrom meth b (i + 1) r

/-- The placements of a function after pruning. -/
def prune (meth : Fn → Bool) (b : Stmts) (pl : List (Option Nat)) : List (Option Nat) :=
  if b.rets.all isTup then pruneFrom meth b 0 pl else []

/-- All placements after pruning. -/
def prunedAll (P : Prog) (c : Col) : Fn → Placements := fun f =>
  match Prog.get P f with
  | some F => { c.at f with pl := prune P.meth F.body (c.at f).pl }
  | none => c.at f

/-! ## Rewriting -/

section
variable (P : Prog) (D : Fn → Placements)

/-- The placements by which a function and its uses are changed: those of the callee for a function that tail-calls. `:459-471`. -/
def idsOf (f : Fn) : List (Option Nat) :=
  match (D f).tailCallee with
  | some h => (D h).pl
  | none => (D f).pl

/-- Is the function changed? `:473-480`. -/
def changed (f : Fn) : Bool :=
  match Prog.get P f with
  | some F => (idsOf D f).any Option.isSome && (match F.res with | some ts => ts.length == (idsOf D f).length | none => false)
  | none => false

/-- What is left of a list: elements whose position has no placement. `newRet`, `:430-434`. -/
def left {α : Type} : List (Option Nat) → List α → List α
  | none :: ps, x :: xs => x :: left ps xs
  | some _ :: ps, _ :: xs => left ps xs
  | [], xs => xs
  | _, [] => []

/-- The new result: nothing, a single value, or a smaller tuple. `:436-440`. -/
def newRes (pl : List (Option Nat)) (F : Fun) : Option (List Nat) :=
  match F.res with
  | none => none
  | some ts => match left pl ts with
    | [] => none
    | [_] => none
    | ts => some ts

/-- A target that stays: a name that is not passed for a placed parameter. `:536-547`. -/
def keeps (params : List Nat) (as : Exprs) (pl : List (Option Nat)) : Lhs → Bool
  | .fld _ => false
  | .name x => match paramOf params as x with
    | none => true
    | some p => ! pl.contains (some p)

/-- The new assignment. `:549-562`. -/
def newAsg (ts : List Lhs) (e : Expr) : Stmt :=
  match ts with
  | [] => .expr e
  | [t] => .set t e
  | ts => .tset ts e

/-- A tuple assignment. `:498-563`. -/
def mutAsg (ts : List Lhs) : Expr → Stmt
  | .call f as =>
    if changed P D f ∧ (D f).tailCaller = none then
      match Prog.get P f with
      | some F => newAsg (ts.filter (keeps F.params as (idsOf D f))) (.call f as)
      | none => .tset ts (.call f as)
    else .tset ts (.call f as)
  | e => .tset ts e

/-- Elements of a returned tuple that stay: those that are not the name placed there. `:567-579`. -/
def staying : List (Option Nat) → List Expr → List Expr
  | some p :: ps, e :: es => if e.isId p then staying ps es else e :: staying ps es
  | none :: ps, e :: es => e :: staying ps es
  | [], es => es
  | _, [] => []

/-- The new `return`. `removeFromTupleCtor`, `:566-610`. -/
def newRet (pl : List (Option Nat)) (as : Exprs) : Option Expr :=
  if (staying pl as.toList).length = as.toList.length then some (.tup as) else
  match staying pl as.toList with
  | [] => none
  | [e] => some e
  | es => some (.tup (Exprs.ofList es))

/-- A `return` of the function `g`. `:612-644`. -/
def mutRet (g : Fn) : Option Expr → Option Expr
  | some (.tup as) => newRet (D g).pl as
  | e => e

mutual
/-- A statement of the function `g`. -/
def mutS (g : Fn) : Stmt → Stmt
  | .tset ts e => mutAsg P D ts e
  | .ret e => .ret (mutRet D g e)
  | .block b => .block (mutB g b)
  | .ite q t e => .ite q (mutB g t) (mutB g e)
  | .while_ q b => .while_ q (mutB g b)
  | .try_ b h => .try_ (mutB g b) (mutB g h)
  | s => s
/-- Statements of the function `g`. -/
def mutB (g : Fn) : Stmts → Stmts
  | .nil => .nil
  | .cons s r => .cons (mutS g s) (mutB g r)
end

/-- A function. `:443-492`. -/
def mutF (f : Fn) (F : Fun) : Fun :=
  { F with
    res := if changed P D f then newRes (idsOf D f) F else F.res
    body := mutB P D f F.body }
end

/-- **The pass**, `run`, `:647-658`. -/
def propagate (ord : List Fn → List Fn) (P : Prog) : Prog :=
  P.map fun x => (x.1, mutF P (prunedAll P (collect ord P)) x.1 x.2)

end Verif.Opt.Ret
