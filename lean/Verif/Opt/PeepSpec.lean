import Verif.Opt.Peep

/-!
# The peephole pass: specification
-/

namespace Verif.Opt.Peep

/-- What an observer sees: how a run ended, the variables and the output. -/
inductive Seen
  | done (vars : Nat → Int) (out : List Int)
  | ret (v : Int) (vars : Nat → Int) (out : List Int)
  | exn (t : Nat) (vars : Nat → Int) (out : List Int)

/-- What an observer sees of a run that has finished. -/
def seen : Option R → Option Seen
  | some (.done s) => some (.done s.vars s.out)
  | some (.ret v s) => some (.ret v s.vars s.out)
  | some (.exn t s) => some (.exn t s.vars s.out)
  | none => none

/-- The error field is read. -/
def usesErr : Ex → Bool
  | .lit _ | .var _ => false
  | .getErr => true
  | .ext _ a b | .seq a b => usesErr a || usesErr b
  | .ite c a b => usesErr c || usesErr a || usesErr b
  | .grp _ i e => usesErr i || usesErr e
  | .set _ e | .setErr e | .move e => usesErr e

/-- What is moved. -/
def core : Ex → Ex
  | .move e => core e
  | e => e

/-- Does the error field hold something after the expression that may be looked at? It does after it was set, until it
is taken back. -/
def afterX (fr : Bool) : Ex → Bool
  | .setErr _ => true
  | .set _ .getErr => false
  | _ => fr

/-- Does the error field hold something after the statement that may be looked at? Not after nested blocks. -/
def after (fr : Bool) : Sm → Bool
  | .expr e => afterX fr (core e)
  | .dvoid | .hook _ => fr
  | _ => false

mutual
/-- The error field is looked at (by hooks, too) only where it holds something. -/
def okS (fr : Bool) : Sm → Bool
  | .expr e => fr || ! usesErr e
  | .dvoid | .throw _ | .rethrow => true
  | .hook _ => fr
  | .cond c a b => (fr || ! usesErr c) && okL fr a && okL fr b
  | .loop c b => ! usesErr c && okL false b
  | .try_ b cs => okL fr b && okC cs
  | .ret e => fr || ! usesErr e
  | .block b => okL fr b
/-- The same for statement lists. -/
def okL (fr : Bool) : Sms → Bool
  | .nil => true
  | .cons a rest => okS fr a && okL (after fr a) rest
/-- The same for catch blocks. -/
def okC : Cts → Bool
  | .nil => true
  | .cons _ _ b rest => okL false b && okC rest
end

end Verif.Opt.Peep
