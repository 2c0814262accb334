/-!
# The peephole pass

Models `hilti/toolchain/src/compiler/optimizer/passes/peephole.cc`: locals of groupings, moves as statements,
`default<void>` statements, pushes and pops of the error, and catch blocks that only rethrow.

Simplifications: values are integers; a grouping has one local or two expressions; no function calls other than hooks.
-/

namespace Verif.Opt.Peep

/-- The environment: operators on values and output that may throw an exception of some type; hooks, which see the
struct's error field and print; the subtype relation of exception types. -/
structure Ops where
  run : Nat → Int → Int → List Int → Except Nat Int × List Int
  hook : Nat → Int → List Int → Int × List Int
  isa : Nat → Nat → Bool

/-- Expressions. `grp x i e` is `({local x = i} e)`, `seq a b` is the grouping `(a, b)`, `getErr`/`setErr` access
`(*self).__error`, `move` is `move(e)`. -/
inductive Ex
  | lit (v : Int) | var (x : Nat)
  | ext (k : Nat) (a b : Ex)
  | ite (c a b : Ex)
  | seq (a b : Ex)
  | grp (x : Nat) (i e : Ex)
  | set (x : Nat) (e : Ex)
  | getErr
  | setErr (e : Ex)
  | move (e : Ex)
  deriving DecidableEq, Repr

mutual
/-- Statements; `dvoid` is `default<void>;`, `hook` the call of a hook. -/
inductive Sm
  | expr (e : Ex)
  | dvoid
  | hook (k : Nat)
  | cond (c : Ex) (a b : Sms)
  | loop (c : Ex) (b : Sms)
  | try_ (b : Sms) (cs : Cts)
  | throw (t : Nat)
  | rethrow
  | ret (e : Ex)
  | block (b : Sms)
/-- Statement lists. -/
inductive Sms
  | nil
  | cons (a : Sm) (rest : Sms)
/-- Catch blocks: the exception type (any if absent), the name bound to it, the body. -/
inductive Cts
  | nil
  | cons (t : Option Nat) (x : Nat) (b : Sms) (rest : Cts)
end

/-- States: variables, the struct's error field, the output. -/
structure St where
  vars : Nat → Int
  err : Int
  out : List Int

/-- Setting a variable. -/
def St.setVar (s : St) (x : Nat) (v : Int) : St := { s with vars := fun y => if y = x then v else s.vars y }

/-- Evaluation of an expression. A grouping's local lives in a C++ lambda
(hilti/toolchain/src/compiler/codegen/expressions.cc:41-72): it hides a variable of the same name for that long. -/
def evalX (O : Ops) : Ex → St → Except Nat Int × St
  | .lit v, s => (.ok v, s)
  | .var x, s => (.ok (s.vars x), s)
  | .ext k a b, s =>
    match evalX O a s with
    | (.error t, s) => (.error t, s)
    | (.ok va, s) =>
      match evalX O b s with
      | (.error t, s) => (.error t, s)
      | (.ok vb, s) => ((O.run k va vb s.out).1, { s with out := (O.run k va vb s.out).2 })
  | .ite c a b, s =>
    match evalX O c s with
    | (.error t, s) => (.error t, s)
    | (.ok v, s) => if v ≠ 0 then evalX O a s else evalX O b s
  | .seq a b, s =>
    match evalX O a s with
    | (.error t, s) => (.error t, s)
    | (.ok _, s) => evalX O b s
  | .grp x i e, s =>
    match evalX O i s with
    | (.error t, s) => (.error t, s)
    | (.ok v, s) => ((evalX O e (s.setVar x v)).1, ((evalX O e (s.setVar x v)).2).setVar x (s.vars x))
  | .set x e, s =>
    match evalX O e s with
    | (.error t, s) => (.error t, s)
    | (.ok v, s) => (.ok v, s.setVar x v)
  | .getErr, s => (.ok s.err, s)
  | .setErr e, s =>
    match evalX O e s with
    | (.error t, s) => (.error t, s)
    | (.ok v, s) => (.ok v, { s with err := v })
  | .move e, s => evalX O e s

/-- How a statement ends. -/
inductive R
  | done (s : St) | ret (v : Int) (s : St) | exn (t : Nat) (s : St)

/-- Continue after a statement that ran to its end. -/
def bind (r : Option R) (k : St → Option R) : Option R :=
  match r with
  | some (.done s) => k s
  | some (.ret v s) => some (.ret v s)
  | some (.exn t s) => some (.exn t s)
  | none => none

/-- Continue with the value of an expression. -/
def withX (r : Except Nat Int × St) (k : Int → St → Option R) : Option R :=
  match r with
  | (.ok v, s) => k v s
  | (.error t, s) => some (.exn t s)

/-- `while`, with at most `n` tests. -/
def loopN : Nat → (St → Except Nat Int × St) → (St → Option R) → St → Option R
  | 0, _, _, _ => none
  | n + 1, c, b, s => withX (c s) fun v s => if v ≠ 0 then bind (b s) fun s => loopN n c b s else some (.done s)

/-- A name bound for the duration of a block gets its old value back. -/
def restore (x : Nat) (old : Int) : Option R → Option R
  | some (.done s) => some (.done (s.setVar x old))
  | some (.ret v s) => some (.ret v (s.setVar x old))
  | some (.exn t s) => some (.exn t (s.setVar x old))
  | none => none

/-- Does a catch block for the type handle an exception of type `t`? Without a type it handles all
(hilti/toolchain/src/compiler/codegen/statements.cc:434-451). -/
def catches (O : Ops) (t : Nat) : Option Nat → Bool
  | none => true
  | some ty => O.isa t ty

mutual
/-- Execution of a statement; `cur` is the exception being handled, what `throw;` throws again (outside of a handler it
ends the program, here exception 0). -/
def evalS (O : Ops) (n : Nat) (cur : Nat) : Sm → St → Option R
  | .expr e, s => withX (evalX O e s) fun _ s => some (.done s)
  | .dvoid, s => some (.done s)
  | .hook k, s => some (.done { s with err := (O.hook k s.err s.out).1, out := (O.hook k s.err s.out).2 })
  | .cond c a b, s => withX (evalX O c s) fun v s => if v ≠ 0 then evalL O n cur a s else evalL O n cur b s
  | .loop c b, s => loopN n (fun s => evalX O c s) (fun s => evalL O n cur b s) s
  | .try_ b cs, s =>
    match evalL O n cur b s with
    | some (.exn t s) => evalC O n t cs s
    | r => r
  | .throw t, s => some (.exn t s)
  | .rethrow, s => some (.exn cur s)
  | .ret e, s => withX (evalX O e s) fun v s => some (.ret v s)
  | .block b, s => evalL O n cur b s
/-- Execution of a statement list. -/
def evalL (O : Ops) (n : Nat) (cur : Nat) : Sms → St → Option R
  | .nil, s => some (.done s)
  | .cons a rest, s => bind (evalS O n cur a s) fun s => evalL O n cur rest s
/-- The first catch block that fits handles the exception. -/
def evalC (O : Ops) (n : Nat) (t : Nat) : Cts → St → Option R
  | .nil, s => some (.exn t s)
  | .cons ty x b rest, s =>
    if catches O t ty then
      restore x (s.vars x) (evalL O n t b (s.setVar x t))
    else evalC O n t rest s
end

/-! ## The pass -/

/-- The variable `__error` (peephole.cc:18-23). -/
def errVar : Nat := 0

/-- `(*self).__error = __error;` (peephole.cc:32-71). -/
def isPush : Sm → Bool
  | .expr (.setErr (.var x)) => x == errVar
  | _ => false

/-- `__error = (*self).__error;` (peephole.cc:74-113). -/
def isPop : Sm → Bool
  | .expr (.set x .getErr) => x == errVar
  | _ => false

/-- `default<void>;` (peephole.cc:116-123). -/
def isVoid : Sm → Bool
  | .dvoid => true
  | _ => false

/-- `cfg::Cache::mayHaveSideEffects` of a part of a grouping with a local
(hilti/toolchain/src/compiler/cfg.cc:1269-1324): constants and names have none; for all else the dataflow of the whole
statement is looked at, which has the local as written (cfg.cc:1005-1006), or is missing. Not modelled: default values,
coercions. -/
def mayEff : Ex → Bool
  | .lit _ | .var _ => false
  | _ => true

/-- `NameReplacer` (peephole.cc:127-139): every name with the ID of the local is replaced; the fully qualified ID of a
local is its plain ID (hilti/toolchain/src/compiler/resolver.cc:608-612). -/
def replace (x : Nat) (i : Ex) : Ex → Ex
  | .lit v => .lit v
  | .var y => if y = x then i else .var y
  | .ext k a b => .ext k (replace x i a) (replace x i b)
  | .ite c a b => .ite (replace x i c) (replace x i a) (replace x i b)
  | .seq a b => .seq (replace x i a) (replace x i b)
  | .grp y j e => .grp y (replace x i j) (replace x i e)
  | .set y e => .set y (replace x i e)
  | .getErr => .getErr
  | .setErr e => .setErr (replace x i e)
  | .move e => .move (replace x i e)

/-- Expressions: the local of a grouping goes if neither its value nor the grouping has side effects
(peephole.cc:141-166). The visitor goes on into the grouping, in which there is then nothing left to do. -/
def trX : Ex → Ex
  | .lit v => .lit v
  | .var x => .var x
  | .ext k a b => .ext k (trX a) (trX b)
  | .ite c a b => .ite (trX c) (trX a) (trX b)
  | .seq a b => .seq (trX a) (trX b)
  | .grp x i e => if mayEff i || mayEff e then .grp x (trX i) (trX e) else replace x i e
  | .set x e => .set x (trX e)
  | .getErr => .getErr
  | .setErr e => .setErr (trX e)
  | .move e => .move (trX e)

/-- The expression of a statement: a move as a statement of its own is replaced by what it moves, which the visitor
does not go into any more, as it has left the node (peephole.cc:168-173; hilti/toolchain/src/ast/visitor.cc:34-58). -/
def trTop : Ex → Ex
  | .move e => e
  | e => trX e

/-- What is left to do with statements that follow one that has been removed: they are removed, too, or stay as they
are without being looked at. -/
inductive Act
  | drop | keep
  deriving DecidableEq, Repr

/-- A push and what follows it: if it is the pop, or the pop after a `default<void>`, both go (peephole.cc:190-206).
Removing moves the later statements forward under the visitor's index
(hilti/toolchain/include/ast/visitor.h:77-118, include/ast/node.h:585-594), so that one of them is passed over: the one
after the pop, or the `default<void>`. -/
def popAt : Sms → Option (List Act)
  | .cons a rest =>
    if isPop a then some [.drop, .keep]
    else if isVoid a then
      match rest with
      | .cons b _ => if isPop b then some [.keep, .drop] else none
      | .nil => none
    else none
  | .nil => none

/-- Is it a single catch block that only rethrows (peephole.cc:210-221)? -/
def onlyRethrows : Cts → Bool
  | .cons _ _ (.cons .rethrow .nil) .nil => true
  | _ => false

mutual
/-- The pass on a statement. The body of a `try` that is replaced is not looked into (visitor.cc:34-58). -/
def trS : Sm → Sm
  | .expr e => .expr (trTop e)
  | .dvoid => .dvoid
  | .hook k => .hook k
  | .cond c a b => .cond (trX c) (trL [] a) (trL [] b)
  | .loop c b => .loop (trX c) (trL [] b)
  | .try_ b cs => if onlyRethrows cs then .block b else .try_ (trL [] b) (trC cs)
  | .throw t => .throw t
  | .rethrow => .rethrow
  | .ret e => .ret (trX e)
  | .block b => .block (trL [] b)
/-- The pass on a statement list (peephole.cc:175-207); after a `default<void>` is removed, the next statement is
passed over as well. -/
def trL (todo : List Act) : Sms → Sms
  | .nil => .nil
  | .cons a rest =>
    match todo with
    | .drop :: todo => trL todo rest
    | .keep :: todo => .cons a (trL todo rest)
    | [] =>
      if isVoid a then trL [.keep] rest
      else if isPush a then
        match popAt rest with
        | some todo => trL todo rest
        | none => .cons (trS a) (trL [] rest)
      else .cons (trS a) (trL [] rest)
/-- The pass on catch blocks. -/
def trC : Cts → Cts
  | .nil => .nil
  | .cons t x b rest => .cons t x (trL [] b) (trC rest)
end

/-- A function body. -/
def pass (b : Sms) : Sms := trL [] b

/-- The optimizer runs the pass again and again (hilti/toolchain/src/compiler/optimizer/optimizer.cc). -/
def rounds : Nat → Sms → Sms
  | 0, b => b
  | n + 1, b => rounds n (pass b)

end Verif.Opt.Peep
