import Verif.Base
/-!
# Model of the code generated for statements

Source: `hilti/toolchain/src/compiler/codegen/statements.cc` (`statements.cc`), `hilti/toolchain/src/compiler/cxx/elements.cc`
(`elements.cc`), `hilti/toolchain/src/compiler/resolver.cc` (`resolver.cc`), `hilti/toolchain/src/ast/statements/switch.cc` (`switch.cc`).

Statements of the language, the C++ they are compiled to, and what both mean. Expressions are the same on both sides. Left out: the
debugging output, comments, `yield`, `throw` without a value, assertions that expect exceptions, destructors.
-/

namespace Verif.Front.Ctl

/-- Expressions: constants, variables, assignments, operators with and without effects. `un` are functions without effects, among them
those that make the exceptions for unhandled cases (0) and failed assertions (1). -/
inductive Expr (V : Type) where
  | lit (v : V)
  | var (x : Nat)
  | set (x : Nat) (e : Expr V)
  | app (f : Nat) (a b : Expr V)
  | un (f : Nat) (e : Expr V)
  | neg (e : Expr V)
  | or (a b : Expr V)
  | eq (a b : Expr V)

/-- What expressions are made of: operators that may change the state or throw, truth, equality, iteration over containers (an element
and where to continue), and types of exceptions. -/
structure Lib (V W : Type) where
  call : Nat → V → V → W → Except V V × W
  un : Nat → V → V
  bool : Bool → V
  truth : V → Bool
  eqv : V → V → Bool
  next : V → W → Option (V × V)
  isA : Nat → V → Bool

/-- Variables, innermost first, those without a value being not initialized, and the rest of the state. -/
abbrev St (V W : Type) := List (Nat × Option V) × W

/-- The result of an expression. -/
inductive R (V : Type) where
  | val (v : V)
  | exn (v : V)
  /-- undefined behaviour -/
  | ub

/-- The value of a variable. -/
def get {V : Type} (x : Nat) : List (Nat × Option V) → R V
  | [] => .ub
  | (y, o) :: env => if x = y then (match o with | some v => .val v | none => .ub) else get x env

/-- An assignment to a variable. -/
def put {V : Type} (x : Nat) (v : V) : List (Nat × Option V) → List (Nat × Option V)
  | [] => []
  | (y, o) :: env => if x = y then (y, some v) :: env else (y, o) :: put x v env

/-- The names of an expression. -/
def Expr.names {V : Type} : Expr V → List Nat
  | .lit _ => []
  | .var x => [x]
  | .set x e => x :: e.names
  | .app _ a b => a.names ++ b.names
  | .un _ e => e.names
  | .neg e => e.names
  | .or a b => a.names ++ b.names
  | .eq a b => a.names ++ b.names

/-- The value of an expression. -/
def eval {V W : Type} (L : Lib V W) : Expr V → St V W → R V × St V W
  | .lit v, σ => (.val v, σ)
  | .var x, σ => (get x σ.1, σ)
  | .set x e, σ => match eval L e σ with
    | (.val v, σ') => (.val v, (put x v σ'.1, σ'.2))
    | r => r
  | .app f a b, σ => match eval L a σ with
    | (.val v, σ') => match eval L b σ' with
      | (.val u, σ'') => match L.call f v u σ''.2 with
        | (.ok r, w) => (.val r, (σ''.1, w))
        | (.error r, w) => (.exn r, (σ''.1, w))
      | r => r
    | r => r
  | .un f e, σ => match eval L e σ with
    | (.val v, σ') => (.val (L.un f v), σ')
    | r => r
  | .neg e, σ => match eval L e σ with
    | (.val v, σ') => (.val (L.bool (!L.truth v)), σ')
    | r => r
  | .or a b, σ => match eval L a σ with
    | (.val v, σ') => if L.truth v then (.val (L.bool true), σ') else match eval L b σ' with
      | (.val u, σ'') => (.val (L.bool (L.truth u)), σ'')
      | r => r
    | r => r
  | .eq a b, σ => match eval L a σ with
    | (.val v, σ') => match eval L b σ' with
      | (.val u, σ'') => (.val (L.bool (L.eqv v u)), σ'')
      | r => r
    | r => r

/-- What a loop repeats on: a condition, a variable that is set before each round and tested, or a variable that is set once, and a
condition. -/
inductive Head (V : Type) where
  | cond (c : Expr V)
  | init (x : Nat) (e : Expr V)
  | both (x : Nat) (e c : Expr V)

/-- An expression of a `case`. For a constant of an integer or enum type: its value, and whether its type is that of the control expression
after both have been converted for the comparison (`switch.cc` 12-24; a constant converted to 64 bits keeps its own type,
`Coerce.constant_keeps_type`). -/
inductive CaseExpr (V : Type) where
  | const (v : V) (same : Bool)
  | dyn (e : Expr V)

/-- The expression. -/
def CaseExpr.expr {V : Type} : CaseExpr V → Expr V
  | .const v _ => .lit v
  | .dyn e => e

/-- `statements.cc` 384-399 `is_integral_and_constant_value` -/
def CaseExpr.isConst {V : Type} : CaseExpr V → Bool
  | .const _ _ => true
  | .dyn _ => false

mutual
/-- Statements. -/
inductive Stmt (V : Type) where
  | expr (e : Expr V)
  | decl (x : Nat) (e : Expr V)
  | block (b : Stmts V)
  | assert (e msg : Expr V)
  /-- with a declaration, if any; no `else` is an empty one -/
  | ite (init : Option (Nat × Expr V)) (c : Expr V) (t f : Stmts V)
  /-- `while`, with the identity of the statement, and an `else` part if there is one -/
  | loop (id : Nat) (h : Head V) (body : Stmts V) (hasElse : Bool) (els : Stmts V)
  /-- `for`, over a sequence that is a variable or any other expression -/
  | each (id : Nat) (x : Nat) (e : Expr V) (lhs : Bool) (body : Stmts V)
  /-- `switch`, with the variable for the value of the control expression, and whether its type is an integer or an enum -/
  | switch (x : Nat) (e : Expr V) (integral : Bool) (cs : Cases V) (hasDefault : Bool) (dflt : Stmts V)
  | brk | cont
  | ret (e : Expr V)
  | throw (e : Expr V)
  | try_ (b : Stmts V) (cs : Catches V)
/-- Blocks. -/
inductive Stmts (V : Type) where
  | nil
  | cons (s : Stmt V) (ss : Stmts V)
/-- The cases of a `switch` other than the default. -/
inductive Cases (V : Type) where
  | nil
  | cons (es : List (CaseExpr V)) (b : Stmts V) (cs : Cases V)
/-- The `catch` parts of a `try`: for a type of exceptions, with a variable, or for all. -/
inductive Catches (V : Type) where
  | nil
  | cons (par : Option (Nat × Nat)) (b : Stmts V) (cs : Catches V)
end

mutual
/-- C++ statements. -/
inductive CS (V : Type) where
  | expr (e : Expr V)
  /-- `T x = e;` -/
  | decl (x : Nat) (e : Expr V)
  /-- `T x;` -/
  | declOnly (x : Nat)
  /-- `{ b }` -/
  | block (b : CB V)
  /-- `b` without braces -/
  | bare (b : CB V)
  /-- `location("...")` -/
  | loc
  /-- `if ( T x = e; c ) { t } else { f }` -/
  | ite (init : Option (Nat × Expr V)) (c : Expr V) (t f : CB V)
  /-- `while ( c ) b` -/
  | while_ (c : Expr V) (b : CB V)
  /-- `while ( true ) b` -/
  | forever (b : CB V)
  /-- `while ( T x = e ) b` -/
  | whileDecl (x : Nat) (e : Expr V) (b : CB V)
  /-- `for ( T x = e; c; ) b` -/
  | for_ (x : Nat) (e c : Expr V) (b : CB V)
  /-- `for ( const auto& x : e ) b` -/
  | range (x : Nat) (e : Expr V) (b : CB V)
  /-- `switch ( auto x = e; x ) { case ...: b ... default: d }` -/
  | switch (x : Nat) (e : Expr V) (cs : CC V) (d : CB V)
  | brk | cont
  | goto (l : Nat)
  | label (l : Nat)
  | ret (e : Expr V)
  | throw (e : Expr V)
  | try_ (b : CB V) (cs : CH V)
/-- C++ blocks. -/
inductive CB (V : Type) where
  | nil
  | cons (s : CS V) (ss : CB V)
/-- The cases of a C++ `switch`. -/
inductive CC (V : Type) where
  | nil
  | cons (vs : List V) (b : CB V) (cs : CC V)
/-- C++ exception handlers. -/
inductive CH (V : Type) where
  | nil
  | cons (par : Option (Nat × Nat)) (b : CB V) (cs : CH V)
end

/-- One block after the other. -/
def CB.append {V : Type} : CB V → CB V → CB V
  | .nil, b => b
  | .cons s a, b => .cons s (a.append b)

/-- A single statement. -/
def CB.one {V : Type} (s : CS V) : CB V := .cons s .nil

mutual
/-- `statements.cc` 48-63 `loopContainsBreaks`: a `break` for the loop around the statement. `resolver.cc` 1022-1036 links a `break` to the
innermost loop. -/
def Stmt.breaks {V : Type} : Stmt V → Bool
  | .brk => true
  | .block b => b.breaks
  | .ite _ _ t f => t.breaks || f.breaks
  | .switch _ _ _ cs _ d => cs.breaks || d.breaks
  | .try_ b cs => b.breaks || cs.breaks
  | _ => false
def Stmts.breaks {V : Type} : Stmts V → Bool
  | .nil => false
  | .cons s ss => s.breaks || ss.breaks
def Cases.breaks {V : Type} : Cases V → Bool
  | .nil => false
  | .cons _ b cs => b.breaks || cs.breaks
def Catches.breaks {V : Type} : Catches V → Bool
  | .nil => false
  | .cons _ b cs => b.breaks || cs.breaks
end

/-- Is the statement a block? -/
def Stmt.isBlock {V : Type} : Stmt V → Bool
  | .block _ => true
  | _ => false

/-- `statements.cc` 317-325: is the last statement of the block one that leaves it? -/
def Stmts.ends {V : Type} : Stmts V → Bool
  | .nil => false
  | .cons .brk .nil => true
  | .cons .cont .nil => true
  | .cons (.ret _) .nil => true
  | .cons (.throw _) .nil => true
  | .cons _ .nil => false
  | .cons _ ss => ss.ends

/-- `statements.cc` 401-413: are all the case expressions constants? -/
def Cases.allConst {V : Type} : Cases V → Bool
  | .nil => true
  | .cons es _ cs => es.all (·.isConst) && cs.allConst

/-- `switch.cc` 12-24 `preprocessedExpressions`: those of another type are left out. -/
def labels {V : Type} : List (CaseExpr V) → List V
  | [] => []
  | .const v true :: es => v :: labels es
  | _ :: es => labels es

/-- `statements.cc` 348-353: the condition of a case: comparisons joined by `||`. There is always an expression; without any the C++ would
be `if ( )`. -/
def anyOf {V : Type} (x : Nat) : List (CaseExpr V) → Expr V
  | [] => .var x
  | [e] => .eq (.var x) e.expr
  | e :: es => .or (.eq (.var x) e.expr) (anyOf x es)

/-- `elements.cc` 194 `addBlock` and 691-790: a block is printed with braces only if it has more than one statement. An `if` with an `else`
counts as one here, as two there. -/
def addBlock {V : Type} : CB V → CB V
  | .nil => .one (.bare .nil)
  | .cons s .nil => .one (.bare (.cons s .nil))
  | b => .one (.block b)

/-- The label behind a loop, if it is needed. -/
def done {V : Type} (id : Nat) (needed : Bool) : CB V := if needed then .one (.label id) else .nil

mutual
/-- `statements.cc` 40-545 `Visitor`. The number is the identity of the loop that a `break` is linked to; the flag
says whether the code keeps track of locations (`context.h` 39, the default), which puts a statement in front of every other one that is
not a block (lines 18-34; not repeated there for statements at the same place). -/
def gen {V : Type} (t : Bool) (cur : Nat) : Stmt V → CB V
  | .expr e => .one (.expr e)
  | .decl x e => .one (.decl x e)
  | .block b => addBlock (genB t cur b)
  | .assert e msg => .one (.ite none (.neg e) (.one (.throw (.un 1 msg))) .nil)
  | .ite init c a b => .one (.ite init c (genB t cur a) (genB t cur b))
  | .loop id h body hasElse els =>
    if hasElse then
      match h with
      | .cond c => addBlock (.one (.forever
          (.cons (.ite none (.neg c) ((genB t id els).append (.one .brk)) .nil) (genB t id body))))
      | .init x e => addBlock (.cons (.declOnly x) (.one (.forever
          (.cons (.expr (.set x e)) (.cons (.ite none (.neg (.var x)) ((genB t id els).append (.one .brk)) .nil) (genB t id body))))))
      | .both x e c => addBlock (.cons (.decl x e) (.one (.forever
          (.cons (.ite none (.neg c) ((genB t id els).append (.one .brk)) .nil) (genB t id body)))))
    else
      match h with
      | .cond c => .cons (.while_ c (genB t id body)) (done id body.breaks)
      | .init x e => .cons (.whileDecl x e (genB t id body)) (done id body.breaks)
      | .both x e c => .cons (.for_ x e c (genB t id body)) (done id body.breaks)
  | .each id x e lhs body =>
    if lhs then .cons (.range x e (genB t id body)) (done id body.breaks)
    else .cons (.block (.one (.range x e (genB t id body)))) (done id body.breaks)
  | .switch x e integral cs hasDefault dflt =>
    if integral && cs.allConst then
      .one (.switch x e (genC t cur cs) (if hasDefault then genB t cur dflt else .one (.throw (.un 0 (.var x)))))
    else
      match cs with
      | .nil => if hasDefault then addBlock (genB t cur dflt) else .one (.throw (.un 0 e))
      | .cons es b cs =>
        .one (.ite (some (x, e)) (anyOf x es) (genB t cur b)
          (genI t cur x cs (if hasDefault then genB t cur dflt else .one (.throw (.un 0 (.var x))))))
  | .brk => .one (.goto cur)
  | .cont => .one .cont
  | .ret e => .one (.ret e)
  | .throw e => .one (.throw e)
  | .try_ b cs => .one (.try_ (genB t cur b) (genH t cur cs))
def genB {V : Type} (t : Bool) (cur : Nat) : Stmts V → CB V
  | .nil => .nil
  | .cons s ss => (if t && !s.isBlock then .one .loc else .nil : CB V).append ((gen t cur s).append (genB t cur ss))
/-- `statements.cc` 299-338: the cases of a C++ `switch`. -/
def genC {V : Type} (t : Bool) (cur : Nat) : Cases V → CC V
  | .nil => .nil
  | .cons es b cs => .cons (labels es) (if b.ends then genB t cur b else (genB t cur b).append (.one .brk)) (genC t cur cs)
/-- `statements.cc` 340-378: a chain of `else if`. -/
def genI {V : Type} (t : Bool) (cur : Nat) (x : Nat) : Cases V → CB V → CB V
  | .nil, d => d
  | .cons es b cs, d => .one (.ite none (anyOf x es) (genB t cur b) (genI t cur x cs d))
def genH {V : Type} (t : Bool) (cur : Nat) : Catches V → CH V
  | .nil => .nil
  | .cons par b cs => .cons par (genB t cur b) (genH t cur cs)
end

end Verif.Front.Ctl
