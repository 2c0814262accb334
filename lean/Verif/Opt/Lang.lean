/-!
# HILTI function bodies: syntax and meaning

The specification side of the optimizer model: what a function body written in HILTI *does*. The optimizer passes in
`Verif/Opt/Cfg.lean`, `Flow.lean`, `Dce.lean` and `Prop.lean` never look at this meaning; the theorems compare the meaning
of a body before and after a pass.

Modelled statements: `hilti/toolchain/include/ast/statements/*.h` and their C++ rendering in
`hilti/toolchain/src/compiler/codegen/statements.cc:62-560`. Values are integers; a variable is one declaration
(`Declaration*`), so two declarations with the same name are two variables; an expression occurrence that the passes compare by
address carries an identity `p`. Not modelled: `switch`, `assert`, `yield`, comments, struct members, references and aliasing
types, nested assignments, several catch clauses.
-/

namespace Verif.Opt

/-- A declaration, identified by its address in the C++ code. -/
abbrev Var := Nat

/-- Identity of an AST node (`Node::identity()`). -/
abbrev Label := Nat

/-- Where a variable lives. `vis` of `Sem` says which globals other functions see. -/
inductive Kind where
  | local_ | param | inout_ | global
  deriving DecidableEq, Repr

/-- Observable after the function has ended: `inout` parameters and globals. -/
def Kind.outlives : Kind → Bool
  | .inout_ | .global => true
  | .local_ | .param => false

/-- Expressions: constants, names, operators whose operands are `in`, short-circuit logic and calls with one `in` argument.
    `hilti/toolchain/include/ast/expressions/{ctor,name,resolved-operator,logical-and,logical-or}.h`,
    `ast/operators/function.h`. -/
inductive Expr where
  | lit (p : Nat) (n : Int)
  | name (p : Nat) (x : Var)
  | bin (f : Nat) (a b : Expr)
  | logic (isAnd : Bool) (a b : Expr)
  | call (f : Nat) (a : Expr)
  deriving DecidableEq, Repr

/-- Statements. The label of a compound statement is the label of its condition or sequence expression, which is the node that
    represents it in the control flow graph. `init` is the optional `local x = e` in the head of an `if` or `while`. -/
inductive Stmt where
  | decl (l : Label) (x : Var) (init : Option Expr)
  | assign (l : Label) (x : Var) (e : Expr)
  | expr (l : Label) (e : Expr)
  /-- `f(x)` with an `inout` parameter. -/
  | callRef (l : Label) (f : Nat) (x : Var)
  | ret (l : Label) (e : Option Expr)
  | throw_ (l : Label) (e : Expr)
  | brk
  | cont
  | block (b : List Stmt)
  | ite (l : Label) (init : Option (Label × Var × Expr)) (c : Expr) (t : List Stmt) (hasElse : Bool) (e : List Stmt)
  | while_ (l : Label) (init : Option (Label × Var × Expr)) (c : Expr) (b : List Stmt) (hasElse : Bool) (e : List Stmt)
  | for_ (l lx : Label) (x : Var) (seq : Expr) (b : List Stmt)
  | try_ (b c : List Stmt)

/-- The environment of a function body: what operators and callees do. A callee gets its argument, the outside world `W` and the
    globals it can see (`vis`), and may fail, change the world and change those globals; a callee with an `inout` parameter
    also writes that parameter. `op f a b = none`: the operator raises an exception (division by zero, overflow). -/
structure Sem where
  W : Type
  op : Nat → Int → Int → Option Int
  vis : Var → Bool
  call : Nat → Int → W → (Var → Option Int) → Option Int × W × (Var → Option Int)
  cref : Nat → Int → W → (Var → Option Int) → Bool × Int × W × (Var → Option Int)
  elems : Int → List Int

variable (M : Sem)

/-- The state of a running function: the world and the value of every variable in scope. -/
structure State where
  w : M.W
  env : Var → Option Int

variable {M}

/-- Write a variable. -/
def State.set (s : State M) (x : Var) (v : Int) : State M := { s with env := fun y => if y = x then some v else s.env y }

/-- Leave the scope of the given variables. -/
def State.drop (s : State M) (vs : List Var) : State M := { s with env := fun y => if y ∈ vs then none else s.env y }

/-- The globals a callee sees. -/
def State.seen (s : State M) : Var → Option Int := fun x => if M.vis x then s.env x else none

/-- The state after a callee changed the world and the globals it sees. -/
def State.back (s : State M) (w : M.W) (g : Var → Option Int) : State M :=
  { w := w, env := fun x => if M.vis x then g x else s.env x }

variable (M)

/-- Outcome of an evaluation: a value, an exception, or a use of a variable that is not in scope (ruled out for a valid program). -/
inductive Ev where
  | val (v : Int) (s : State M)
  | exn (s : State M)
  | stuck

variable {M}

/-- Sequencing of evaluations. -/
def Ev.then : Ev M → (Int → State M → Ev M) → Ev M
  | .val v s, k => k v s
  | .exn s, _ => .exn s
  | .stuck, _ => .stuck

/-- Evaluation of an expression. Operands are evaluated left to right (the generated C++ leaves the order open). -/
def eval : Expr → State M → Ev M
  | .lit _ n, s => .val n s
  | .name _ x, s => match s.env x with
    | some v => .val v s
    | none => .stuck
  | .bin f a b, s =>
    (eval a s).then fun va s1 => (eval b s1).then fun vb s2 =>
      match M.op f va vb with
      | some v => .val v s2
      | none => .exn s2
  | .logic isAnd a b, s =>
    (eval a s).then fun va s1 =>
      if isAnd then
        if va = 0 then .val 0 s1 else (eval b s1).then fun vb s2 => .val (if vb = 0 then 0 else 1) s2
      else
        if va = 0 then (eval b s1).then fun vb s2 => .val (if vb = 0 then 0 else 1) s2 else .val 1 s1
  | .call f a, s =>
    (eval a s).then fun va s1 =>
      let r := M.call f va s1.w s1.seen
      match r.1 with
      | some v => .val v (s1.back r.2.1 r.2.2)
      | none => .exn (s1.back r.2.1 r.2.2)

/-- Execution of the statements that neither branch nor leave: `codegen/statements.cc:154-185` (declaration; without
    initializer the type's default value), assignment, expression statement and call with an `inout` argument. -/
def atom : Stmt → State M → Ev M
  | .decl _ x none, s => .val 0 (s.set x 0)
  | .decl _ x (some e), s => (eval e s).then fun v s1 => .val 0 (s1.set x v)
  | .assign _ x e, s => (eval e s).then fun v s1 => match s1.env x with
    | some _ => .val 0 (s1.set x v)
    | none => .stuck
  | .expr _ e, s => eval e s
  | .callRef _ f x, s => match s.env x with
    | some v =>
      let r := M.cref f v s.w s.seen
      if r.1 then .val 0 ((s.back r.2.2.1 r.2.2.2).set x r.2.1) else .exn ((s.back r.2.2.1 r.2.2.2).set x r.2.1)
    | none => .stuck
  | _, _ => .stuck

/-- The statements `atom` is about. -/
def Stmt.isAtom : Stmt → Bool
  | .decl .. | .assign .. | .expr .. | .callRef .. => true
  | _ => false

/-- The optional declaration in the head of an `if` or `while`. -/
def initStep : Option (Label × Var × Expr) → State M → Ev M
  | none, s => .val 0 s
  | some (_, x, e), s => (eval e s).then fun v s1 => .val 0 (s1.set x v)

/-- The variable declared in the head of an `if` or `while`. -/
def initVars : Option (Label × Var × Expr) → List Var
  | none => []
  | some (_, x, _) => [x]

mutual
/-- All variables declared inside a statement. -/
def Stmt.decls : Stmt → List Var
  | .decl _ x _ => [x]
  | .block b => declsOf b
  | .ite _ i _ t h e => initVars i ++ declsOf t ++ if h then declsOf e else []
  | .while_ _ i _ b h e => initVars i ++ declsOf b ++ if h then declsOf e else []
  | .for_ _ _ x _ b => x :: declsOf b
  | .try_ b c => declsOf b ++ declsOf c
  | .assign .. | .expr .. | .callRef .. | .ret .. | .throw_ .. | .brk | .cont => []
/-- All variables declared inside a list of statements. -/
def declsOf : List Stmt → List Var
  | [] => []
  | s :: r => s.decls ++ declsOf r
end

/-- How a statement ends. `exn true`: by a `throw` statement; `exn false`: by an exception out of an operator or a callee. -/
inductive Out where
  | normal
  | ret (v : Option Int)
  | exn (thrown : Bool)
  | brk
  | cont
  deriving DecidableEq, Repr

/-- Does control stay in the loop after its body ended this way? -/
def Out.again : Out → Bool
  | .normal | .cont => true
  | _ => false

/-- Does this outcome leave the loop and everything around it? -/
def Out.leaves : Out → Bool
  | .ret _ | .exn _ => true
  | _ => false

/-- What is being executed: a statement, a statement list, the iterations of a `while`, the remaining iterations of a `for`. -/
inductive Code where
  | one (s : Stmt)
  | many (b : List Stmt)
  | loop (l : Label) (c : Expr) (b : List Stmt) (hasElse : Bool) (e : List Stmt)
  | iter (lx : Label) (x : Var) (vs : List Int) (b : List Stmt)

/-- Execution, big step. There is no rule for a stuck evaluation. A block's variables leave scope when it ends, however it ends.
    `codegen/statements.cc:62-560`: `break` leaves the innermost loop, `continue` starts its next iteration, the `else` block of
    a `while` runs when the condition becomes false. -/
inductive Exec : Code → State M → Out → State M → Prop where
  | atomOk {st s v s'} : st.isAtom = true → atom st s = .val v s' → Exec (.one st) s .normal s'
  | atomExn {st s s'} : st.isAtom = true → atom st s = .exn s' → Exec (.one st) s (.exn false) s'
  | retNone {l s} : Exec (.one (.ret l none)) s (.ret none) s
  | retSome {l e s v s'} : eval e s = .val v s' → Exec (.one (.ret l (some e))) s (.ret (some v)) s'
  | retExn {l e s s'} : eval e s = .exn s' → Exec (.one (.ret l (some e))) s (.exn false) s'
  | throwOk {l e s v s'} : eval e s = .val v s' → Exec (.one (.throw_ l e)) s (.exn true) s'
  | throwExn {l e s s'} : eval e s = .exn s' → Exec (.one (.throw_ l e)) s (.exn false) s'
  | brk {s} : Exec (.one .brk) s .brk s
  | cont {s} : Exec (.one .cont) s .cont s
  | block {b s o s'} : Exec (.many b) s o s' → Exec (.one (.block b)) s o (s'.drop (declsOf b))
  | iteInitExn {l i c t h e s s'} : initStep i s = .exn s' → Exec (.one (.ite l i c t h e)) s (.exn false) s'
  | iteExn {l i c t h e s v0 s0 s'} : initStep i s = .val v0 s0 → eval c s0 = .exn s' →
      Exec (.one (.ite l i c t h e)) s (.exn false) (s'.drop (initVars i))
  | iteTrue {l i c t h e s v0 s0 v s1 o s2} : initStep i s = .val v0 s0 → eval c s0 = .val v s1 → v ≠ 0 →
      Exec (.many t) s1 o s2 → Exec (.one (.ite l i c t h e)) s o ((s2.drop (declsOf t)).drop (initVars i))
  | iteElse {l i c t e s v0 s0 s1 o s2} : initStep i s = .val v0 s0 → eval c s0 = .val 0 s1 →
      Exec (.many e) s1 o s2 → Exec (.one (.ite l i c t true e)) s o ((s2.drop (declsOf e)).drop (initVars i))
  | iteSkip {l i c t e s v0 s0 s1} : initStep i s = .val v0 s0 → eval c s0 = .val 0 s1 →
      Exec (.one (.ite l i c t false e)) s .normal (s1.drop (initVars i))
  | whileInitExn {l i c b h e s s'} : initStep i s = .exn s' → Exec (.one (.while_ l i c b h e)) s (.exn false) s'
  | while_ {l i c b h e s v0 s0 o s'} : initStep i s = .val v0 s0 → Exec (.loop l c b h e) s0 o s' →
      Exec (.one (.while_ l i c b h e)) s o (s'.drop (initVars i))
  | loopExn {l c b h e s s'} : eval c s = .exn s' → Exec (.loop l c b h e) s (.exn false) s'
  | loopDone {l c b e s s'} : eval c s = .val 0 s' → Exec (.loop l c b false e) s .normal s'
  | loopElse {l c b e s s1 o s2} : eval c s = .val 0 s1 → Exec (.many e) s1 o s2 →
      Exec (.loop l c b true e) s o (s2.drop (declsOf e))
  | loopAgain {l c b h e s v s1 o s2 o' s3} : eval c s = .val v s1 → v ≠ 0 → Exec (.many b) s1 o s2 → o.again = true →
      Exec (.loop l c b h e) (s2.drop (declsOf b)) o' s3 → Exec (.loop l c b h e) s o' s3
  | loopBrk {l c b h e s v s1 s2} : eval c s = .val v s1 → v ≠ 0 → Exec (.many b) s1 .brk s2 →
      Exec (.loop l c b h e) s .normal (s2.drop (declsOf b))
  | loopLeave {l c b h e s v s1 o s2} : eval c s = .val v s1 → v ≠ 0 → Exec (.many b) s1 o s2 → o.leaves = true →
      Exec (.loop l c b h e) s o (s2.drop (declsOf b))
  | forExn {l lx x q b s s'} : eval q s = .exn s' → Exec (.one (.for_ l lx x q b)) s (.exn false) s'
  | for_ {l lx x q b s v s1 o s2} : eval q s = .val v s1 → Exec (.iter lx x (M.elems v) b) s1 o s2 →
      Exec (.one (.for_ l lx x q b)) s o (s2.drop (x :: declsOf b))
  | iterDone {lx x b s} : Exec (.iter lx x [] b) s .normal s
  | iterAgain {lx x v vs b s o s1 o' s2} : Exec (.many b) (s.set x v) o s1 → o.again = true →
      Exec (.iter lx x vs b) (s1.drop (declsOf b)) o' s2 → Exec (.iter lx x (v :: vs) b) s o' s2
  | iterBrk {lx x v vs b s s1} : Exec (.many b) (s.set x v) .brk s1 →
      Exec (.iter lx x (v :: vs) b) s .normal (s1.drop (declsOf b))
  | iterLeave {lx x v vs b s o s1} : Exec (.many b) (s.set x v) o s1 → o.leaves = true →
      Exec (.iter lx x (v :: vs) b) s o (s1.drop (declsOf b))
  | tryOk {b c s o s1} : Exec (.many b) s o s1 → (∀ t, o ≠ .exn t) → Exec (.one (.try_ b c)) s o (s1.drop (declsOf b))
  | tryCatch {b c s t s1 o s2} : Exec (.many b) s (.exn t) s1 → Exec (.many c) (s1.drop (declsOf b)) o s2 →
      Exec (.one (.try_ b c)) s o (s2.drop (declsOf c))
  | nil {s} : Exec (.many []) s .normal s
  | cons {st r s s1 o s2} : Exec (.one st) s .normal s1 → Exec (.many r) s1 o s2 → Exec (.many (st :: r)) s o s2
  | stop {st r s o s1} : Exec (.one st) s o s1 → o ≠ .normal → Exec (.many (st :: r)) s o s1

/-- A call of a function with the given body: its outcome and the state it leaves. -/
def Runs (body : List Stmt) (s : State M) (o : Out) (s' : State M) : Prop := Exec (.many body) s o s'

/-- Two final states look the same from outside: same world, same `inout` parameters and globals. -/
def SameOutside (kind : Var → Kind) (s t : State M) : Prop :=
  s.w = t.w ∧ ∀ x, (kind x).outlives = true → s.env x = t.env x

end Verif.Opt
