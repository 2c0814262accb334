/-!
# Programs of functions and hooks: syntax and meaning

The language the optimizer's passes over whole programs work on (`optimizer/passes/dead-code-static.cc`,
`optimizer/passes/optimize-parameters.cc`), and what programs *do*. The passes never look at this meaning; the theorems
compare the meaning of a program before and after a pass.

Modelled: `hilti/toolchain/include/ast/{expressions,statements,declarations}/*.h` and their C++ rendering
(`codegen/statements.cc`, `codegen/expressions.cc`, `codegen/codegen.cc:675-690`, parameters: `codegen/types.cc:1126-1160`).
A `copy` parameter is a variable of the callee, an `in` parameter is a `const T&` and an `inout` parameter a `T&`; so memory is a
map from locations to values, and a frame maps names to locations. A local name is one declaration. Not modelled: structs, tuples, references,
`switch`, `for`, `yield`, several handlers of a `try`, destructors.
-/

namespace Verif.Opt.Whole

/-- A function, by its ID (`Optimizer::functionID`, `optimizer.h:383-393`). -/
abbrev Fn := Nat

/-- A name that has been resolved: a local variable or parameter of the function, or a global. `ast/expressions/name.h`. -/
inductive Name where
  | loc (x : Nat)
  | glob (g : Nat)
  deriving DecidableEq, Repr

/-- Values. -/
inductive Val where
  | void
  | bool (b : Bool)
  | int (i : Int)
  deriving DecidableEq, Repr

/-- Truth of a condition. -/
def Val.truth : Val → Bool
  | .bool b => b
  | .int i => i != 0
  | .void => false

/-- `parameter::Kind`, `ast/declarations/parameter.h`. -/
inductive Kind where
  | copy | in_ | inout
  deriving DecidableEq, Repr

mutual
/-- Expressions: constants, names, operators whose operands are `in` (they may throw), operators that change their operand
    (`x++`), assignments, the ternary operator, calls of functions, hooks and methods. `ast/expressions/*.h`. -/
inductive Expr where
  | lit (v : Val)
  | name (x : Name)
  | op (o : Nat) (as : Exprs)
  | mod (o : Nat) (x : Name)
  | assign (x : Name) (e : Expr)
  | tern (c a b : Expr)
  | call (f : Fn) (as : Exprs)
/-- Lists of expressions. -/
inductive Exprs where
  | nil
  | cons (e : Expr) (r : Exprs)
end

mutual
/-- Statements, `ast/statements/*.h`. `init` is the variable in the head of an `if` or a `while`; a missing `else` is empty. -/
inductive Stmt where
  | expr (e : Expr)
  | decl (x : Nat) (e : Expr)
  | ret (e : Option Expr)
  | throw_ (e : Expr)
  | brk
  | cont
  | block (b : Stmts)
  | ite (init : Option (Nat × Expr)) (c : Expr) (t e : Stmts)
  | while_ (init : Option (Nat × Expr)) (c : Expr) (b e : Stmts)
  | try_ (b h : Stmts)
/-- Lists of statements. -/
inductive Stmts where
  | nil
  | cons (s : Stmt) (r : Stmts)
end

/-- One implementation: its parameters and its body. `declaration::Function` with a body. -/
structure Impl where
  params : List Nat
  kinds : List Kind
  body : Stmts

/-- A function, hook or method: its prototype, with all its implementations, in the order in which they run (C74).
    `ext`: it has `&cxxname`, `keep`: `! Optimizer::mayRemove` (`optimizer.h:292-311`), `fixed`: `! Optimizer::mayModify`
    (`optimizer.h:320-325`), `method`: it is called by `operator_::struct_::MemberCall`, `lead`: the declaration
    a visitor sees first has a body or is a method, and there are no overloads, `dflt`: the default value of its result. -/
structure Fun where
  kinds : List Kind
  impls : List Impl
  hook : Bool := false
  ext : Bool := false
  keep : Bool := false
  fixed : Bool := false
  method : Bool := false
  lead : Bool := true
  dflt : Val := .void

/-- All functions of a program. Code at the level of a module is a function that is kept. -/
abbrev Prog := List (Fn × Fun)

/-- The declaration of a function. -/
def Prog.get : Prog → Fn → Option Fun
  | [], _ => none
  | (g, F) :: P, f => if f = g then some F else Prog.get P f

/-- The kinds of the parameters callers see. -/
def Prog.kinds (P : Prog) (f : Fn) : List Kind :=
  match P.get f with
  | some F => F.kinds
  | none => []

/-! ## Meaning -/

/-- A place in memory: a global, or a variable of the frame at some depth. -/
inductive Loc where
  | glob (g : Nat)
  | slot (d x : Nat)
  deriving DecidableEq, Repr

/-- What built-in operators and functions implemented in C++ do. `op o vs = none`: an exception. An external function gets the
    values of its arguments and the outside world, and returns a value or fails, with new values for its `inout` arguments. -/
structure Sem where
  W : Type
  op : Nat → List Val → Option Val
  ext : Fn → List Val → W → Option Val × List Val × W

/-- The state of a running program. -/
structure St (M : Sem) where
  mem : Loc → Val
  w : M.W

/-- Write a location. -/
def St.set {M : Sem} (s : St M) (l : Loc) (v : Val) : St M :=
  { s with mem := fun l' => if l' = l then v else s.mem l' }

/-- The state after a call from depth `d`: the variables of the callee are gone. -/
def St.back {M : Sem} (s : St M) (d : Nat) (s' : St M) : St M :=
  { mem := fun l => match l with
      | .glob g => s'.mem (.glob g)
      | .slot d' x => if d < d' then s.mem (.slot d' x) else s'.mem (.slot d' x)
    w := s'.w }

/-- An argument: a reference to a location, or a value. -/
inductive Arg where
  | ref (l : Loc)
  | val (v : Val)
  deriving DecidableEq, Repr

/-- The value of an argument. -/
def Arg.get {M : Sem} (s : St M) : Arg → Val
  | .ref l => s.mem l
  | .val v => v

/-- Outcome of an expression. -/
inductive Ev (M : Sem) where
  | val (v : Val) (s : St M)
  | exn (s : St M)

/-- Outcome of a list of arguments. -/
inductive Evs (M : Sem) where
  | vals (as : List Arg) (s : St M)
  | exn (s : St M)

/-- Outcome of a statement. -/
inductive Out (M : Sem) where
  | norm (s : St M)
  | brk (s : St M)
  | cont (s : St M)
  | ret (v : Option Val) (s : St M)
  | exn (s : St M)

/-- What calls do: function, arguments, depth of the caller, state. `none`: it does not end. -/
abbrev Calls (M : Sem) := Fn → List Arg → Nat → St M → Option (Ev M)

/-- Where a name lives. -/
def locOf (env : Nat → Loc) : Name → Loc
  | .loc x => env x
  | .glob g => .glob g

/-- The location an argument refers to, if it is passed by reference: `const T&` and `T&` bind to variables, other expressions are
    temporaries. `codegen/types.cc:1126-1160`. -/
def byRef (env : Nat → Loc) : Kind → Expr → Option Loc
  | .copy, _ => none
  | _, .name x => some (locOf env x)
  | _, _ => none

section
variable {M : Sem} (c : Calls M) (K : Fn → List Kind) (env : Nat → Loc) (d : Nat)

mutual
/-- Evaluation of an expression. Operands are evaluated from left to right (the generated C++ leaves the order open). -/
def eval : Expr → St M → Option (Ev M)
  | .lit v, s => some (.val v s)
  | .name x, s => some (.val (s.mem (locOf env x)) s)
  | .op o as, s => match evalArgs [] as s with
    | none => none
    | some (.exn s1) => some (.exn s1)
    | some (.vals vs s1) => match M.op o (vs.map (Arg.get s1)) with
      | some v => some (.val v s1)
      | none => some (.exn s1)
  | .mod o x, s => match M.op o [s.mem (locOf env x)] with
    | some v => some (.val v (s.set (locOf env x) v))
    | none => some (.exn s)
  | .assign x e, s => match eval e s with
    | none => none
    | some (.exn s1) => some (.exn s1)
    | some (.val v s1) => some (.val v (s1.set (locOf env x) v))
  | .tern q a b, s => match eval q s with
    | none => none
    | some (.exn s1) => some (.exn s1)
    | some (.val v s1) => if v.truth then eval a s1 else eval b s1
  | .call f as, s => match evalArgs (K f) as s with
    | none => none
    | some (.exn s1) => some (.exn s1)
    | some (.vals vs s1) => c f vs d s1
/-- Evaluation of arguments for parameters of the given kinds. -/
def evalArgs : List Kind → Exprs → St M → Option (Evs M)
  | _, .nil, s => some (.vals [] s)
  | ks, .cons e r, s => match byRef env (ks.headD .copy) e with
    | some l => match evalArgs ks.tail r s with
      | none => none
      | some (.exn s1) => some (.exn s1)
      | some (.vals as s1) => some (.vals (.ref l :: as) s1)
    | none => match eval e s with
      | none => none
      | some (.exn s1) => some (.exn s1)
      | some (.val v s1) => match evalArgs ks.tail r s1 with
        | none => none
        | some (.exn s2) => some (.exn s2)
        | some (.vals as s2) => some (.vals (.val v :: as) s2)
end

/-- A declaration, or the variable in the head of a statement. -/
def evalInit : Option (Nat × Expr) → St M → Option (Ev M)
  | none, s => some (.val .void s)
  | some (x, e), s => match eval c K env d e s with
    | none => none
    | some (.exn s1) => some (.exn s1)
    | some (.val v s1) => some (.val v (s1.set (env x) v))

/-- Rounds of a loop. -/
def loop (q : St M → Option (Ev M)) (b e : St M → Option (Out M)) : Nat → St M → Option (Out M)
  | 0, _ => none
  | n + 1, s => match q s with
    | none => none
    | some (.exn s1) => some (.exn s1)
    | some (.val v s1) => if v.truth then
        match b s1 with
        | none => none
        | some (.norm s2) => loop q b e n s2
        | some (.cont s2) => loop q b e n s2
        | some (.brk s2) => some (.norm s2)
        | some (.ret r s2) => some (.ret r s2)
        | some (.exn s2) => some (.exn s2)
      else e s1

mutual
/-- Execution of a statement, with at most `n` rounds of each loop. A `break` or `continue` in the `else` of a `while` belongs to the loop around it (see
    C80 for what the generated code makes of it). -/
def exec (n : Nat) : Stmt → St M → Option (Out M)
  | .expr e, s => match eval c K env d e s with
    | none => none
    | some (.exn s1) => some (.exn s1)
    | some (.val _ s1) => some (.norm s1)
  | .decl x e, s => match evalInit c K env d (some (x, e)) s with
    | none => none
    | some (.exn s1) => some (.exn s1)
    | some (.val _ s1) => some (.norm s1)
  | .ret none, s => some (.ret none s)
  | .ret (some e), s => match eval c K env d e s with
    | none => none
    | some (.exn s1) => some (.exn s1)
    | some (.val v s1) => some (.ret (some v) s1)
  | .throw_ e, s => match eval c K env d e s with
    | none => none
    | some (.exn s1) => some (.exn s1)
    | some (.val _ s1) => some (.exn s1)
  | .brk, s => some (.brk s)
  | .cont, s => some (.cont s)
  | .block b, s => execs n b s
  | .ite i q t e, s => match evalInit c K env d i s with
    | none => none
    | some (.exn s1) => some (.exn s1)
    | some (.val _ s1) => match eval c K env d q s1 with
      | none => none
      | some (.exn s2) => some (.exn s2)
      | some (.val v s2) => if v.truth then execs n t s2 else execs n e s2
  | .while_ i q b e, s => match evalInit c K env d i s with
    | none => none
    | some (.exn s1) => some (.exn s1)
    | some (.val _ s1) => loop (eval c K env d q) (execs n b) (execs n e) n s1
  | .try_ b h, s => match execs n b s with
    | none => none
    | some (.exn s1) => execs n h s1
    | some o => some o
/-- Execution of a list of statements. -/
def execs (n : Nat) : Stmts → St M → Option (Out M)
  | .nil, s => some (.norm s)
  | .cons a r, s => match exec n a s with
    | none => none
    | some (.norm s1) => execs n r s1
    | some o => some o
end
end

/-- Where the parameters and variables of a callee at depth `d` live. -/
def bindEnv (d : Nat) : List Nat → List Arg → Nat → Loc
  | p :: ps, .ref l :: as, x => if x = p then l else bindEnv d ps as x
  | p :: ps, .val _ :: as, x => if x = p then .slot d p else bindEnv d ps as x
  | _, _, x => .slot d x

/-- Values of arguments are put into the variables of the callee. -/
def enter {M : Sem} (d : Nat) : List Nat → List Arg → St M → St M
  | p :: ps, .val v :: as, s => (enter d ps as s).set (.slot d p) v
  | _ :: ps, .ref _ :: as, s => enter d ps as s
  | _, _, s => s

/-- The implementations run one after the other until one returns a value. -/
def runImpls {M : Sem} (c : Calls M) (K : Fn → List Kind) (n : Nat) (dflt : Val) (args : List Arg) (d : Nat) :
    List Impl → St M → Option (Ev M)
  | [], s => some (.val dflt s)
  | i :: r, s => match execs c K (bindEnv (d + 1) i.params args) (d + 1) n i.body (enter (d + 1) i.params args s) with
    | none => none
    | some (.ret (some v) s1) => some (.val v (s.back d s1))
    | some (.exn s1) => some (.exn (s.back d s1))
    | some (.norm s1) => runImpls c K n dflt args d r (s.back d s1)
    | some (.brk s1) => runImpls c K n dflt args d r (s.back d s1)
    | some (.cont s1) => runImpls c K n dflt args d r (s.back d s1)
    | some (.ret none s1) => runImpls c K n dflt args d r (s.back d s1)

/-- An external function writes its `inout` arguments. -/
def writeBack {M : Sem} : List Kind → List Arg → List Val → St M → St M
  | .inout :: ks, .ref l :: as, v :: vs, s => writeBack ks as vs (s.set l v)
  | _ :: ks, _ :: as, _ :: vs, s => writeBack ks as vs s
  | _, _, _, s => s

/-- A call of an external function. -/
def callExt {M : Sem} (f : Fn) (ks : List Kind) (args : List Arg) (s : St M) : Option (Ev M) :=
  let r := M.ext f (args.map (Arg.get s)) s.w
  let s1 := writeBack ks args r.2.1 { s with w := r.2.2 }
  match r.1 with
  | some v => some (.val v s1)
  | none => some (.exn s1)

/-- What a call does in a program, with calls nested at most `n` deep and at most `n` rounds of each loop. A function that is not declared has no meaning
    (the C++ compiler reports it). -/
def callN (M : Sem) (P : Prog) : Nat → Calls M
  | 0, _, _, _, _ => none
  | n + 1, f, args, d, s => match P.get f with
    | none => none
    | some F =>
      if F.ext then callExt f F.kinds args s
      else runImpls (callN M P n) P.kinds (n + 1) F.dflt args d F.impls s

/-- **What a program does**: the call ends with this outcome. -/
def Does (M : Sem) (P : Prog) (f : Fn) (args : List Arg) (d : Nat) (s : St M) (r : Ev M) : Prop :=
  ∃ n, callN M P n f args d s = some r

/-! ## Functions a piece of code calls -/

mutual
/-- Functions called in an expression. -/
def Expr.calls : Expr → List Fn
  | .lit _ => []
  | .name _ => []
  | .op _ as => as.calls
  | .mod _ _ => []
  | .assign _ e => e.calls
  | .tern q a b => q.calls ++ (a.calls ++ b.calls)
  | .call f as => f :: as.calls
/-- Functions called in expressions. -/
def Exprs.calls : Exprs → List Fn
  | .nil => []
  | .cons e r => e.calls ++ r.calls
end

/-- Functions called in the head of a statement. -/
def initCalls : Option (Nat × Expr) → List Fn
  | none => []
  | some (_, e) => e.calls

/-- Functions called in an optional expression. -/
def optCalls : Option Expr → List Fn
  | none => []
  | some e => e.calls

mutual
/-- Functions called in a statement. -/
def Stmt.calls : Stmt → List Fn
  | .expr e => e.calls
  | .decl _ e => e.calls
  | .ret e => optCalls e
  | .throw_ e => e.calls
  | .brk => []
  | .cont => []
  | .block b => b.calls
  | .ite i q t e => initCalls i ++ (q.calls ++ (t.calls ++ e.calls))
  | .while_ i q b e => initCalls i ++ (q.calls ++ (b.calls ++ e.calls))
  | .try_ b h => b.calls ++ h.calls
/-- Functions called in statements. -/
def Stmts.calls : Stmts → List Fn
  | .nil => []
  | .cons s r => s.calls ++ r.calls
end

/-- Functions called by the implementations of a function. -/
def Fun.calls (F : Fun) : List Fn := F.impls.flatMap fun i => i.body.calls

/-- Functions called anywhere in a program. -/
def Prog.calls (P : Prog) : List Fn := P.flatMap fun x => x.2.calls

/-- Every function that is called is declared: otherwise there is an error when the C++ code is compiled. -/
def Closed (P : Prog) : Prop := ∀ f ∈ P.calls, (P.get f).isSome

end Verif.Opt.Whole
