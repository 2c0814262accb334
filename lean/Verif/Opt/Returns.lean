import Verif.Opt.Whole

/-!
# Programs with functions that return tuples: syntax and meaning

The language of the pass `optimizer/passes/propagate-function-returns.cc`, and what programs *do*. The pass never looks at this meaning.

Modelled: `hilti/toolchain/include/ast/{expressions,statements,declarations}/*.h` and their C++ rendering (`codegen/statements.cc`,
`codegen/expressions.cc`, tuple assignment: `codegen/operators.cc`, parameters: `codegen/types.cc:1126-1160`), as in `Verif/Opt/Whole.lean`: a `copy`
parameter is a variable of the callee, an `in` parameter is a `const T&` and an `inout` parameter a `T&`. New here: tuples, tuple assignments,
assignments to fields, and variables of the same ID that shadow each other. Simplified: fields are those of one object; assignments are statements, not
expressions; `if` and `while` declare no variable; functions have one implementation (hooks have no tuple results); no `switch`, `for`, `yield`.
-/

namespace Verif.Opt.Ret

open Whole (Fn Kind)

/-- A local variable or parameter: its ID, and which of the variables of that ID in the function it is. The parameter is number 0; a variable of
    an inner block may have the ID of one outside (C82). -/
structure Var where
  id : Nat
  n : Nat
  deriving DecidableEq, Repr

/-- A name that has been resolved. `ast/expressions/name.h`. -/
inductive Name where
  | loc (x : Var)
  | glob (g : Nat)
  deriving DecidableEq, Repr

/-- Values. -/
inductive Val where
  | void
  | int (i : Int)
  | tup (vs : List Val)

/-- Truth of a condition. -/
def Val.truth : Val → Bool
  | .int i => i != 0
  | _ => false

mutual
/-- Expressions: constants, names, fields, operators (they may throw), tuples, calls. `ast/expressions/*.h`. -/
inductive Expr where
  | lit (v : Val)
  | name (x : Name)
  | fld (k : Nat)
  | op (o : Nat) (as : Exprs)
  | tup (as : Exprs)
  | call (f : Fn) (as : Exprs)
/-- Lists of expressions. -/
inductive Exprs where
  | nil
  | cons (e : Expr) (r : Exprs)
end

/-- As a list. -/
def Exprs.toList : Exprs → List Expr
  | .nil => []
  | .cons e r => e :: r.toList

/-- From a list. -/
def Exprs.ofList : List Expr → Exprs
  | [] => .nil
  | e :: r => .cons e (Exprs.ofList r)

/-- What can be assigned to: a variable, or a field (`operator_::struct_::MemberNonConst`). -/
inductive Lhs where
  | name (x : Name)
  | fld (k : Nat)
  deriving DecidableEq, Repr

mutual
/-- Statements, `ast/statements/*.h`. `tset`: `operator_::tuple::CustomAssign`. -/
inductive Stmt where
  | expr (e : Expr)
  | set (t : Lhs) (e : Expr)
  | tset (ts : List Lhs) (e : Expr)
  | decl (x : Var) (e : Expr)
  | ret (e : Option Expr)
  | throw_ (e : Expr)
  | brk
  | cont
  | block (b : Stmts)
  | ite (c : Expr) (t e : Stmts)
  | while_ (c : Expr) (b : Stmts)
  | try_ (b h : Stmts)
/-- Lists of statements. -/
inductive Stmts where
  | nil
  | cons (s : Stmt) (r : Stmts)
end

/-- A function or method. `params`: the IDs of its parameters, `ext`: it has no body (it is implemented in C++), `fixed`: `! Optimizer::mayModify`
    (`optimizer.h:320-325`), `method`: it is called by `operator_::struct_::MemberCall`, `res`: the types of the elements of its result, if that is a
    tuple. `declaration::Function`. -/
structure Fun where
  params : List Nat
  kinds : List Kind
  body : Stmts := .nil
  res : Option (List Nat) := none
  ext : Bool := false
  fixed : Bool := false
  method : Bool := false

/-- All functions of a program. -/
abbrev Prog := List (Fn × Fun)

/-- The declaration of a function. -/
def Prog.get : Prog → Fn → Option Fun
  | [], _ => none
  | (g, F) :: P, f => if f = g then some F else Prog.get P f

/-- The kinds of the parameters of a function. -/
def Prog.kinds (P : Prog) (f : Fn) : List Kind :=
  match Prog.get P f with
  | some F => F.kinds
  | none => []

/-! ## Meaning -/

/-- A place in memory. -/
inductive Loc where
  | glob (g : Nat)
  | fld (k : Nat)
  | slot (d : Nat) (x : Var)
  deriving DecidableEq, Repr

/-- What built-in operators and functions implemented in C++ do (as in `Whole.Sem`). -/
structure Sem where
  W : Type
  op : Nat → List Val → Option Val
  ext : Fn → List Val → W → Option Val × List Val × W

/-- The state of a running program. -/
structure St (M : Sem) where
  mem : Loc → Val
  w : M.W

/-- Write a location. -/
def St.set {M : Sem} (s : St M) (l : Loc) (v : Val) : St M :=
  { s with mem := fun l' => if l' = l then v else s.mem l' }

/-- The state after a call from depth `d`: the variables of the callee are gone. -/
def St.back {M : Sem} (s : St M) (d : Nat) (s' : St M) : St M :=
  { mem := fun l => match l with
      | .slot d' x => if d < d' then s.mem (.slot d' x) else s'.mem (.slot d' x)
      | l => s'.mem l
    w := s'.w }

/-- An argument: a reference to a location, or a value. -/
inductive Arg where
  | ref (l : Loc)
  | val (v : Val)

/-- The value of an argument. -/
def Arg.get {M : Sem} (s : St M) : Arg → Val
  | .ref l => s.mem l
  | .val v => v

/-- Outcome of a computation: a result, an exception, or no meaning (the C++ compiler reports an error, or behaviour is undefined). -/
inductive Res (M : Sem) (α : Type) where
  | val (a : α) (s : St M)
  | exn (s : St M)
  | ub

/-- Computations; `none`: it does not end. -/
abbrev Comp (M : Sem) (α : Type) := Option (Res M α)

/-- One after the other. -/
def Comp.bind {M : Sem} {α β : Type} : Comp M α → (α → St M → Comp M β) → Comp M β
  | none, _ => none
  | some (.exn s), _ => some (.exn s)
  | some .ub, _ => some .ub
  | some (.val a s), k => k a s

/-- How a statement ends. -/
inductive Flow where
  | norm
  | brk
  | cont
  | ret (v : Option Val)

/-- What calls do: function, arguments, depth of the caller, state. -/
abbrev Calls (M : Sem) := Fn → List Arg → Nat → St M → Comp M Val

/-- Where a name lives. -/
def locOf (env : Var → Loc) : Name → Loc
  | .loc x => env x
  | .glob g => .glob g

/-- Where an assignment goes. -/
def lhsLoc (env : Var → Loc) : Lhs → Loc
  | .name x => locOf env x
  | .fld k => .fld k

/-- The location an argument refers to, if it is passed by reference. `codegen/types.cc:1126-1160`. -/
def byRef (env : Var → Loc) : Kind → Expr → Option Loc
  | .copy, _ => none
  | _, .name x => some (locOf env x)
  | _, _ => none

/-- The elements of a tuple are assigned one after the other. -/
def assignAll {M : Sem} (env : Var → Loc) : List Lhs → List Val → St M → St M
  | t :: ts, v :: vs, s => assignAll env ts vs (s.set (lhsLoc env t) v)
  | _, _, s => s

section
variable {M : Sem} (c : Calls M) (K : Fn → List Kind) (env : Var → Loc) (d : Nat)

mutual
/-- Evaluation of an expression, operands from left to right (the generated C++ leaves the order of arguments open). -/
def eval : Expr → St M → Comp M Val
  | .lit v, s => some (.val v s)
  | .name x, s => some (.val (s.mem (locOf env x)) s)
  | .fld k, s => some (.val (s.mem (.fld k)) s)
  | .op o as, s => (evalArgs [] as s).bind fun vs s1 => match M.op o (vs.map (Arg.get s1)) with
    | some v => some (.val v s1)
    | none => some (.exn s1)
  | .tup as, s => (evalArgs [] as s).bind fun vs s1 => some (.val (.tup (vs.map (Arg.get s1))) s1)
  | .call f as, s => (evalArgs (K f) as s).bind fun vs s1 => c f vs d s1
/-- Evaluation of arguments for parameters of the given kinds. -/
def evalArgs : List Kind → Exprs → St M → Comp M (List Arg)
  | _, .nil, s => some (.val [] s)
  | ks, .cons e r, s => match byRef env (ks.headD .copy) e with
    | some l => (evalArgs ks.tail r s).bind fun as s1 => some (.val (.ref l :: as) s1)
    | none => (eval e s).bind fun v s1 => (evalArgs ks.tail r s1).bind fun as s2 => some (.val (.val v :: as) s2)
end

/-- What a `return` gives. -/
def evalRet : Option Expr → St M → Comp M (Option Val)
  | none, s => some (.val none s)
  | some e, s => (eval c K env d e s).bind fun v s1 => some (.val (some v) s1)

/-- Rounds of a loop. -/
def loop (q : St M → Comp M Val) (b : St M → Comp M Flow) : Nat → St M → Comp M Flow
  | 0, _ => none
  | n + 1, s => (q s).bind fun v s1 => if v.truth then
      (b s1).bind fun o s2 => match o with
        | .norm => loop q b n s2
        | .cont => loop q b n s2
        | .brk => some (.val .norm s2)
        | .ret v => some (.val (.ret v) s2)
    else some (.val .norm s1)

/-- A handler gets exceptions. -/
def handle (x : Comp M Flow) (h : St M → Comp M Flow) : Comp M Flow :=
  match x with
  | some (.exn s) => h s
  | x => x

mutual
/-- Execution of a statement, with at most `n` rounds of each loop. A tuple must have as many elements as there are targets. -/
def exec (n : Nat) : Stmt → St M → Comp M Flow
  | .expr e, s => (eval c K env d e s).bind fun _ s1 => some (.val .norm s1)
  | .set t e, s => (eval c K env d e s).bind fun v s1 => some (.val .norm (s1.set (lhsLoc env t) v))
  | .tset ts e, s => (eval c K env d e s).bind fun v s1 => match v with
    | .tup vs => if vs.length = ts.length then some (.val .norm (assignAll env ts vs s1)) else some .ub
    | _ => some .ub
  | .decl x e, s => (eval c K env d e s).bind fun v s1 => some (.val .norm (s1.set (env x) v))
  | .ret e, s => (evalRet c K env d e s).bind fun v s1 => some (.val (.ret v) s1)
  | .throw_ e, s => (eval c K env d e s).bind fun _ s1 => some (.exn s1)
  | .brk, s => some (.val .brk s)
  | .cont, s => some (.val .cont s)
  | .block b, s => execs n b s
  | .ite q t e, s => (eval c K env d q s).bind fun v s1 => if v.truth then execs n t s1 else execs n e s1
  | .while_ q b, s => loop (eval c K env d q) (execs n b) n s
  | .try_ b h, s => handle (execs n b s) (execs n h)
/-- Execution of a list of statements. -/
def execs (n : Nat) : Stmts → St M → Comp M Flow
  | .nil, s => some (.val .norm s)
  | .cons a r, s => (exec n a s).bind fun o s1 => match o with
    | .norm => execs n r s1
    | o => some (.val o s1)
end
end

/-- Where the parameters and variables of a callee at depth `d` live. -/
def bindEnv (d : Nat) : List Nat → List Arg → Var → Loc
  | p :: ps, .ref l :: as, x => if x = ⟨p, 0⟩ then l else bindEnv d ps as x
  | p :: ps, .val _ :: as, x => if x = ⟨p, 0⟩ then .slot d ⟨p, 0⟩ else bindEnv d ps as x
  | _, _, x => .slot d x

/-- Values of arguments are put into the variables of the callee. -/
def enter {M : Sem} (d : Nat) : List Nat → List Arg → St M → St M
  | p :: ps, .val v :: as, s => (enter d ps as s).set (.slot d ⟨p, 0⟩) v
  | _ :: ps, .ref _ :: as, s => enter d ps as s
  | _, _, s => s

/-- An external function writes its `inout` arguments. -/
def writeBack {M : Sem} : List Kind → List Arg → List Val → St M → St M
  | .inout :: ks, .ref l :: as, v :: vs, s => writeBack ks as vs (s.set l v)
  | _ :: ks, _ :: as, _ :: vs, s => writeBack ks as vs s
  | _, _, _, s => s

/-- A call of an external function. -/
def callExt {M : Sem} (f : Fn) (ks : List Kind) (args : List Arg) (s : St M) : Comp M Val :=
  let r := M.ext f (args.map (Arg.get s)) s.w
  let s1 := writeBack ks args r.2.1 { s with w := r.2.2 }
  match r.1 with
  | some v => some (.val v s1)
  | none => some (.exn s1)

/-- The result of a function: a function whose result is a tuple must return one with the right number of elements (anything else does not compile, or
    runs into its end, which is undefined behaviour in C++); others give nothing if they return nothing. -/
def result {M : Sem} (res : Option (List Nat)) (s : St M) (d : Nat) : Flow → St M → Comp M Val
  | .ret (some v), s1 => match res, v with
    | none, v => some (.val v (s.back d s1))
    | some ts, .tup vs => if vs.length = ts.length then some (.val (.tup vs) (s.back d s1)) else some .ub
    | some _, _ => some .ub
  | _, s1 => if res.isSome then some .ub else some (.val .void (s.back d s1))

/-- An exception leaves a function. -/
def leave {M : Sem} (s : St M) (d : Nat) (x : Comp M Val) : Comp M Val :=
  match x with
  | some (.exn s1) => some (.exn (s.back d s1))
  | x => x

/-- A call of a function with a body. -/
def callFun {M : Sem} (c : Calls M) (K : Fn → List Kind) (n : Nat) (F : Fun) (args : List Arg) (d : Nat) (s : St M) : Comp M Val :=
  leave s d <| (execs c K (bindEnv (d + 1) F.params args) (d + 1) n F.body (enter (d + 1) F.params args s)).bind (result F.res s d)

/-- What a call does in a program, with calls nested at most `n` deep and at most `n` rounds of each loop. Calling what is not declared, or with a wrong
    number of arguments, has no meaning. -/
def callN (M : Sem) (P : Prog) : Nat → Calls M
  | 0, _, _, _, _ => none
  | n + 1, f, args, d, s => match Prog.get P f with
    | none => some .ub
    | some F =>
      if args.length = F.kinds.length then
        if F.ext then callExt f F.kinds args s
        else callFun (callN M P n) (Prog.kinds P) (n + 1) F args d s
      else some .ub

/-- **What a program does**: the call ends with this outcome. -/
def Does (M : Sem) (P : Prog) (f : Fn) (args : List Arg) (d : Nat) (s : St M) (r : Res M Val) : Prop :=
  ∃ n, callN M P n f args d s = some r

end Verif.Opt.Ret
