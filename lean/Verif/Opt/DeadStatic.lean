import Verif.Opt.Whole

/-!
# Model of the pass that removes code that is statically dead

`hilti/toolchain/src/compiler/optimizer/passes/dead-code-static.cc`: the collector's `function_usage` and the mutator. Not modelled: types, fields
other than methods, features (`&needed-by-feature`), `&always-emit` of methods.
-/

namespace Verif.Opt.Whole

/-- `FunctionUsage::defined`: there is a body, or the function is implemented in C++.
    `dead-code-static.cc:103-121, 150-157`. -/
def Fun.defined (F : Fun) : Bool := !F.impls.isEmpty || F.ext

/-- `FunctionUsage::referenced`: there is a call anywhere (`dead-code-static.cc:262-281`), or it must not be removed
    (`dead-code-static.cc:158-159`). -/
def Prog.referenced (P : Prog) (f : Fn) (F : Fun) : Bool := P.calls.contains f || F.keep

/-- Which calls are replaced by the default value of the result: `dead-code-static.cc:401-414` (methods),
    `dead-code-static.cc:431-446` (hooks). -/
def Fun.unimplemented (F : Fun) : Bool := (F.method || F.hook) && !F.defined

/-- The default value a call of a function is replaced with. -/
def Prog.unimpl (P : Prog) (f : Fn) : Option Val :=
  match P.get f with
  | some F => if F.unimplemented then some F.dflt else none
  | none => none

/-- Which declarations are removed. Functions: `dead-code-static.cc:381-388`. Methods: `dead-code-static.cc:349-378`. -/
def Prog.droppable (P : Prog) (f : Fn) (F : Fun) : Bool :=
  if F.method then
    (!P.referenced f F && !F.hook) || (!F.defined && !P.referenced f F)
  else
    (F.hook && !F.defined) || (!F.hook && !P.referenced f F)

/-- `tryAsBoolLiteral`, `dead-code-static.cc:313-325` (without coercions). -/
def boolLit : Expr → Option Bool
  | .lit (.bool b) => some b
  | _ => none

mutual
/-- There is a name, or a call, in an expression: the data flow of its statement has something to say about it
    (`cfg.cc:807-929`). -/
def Expr.busy : Expr → Bool
  | .lit _ => false
  | .name _ => true
  | .op _ as => as.busy
  | .mod _ _ => true
  | .assign _ _ => true
  | .tern q a b => q.busy || a.busy || b.busy
  | .call _ _ => true
/-- The same for a list. -/
def Exprs.busy : Exprs → Bool
  | .nil => false
  | .cons e r => e.busy || r.busy
end

/-- Operands other than names mention names or calls: then names are not `isConstOperand` of the operator of the statement
    (`cfg.cc:86-125, 919-928`) and the statement is kept. -/
def Exprs.deep : Exprs → Bool
  | .nil => false
  | .cons (.name _) r => r.deep
  | .cons e r => e.busy || r.deep

/-- `cfg::Cache::mayHaveSideEffects` for the expression of an expression statement, `cfg.cc:1292-1324`. -/
def Expr.effects : Expr → Bool
  | .lit _ => false
  | .name _ => false
  | .op _ as => as.deep
  | .mod _ _ => true
  | .assign _ _ => true
  | .tern q a b => q.busy || a.busy || b.busy
  | .call _ _ => true

/-- An empty list of statements. -/
def Stmts.isEmpty : Stmts → Bool
  | .nil => true
  | .cons _ _ => false

section
variable (U : Fn → Option Val)

mutual
/-- The visit of an expression, in pre-order. What replaces a node is not visited: `replaceNode` inserts a copy
    (`ast/node.cc:152-157`), and the iterator goes on with the children of the old node (`ast/visitor.h:85-130`).
    `dead-code-static.cc:390-414, 431-446`. -/
def visitE : Expr → Expr
  | .lit v => .lit v
  | .name x => .name x
  | .op o as => .op o (visitEs as)
  | .mod o x => .mod o x
  | .assign x e => .assign x (visitE e)
  | .tern q a b => match boolLit q with
    | some true => a
    | some false => b
    | none => .tern (visitE q) (visitE a) (visitE b)
  | .call f as => match U f with
    | some v => .lit v
    | none => .call f (visitEs as)
/-- The visit of a list. -/
def visitEs : Exprs → Exprs
  | .nil => .nil
  | .cons e r => .cons (visitE e) (visitEs r)
end

/-- The visit of the variable in a head. -/
def visitI : Option (Nat × Expr) → Option (Nat × Expr)
  | none => none
  | some (x, e) => some (x, visitE U e)

/-- The visit of an optional expression. -/
def visitO : Option Expr → Option Expr
  | none => none
  | some e => some (visitE U e)

/-- A `while` with a condition that is false, and no `else`: it is removed with `removeChild`, which moves the statements behind it, so that
    the iterator skips the next one (`dead-code-static.cc:487-492`, `ast/node.h:585-594`). -/
def deadWhile : Stmt → Bool
  | .while_ none q _ e => boolLit q == some false && e.isEmpty
  | _ => false

mutual
/-- The visit of a statement; `none`: it is removed. `dead-code-static.cc:448-500`. -/
def visit : Stmt → Option Stmt
  | .expr e => if e.effects then some (.expr (visitE U e)) else none
  | .decl x e => some (.decl x (visitE U e))
  | .ret e => some (.ret (visitO U e))
  | .throw_ e => some (.throw_ (visitE U e))
  | .brk => some .brk
  | .cont => some .cont
  | .block b => some (.block (visits false b))
  | .ite i q t e => match i, boolLit q with
    | none, some true => some (.block t)
    | none, some false => if e.isEmpty then none else some (.block e)
    | _, _ => some (.ite (visitI U i) (visitE U q) (visits false t) (visits false e))
  | .while_ i q b e => match i, boolLit q with
    | none, some true => some (.while_ none q (visits false b) .nil)
    | none, some false => if e.isEmpty then none else some (.block e)
    | _, _ => some (.while_ (visitI U i) (visitE U q) (visits false b) (visits false e))
  | .try_ b h => some (.try_ (visits false b) (visits false h))
/-- The visit of a list; `skip`: the iterator skips the first one. -/
def visits : Bool → Stmts → Stmts
  | _, .nil => .nil
  | true, .cons a r => .cons a (visits false r)
  | false, .cons a r => match visit a with
    | some a' => .cons a' (visits false r)
    | none => visits (deadWhile a) r
end
end

/-- What is left of a function. -/
def Fun.visited (U : Fn → Option Val) (F : Fun) : Fun :=
  { F with impls := F.impls.map fun i => { i with body := visits U false i.body } }

/-- One run of the pass, `dead-code-static.cc:503-508`. -/
def deadStatic (P : Prog) : Prog :=
  P.filterMap fun x => if P.droppable x.1 x.2 then none else some (x.1, x.2.visited P.unimpl)

end Verif.Opt.Whole
