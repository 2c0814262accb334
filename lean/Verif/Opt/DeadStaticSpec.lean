import Verif.Opt.Whole

/-!
# What must hold of a program for the removal of dead code to be safe

The specification is the meaning of programs in `Verif/Opt/Whole.lean` (`Does`): a call does the same before and after. This file has the
conditions, in terms of that meaning. None mentions the pass.
-/

namespace Verif.Opt.Whole

/-- Evaluating the expression has no effect: it ends, throws nothing and changes nothing, whatever the state and whatever functions do. -/
def Harmless (M : Sem) (e : Expr) : Prop := ∀ (c : Calls M) K env d s, ∃ v, eval c K env d e s = some (.val v s)

/-- The elements of a list of expressions. -/
def Exprs.toList : Exprs → List Expr
  | .nil => []
  | .cons e r => e :: r.toList

mutual
/-- All calls in an expression, with their arguments. -/
def Expr.invocations : Expr → List (Fn × Exprs)
  | .lit _ => []
  | .name _ => []
  | .op _ as => as.invocations
  | .mod _ _ => []
  | .assign _ e => e.invocations
  | .tern q a b => q.invocations ++ (a.invocations ++ b.invocations)
  | .call f as => (f, as) :: as.invocations
/-- All calls in expressions, with their arguments. -/
def Exprs.invocations : Exprs → List (Fn × Exprs)
  | .nil => []
  | .cons e r => e.invocations ++ r.invocations
end

/-- All calls in the head of a statement. -/
def initInvocations : Option (Nat × Expr) → List (Fn × Exprs)
  | none => []
  | some (_, e) => e.invocations

/-- All calls in an optional expression. -/
def optInvocations : Option Expr → List (Fn × Exprs)
  | none => []
  | some e => e.invocations

mutual
/-- All calls in a statement, with their arguments. -/
def Stmt.invocations : Stmt → List (Fn × Exprs)
  | .expr e => e.invocations
  | .decl _ e => e.invocations
  | .ret e => optInvocations e
  | .throw_ e => e.invocations
  | .brk => []
  | .cont => []
  | .block b => b.invocations
  | .ite i q t e => initInvocations i ++ (q.invocations ++ (t.invocations ++ e.invocations))
  | .while_ i q b e => initInvocations i ++ (q.invocations ++ (b.invocations ++ e.invocations))
  | .try_ b h => b.invocations ++ h.invocations
/-- All calls in statements, with their arguments. -/
def Stmts.invocations : Stmts → List (Fn × Exprs)
  | .nil => []
  | .cons s r => s.invocations ++ r.invocations
end

mutual
/-- All expression statements in a statement. -/
def Stmt.exprStmts : Stmt → List Expr
  | .expr e => [e]
  | .decl _ _ => []
  | .ret _ => []
  | .throw_ _ => []
  | .brk => []
  | .cont => []
  | .block b => b.exprStmts
  | .ite _ _ t e => t.exprStmts ++ e.exprStmts
  | .while_ _ _ b e => b.exprStmts ++ e.exprStmts
  | .try_ b h => b.exprStmts ++ h.exprStmts
/-- All expression statements in statements. -/
def Stmts.exprStmts : Stmts → List Expr
  | .nil => []
  | .cons s r => s.exprStmts ++ r.exprStmts
end

/-- The bodies of all functions. -/
def Prog.bodies (P : Prog) : List Stmts := P.flatMap fun x => x.2.impls.map fun i => i.body

/-- A hook or method without an implementation. -/
def Unimplemented (P : Prog) (f : Fn) : Prop :=
  ∃ F, P.get f = some F ∧ (F.hook = true ∨ F.method = true) ∧ F.impls = [] ∧ F.ext = false

/-- Arguments of calls of hooks and methods without implementation have no effects. -/
def HarmlessArgs (M : Sem) (P : Prog) : Prop :=
  ∀ b ∈ P.bodies, ∀ x ∈ b.invocations, Unimplemented P x.1 → ∀ e ∈ x.2.toList, Harmless M e

/-- The ternary operator with a constant condition that picks a variable. -/
def PicksName (e : Expr) : Prop :=
  ∃ x y, e = .tern (.lit (.bool true)) (.name x) y ∨ e = .tern (.lit (.bool false)) y (.name x)

/-- No argument is such an operator: it is a temporary, the variable itself is passed by reference. -/
def NoPicks (P : Prog) : Prop := ∀ b ∈ P.bodies, ∀ x ∈ b.invocations, ∀ e ∈ x.2.toList, ¬ PicksName e

mutual
/-- The expression is made of constants, variables and operators only: no calls, no assignments, nothing like `x++`. -/
def Expr.plain : Expr → Bool
  | .lit _ => true
  | .name _ => true
  | .op _ as => as.plain
  | .mod _ _ => false
  | .assign _ _ => false
  | .tern q a b => q.plain && a.plain && b.plain
  | .call _ _ => false
/-- The same for a list. -/
def Exprs.plain : Exprs → Bool
  | .nil => true
  | .cons e r => e.plain && r.plain
end

/-- Expression statements made of constants, variables and operators only throw nothing. -/
def QuietStatements (M : Sem) (P : Prog) : Prop :=
  ∀ b ∈ P.bodies, ∀ e ∈ b.exprStmts, e.plain = true → Harmless M e

/-- Functions have different IDs. -/
def Distinct (P : Prog) : Prop := (P.map Prod.fst).Nodup

end Verif.Opt.Whole
