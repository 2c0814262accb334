import Verif.Opt.Returns

/-!
# What must hold of a program for the propagation of returned values to be safe

The specification is the meaning of programs in `Verif/Opt/Returns.lean` (`Does`). This file has the conditions of the theorem. None mentions the pass.
-/

namespace Verif.Opt.Ret

open Whole (Fn Kind)

/-- The local variable an expression is. -/
def Expr.var? : Expr → Option Var
  | .name (.loc x) => some x
  | _ => none

/-- Local variables that are passed for `inout` parameters. -/
def Exprs.inouts : List Kind → Exprs → List Var
  | .inout :: ks, .cons e r => e.var?.toList ++ Exprs.inouts ks r
  | _ :: ks, .cons _ r => Exprs.inouts ks r
  | _, _ => []

/-- The local variable a target is. -/
def Lhs.vars : Lhs → List Var
  | .name (.loc x) => [x]
  | _ => []

section
variable (K : Fn → List Kind)

mutual
/-- Local variables an expression can change: those passed for `inout` parameters. -/
def Expr.writes : Expr → List Var
  | .lit _ => []
  | .name _ => []
  | .fld _ => []
  | .op _ as => as.writes
  | .tup as => as.writes
  | .call f as => Exprs.inouts (K f) as ++ as.writes
/-- The same for a list. -/
def Exprs.writes : Exprs → List Var
  | .nil => []
  | .cons e r => e.writes ++ r.writes
end

/-- Local variables a `return` can change. -/
def retWrites : Option Expr → List Var
  | none => []
  | some e => e.writes K

mutual
/-- Local variables a statement can change: targets, declared variables, and those passed for `inout` parameters. -/
def Stmt.writes : Stmt → List Var
  | .expr e => e.writes K
  | .set t e => t.vars ++ e.writes K
  | .tset ts e => ts.flatMap Lhs.vars ++ e.writes K
  | .decl x e => x :: e.writes K
  | .ret e => retWrites K e
  | .throw_ e => e.writes K
  | .brk => []
  | .cont => []
  | .block b => b.writes
  | .ite q t e => q.writes K ++ (t.writes ++ e.writes)
  | .while_ q b => q.writes K ++ b.writes
  | .try_ b h => b.writes ++ h.writes
/-- The same for statements. -/
def Stmts.writes : Stmts → List Var
  | .nil => []
  | .cons s r => s.writes ++ r.writes
end

mutual
/-- Local variables passed for `inout` parameters anywhere in a statement. -/
def Stmt.passes : Stmt → List Var
  | .expr e => e.writes K
  | .set _ e => e.writes K
  | .tset _ e => e.writes K
  | .decl _ e => e.writes K
  | .ret e => retWrites K e
  | .throw_ e => e.writes K
  | .brk => []
  | .cont => []
  | .block b => b.passes
  | .ite q t e => q.writes K ++ (t.passes ++ e.passes)
  | .while_ q b => q.writes K ++ b.passes
  | .try_ b h => b.passes ++ h.passes
/-- The same for statements. -/
def Stmts.passes : Stmts → List Var
  | .nil => []
  | .cons s r => s.passes ++ r.passes
end
end

mutual
/-- Local variables an expression mentions. -/
def Expr.vars : Expr → List Var
  | .lit _ => []
  | .name (.loc x) => [x]
  | .name (.glob _) => []
  | .fld _ => []
  | .op _ as => as.vars
  | .tup as => as.vars
  | .call _ as => as.vars
/-- The same for a list. -/
def Exprs.vars : Exprs → List Var
  | .nil => []
  | .cons e r => e.vars ++ r.vars
end

/-- Local variables a `return` mentions. -/
def retVars : Option Expr → List Var
  | none => []
  | some e => e.vars

mutual
/-- Local variables a statement mentions in expressions and as targets. -/
def Stmt.vars : Stmt → List Var
  | .expr e => e.vars
  | .set t e => t.vars ++ e.vars
  | .tset ts e => ts.flatMap Lhs.vars ++ e.vars
  | .decl _ e => e.vars
  | .ret e => retVars e
  | .throw_ e => e.vars
  | .brk => []
  | .cont => []
  | .block b => b.vars
  | .ite q t e => q.vars ++ (t.vars ++ e.vars)
  | .while_ q b => q.vars ++ b.vars
  | .try_ b h => b.vars ++ h.vars
/-- The same for statements. -/
def Stmts.vars : Stmts → List Var
  | .nil => []
  | .cons s r => s.vars ++ r.vars
end

mutual
/-- Local variables declared. -/
def Stmt.decls : Stmt → List Var
  | .decl x _ => [x]
  | .block b => b.decls
  | .ite _ t e => t.decls ++ e.decls
  | .while_ _ b => b.decls
  | .try_ b h => b.decls ++ h.decls
  | _ => []
/-- The same for statements. -/
def Stmts.decls : Stmts → List Var
  | .nil => []
  | .cons s r => s.decls ++ r.decls
end

mutual
/-- What `return` statements return. -/
def Stmt.returns : Stmt → List (Option Expr)
  | .ret e => [e]
  | .block b => b.returns
  | .ite _ t e => t.returns ++ e.returns
  | .while_ _ b => b.returns
  | .try_ b h => b.returns ++ h.returns
  | _ => []
/-- The same for statements. -/
def Stmts.returns : Stmts → List (Option Expr)
  | .nil => []
  | .cons s r => s.returns ++ r.returns
end

mutual
/-- Tuple assignments: targets and source. -/
def Stmt.unpacks : Stmt → List (List Lhs × Expr)
  | .tset ts e => [(ts, e)]
  | .block b => b.unpacks
  | .ite _ t e => t.unpacks ++ e.unpacks
  | .while_ _ b => b.unpacks
  | .try_ b h => b.unpacks ++ h.unpacks
  | _ => []
/-- The same for statements. -/
def Stmts.unpacks : Stmts → List (List Lhs × Expr)
  | .nil => []
  | .cons s r => s.unpacks ++ r.unpacks
end

/-- **The generated code compiles**, as far as parameters go: they have different IDs and a kind each, and no function changes an `in` parameter. -/
def Compiles (P : Prog) : Prop :=
  ∀ f F, Prog.get P f = some F → F.params.length = F.kinds.length ∧ F.params.Nodup ∧
    ∀ p, (p, Kind.in_) ∈ F.params.zip F.kinds → (⟨p, 0⟩ : Var) ∉ F.body.writes (Prog.kinds P)

/-- No function declares a variable with the ID of one of its parameters (then every name with such an ID is the parameter). -/
def NoShadow (P : Prog) : Prop :=
  ∀ f F, Prog.get P f = some F → (∀ x ∈ F.body.decls, x.id ∉ F.params) ∧ ∀ x ∈ F.body.vars, x.id ∈ F.params → x.n = 0

/-- No function that may be changed and returns a tuple is called in a `return`. -/
def NoTailCalls (P : Prog) : Prop :=
  ∀ f F g G, Prog.get P f = some F → F.fixed = false → F.res.isSome → (g, G) ∈ P → ∀ as, some (Expr.call f as) ∉ G.body.returns

/-- A function that may be changed always returns a tuple, with the parameter `p` as element `i`. -/
def AlwaysReturns (F : Fun) (i p : Nat) : Prop :=
  F.fixed = false ∧ p ∈ F.params ∧ ∀ e ∈ F.body.returns, ∃ as, e = some (Expr.tup as) ∧ as.toList[i]? = some (Expr.name (.loc ⟨p, 0⟩))

/-- A `copy` parameter that is always returned is not passed on for an `inout` parameter, and any other one that is returned not within a returned tuple. -/
def Steady (P : Prog) : Prop :=
  ∀ f F i p, Prog.get P f = some F → AlwaysReturns F i p →
    ((p, Kind.copy) ∈ F.params.zip F.kinds → (⟨p, 0⟩ : Var) ∉ F.body.passes (Prog.kinds P)) ∧
    ∀ as, some (Expr.tup as) ∈ F.body.returns → (⟨p, 0⟩ : Var) ∉ as.writes (Prog.kinds P)

/-- A variable of the function itself: a local variable or a `copy` parameter. -/
def Own (F : Fun) (x : Var) : Prop := ∀ p k, (p, k) ∈ F.params.zip F.kinds → x = ⟨p, 0⟩ → k = Kind.copy

/-- Where a variable is passed for a parameter that is always returned and gets it back: all targets are different variables, and this one is a variable
    of the caller itself that is passed once and is not changed by evaluating arguments. -/
def SafeTargets (P : Prog) : Prop :=
  ∀ g G f F ts as i j p x, Prog.get P g = some G → (ts, Expr.call f as) ∈ G.body.unpacks → Prog.get P f = some F → AlwaysReturns F i p →
    F.params[(j : Nat)]? = some p → as.toList[(j : Nat)]? = some (Expr.name x) → ts[(i : Nat)]? = some (Lhs.name x) →
    (∀ t ∈ ts, ∃ y, t = Lhs.name y) ∧ ts.Nodup ∧ (∀ k : Nat, as.toList[k]? = some (Expr.name x) → k = j) ∧
    ∃ v, x = Name.loc v ∧ Own G v ∧ v ∉ as.writes (Prog.kinds P)

/-- Arguments fit the parameters: references only for `in` and `inout` parameters, and only to what exists at depth `d`. -/
def Fits (d : Nat) (ks : List Kind) (args : List Arg) : Prop :=
  ∀ (j : Nat) l, args[j]? = some (.ref l) → (∃ k, ks[j]? = some k ∧ k ≠ Kind.copy) ∧ ∀ d' x, l = Loc.slot d' x → d' ≤ d

/-- All that a program must satisfy. -/
structure Good (P : Prog) : Prop where
  compiles : Compiles P
  scopes : NoShadow P
  tails : NoTailCalls P
  steady : Steady P
  targets : SafeTargets P

end Verif.Opt.Ret
