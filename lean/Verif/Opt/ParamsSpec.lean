import Verif.Opt.DeadStaticSpec

/-!
# What must hold of a program for the optimization of parameters to be safe

The specification is the meaning of programs in `Verif/Opt/Whole.lean` (`Does`). This file has what the C++ compiler checks of the generated code, and
the conditions of the theorem. None mentions the pass.
-/

namespace Verif.Opt.Whole

mutual
/-- Local names in an expression. -/
def Expr.locs : Expr → List Nat
  | .lit _ => []
  | .name (.loc x) => [x]
  | .name (.glob _) => []
  | .op _ as => as.locs
  | .mod _ (.loc x) => [x]
  | .mod _ (.glob _) => []
  | .assign (.loc x) e => x :: e.locs
  | .assign (.glob _) e => e.locs
  | .tern q a b => q.locs ++ (a.locs ++ b.locs)
  | .call _ as => as.locs
/-- Local names in expressions. -/
def Exprs.locs : Exprs → List Nat
  | .nil => []
  | .cons e r => e.locs ++ r.locs
end

/-- Local names in a head, with the variable it declares. -/
def initLocs : Option (Nat × Expr) → List Nat
  | none => []
  | some (x, e) => x :: e.locs

/-- Local names in an optional expression. -/
def optLocs : Option Expr → List Nat
  | none => []
  | some e => e.locs

mutual
/-- Local names in a statement, with those it declares. -/
def Stmt.locs : Stmt → List Nat
  | .expr e => e.locs
  | .decl x e => x :: e.locs
  | .ret e => optLocs e
  | .throw_ e => e.locs
  | .brk => []
  | .cont => []
  | .block b => b.locs
  | .ite i q t e => initLocs i ++ (q.locs ++ (t.locs ++ e.locs))
  | .while_ i q b e => initLocs i ++ (q.locs ++ (b.locs ++ e.locs))
  | .try_ b h => b.locs ++ h.locs
/-- Local names in statements. -/
def Stmts.locs : Stmts → List Nat
  | .nil => []
  | .cons s r => s.locs ++ r.locs
end

/-- The local variable an expression is. -/
def Expr.loc? : Expr → Option Nat
  | .name (.loc x) => some x
  | _ => none

/-- Local variables that are passed for `inout` parameters. -/
def Exprs.inouts : List Kind → Exprs → List Nat
  | .inout :: ks, .cons e r => e.loc?.toList ++ Exprs.inouts ks r
  | _ :: ks, .cons _ r => Exprs.inouts ks r
  | _, _ => []

section
variable (K : Fn → List Kind)

mutual
/-- Local variables an expression changes: by assignment, by an operator like `x++`, or by passing them for an `inout` parameter. -/
def Expr.writes : Expr → List Nat
  | .lit _ => []
  | .name _ => []
  | .op _ as => as.writes
  | .mod _ (.loc x) => [x]
  | .mod _ (.glob _) => []
  | .assign (.loc x) e => x :: e.writes
  | .assign (.glob _) e => e.writes
  | .tern q a b => q.writes ++ (a.writes ++ b.writes)
  | .call f as => Exprs.inouts (K f) as ++ as.writes
/-- The same for a list. -/
def Exprs.writes : Exprs → List Nat
  | .nil => []
  | .cons e r => e.writes ++ r.writes
end

/-- Local variables a head changes. -/
def initWrites : Option (Nat × Expr) → List Nat
  | none => []
  | some (x, e) => x :: e.writes K

/-- Local variables an optional expression changes. -/
def optWrites : Option Expr → List Nat
  | none => []
  | some e => e.writes K

mutual
/-- Local variables a statement changes. -/
def Stmt.writes : Stmt → List Nat
  | .expr e => e.writes K
  | .decl x e => x :: e.writes K
  | .ret e => optWrites K e
  | .throw_ e => e.writes K
  | .brk => []
  | .cont => []
  | .block b => b.writes
  | .ite i q t e => initWrites K i ++ (q.writes K ++ (t.writes ++ e.writes))
  | .while_ i q b e => initWrites K i ++ (q.writes K ++ (b.writes ++ e.writes))
  | .try_ b h => b.writes ++ h.writes
/-- Local variables statements change. -/
def Stmts.writes : Stmts → List Nat
  | .nil => []
  | .cons s r => s.writes ++ r.writes
end
end

/-! ## Operators that change their operand -/

mutual
/-- Local variables changed by operators like `x++`. -/
def Expr.mods : Expr → List Nat
  | .lit _ => []
  | .name _ => []
  | .op _ as => as.mods
  | .mod _ (.loc x) => [x]
  | .mod _ (.glob _) => []
  | .assign _ e => e.mods
  | .tern q a b => q.mods ++ (a.mods ++ b.mods)
  | .call _ as => as.mods
/-- The same for a list. -/
def Exprs.mods : Exprs → List Nat
  | .nil => []
  | .cons e r => e.mods ++ r.mods
end

/-- The same for the source of an assignment that is a statement or a condition. -/
def Expr.hidden : Expr → List Nat
  | .assign _ e => e.mods
  | _ => []

/-- The same for a head. -/
def initMods : Option (Nat × Expr) → List Nat
  | none => []
  | some (_, e) => e.mods

/-- The same for an optional expression. -/
def optMods : Option Expr → List Nat
  | none => []
  | some e => e.mods

mutual
/-- Local variables changed by operators like `x++` in a declaration, a `return` or the source of an assignment. -/
def Stmt.hidden : Stmt → List Nat
  | .expr e => e.hidden
  | .decl _ e => e.mods
  | .ret e => optMods e
  | .throw_ _ => []
  | .brk => []
  | .cont => []
  | .block b => b.hidden
  | .ite i q t e => initMods i ++ (q.hidden ++ (t.hidden ++ e.hidden))
  | .while_ i q b e => initMods i ++ (q.hidden ++ (b.hidden ++ e.hidden))
  | .try_ b h => b.hidden ++ h.hidden
/-- The same for statements. -/
def Stmts.hidden : Stmts → List Nat
  | .nil => []
  | .cons s r => s.hidden ++ r.hidden
end

/-! ## What the C++ compiler checks -/

/-- Implementations have the parameters of their prototype, each once; external functions have no implementation. -/
def Consistent (P : Prog) : Prop :=
  ∀ f F, P.get f = some F → (F.ext = true → F.impls = []) ∧
    ∀ i ∈ F.impls, i.kinds = F.kinds ∧ i.params.length = F.kinds.length ∧ i.params.Nodup

/-- No implementation changes an `in` parameter: it is a `const T&`. -/
def ConstOk (P : Prog) : Prop :=
  ∀ f F, P.get f = some F → ∀ i ∈ F.impls, ∀ x, (x, Kind.in_) ∈ i.params.zip i.kinds → x ∉ i.body.writes P.kinds

/-- Calls have as many arguments as the function has parameters. -/
def Arity (P : Prog) : Prop :=
  ∀ f F, P.get f = some F → ∀ i ∈ F.impls, ∀ c ∈ i.body.invocations, c.2.toList.length = (P.kinds c.1).length

/-- **The generated code compiles**, as far as parameters go. -/
structure Compiles (P : Prog) : Prop where
  consistent : Consistent P
  const : ConstOk P
  arity : Arity P

/-! ## Conditions -/

/-- A parameter no implementation mentions, of a function that may be changed. -/
def Unmentioned (P : Prog) (f : Fn) (j : Nat) : Prop :=
  ∃ F, P.get f = some F ∧ F.fixed = false ∧ ∀ i ∈ F.impls, ∀ x, i.params[j]? = some x → x ∉ i.body.locs

/-- Arguments for parameters no implementation mentions have no effects: they are made of constants, variables and operators that do not throw. -/
def IdleArgs (M : Sem) (P : Prog) : Prop :=
  ∀ f F, P.get f = some F → ∀ i ∈ F.impls, ∀ c ∈ i.body.invocations, ∀ (j : Nat) e, c.2.toList[j]? = some e → Unmentioned P c.1 j →
    Harmless M e ∧ e.plain = true

/-- A parameter no implementation changes, of a function that may be changed and has one. -/
def Unchanged (P : Prog) (f : Fn) (j : Nat) : Prop :=
  ∃ F, P.get f = some F ∧ F.fixed = false ∧ F.impls ≠ [] ∧ ∀ i ∈ F.impls, ∀ x, i.params[j]? = some x → x ∉ i.body.writes P.kinds

/-- A variable of the function itself: a local variable or a `copy` parameter. -/
def OwnVariable (i : Impl) (x : Nat) : Prop := ∀ k, (x, k) ∈ i.params.zip i.kinds → k = .copy

/-- Where a parameter is `copy`, is not changed and the argument is a variable, it is a variable of the caller itself,
    and the same call does not change it otherwise. (An `in` parameter does not copy: it sees the changes of the variable during the call.) -/
def SafeCopies (P : Prog) : Prop :=
  ∀ f F, P.get f = some F → ∀ i ∈ F.impls, ∀ c ∈ i.body.invocations, ∀ (j : Nat) n, c.2.toList[j]? = some (Expr.name n) →
    (P.kinds c.1)[j]? = some Kind.copy → Unchanged P c.1 j →
    ∃ x, n = Name.loc x ∧ OwnVariable i x ∧ x ∉ Exprs.inouts (P.kinds c.1) c.2 ∧ x ∉ c.2.writes P.kinds

/-- Functions implemented in C++ are not changed. -/
def ExternalFixed (P : Prog) : Prop := ∀ f F, P.get f = some F → F.ext = true → F.fixed = true

/-- Arguments of calls are made of constants, variables and operators. -/
def PlainArgs (P : Prog) : Prop := ∀ f F, P.get f = some F → ∀ i ∈ F.impls, ∀ c ∈ i.body.invocations, c.2.plain = true

/-- Operators like `x++` are not used in declarations, `return` statements and sources of assignments. -/
def NothingHidden (P : Prog) : Prop := ∀ f F, P.get f = some F → ∀ i ∈ F.impls, i.body.hidden = []

/-- Functions have at most one implementation. -/
def Single (P : Prog) : Prop := ∀ f F, P.get f = some F → F.impls.length ≤ 1

/-- Arguments fit parameters: values for `copy` parameters, references only to what exists. -/
def Fits (d : Nat) : List Kind → List Arg → Prop
  | .copy :: ks, .val _ :: as => Fits d ks as
  | .copy :: _, .ref _ :: _ => False
  | _ :: ks, .val _ :: as => Fits d ks as
  | _ :: ks, .ref (.glob _) :: as => Fits d ks as
  | _ :: ks, .ref (.slot d' _) :: as => d' ≤ d ∧ Fits d ks as
  | [], [] => True
  | _, _ => False

end Verif.Opt.Whole
