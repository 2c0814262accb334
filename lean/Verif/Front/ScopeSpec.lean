import Verif.Front.Scope
/-!
# What names mean

A name means what the innermost declaration of it says that is visible where it stands. Local variables are visible from behind their declaration to the
end of the block; constants and types, in the whole block; parameters, in the whole body; variables declared by `if`, `while` and
`switch`, in their conditions, cases and blocks; those of `for` and of comprehensions, in the block and in the other expressions.
-/

namespace Verif.Front.Scope

/-- What a path means in a module. -/
def inModule (ms : List Module) : Path → Nat → Option Target
  | [], _ => none
  | [x], m => match ms[m]? with
    | none => none
    | some M => (M.decls.find? fun d => d.name == x).map .decl
  | x :: y :: r, m => match ms[m]? with
    | none => none
    | some M =>
      match M.decls.find? fun d => d.name == x with
      | some d => if r = [] ∧ y ∈ d.labels then some (.label d y) else none
      | none =>
        if M.name = x then inModule ms (y :: r) m
        else match M.imports.find? fun j => (ms[j]?.map Module.name) == some x with
          | some j => inModule ms (y :: r) j
          | none => none

/-- What a path means where the declarations of `env` are visible, innermost first. -/
def relative (ms : List Module) (m : Nat) (env : List Decl) : Path → Option Target
  | [x] => match env.find? fun d => d.name == x with
    | some d => some (.decl d)
    | none => inModule ms [x] m
  | [t, l] => match env.find? fun d => d.name == t && d.labels.contains l with
    | some d => some (.label d l)
    | none => inModule ms [t, l] m
  | p => inModule ms p m

/-- `::x` is the `x` of the module. -/
def meaning (ms : List Module) (m : Nat) (env : List Decl) (p : Path) : Option Target :=
  if p.head? = some "" then inModule ms p.tail m else relative ms m env p

/-- The names in an expression and what they mean. -/
def Expr.mean (ms : List Module) (m : Nat) (env : List Decl) : Expr → List (Path × Option Target)
  | .use p => [(p, meaning ms m env p)]
  | .lit => []
  | .pair a b => a.mean ms m env ++ b.mean ms m env
  | .comp d i o c => i.mean ms m env ++ o.mean ms m (d :: env) ++ c.mean ms m (d :: env)

/-- Constants and types of a block. -/
def Stmts.whole : Stmts → List Decl
  | .nil => []
  | .cons (.decl d _) b => if d.kind = .var then b.whole else d :: b.whole
  | .cons _ b => b.whole

mutual
def Stmt.mean (ms : List Module) (m : Nat) (env : List Decl) : Stmt → List (Path × Option Target)
  | .expr e => e.mean ms m env
  | .decl _ e => e.mean ms m env
  | .block b => b.mean ms m (b.whole ++ env)
  | .if_ c t e => c.mean ms m env ++ t.mean ms m (t.whole ++ env) ++ e.mean ms m (e.whole ++ env)
  | .ifInit d i c t e =>
    i.mean ms m env ++ c.mean ms m (d :: env) ++ t.mean ms m (t.whole ++ d :: env) ++ e.mean ms m (e.whole ++ d :: env)
  | .while_ c b e => c.mean ms m env ++ b.mean ms m (b.whole ++ env) ++ e.mean ms m (e.whole ++ env)
  | .whileInit d i c b e =>
    i.mean ms m env ++ c.mean ms m (d :: env) ++ b.mean ms m (b.whole ++ d :: env) ++ e.mean ms m (e.whole ++ d :: env)
  | .for_ d s b => s.mean ms m env ++ b.mean ms m (b.whole ++ d :: env)
  | .switch_ d i cs => i.mean ms m env ++ cs.mean ms m (d :: env)
  | .try_ b cs => b.mean ms m (b.whole ++ env) ++ cs.mean ms m env
/-- One statement after the other; a variable is visible in those behind it. -/
def Stmts.mean (ms : List Module) (m : Nat) (env : List Decl) : Stmts → List (Path × Option Target)
  | .nil => []
  | .cons (.decl d e) b => e.mean ms m env ++ b.mean ms m (if d.kind = .var then d :: env else env)
  | .cons s b => s.mean ms m env ++ b.mean ms m env
def Cases.mean (ms : List Module) (m : Nat) (env : List Decl) : Cases → List (Path × Option Target)
  | .nil => []
  | .cons e b cs => e.mean ms m env ++ b.mean ms m (b.whole ++ env) ++ cs.mean ms m env
def Catches.mean (ms : List Module) (m : Nat) (env : List Decl) : Catches → List (Path × Option Target)
  | .nil => []
  | .cons d b cs => b.mean ms m (b.whole ++ d :: env) ++ cs.mean ms m env
end

/-- What is visible in a body from outside: the module is searched behind a unit. -/
def Context.env (c : Context) : List Decl :=
  c.inner.flatten ++ match c.unit with
    | some ds => ds
    | none => c.beyond.flatten

/-- The names in a body and what they mean. -/
def meanAll (ms : List Module) (c : Context) (params : List Decl) (b : Stmts) : List (Path × Option Target) :=
  b.mean ms c.module (b.whole ++ (params ++ c.env))

/-! ### Programs as the parser gives them, and what is left out -/

/-- An ID: its components are not empty, but the first if it is absolute. -/
def IdOk (p : Path) : Prop := (p ≠ [] ∧ "" ∉ p) ∨ ∃ q, p = "" :: q ∧ q ≠ [] ∧ "" ∉ q

/-- A declaration: it has a name, and labels only if it is a type. -/
def DeclOk (d : Decl) : Prop := d.name ≠ "" ∧ "" ∉ d.labels ∧ d.labels.Nodup ∧ (d.labels ≠ [] → d.kind = .type)

/-- IDs and declarations are, and no name of `xs` is used, unless it is declared within the expression. The input of a comprehension does not
mention its variable. -/
def Expr.Ok (xs : List Name) : Expr → Prop
  | .use p => IdOk p ∧ ∀ n ∈ xs, p ≠ [n]
  | .lit => True
  | .pair a b => a.Ok xs ∧ b.Ok xs
  | .comp d i o c => (DeclOk d ∧ d.kind = .var) ∧ i.Ok (d.name :: xs) ∧ o.Ok (xs.filter (· != d.name)) ∧ c.Ok (xs.filter (· != d.name))

mutual
/-- No initial value, sequence or input mentions the variable it is for. -/
def Stmt.Ok : Stmt → Prop
  | .expr e => e.Ok []
  | .decl d e => DeclOk d ∧ e.Ok (if d.kind = .var then [d.name] else [])
  | .block b => b.Ok
  | .if_ c t e => c.Ok [] ∧ t.Ok ∧ e.Ok
  | .ifInit d i c t e => (DeclOk d ∧ d.kind = .var) ∧ i.Ok [d.name] ∧ c.Ok [] ∧ t.Ok ∧ e.Ok
  | .while_ c b e => c.Ok [] ∧ b.Ok ∧ e.Ok
  | .whileInit d i c b e => (DeclOk d ∧ d.kind = .var) ∧ i.Ok [d.name] ∧ c.Ok [] ∧ b.Ok ∧ e.Ok
  | .for_ d s b => (DeclOk d ∧ d.kind = .var) ∧ s.Ok [d.name] ∧ b.Ok
  | .switch_ d i cs => (DeclOk d ∧ d.kind = .var) ∧ i.Ok [d.name] ∧ cs.Ok
  | .try_ b cs => b.Ok ∧ cs.Ok
def Stmts.Ok : Stmts → Prop
  | .nil => True
  | .cons s b => s.Ok ∧ b.Ok
def Cases.Ok : Cases → Prop
  | .nil => True
  | .cons e b cs => e.Ok [] ∧ b.Ok ∧ cs.Ok
def Catches.Ok : Catches → Prop
  | .nil => True
  | .cons d b cs => DeclOk d ∧ b.Ok ∧ cs.Ok
end

/-- The declarations of a program. -/
def Declared (ms : List Module) (c : Context) (params : List Decl) : Prop :=
  (∀ M ∈ ms, M.name ≠ "" ∧ ∀ d ∈ M.decls, DeclOk d) ∧ (∀ d ∈ params, DeclOk d) ∧
    ∀ ds ∈ c.inner ++ c.unit.toList ++ c.beyond, ∀ d ∈ ds, DeclOk d

/-! ### Which programs are rejected -/

/-- The declarations of a block. -/
def Stmts.decls : Stmts → List Decl
  | .nil => []
  | .cons (.decl d _) b => d :: b.decls
  | .cons _ b => b.decls

/-- The names of the declarations differ. -/
def Distinct (ds : List Decl) : Prop := (ds.map Decl.name).Nodup

mutual
/-- In no block is a name declared twice, counting the variables of the statement it belongs to. -/
def Stmt.Once : Stmt → Prop
  | .expr _ => True
  | .decl _ _ => True
  | .block b => Distinct b.decls ∧ b.Once
  | .if_ _ t e => (Distinct t.decls ∧ t.Once) ∧ Distinct e.decls ∧ e.Once
  | .ifInit d _ _ t e => (Distinct (d :: t.decls) ∧ t.Once) ∧ Distinct (d :: e.decls) ∧ e.Once
  | .while_ _ b e => (Distinct b.decls ∧ b.Once) ∧ Distinct e.decls ∧ e.Once
  | .whileInit d _ _ b e => (Distinct (d :: b.decls) ∧ b.Once) ∧ Distinct (d :: e.decls) ∧ e.Once
  | .for_ d _ b => Distinct (d :: b.decls) ∧ b.Once
  | .switch_ d _ cs => cs.Once d
  | .try_ b cs => (Distinct b.decls ∧ b.Once) ∧ cs.Once
def Stmts.Once : Stmts → Prop
  | .nil => True
  | .cons s b => s.Once ∧ b.Once
def Cases.Once (d : Decl) : Cases → Prop
  | .nil => True
  | .cons _ b cs => (Distinct (d :: b.decls) ∧ b.Once) ∧ cs.Once d
def Catches.Once : Catches → Prop
  | .nil => True
  | .cons _ b cs => (Distinct b.decls ∧ b.Once) ∧ cs.Once
end

/-- In a module, neither its declarations nor they and the modules known in it. -/
def ModuleOnce (ms : List Module) (M : Module) : Prop :=
  (M.name :: (M.imports.filterMap fun j => ms[j]?.map Module.name) ++ M.decls.map Decl.name).Nodup

def Once (ms : List Module) (c : Context) (params : List Decl) (b : Stmts) : Prop :=
  (Distinct (params ++ b.decls) ∧ b.Once) ∧ (∀ ds ∈ c.inner ++ c.unit.toList ++ c.beyond, Distinct ds) ∧ ∀ M ∈ ms, ModuleOnce ms M

end Verif.Front.Scope
