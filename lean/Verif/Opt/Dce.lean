import Verif.Opt.Flow
import Verif.Opt.Graph

/-!
# Removal of unused statements

Model of `unusedStatements` and `remove` in `hilti/toolchain/src/compiler/optimizer/passes/dead-code-cfg.cc:45-189`.
-/

namespace Verif.Opt

/-- The AST node with the given identity. -/
def itemAt (its : List (Label × Item)) (l : Label) : Option Item := (its.find? fun p => p.1 = l).map Prod.snd

/-- `Transfer::gen` of a graph node; meta nodes generate nothing (`cfg.cc:1031-1033`). -/
def genAt (its : List (Label × Item)) : Node → List Var
  | .stmt l => match itemAt its l with
    | some i => i.gen
    | none => []
  | _ => []

/-- Does the node end the scope of the declaration? `contains(*scope_end->scope, *decl)`, `cfg.cc:1176`. -/
def cutAt (scopes : List (Node × List Stmt)) (n : Node) (x : Var) : Bool :=
  scopes.any fun p => decide (p.1 = n) && decide (x ∈ declsOf p.2)

/-- The dataflow of a body, computed over its nodes in the given order. -/
def dataflow (body : List Stmt) (order : List Node) (k : Nat) : Option Flow :=
  rounds (edges body) (genAt (itemsOf body)) (cutAt (build body).scopes) order k Flow.empty

/-- Uses found at `End` nodes: updates of variables that live on, `dead-code-cfg.cc:60-86`. -/
def usedAtEnd (kind : Var → Kind) (ends : List Node) (D : Flow) (l : Label) : Bool :=
  ends.any fun k => (D.inn k).any fun f => (kind f.1).outlives && decide (f.2 = .stmt l)

/-- The declaration of `x` is used when another node than one that updates `x` writes it, `:99-104`. -/
def declWritten (its : List (Label × Item)) (l : Label) : Bool :=
  its.any fun n => n.2.gen.any fun x => its.any fun m =>
    decide (m.1 ≠ n.1) && decide (x ∈ m.2.write) && its.any fun d => decide (d.1 = l) && decide (d.2.declares = some x)

/-- An update is used when another node reads the declaration and the update is in its `in` set, `:107-118`. -/
def updateRead (its : List (Label × Item)) (D : Flow) (l : Label) : Bool :=
  its.any fun n => decide (n.1 = l) && n.2.gen.any fun x => its.any fun m =>
    decide (m.1 ≠ l) && decide (x ∈ m.2.read) && (D.inn (.stmt m.1)).any fun f => decide (f.2 = .stmt l)

/-- `unusedStatements`, `:45-136`: no uses, and not marked `keep`. -/
def unused (kind : Var → Kind) (its : List (Label × Item)) (ends : List Node) (D : Flow) (l : Label) : Bool :=
  (match itemAt its l with
    | some i => !i.keep
    | none => false) &&
  !(usedAtEnd kind ends D l || declWritten its l || updateRead its D l)

/-- Initializers `Cache::mayHaveSideEffects` clears in the head of an `if` or `while`, `cfg.cc:1292-1324`: there is no graph
    node for the statement the expression belongs to, so only constants and names pass. -/
def Expr.harmless : Expr → Bool
  | .lit .. => true
  | .name .. => true
  | _ => false

/-- `remove`, `dead-code-cfg.cc:139-199`: an assignment leaves its right-hand side, a declaration its initializer; the variable
    of a `for` stays. -/
def dceRw (un : Label → Bool) : Rw where
  atom
    | .decl l x i => if un l then i.map (fun e => .expr l e) else some (.decl l x i)
    | .assign l x e => if un l then some (.expr l e) else some (.assign l x e)
    | .expr l e => if un l then none else some (.expr l e)
    | st => some st
  expr _ e := e
  init i := if un i.1 && i.2.2.harmless then none else some i
  gone _ := false

/-- The body after one round of removing unused statements. -/
def dce (kind : Var → Kind) (D : Flow) (body : List Stmt) : List Stmt :=
  (dceRw (unused kind (itemsOf body) ((build body).scopes.map Prod.fst) D)).list body

end Verif.Opt
