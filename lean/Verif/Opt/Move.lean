import Verif.Opt.Prop

/-!
# Moving the last use of a variable

Model of `hilti/toolchain/src/compiler/optimizer/passes/move-last-uses.cc`: liveness of variables (`_analyzeLiveness`), and the
marking of last uses (`_applyLastUse`, `_markMovableInNode`, `_walk`, `Mutator`).

An occurrence of a local that is marked becomes `move(x)`. What that does: it gives the value of `x` and may leave anything in
`x`. Here, `move(x)` is a call of a function `mv x` with argument `x`; `Moving` says what it does, and that no other function accesses
the locals of the body.

Simplified: as in `Lang.lean`; in particular no aliases (`maybe_alias`), no calls with several arguments and no moves in the body
before the pass.
-/

namespace Verif.Opt

/-! ## Liveness -/

/-- `AnalysisResult`, `:20-23`. -/
structure LV where
  inn : Node → List Var
  out : Node → List Var

/-- `Transfer::read` and `Transfer::write` of a graph node. -/
def readAt (its : List (Label × Item)) (n : Node) : List Var := match nodeItem its n with
  | some i => i.read
  | none => []
def writeAt (its : List (Label × Item)) (n : Node) : List Var := match nodeItem its n with
  | some i => i.write
  | none => []

/-- Comparison of sets. -/
def sameVars (a b : List Var) : Bool := a.all (fun x => decide (x ∈ b)) && b.all (fun x => decide (x ∈ a))

section
variable (E : List (Node × Node)) (read write : Node → List Var)

/-- `:77-86`: what is live after a node is what is live before one of its successors. -/
def newLiveOut (S : LV) (n : Node) : List Var := (downstream E n).flatMap S.inn

/-- `_transfer`, `:46-64`. -/
def newLiveIn (n : Node) (out : List Var) : List Var := out.filter (fun x => decide (x ∉ write n)) ++ read n

/-- `_analyzeLiveness`, `:68-106`, from the worklist on; with a bound on the number of steps. -/
def liveWork : Nat → List Node → LV → Option LV
  | 0, _, _ => none
  | _ + 1, [], S => some S
  | k + 1, n :: wl, S =>
    let o := newLiveOut E S n
    let i := newLiveIn read write n o
    if sameVars i (S.inn n) then liveWork k wl { S with out := fun v => if v = n then o else S.out v }
    else liveWork k (enqueue wl (upstream E n))
      { inn := fun v => if v = n then i else S.inn v, out := fun v => if v = n then o else S.out v }

end

/-- The analysis of a body. `order` is the worklist at the beginning (`cfg.cc:156-179`: the nodes that can be reached). -/
def liveness (body : List Stmt) (order : List Node) (k : Nat) : Option LV :=
  liveWork (edges body) (readAt (itemsOf body)) (writeAt (itemsOf body)) k order ⟨fun _ => [], fun _ => []⟩

/-! ## Marking -/

/-- The variables to move in an expression: locals (`:125-126`) not live afterwards (`:118`) that occur once (`:166-177`). -/
def movable (kind : Var → Kind) (out : List Var) (e : Expr) (x : Var) : Bool :=
  decide (kind x = .local_) && decide (x ∉ out) && decide (e.names.count x = 1)

/-- `Mutator`, `:234-246`: `x` becomes `move(x)`. -/
def Expr.moved (mv : Var → Nat) (D : Var → Bool) : Expr → Expr
  | .lit p n => .lit p n
  | .name p x => if D x then .call (mv x) (.name p x) else .name p x
  | .bin o a b => .bin o (a.moved mv D) (b.moved mv D)
  | .logic k a b => .logic k (a.moved mv D) (b.moved mv D)
  | .call o a => .call o (a.moved mv D)

/-- Moves in the expression of a node. -/
def LV.mark (kind : Var → Kind) (mv : Var → Nat) (S : LV) (l : Label) (e : Expr) : Expr :=
  e.moved mv (movable kind (S.out (.stmt l)) e)

/-- The pass on a body. Nothing is moved in a `return` statement (`:188-190`) or an `inout` argument (`:140-144`), nor on the left of
    an assignment (`:182-186`). -/
def moveRw (kind : Var → Kind) (mv : Var → Nat) (S : LV) (its : List (Label × Item)) : Rw where
  atom
    | .decl l x i => some (.decl l x (i.map (S.mark kind mv l)))
    | .assign l x e => some (.assign l x (S.mark kind mv l e))
    | .expr l e => some (.expr l (S.mark kind mv l e))
    | st => some st
  expr l e := match itemAt its l with
    | some (.cond _) => S.mark kind mv l e
    | _ => e
  init i := some (i.1, i.2.1, S.mark kind mv i.1 i.2.2)
  gone _ := false

/-- The body after the pass. -/
def moveLast (kind : Var → Kind) (mv : Var → Nat) (S : LV) (body : List Stmt) : List Stmt :=
  (moveRw kind mv S (itemsOf body)).list body

/-! ## What a move does -/

/-- All functions called in an expression. -/
def Expr.callees : Expr → List Nat
  | .lit .. => []
  | .name .. => []
  | .bin _ a b => a.callees ++ b.callees
  | .logic _ a b => a.callees ++ b.callees
  | .call f a => f :: a.callees

/-- The expression of a node. -/
def Item.expr? : Item → Option Expr
  | .decl _ e => e
  | .assign _ e => some e
  | .expr e => some e
  | .ret e => e
  | .cond e => some e
  | .init _ e => some e
  | .callRef _ | .forVar _ => none

/-- The function `mv x` takes the value out of the local `x`: it returns its argument and leaves some value in `x`. All other functions
    have nothing to do with the locals: what they do does not depend on them, and they do not change them. -/
structure Moving (M : Sem) (kind : Var → Kind) (mv : Var → Nat) : Prop where
  move : ∀ x, kind x = .local_ → M.vis x = true ∧
    ∀ v w g, ∃ left, M.call (mv x) v w g = (some v, w, fun y => if y = x then some left else g y)
  call : ∀ f, (∀ x, kind x = .local_ → f ≠ mv x) → ∀ v w g g', (∀ y, kind y ≠ .local_ → g y = g' y) →
    (M.call f v w g).1 = (M.call f v w g').1 ∧ (M.call f v w g).2.1 = (M.call f v w g').2.1 ∧
    (∀ y, kind y ≠ .local_ → (M.call f v w g).2.2 y = (M.call f v w g').2.2 y) ∧
    ∀ y, kind y = .local_ → (M.call f v w g).2.2 y = g y
  cref : ∀ f v w g g', (∀ y, kind y ≠ .local_ → g y = g' y) →
    (M.cref f v w g).1 = (M.cref f v w g').1 ∧ (M.cref f v w g).2.1 = (M.cref f v w g').2.1 ∧
    (M.cref f v w g).2.2.1 = (M.cref f v w g').2.2.1 ∧
    (∀ y, kind y ≠ .local_ → (M.cref f v w g).2.2.2 y = (M.cref f v w g').2.2.2 y) ∧
    ∀ y, kind y = .local_ → (M.cref f v w g).2.2.2 y = g y

/-- There are no moves in the body yet. -/
def NoMoves (kind : Var → Kind) (mv : Var → Nat) (body : List Stmt) : Prop :=
  ∀ l i e, (l, i) ∈ itemsOf body → i.expr? = some e → ∀ f ∈ e.callees, ∀ x, kind x = .local_ → f ≠ mv x

end Verif.Opt
