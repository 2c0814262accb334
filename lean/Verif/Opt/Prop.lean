import Verif.Opt.Dce

/-!
# Value propagation

Model of `hilti/toolchain/src/compiler/optimizer/passes/value-propagation.cc`: which constant or other variable a variable is
known to equal at every node, and the replacement of names by what they are known to equal.

A `ReachingValue` that must not be propagated carries an expression nobody looks at (`:20-26` compares them as equal), so an
entry is modelled as `some e` (propagate `e`) or `none` (known not to propagate); no entry at all is something else.
-/

namespace Verif.Opt

/-- `PropagationMap`, `value-propagation.cc:29`, a `std::map`. -/
abbrev PMap := List (Var × Option Expr)

/-- Look up. -/
def PMap.get : PMap → Var → Option (Option Expr)
  | [], _ => none
  | (y, u) :: r, x => if y = x then some u else PMap.get r x

/-- Insert or replace, in key order. -/
def PMap.put : PMap → Var → Option Expr → PMap
  | [], x, v => [(x, v)]
  | (y, u) :: r, x, v => if y = x then (x, v) :: r else if x < y then (x, v) :: (y, u) :: r else (y, u) :: PMap.put r x v

/-- Erase. -/
def PMap.del : PMap → Var → PMap
  | [], _ => []
  | (y, u) :: r, x => if y = x then PMap.del r x else (y, u) :: PMap.del r x

/-- Is the entry a copy of `x`? -/
def copyOf (x : Var) : Option Expr → Bool
  | some (.name _ z) => decide (z = x)
  | _ => false

/-- `invalidateDependencies`, `:40-52`. -/
def PMap.inval (x : Var) : PMap → PMap
  | [] => []
  | (y, u) :: r => (y, if copyOf x u then none else u) :: PMap.inval x r

/-- `resolveValue`, `:84-107`: follow the entries. `none` if the recursion does not end within the given depth (the C++ code
    has no bound), `some none` for `nullptr`. -/
def resolve : Nat → PMap → Expr → Option (Option Expr)
  | 0, _, _ => none
  | k + 1, m, e => match e with
    | .lit .. => some (some e)
    | .name _ z => match m.get z with
      | some (some e') => match resolve k m e' with
        | some (some r) => some (some r)
        | some none => some (some e')
        | none => none
      | _ => some (some e)
    | _ => some none

/-- The scope end part of `Mutator::transfer`, `:252-259`. -/
def killAll : List Var → PMap → PMap
  | [], m => m
  | x :: r, m => killAll r ((m.inval x).del x)

/-- `TransferVisitor`, `:69-169`, for one node. Only assignments, declarations with initializer and calls with an `inout` argument do
    anything. -/
def visitItem (k : Nat) : Option Item → PMap → Option PMap
  | some (.assign x e), m => (resolve k (m.inval x) e).map fun r => (m.inval x).put x r
  | some (.decl x (some e)), m => (resolve k m e).map fun r => m.put x r
  | some (.init x e), m => (resolve k m e).map fun r => m.put x r
  | some (.callRef x), m => some ((m.inval x).put x none)
  | _, m => some m

/-- One entry of an upstream node, `:299-305`: a missing entry counts as agreement. -/
def meetEntry (m : PMap) (p : Var × Option Expr) : PMap :=
  match m.get p.1 with
  | none => m.put p.1 p.2
  | some u => if u = p.2 then m else m.put p.1 none

/-- The meet over all upstream nodes, `:288-306`. -/
def meet (outs : List PMap) : PMap := outs.flatten.foldl meetEntry []

/-- `AnalysisResult`, `:31-34`. A node without entry in `in` gets no replacements, like one with an empty map. -/
structure VP where
  inn : Node → PMap
  out : Node → PMap

/-- The declarations in the `kill` set of an `End` node. -/
def killedAt (D : Flow) : Node → List Var
  | .fin => (D.kill .fin).map Prod.fst
  | .scopeEnd k => (D.kill (.scopeEnd k)).map Prod.fst
  | _ => []

/-- The AST node of a graph node. -/
def nodeItem (its : List (Label × Item)) : Node → Option Item
  | .stmt l => itemAt its l
  | _ => none

/-- Append to the worklist what is not in it, `:318-324`. -/
def enqueue (wl : List Node) : List Node → List Node
  | [] => wl
  | v :: r => enqueue (if v ∈ wl then wl else wl ++ [v]) r

section
variable (E : List (Node × Node)) (killed : Node → List Var) (item : Node → Option Item) (depth : Nat)

/-- Upstream and downstream neighbours. -/
def upstream (n : Node) : List Node := (E.filter fun e => e.2 = n).map Prod.fst
def downstream (n : Node) : List Node := (E.filter fun e => e.1 = n).map Prod.snd

/-- The new `in` map of a node. -/
def newMeet (S : VP) (n : Node) : PMap := meet ((upstream E n).map S.out)

/-- The new `out` map of a node, from its `in` map. -/
def newProp (n : Node) (m : PMap) : Option PMap := visitItem depth (item n) (killAll (killed n) m)

/-- `populateDataflow`, `:262-335`, from the worklist on; with a bound on the number of steps. -/
def work : Nat → List Node → VP → Option VP
  | 0, _, _ => none
  | _ + 1, [], S => some S
  | k + 1, n :: wl, S =>
    match newProp killed item depth n (newMeet E S n) with
    | none => none
    | some o =>
      if o = S.out n then work k wl { S with inn := fun v => if v = n then newMeet E S n else S.inn v }
      else work k (enqueue wl (downstream E n))
        { inn := fun v => if v = n then newMeet E S n else S.inn v, out := fun v => if v = n then o else S.out v }

end

/-- The analysis of a body: parameters are known not to propagate, `:393-395`, and start the flow, `:275-277`. `order` is the worklist
    after its first node. -/
def analyse (params : List Var) (body : List Stmt) (D : Flow) (order : List Node) (depth k : Nat) : Option VP :=
  work (edges body) (killedAt D) (nodeItem (itemsOf body)) depth k order
    { inn := fun _ => [], out := fun v => if v = .start then params.foldl (fun m x => m.put x none) [] else [] }

/-- What `Replacer` puts for a name at a node, `:199-236`: the entry, if it is the same before and after the node. -/
def VP.value (S : VP) (n : Node) (x : Var) : Option Expr :=
  match (S.inn n).get x, (S.out n).get x with
  | some u, some w => if u = w then u else none
  | _, _ => none

/-- Replace names. -/
def Expr.subst (f : Var → Option Expr) : Expr → Expr
  | .lit p n => .lit p n
  | .name p x => (f x).getD (.name p x)
  | .bin o a b => .bin o (a.subst f) (b.subst f)
  | .logic k a b => .logic k (a.subst f) (b.subst f)
  | .call o a => .call o (a.subst f)

/-- `Replacer` on a body; the target of an assignment stays (`:181-196`), and so does an `inout` argument, whose entry is never the same
    propagating one before and after. -/
def propRw (S : VP) : Rw where
  atom
    | .decl l x i => some (.decl l x (i.map (Expr.subst (S.value (.stmt l)))))
    | .assign l x e => some (.assign l x (e.subst (S.value (.stmt l))))
    | .expr l e => some (.expr l (e.subst (S.value (.stmt l))))
    | st => some st
  expr l e := e.subst (S.value (.stmt l))
  init i := some (i.1, i.2.1, i.2.2.subst (S.value (.stmt i.1)))
  gone _ := false

/-- The body after value propagation. -/
def propagate (S : VP) (body : List Stmt) : List Stmt := (propRw S).list body

/-- `propagateFunctionReturn`, `:337-379`: `x = e; return x;` at the end becomes `return e;`. Its condition that the assignment
    overwrites an earlier update of `x` is the argument `overwrites`. -/
def propReturn (overwrites : Label → Var → Bool) : List Stmt → List Stmt
  | [.assign l x e, .ret l' (some (.name p y))] =>
    if x = y && overwrites l x then [.ret l' (some e)] else [.assign l x e, .ret l' (some (.name p y))]
  | s :: r => s :: propReturn overwrites r
  | [] => []

end Verif.Opt
