import Verif.Opt.Lang

/-!
# Control flow graphs

Model of the graph construction in `hilti/toolchain/src/compiler/cfg.cc:193-590` (`CFG::CFG`, `_addBlock`, `_addFor`,
`_addWhile`, `_addIf`, `_addTryCatch`, `_addReturn`, `_addThrow`, `_addEdge`) and of the per-node facts collected by
`DataflowVisitor`, `cfg.cc:756-1027`.

Simplified: nodes for parameters, `self` and module globals (`_addGlobals`, `_addParameters`) generate nothing and are left out,
the graph begins at the start node; `switch` and statements with nested call children are left out; edge numbers are left out.
-/

namespace Verif.Opt

/-- A node of the graph: an AST node or one of the three kinds of `MetaNode` (`cfg.h:50-74`); `fin` is the `End` node of the
    whole body (`_end`). Meta nodes are told apart by the order of their creation. -/
inductive Node where
  | start
  | fin
  | stmt (l : Label)
  | scopeEnd (k : Nat)
  | flow (k : Nat)
  deriving DecidableEq, Repr

/-- `MetaNode`: every node that is not an AST node. -/
def Node.isMeta : Node → Bool
  | .stmt _ => false
  | _ => true

/-- The graph under construction: edges, and for every `End` node the statements of its scope. -/
structure G where
  next : Nat
  edges : List (Node × Node)
  scopes : List (Node × List Stmt)

/-- `_addEdge`, `cfg.cc:572-587`: no edge from a missing node or from the end node, no duplicates. -/
def G.edge (g : G) (u : Option Node) (v : Node) : G :=
  match u with
  | none => g
  | some u =>
    if u = .fin then g
    else if (u, v) ∈ g.edges then g
    else { g with edges := g.edges ++ [(u, v)] }

/-- `_getOrAddNode(_createMetaNode<End>(scope))`. -/
def G.newEnd (g : G) (scope : List Stmt) : G :=
  { g with next := g.next + 1, scopes := g.scopes ++ [(.scopeEnd g.next, scope)] }

/-- `_getOrAddNode(_createMetaNode<Flow>())`. -/
def G.newFlow (g : G) : G := { g with next := g.next + 1 }

/-- The statements after which the rest of a block is unreachable, `cfg.cc:322-325`. -/
def Stmt.ends : Stmt → Bool
  | .ret .. | .throw_ .. | .brk | .cont => true
  | _ => false

/-- The head declaration of `if` and `while`, `cfg.cc:440-445`, `:466-470`. -/
def addInit (g : G) (pred : Option Node) : Option (Label × Var × Expr) → G × Option Node
  | none => (g, pred)
  | some (l, _, _) => (g.edge pred (.stmt l), some (.stmt l))

mutual
/-- One statement of a block whose scope end is `se`; the node after it. `cfg.cc:336-398` and the helpers it calls:
    `_addFor` `:422-436`, `_addWhile` `:438-463`, `_addIf` `:465-489`, `_addTryCatch` `:491-510`, `_addReturn` `:555-561`,
    `_addThrow` `:563-574`. `break` and `continue` add nothing. -/
def addStmt (g : G) (pred : Option Node) (se : Node) : Stmt → G × Option Node
  | .decl l _ _ => (g.edge pred (.stmt l), some (.stmt l))
  | .assign l _ _ => (g.edge pred (.stmt l), some (.stmt l))
  | .expr l _ => (g.edge pred (.stmt l), some (.stmt l))
  | .callRef l _ _ => (g.edge pred (.stmt l), some (.stmt l))
  | .ret l _ => ((g.edge pred (.stmt l)).edge (some (.stmt l)) .fin, some .fin)
  | .throw_ l _ => ((g.edge pred (.stmt l)).edge (some (.stmt l)) se, some se)
  | .brk => (g, pred)
  | .cont => (g, pred)
  | .block b =>
    let k := Node.scopeEnd g.next
    let r := addSeq (g.newEnd b) pred k b b
    (r.1.edge r.2 k, some k)
  | .ite l i _ t h e =>
    let r0 := addInit g pred i
    let g0 := r0.1.edge r0.2 (.stmt l)
    let mix := Node.flow g0.next
    let g1 := g0.newFlow
    let kt := Node.scopeEnd g1.next
    let rt := addSeq (g1.newEnd t) (some (.stmt l)) kt t t
    let g2 := (rt.1.edge rt.2 kt).edge (some kt) mix
    if h then
      let ke := Node.scopeEnd g2.next
      let re := addSeq (g2.newEnd e) (some (.stmt l)) ke e e
      ((re.1.edge re.2 ke).edge (some ke) mix, some mix)
    else
      (g2.edge (some (.stmt l)) mix, some mix)
  | .while_ l i _ b h e =>
    let r0 := addInit g pred i
    let g0 := r0.1.edge r0.2 (.stmt l)
    let kb := Node.scopeEnd g0.next
    let rb := addSeq (g0.newEnd b) (some (.stmt l)) kb b b
    let g1 := (rb.1.edge rb.2 kb).edge (some kb) (.stmt l)
    let mix := Node.flow g1.next
    let g2 := g1.newFlow.edge (some (.stmt l)) mix
    if h then
      let ke := Node.scopeEnd g2.next
      let re := addSeq (g2.newEnd e) (some (.stmt l)) ke e e
      ((re.1.edge re.2 ke).edge (some ke) mix, some mix)
    else
      (g2, some mix)
  | .for_ l lx x q b =>
    let g0 := (g.edge pred (.stmt l)).edge (some (.stmt l)) (.stmt lx)
    let kb := Node.scopeEnd g0.next
    let rb := addSeq (g0.newEnd b) (some (.stmt lx)) kb b b
    let g1 := (rb.1.edge rb.2 kb).edge (some kb) (.stmt l)
    let kf := Node.scopeEnd g1.next
    ((g1.newEnd [.for_ l lx x q b]).edge (some (.stmt l)) kf, some kf)
  | .try_ b c =>
    let kb := Node.scopeEnd g.next
    let rb := addSeq (g.newEnd b) pred kb b b
    let g1 := rb.1.edge rb.2 kb
    let after := Node.flow g1.next
    let g2 := g1.newFlow.edge (some kb) after
    let into := Node.flow g2.next
    let g3 := g2.newFlow.edge (some kb) into
    let kc := Node.scopeEnd g3.next
    let rc := addSeq (g3.newEnd c) (some into) kc c c
    ((rc.1.edge rc.2 kc).edge (some kc) after, some after)
/-- The statements of a block, `cfg.cc:312-420`: up to and including the first statement that ends the flow they are chained;
    the ones after it form a flow without predecessor, mixed with the normal one. -/
def addSeq (g : G) (pred : Option Node) (se : Node) (scope : List Stmt) : List Stmt → G × Option Node
  | [] => (g, pred)
  | s :: r =>
    let r1 := addStmt g pred se s
    if s.ends then
      if r.isEmpty then r1
      else
        let k := Node.scopeEnd r1.1.next
        let r2 := addSeq (r1.1.newEnd scope) none k scope r
        let g2 := r2.1.edge r2.2 k
        let mix := Node.flow g2.next
        ((g2.newFlow.edge r1.2 mix).edge (some k) mix, some mix)
    else addSeq r1.1 r1.2 se scope r
end

/-- The graph of a function body before pruning, `cfg.cc:193-206`. -/
def build (body : List Stmt) : G :=
  let g : G := { next := 0, edges := [], scopes := [(.fin, body)] }
  let k := Node.scopeEnd g.next
  let r := addSeq (g.newEnd body) (some .start) k body body
  (r.1.edge r.2 k).edge (some k) .fin

/-- Nodes with an incoming edge. -/
def entered (es : List (Node × Node)) (v : Node) : Bool := es.any fun e => e.2 = v

/-- One round of pruning, `cfg.cc:215-228`: drop the meta nodes nothing leads to (they have outgoing edges only). -/
def pruneStep (es : List (Node × Node)) : List (Node × Node) :=
  es.filter fun e => !(e.1.isMeta && e.1 != .start && !entered es e.1)

/-- Pruning rounds until nothing changes; every round that changes something removes an edge. -/
def prune (es : List (Node × Node)) : List (Node × Node) := (List.range es.length).foldl (fun es _ => pruneStep es) es

/-- The edges of a body's control flow graph. -/
def edges (body : List Stmt) : List (Node × Node) := prune (build body).edges

/-- What an AST node of the graph is. -/
inductive Item where
  | decl (x : Var) (init : Option Expr)
  | assign (x : Var) (e : Expr)
  | expr (e : Expr)
  | callRef (x : Var)
  | ret (e : Option Expr)
  | cond (e : Expr)
  | init (x : Var) (e : Expr)
  | forVar (x : Var)
  deriving DecidableEq, Repr

/-- The node of a head declaration. -/
def initItems : Option (Label × Var × Expr) → List (Label × Item)
  | none => []
  | some (l, x, e) => [(l, .init x e)]

mutual
/-- The AST nodes a statement contributes to the graph. The expression of a `throw`, the condition of `if` and `while` and the
    sequence of a `for` are expression nodes. -/
def Stmt.items : Stmt → List (Label × Item)
  | .decl l x i => [(l, .decl x i)]
  | .assign l x e => [(l, .assign x e)]
  | .expr l e => [(l, .expr e)]
  | .callRef l _ x => [(l, .callRef x)]
  | .ret l e => [(l, .ret e)]
  | .throw_ l e => [(l, .cond e)]
  | .brk => []
  | .cont => []
  | .block b => itemsOf b
  | .ite l i c t h e => initItems i ++ (l, .cond c) :: (itemsOf t ++ if h then itemsOf e else [])
  | .while_ l i c b h e => initItems i ++ (l, .cond c) :: (itemsOf b ++ if h then itemsOf e else [])
  | .for_ l lx x q b => (l, .cond q) :: (lx, .forVar x) :: itemsOf b
  | .try_ b c => itemsOf b ++ itemsOf c
/-- The AST nodes of a statement list. -/
def itemsOf : List Stmt → List (Label × Item)
  | [] => []
  | s :: r => s.items ++ itemsOf r
end

/-- All names in an expression. -/
def Expr.names : Expr → List Var
  | .lit .. => []
  | .name _ x => [x]
  | .bin _ a b => a.names ++ b.names
  | .logic _ a b => a.names ++ b.names
  | .call _ a => a.names

/-- Is the expression a name? -/
def Expr.isName : Expr → Bool
  | .name .. => true
  | _ => false

/-- Does the expression contain a call? -/
def Expr.hasCall : Expr → Bool
  | .lit .. => false
  | .name .. => false
  | .bin _ a b => a.hasCall || b.hasCall
  | .logic _ a b => a.hasCall || b.hasCall
  | .call .. => true

/-- The names `DataflowVisitor` does not recognise as plain reads when the node is the expression itself, `cfg.cc:917-956`:
    everything but the name itself, names under a logical operator and direct `in` operands (`isConstOperand`, `:86-131`). -/
def Expr.nested : Expr → List Var
  | .lit .. => []
  | .name .. => []
  | .logic .. => []
  | .bin _ a b => (if a.isName then [] else a.names) ++ (if b.isName then [] else b.names)
  | .call _ a => if a.isName then [] else a.names

/-- `Transfer::gen`: the declarations the node updates. `cfg.cc:797-803`, `:878-883`, `:1003-1008`. -/
def Item.gen : Item → List Var
  | .decl x _ => [x]
  | .assign x _ => [x]
  | .callRef x => [x]
  | .init x _ => [x]
  | .forVar x => [x]
  | .expr _ | .ret _ | .cond _ => []

/-- `Transfer::read`. -/
def Item.read : Item → List Var
  | .decl _ (some e) => e.names
  | .decl _ none => []
  | .assign _ e => e.names
  | .expr e => e.names
  | .callRef x => [x]
  | .ret (some e) => e.names
  | .ret none => []
  | .cond e => e.names
  | .init _ e => e.names
  | .forVar _ => []

/-- `Transfer::write`. -/
def Item.write : Item → List Var
  | .assign x _ => [x]
  | .callRef x => [x]
  | .expr e => e.nested
  | .cond e => e.nested
  | .decl .. | .ret _ | .init .. | .forVar _ => []

/-- `Transfer::keep`: control flow expressions, `return`, calls, and names in positions the visitor does not know. -/
def Item.keep : Item → Bool
  | .decl _ (some e) => e.hasCall
  | .decl _ none => false
  | .assign _ e => e.hasCall
  | .expr e => e.hasCall || !e.nested.isEmpty
  | .callRef _ => true
  | .ret _ => true
  | .cond _ => true
  | .init _ e => e.hasCall
  | .forVar _ => false

end Verif.Opt
