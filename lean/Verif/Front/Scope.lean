import Verif.Base
/-!
# Model of scopes and of the lookup of names

Source: `hilti/toolchain/src/ast/scope.cc` (`scope.cc`), `hilti/toolchain/src/ast/scope-lookup.cc` (`scope-lookup.cc`),
`hilti/toolchain/include/ast/scope-lookup.h` (`scope-lookup.h`), `hilti/toolchain/src/compiler/scope-builder.cc` (`builder`),
`hilti/toolchain/src/compiler/validator.cc` (`validator.cc`), `spicy/toolchain/include/ast/types/unit.h`.

IDs are lists of their components (`id-base.h` 236-259); `::x` begins with an empty one. Not modelled: overloaded functions (their names are
looked up by `operator-registry.cc`), IDs with `~` (for internal use), the marker that stops a search for `$$`, references that have been given a fully
qualified ID by the optimizer.
-/

namespace Verif.Front.Scope

abbrev Name := String
abbrev Path := List Name

/-- Kinds of declarations as far as lookup tells them apart. -/
inductive Kind where
  /-- `declaration::LocalVariable` -/
  | var
  /-- `declaration::Constant` -/
  | const
  /-- `declaration::Type` -/
  | type
  /-- parameters, functions, global variables, expressions such as `self` -/
  | other
  deriving DecidableEq

/-- A declaration; `id` tells declarations of the same name apart. `labels` are those of an enum type. -/
structure Decl where
  name : Name
  id : Nat
  kind : Kind
  labels : List Name
  isPublic : Bool
  deriving DecidableEq

/-- What an entry of a scope refers to. -/
inductive Ref where
  /-- a declaration; if it is the child of a `statement::Declaration`, with the index of that in its block -/
  | decl (d : Decl) (stmt : Option Nat)
  /-- the constant for a label -/
  | label (d : Decl) (l : Name)
  | module (m : Nat)
  /-- `declaration::ImportedModule` -/
  | imported (m : Nat)
  deriving DecidableEq

structure Entry where
  key : Path
  ref : Ref
  deriving DecidableEq

/-- `scope.h` 101: a map from names to sets. Declarations are inserted once, as inserting again has no effect (`scope.cc` 32-44). -/
abbrev Scope := List Entry

/-- A module with the modules it imports. -/
structure Module where
  name : Name
  imports : List Nat
  decls : List Decl

/-- `builder`: the scope of a module: itself (94-107), its imports (75-92), its declarations (35-37, 47-48, 68-73, 109-112). -/
def moduleScope (ms : List Module) (m : Nat) : Scope :=
  match ms[m]? with
  | none => []
  | some M =>
    ⟨[M.name], .module m⟩ ::
      ((M.imports.filterMap fun j => (ms[j]?).map fun I => ⟨[I.name], .module j⟩) ++ M.decls.map fun d => ⟨[d.name], .decl d none⟩)

/-- The scope of a node in a scope: `builder` 184-193 for enums. -/
def refScope (ms : List Module) : Ref → Scope
  | .decl d _ => d.labels.map fun l => ⟨[l], .label d l⟩
  | .label _ _ => []
  | .module m => moduleScope ms m
  | .imported _ => []

/-- `scope.cc` 111 -/
def isImported : Ref → Bool
  | .imported _ => true
  | _ => false

/-- `scope.cc` 92-122: an ID split into a prefix and the rest, longest prefixes first. -/
def splits (id : Path) : List (Path × Path) := (List.range id.length).map fun i => (id.take (id.length - i), id.drop (id.length - i))

/-- The first result that is not empty. -/
def firstResult {α : Type} : List (List α) → List α
  | [] => []
  | [] :: rs => firstResult rs
  | r :: _ => r

/-- `scope.cc` 82-124 `_findID`, with the flag `external`; the number bounds the depth, the length of the ID is enough. -/
def findID (ms : List Module) : Nat → Scope → Path → Bool → List (Ref × Bool)
  | 0, _, _, _ => []
  | n + 1, s, id, ext =>
    match (splits id).find? fun ht => s.any fun e => e.key == ht.1 with
    | none => []
    | some (h, []) => (s.filter fun e => e.key == h).map fun e => (e.ref, ext)
    | some (h, t) => firstResult ((s.filter fun e => e.key == h).map fun e => findID ms n (refScope ms e.ref) t (ext || isImported e.ref))

/-- What a name can mean. -/
inductive Target where
  | decl (d : Decl)
  | label (d : Decl) (l : Name)
  deriving DecidableEq

inductive Err where
  | unknown
  | ambiguous
  | isModule
  | notPublic
  deriving DecidableEq

/-- Nodes on the way from a name to the root, as far as they matter. -/
inductive Frame where
  /-- a node with a scope -/
  | node (s : Scope)
  /-- a block whose statement with index `i` has the name in it -/
  | block (s : Scope) (i : Nat)
  /-- `type::Unit`, which does not inherit scopes (`unit.h` 125) -/
  | unit (s : Scope)
  | module (m : Nat)
  | root (s : Scope)

def Frame.scope (ms : List Module) : Frame → Scope
  | .node s => s
  | .block s _ => s
  | .unit s => s
  | .module m => moduleScope ms m
  | .root s => s

def Frame.isModule : Frame → Bool
  | .module _ => true
  | _ => false

def Frame.isUnit : Frame → Bool
  | .unit _ => true
  | _ => false

/-- What the search in one scope gives. -/
inductive Step where
  | found (t : Target)
  | stop (e : Err)
  | up

/-- `scope-lookup.cc` 69-88: is the name in a statement before that of the declaration? -/
def tooEarly : Frame → Decl → Option Nat → Bool
  | .block _ i, d, some j => d.kind == .var && i < j
  | _, _, _ => false

/-- `scope-lookup.cc` 15-95 -/
def backend (ms : List Module) (f : Frame) (id : Path) : Step :=
  match findID ms id.length (f.scope ms) id false with
  | [] => .up
  | [(.module _, _)] => .stop .isModule
  | [(.imported _, _)] => .stop .isModule
  | [(.decl d j, ext)] =>
    if ext && !d.isPublic && d.kind != .type then .stop .notPublic
    else if tooEarly f d j then .up
    else .found (.decl d)
  | [(.label d l, _)] => .found (.label d l)
  | _ => .stop .ambiguous

/-- `scope-lookup.h` 63-66: `::x` goes on with `x`. -/
def absolute : Path → Option Path
  | "" :: x :: r => some (x :: r)
  | _ => none

/-- `scope-lookup.h` 34-115; with `skip`, nodes are passed over until the module. -/
def lookup (ms : List Module) : List Frame → Bool → Path → Except Err Target
  | [], _, _ => .error .unknown
  | f :: fs, skip, id =>
    if skip && !f.isModule then lookup ms fs true id
    else match backend ms f id with
      | .found t => .ok t
      | .stop e => .error e
      | .up =>
        match absolute id with
        | some id' => lookup ms fs true id'
        | none =>
          if f.isUnit then lookup ms fs true id
          else if f.isModule then .error .unknown
          else lookup ms fs false id

/-! ### Functions -/

/-- Expressions: names, and what can declare some. -/
inductive Expr where
  | use (p : Path)
  | lit
  | pair (a b : Expr)
  /-- `[output for d in input if cond]` -/
  | comp (d : Decl) (input output cond : Expr)

mutual
/-- Statements. -/
inductive Stmt where
  /-- all statements that are made of expressions only -/
  | expr (e : Expr)
  | decl (d : Decl) (e : Expr)
  | block (b : Stmts)
  /-- without a declaration -/
  | if_ (c : Expr) (t e : Stmts)
  | ifInit (d : Decl) (i c : Expr) (t e : Stmts)
  | while_ (c : Expr) (b e : Stmts)
  | whileInit (d : Decl) (i c : Expr) (b e : Stmts)
  | for_ (d : Decl) (s : Expr) (b : Stmts)
  | switch_ (d : Decl) (i : Expr) (cs : Cases)
  | try_ (b : Stmts) (cs : Catches)
inductive Stmts where
  | nil
  | cons (s : Stmt) (b : Stmts)
inductive Cases where
  | nil
  | cons (e : Expr) (b : Stmts) (cs : Cases)
inductive Catches where
  | nil
  | cons (d : Decl) (b : Stmts) (cs : Catches)
end

/-- `builder` 127-129: what the declarations among the statements add to the scope of the block. -/
def Stmts.entries : Stmts → Nat → Scope
  | .nil, _ => []
  | .cons (.decl d _) b, i => ⟨[d.name], .decl d (some i)⟩ :: b.entries (i + 1)
  | .cons _ b, i => b.entries (i + 1)

/-- Entries for other declarations. -/
def plain (ds : List Decl) : Scope := ds.map fun d => ⟨[d.name], .decl d none⟩

/-- The scope of a block, with what is added from outside (`builder` 43-66, 134-171). -/
def blockScope (extra : List Decl) (b : Stmts) : Scope := plain extra ++ b.entries 0

/-- The names in an expression, each with the nodes above it; `builder` 123 for comprehensions. -/
def Expr.places (fs : List Frame) : Expr → List (Path × List Frame)
  | .use p => [(p, fs)]
  | .lit => []
  | .pair a b => a.places fs ++ b.places fs
  | .comp d i o c => i.places (.node (plain [d]) :: fs) ++ o.places (.node (plain [d]) :: fs) ++ c.places (.node (plain [d]) :: fs)

mutual
/-- The names in a statement; `builder` 35: constants are in the scope of their statement, too; 131-171 for the others. -/
def Stmt.places (fs : List Frame) : Stmt → List (Path × List Frame)
  | .expr e => e.places fs
  | .decl d e => e.places (if d.kind = .const then .node (plain [d]) :: fs else fs)
  | .block b => b.places (blockScope [] b) 0 fs
  | .if_ c t e => c.places fs ++ t.places (blockScope [] t) 0 fs ++ e.places (blockScope [] e) 0 fs
  | .ifInit d i c t e =>
    i.places (.node (plain [d]) :: fs) ++ c.places (.node (plain [d]) :: fs) ++
      t.places (blockScope [d] t) 0 (.node (plain [d]) :: fs) ++ e.places (blockScope [d] e) 0 (.node (plain [d]) :: fs)
  | .while_ c b e => c.places fs ++ b.places (blockScope [] b) 0 fs ++ e.places (blockScope [] e) 0 fs
  | .whileInit d i c b e =>
    i.places (.node (plain [d]) :: fs) ++ c.places (.node (plain [d]) :: fs) ++
      b.places (blockScope [d] b) 0 (.node (plain [d]) :: fs) ++ e.places (blockScope [d] e) 0 (.node (plain [d]) :: fs)
  | .for_ d s b => s.places (.node (plain [d]) :: fs) ++ b.places (blockScope [d] b) 0 (.node (plain [d]) :: fs)
  | .switch_ d i cs => i.places (.node (plain [d]) :: fs) ++ cs.places d (.node (plain [d]) :: fs)
  | .try_ b cs => b.places (blockScope [] b) 0 fs ++ cs.places fs
def Stmts.places (s : Scope) (i : Nat) (fs : List Frame) : Stmts → List (Path × List Frame)
  | .nil => []
  | .cons st b => st.places (.block s i :: fs) ++ b.places s (i + 1) fs
def Cases.places (d : Decl) (fs : List Frame) : Cases → List (Path × List Frame)
  | .nil => []
  | .cons e b cs => e.places fs ++ b.places (blockScope [d] b) 0 fs ++ cs.places d fs
def Catches.places (fs : List Frame) : Catches → List (Path × List Frame)
  | .nil => []
  | .cons d b cs => b.places (blockScope [] b) 0 (.node (plain [d]) :: fs) ++ cs.places fs
end

/-- `validator.cc` 214-262: no name has two entries. -/
def noRedefinition : Scope → Bool
  | [] => true
  | e :: s => (s.all fun e' => e'.key != e.key) && noRedefinition s

mutual
/-- The scopes of a statement are validated. -/
def Stmt.validated : Stmt → Bool
  | .expr _ => true
  | .decl _ _ => true
  | .block b => noRedefinition (blockScope [] b) && b.validated
  | .if_ _ t e => noRedefinition (blockScope [] t) && t.validated && (noRedefinition (blockScope [] e) && e.validated)
  | .ifInit d _ _ t e => noRedefinition (blockScope [d] t) && t.validated && (noRedefinition (blockScope [d] e) && e.validated)
  | .while_ _ b e => noRedefinition (blockScope [] b) && b.validated && (noRedefinition (blockScope [] e) && e.validated)
  | .whileInit d _ _ b e => noRedefinition (blockScope [d] b) && b.validated && (noRedefinition (blockScope [d] e) && e.validated)
  | .for_ d _ b => noRedefinition (blockScope [d] b) && b.validated
  | .switch_ d _ cs => cs.validated d
  | .try_ b cs => noRedefinition (blockScope [] b) && b.validated && cs.validated
def Stmts.validated : Stmts → Bool
  | .nil => true
  | .cons s b => s.validated && b.validated
def Cases.validated (d : Decl) : Cases → Bool
  | .nil => true
  | .cons _ b cs => noRedefinition (blockScope [d] b) && b.validated && cs.validated d
def Catches.validated : Catches → Bool
  | .nil => true
  | .cons _ b cs => noRedefinition (blockScope [] b) && b.validated && cs.validated
end

/-- Where a body is: the scopes of the nodes above it up to a unit type, if there is one, that of the unit, those above it, the module. -/
structure Context where
  inner : List (List Decl)
  unit : Option (List Decl)
  beyond : List (List Decl)
  module : Nat

/-- The nodes above the body. -/
def Context.frames (c : Context) (root : Scope) : List Frame :=
  c.inner.map (fun ds => .node (plain ds)) ++ (match c.unit with | some ds => [.unit (plain ds)] | none => []) ++
    c.beyond.map (fun ds => .node (plain ds)) ++ [.module c.module, .root root]

/-- All names in the body of a function (or hook) with what the lookup makes of them; `params` are in the scope of the body. -/
def resolveAll (ms : List Module) (c : Context) (root : Scope) (params : List Decl) (b : Stmts) : List (Path × Except Err Target) :=
  (b.places (blockScope params b) 0 (c.frames root)).map fun pf => (pf.1, lookup ms pf.2 false pf.1)

/-- The validation of the scopes of the body, of the nodes above it and of the module. -/
def validated (ms : List Module) (c : Context) (params : List Decl) (b : Stmts) : Bool :=
  noRedefinition (blockScope params b) && b.validated && c.inner.all (fun ds => noRedefinition (plain ds)) &&
    c.unit.all (fun ds => noRedefinition (plain ds)) && c.beyond.all (fun ds => noRedefinition (plain ds)) &&
    (List.range ms.length).all fun m => noRedefinition (moduleScope ms m)

end Verif.Front.Scope
