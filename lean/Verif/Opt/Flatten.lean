import Verif.Base
/-!
# Model of flattening blocks

Source: `hilti/toolchain/src/compiler/optimizer/passes/flatten-blocks.cc` (`flatten-blocks.cc`), `hilti/toolchain/src/compiler/scope-builder.cc`.

A block that is directly inside another block is replaced by its statements; its local variables get new names if necessary, as
names in the generated C++ code are resolved by the rules of C++. Declarations are numbers (their identity); a reference knows the
declaration it stands for. What is modelled is which names there are and where; not modelled are the assignments of default values
at the end of a flattened block, and what statements compute.
-/

namespace Verif.Opt.Flatten

/-- IDs, as characters. -/
abbrev Name := List Nat

/-- Statements of a block, one after the other: declarations of local variables, references to variables, blocks directly inside
    this one (with their scopes), and blocks that are part of another statement, such as `if`, `while`, `for`. -/
inductive Seq where
  | nil
  | decl (d : Nat) (r : Seq)
  | use (d : Nat) (r : Seq)
  | block (sc : List Name) (b : Seq) (r : Seq)
  | body (sc : List Name) (b : Seq) (r : Seq)
  deriving DecidableEq

/-- One after the other. -/
def Seq.append : Seq → Seq → Seq
  | .nil, s => s
  | .decl d r, s => .decl d (r.append s)
  | .use d r, s => .use d (r.append s)
  | .block sc b r, s => .block sc b (r.append s)
  | .body sc b r, s => .body sc b (r.append s)

/-- `flatten-blocks.cc` 22-41 `Collector`: all local variables declared inside. -/
def Seq.decls : Seq → List Nat
  | .nil => []
  | .decl d r => d :: r.decls
  | .use _ r => r.decls
  | .block _ b r => b.decls ++ r.decls
  | .body _ b r => b.decls ++ r.decls

/-- The current IDs of the declarations (references are renamed with them, lines 93-96), and `used_ids` of the function (line 57). -/
structure State where
  nm : Nat → Name
  used : List (Name × Nat)

/-- `flatten-blocks.cc` 81: the condition of the loop; `sc` are the IDs in the scope of the parent. -/
def clash (used : List (Name × Nat)) (sc : List Name) (d : Nat) (id : Name) : Bool :=
  (match used.lookup id with
    | some e => e != d
    | none => false) || sc.contains id

/-- `flatten-blocks.cc` 81-82: underscores are appended until there is no clash; `room` bounds how many. -/
def pick (used : List (Name × Nat)) (sc : List Name) (d : Nat) : Nat → Name → Name
  | 0, id => id
  | room + 1, id => if clash used sc d id then pick used sc d room (id ++ [95]) else id

/-- More than the length of any ID that is used already. -/
def room (used : List (Name × Nat)) (sc : List Name) : Nat := (used.map (·.1.length)).sum + (sc.map (·.length)).sum + 1

/-- `flatten-blocks.cc` 80-96: one variable. `emplace` keeps what is there. -/
def rename (sc : List Name) (σ : State) (d : Nat) : State :=
  let id := pick σ.used sc d (room σ.used sc) (σ.nm d)
  { nm := fun e => if e = d then id else σ.nm e
    used := match σ.used.lookup id with
      | some _ => σ.used
      | none => (id, d) :: σ.used }

/-- `flatten-blocks.cc` 79-97: all variables of a block, in some order. -/
def renameAll (sc : List Name) (σ : State) (ds : List Nat) : State := ds.foldl (rename sc) σ

/-- `flatten-blocks.cc` 59-151: one block anywhere inside is flattened; `sc` is the scope of the block the statements are in. The order
    in which variables are renamed is that of their addresses. -/
inductive Step : List Name → State → Seq → State → Seq → Prop
  | here {sc σ bsc b r} (ds : List Nat) : (∀ d, d ∈ ds ↔ d ∈ b.decls) →
      Step sc σ (.block bsc b r) (renameAll sc σ ds) (b.append r)
  | decl {sc σ σ' d r r'} : Step sc σ r σ' r' → Step sc σ (.decl d r) σ' (.decl d r')
  | use {sc σ σ' d r r'} : Step sc σ r σ' r' → Step sc σ (.use d r) σ' (.use d r')
  | blockIn {sc σ σ' bsc b b' r} : Step bsc σ b σ' b' → Step sc σ (.block bsc b r) σ' (.block bsc b' r)
  | blockNext {sc σ σ' bsc b r r'} : Step sc σ r σ' r' → Step sc σ (.block bsc b r) σ' (.block bsc b r')
  | bodyIn {sc σ σ' bsc b b' r} : Step bsc σ b σ' b' → Step sc σ (.body bsc b r) σ' (.body bsc b' r)
  | bodyNext {sc σ σ' bsc b r r'} : Step sc σ r σ' r' → Step sc σ (.body bsc b r) σ' (.body bsc b r')

/-- The pass on a function whose body has the scope `sc`: blocks are flattened in some order. -/
inductive Pass (sc : List Name) : State → Seq → State → Seq → Prop
  | done {σ s} : Pass sc σ s σ s
  | step {σ σ' σ'' s s' s''} : Step sc σ s σ' s' → Pass sc σ' s' σ'' s'' → Pass sc σ s σ'' s''

/-! ## Specification -/

/-- The C++ compiler finds, for the name of `d`, the innermost declaration with that name: it must be `d`. `env` are the declarations
    seen so far, innermost first. -/
def Finds (nm : Nat → Name) (env : List Nat) (d : Nat) : Prop := env.find? (fun e => nm e == nm d) = some d

/-- All references mean what they stand for. -/
def Bound (nm : Nat → Name) (env : List Nat) : Seq → Prop
  | .nil => True
  | .decl d r => Bound nm (d :: env) r
  | .use d r => Finds nm env d ∧ Bound nm env r
  | .block _ b r => Bound nm env b ∧ Bound nm env r
  | .body _ b r => Bound nm env b ∧ Bound nm env r

/-- No block declares a name twice; `seen` are the declarations of the block so far. -/
def Distinct (nm : Nat → Name) (seen : List Nat) : Seq → Prop
  | .nil => True
  | .decl d r => (∀ e ∈ seen, nm e ≠ nm d) ∧ Distinct nm (d :: seen) r
  | .use _ r => Distinct nm seen r
  | .block _ b r => Distinct nm [] b ∧ Distinct nm seen r
  | .body _ b r => Distinct nm [] b ∧ Distinct nm seen r

/-- A function with the parameters `ps` and the body `s` is valid C++ code that means what it should. -/
def Valid (nm : Nat → Name) (ps : List Nat) (s : Seq) : Prop := Bound nm ps s ∧ Distinct nm ps s

/-- The scope of a block has the names of all its declarations. -/
def Scoped (nm : Nat → Name) (sc : List Name) : Seq → Prop
  | .nil => True
  | .decl d r => nm d ∈ sc ∧ Scoped nm sc r
  | .use _ r => Scoped nm sc r
  | .block bsc b r => Scoped nm bsc b ∧ Scoped nm sc r
  | .body bsc b r => Scoped nm bsc b ∧ Scoped nm sc r

/-- No variable of a block to be flattened has the name (but for underscores at the end) of a variable that is visible there from
    outside of the parent block. `out` are those, `env` all that are visible. -/
def Apart (nm : Nat → Name) (out env : List Nat) : Seq → Prop
  | .nil => True
  | .decl d r => Apart nm out (d :: env) r
  | .use _ r => Apart nm out env r
  | .block _ b r => (∀ d ∈ b.decls, ∀ e ∈ out, ∀ k, nm e ≠ nm d ++ List.replicate k 95) ∧ Apart nm env env b ∧ Apart nm out env r
  | .body _ b r => Apart nm env env b ∧ Apart nm out env r

/-- The number of blocks inside blocks. -/
def Seq.blocks : Seq → Nat
  | .nil => 0
  | .decl _ r => r.blocks
  | .use _ r => r.blocks
  | .block _ b r => b.blocks + r.blocks + 1
  | .body _ b r => b.blocks + r.blocks

end Verif.Opt.Flatten
