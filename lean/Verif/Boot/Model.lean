/-!
# Modules and their globals at runtime

Models `hilti/runtime/src/init.cc`, `src/context.cc` and `include/global-state.h`, for modules compiled with
`--cxx-enable-dynamic-globals`: modules register themselves, `init()` creates their globals and runs their code, and
generated code finds the globals of its module through an index (`hilti/toolchain/src/compiler/codegen/codegen.cc:80-160`,
`compiler/cxx/unit.cc:71-95`).

Simplifications: a module is known by one number for its name and linker scope; the globals of a module are one number;
initialization code of a module does nothing but be logged; profiling and debug output are left out.
-/

namespace Verif.Boot

/-- `HiltiModule` (init.h:32-44): `code` if `init_module` is set, `globals` if `init_globals` and `globals_idx` are; the
initial value of the globals. -/
structure Mod where
  key : Nat
  code : Bool
  globals : Bool
  value : Nat
  deriving DecidableEq, Repr

/-- What `init()` calls. -/
inductive Ev
  | globals (k : Nat) | code (k : Nat)
  deriving DecidableEq, Repr

/-- `Context::hilti_globals` (context.h:55): the globals of a module, or a null pointer. -/
abbrev Ctx := List (Option (Nat × Nat))

/-- `GlobalState` (global-state.h:45-87), the variables `globals_index` of the modules, all contexts (the first is the
master), and the current one. -/
structure S where
  mods : List Mod
  inited : Bool
  cells : Nat → Nat
  ctxs : List Ctx
  cur : Nat
  log : List Ev

/-- `registerModule` (init.cc:92-111). -/
def register (m : Mod) (s : S) : S :=
  if s.mods.any (fun x => x.key == m.key) then s
  else
    { s with
      cells := if m.globals then (fun k => if k = m.key then s.mods.length else s.cells k) else s.cells
      mods := s.mods ++ [m] }

/-- `initModuleGlobals` (global-state.h:148-155), on the array of globals. -/
def place (g : Ctx) (idx : Nat) (x : Nat × Nat) : Ctx :=
  (if g.length ≤ idx then g ++ List.replicate (idx + 1 - g.length) none else g).set idx (some x)

/-- All modules' `init_globals` (init.cc:43-48; context.cc:38-41), which go to the current context
(codegen.cc:120-124). -/
def placeAll (cells : Nat → Nat) : List Mod → Ctx → Ctx
  | [], g => g
  | m :: ms, g => placeAll cells ms (if m.globals then place g (cells m.key) (m.key, m.value) else g)

/-- `init()` (init.cc:21-61). -/
def init (s : S) : S :=
  if s.inited then s
  else
    { s with
      ctxs := [placeAll s.cells s.mods []]
      cur := 0
      log := s.log ++ (s.mods.filter (·.globals)).map (fun m => .globals m.key) ++
        (s.mods.filter (·.code)).map (fun m => .code m.key)
      inited := true }

/-- `moduleGlobals` (global-state.h:131-139); nothing if there are none or they belong to another module (undefined
behaviour). -/
def look (k : Nat) (s : S) : Option Nat := do
  let g ← s.ctxs[s.cur]?
  let x ← g[s.cells k]?
  let (q, v) ← x
  if q = k then some v else none

/-- The code of a module assigns to its globals. -/
def write (k v : Nat) (s : S) : Option S := do
  let g ← s.ctxs[s.cur]?
  let x ← g[s.cells k]?
  let (q, _) ← x
  if q = k then some { s with ctxs := s.ctxs.set s.cur (g.set (s.cells k) (some (k, v))) } else none

/-- A further context (context.cc:30-42): `init_globals` is passed the new context, but initializes the globals of the
current one. -/
def newContext (s : S) : Option S := do
  let g ← s.ctxs[s.cur]?
  some { s with ctxs := s.ctxs.set s.cur (placeAll s.cells s.mods g) ++ [[]] }

/-- What happens. -/
inductive Op
  | register (m : Mod) | init | write (k v : Nat) | newContext | setContext (c : Nat)
  deriving DecidableEq, Repr

/-- One step; nothing for undefined behaviour. -/
def step (op : Op) (s : S) : Option S :=
  match op with
  | .register m => some (register m s)
  | .init => some (init s)
  | .write k v => write k v s
  | .newContext => newContext s
  -- context::detail::set (context.cc:22-26)
  | .setContext c => some { s with cur := c }

/-- A history. -/
def run : List Op → S → Option S
  | [], s => some s
  | op :: ops, s => (step op s).bind (run ops)

/-- The start of the process: no global state; `globals_index` is zero. -/
def s0 : S := ⟨[], false, fun _ => 0, [], 0, []⟩

end Verif.Boot
