import Verif.Base

/-!
# Fibers and resumables

Models `hilti/runtime/include/fiber.h` and `hilti/runtime/src/fiber.cc`: `detail::Fiber` (states, run loop, yield,
resume, abort, the cache and its counters) and `Resumable` (the API on top of it).

A function executed by a fiber, as well as the main program, is an arbitrary interaction tree (`Prog`): what it does next
may depend on everything it was told so far. The main program may hence use any number of resumables in any order, and the
functions they execute may do the same (a unit's parse function writes into sinks, which resume the parse functions of other
units).

Simplifications. Stacks are not modelled as memory: a suspended fiber keeps the continuation of its program, which is what
saving, switching and restoring stacks is for (third-party code does the switching; both fiber types behave alike here).
Failing `assert`s count as undefined behaviour, as the runtime is normally built without them. There is one context, which
outlives all fibers. The return value of a function is a number. `_location` and stack size tracking are left out.
-/

namespace Verif.Fiber

/-- What a function may end with other than a value; `AbortException` is fiber.cc:350-356. -/
inductive Exc where
  | user (n : Nat)
  | abort
  deriving DecidableEq, Repr

/-- How a function continues from `hilti::rt::detail::yield()` (fiber.cc:799-807): normally, by `AbortException`, or by
    `RuntimeError` as there is nothing to yield to. -/
inductive Wake where
  | resumed | aborted | notSuspendable
  deriving DecidableEq, Repr

/-- Operations on a resumable that may execute its function: `run()`, `resume()`, `abort()`, and its destructor. -/
inductive Op where
  | run | resume | abort | drop
  deriving DecidableEq, Repr

/-- What such an operation gives to its caller: it returns; it throws the function's exception; it throws
    `std::logic_error` (fiber.h:394-397). -/
inductive Answer where
  | returned
  | raised (e : Exc)
  | rejected
  deriving DecidableEq, Repr

/-- `Fiber::Statistics`, fiber.h:234-241. Stack sizes are not modelled. -/
structure Stats where
  total : Nat
  current : Nat
  cached : Nat
  max : Nat
  initialized : Nat
  deriving DecidableEq, Repr

/-- A program: the main program, or the function given to a resumable. Every operation is followed by a program that may
    depend on what the operation gave. -/
inductive Prog where
  /-- The function returns. -/
  | ret (v : Nat)
  /-- The function throws. -/
  | fail (e : Exc)
  /-- Any effect visible from the outside. -/
  | emit (n : Nat) (k : Prog)
  /-- `hilti::rt::detail::yield()`. -/
  | yield (k : Wake → Prog)
  /-- `Resumable r(f)`. -/
  | spawn (f : Prog) (k : Nat → Prog)
  /-- `r.run()`, `r.resume()`, `r.abort()`, `~Resumable()`. -/
  | call (op : Op) (r : Nat) (k : Answer → Prog)
  /-- `static_cast<bool>(r)`, `r.hasResult()` and, if there is one, `r.get()`. -/
  | ask (r : Nat) (k : Bool → Option Nat → Prog)
  /-- `r = Resumable()`: move assignment over a resumable. -/
  | clobber (r : Nat) (k : Prog)
  /-- `Fiber::statistics()`. -/
  | stats (k : Stats → Prog)
  /-- `Fiber::primeCache()`. -/
  | prime (k : Prog)
  /-- `Fiber::reset()`. -/
  | reset (k : Prog)

/-- `Fiber::State`, fiber.h:250. -/
inductive St where
  | init | running | aborting | yielded | idle | finished
  deriving DecidableEq, Repr

/-- Where a fiber is, i.e. the content of its stack. -/
inductive Point where
  /-- `__fiber_run_trampoline` not entered yet. -/
  | fresh
  /-- In `__fiber_run_trampoline`, inside `fiber->_yield` (fiber.cc:113). -/
  | loop
  /-- In the function with the given number, inside `Fiber::yield()` (fiber.cc:657). -/
  | inside (tag : Nat) (k : Wake → Prog)
  /-- Executing, or waiting for a fiber that it activated. -/
  | busy

/-- `detail::Fiber`, fiber.h:264-280. The number beside a function identifies it in the log; it is not in the code. -/
structure Fib where
  st : St
  func : Option (Nat × Prog)
  result : Option Nat
  exc : Option Exc
  /-- `_caller`; `none` is the main pseudo-fiber. -/
  caller : Option Nat
  point : Point

/-- `Resumable`, fiber.h:399-401. -/
structure Resum where
  fiber : Option Nat
  done : Bool
  result : Option Nat
  deriving DecidableEq, Repr

/-- The part of the stack of a fiber (or main) that activated another fiber, which it continues with when control comes
    back: the local `old` and the operation of `Resumable::run/resume/abort` (fiber.cc:743-776), or `Fiber::destroy` (from
    the destructor, fiber.h:342-349). -/
structure Frame where
  op : Op
  r : Nat
  /-- The activated fiber. -/
  fib : Nat
  /-- The fiber waiting; `none` is main. -/
  who : Option Nat
  /-- The function it executes. -/
  tag : Option Nat
  /-- `old`. -/
  saved : Option Nat
  k : Answer → Prog

/-- How a function gave up control. -/
inductive How where
  | yielded
  | finished (v : Nat)
  | failed (e : Exc)
  deriving DecidableEq, Repr

/-- What can be seen of an execution. -/
inductive Ev where
  | created (r : Nat)
  /-- An operation on resumable `r` passes control to the function `t`, from its beginning. -/
  | started (op : Op) (r t : Nat)
  /-- An operation on resumable `r` passes control back to the suspended function `t`. -/
  | continued (op : Op) (r t : Nat)
  /-- An operation on resumable `r` passes control back to the suspended function `t` by an `AbortException`. -/
  | unwinding (op : Op) (r t : Nat)
  /-- Function `t` (or main) has an effect. -/
  | effect (t : Option Nat) (n : Nat)
  /-- Function `t` gave up control, the operation that passed control to it, on `r`, gives `a` to function `c` (or main). -/
  | left (t : Option Nat) (how : How) (op : Op) (r : Nat) (a : Answer) (c : Option Nat)
  /-- An operation on `r` gives `a` without executing a function. -/
  | answered (op : Op) (r : Nat) (a : Answer)
  /-- What the observers of `r` said. -/
  | asked (r : Nat) (done : Bool) (value : Option Nat)
  | clobbered (r : Nat)
  /-- `yield()` was called outside of a function. -/
  | refusedYield
  deriving DecidableEq, Repr

/-- The whole state. -/
structure World where
  /-- `configuration.fiber_cache_size`. -/
  cap : Nat
  fibs : Nat → Option Fib
  /-- Number of fiber objects ever allocated (names for fresh ones). -/
  nextF : Nat
  res : Nat → Option Resum
  nextR : Nat
  /-- `context.fiber.cache`; the head is `back()`. -/
  cache : List Nat
  /-- `context.fiber.current`; `none` is main. -/
  curF : Option Nat
  /-- Number of the function being executed; `none` is main. -/
  curTag : Option Nat
  cur : Prog
  /-- `context.resumable`. -/
  ctxRes : Option Nat
  stack : List Frame
  total : Nat
  current : Nat
  cached : Nat
  max : Nat
  initialized : Nat
  /-- Newest first. -/
  log : List Ev

/-- Function update. -/
def upd {α : Type} (f : Nat → α) (i : Nat) (x : α) : Nat → α := fun j => if j = i then x else f j

/-- `--x` for a `uint64_t`. (Counters reaching 2^64 by counting up are not modelled.) -/
def dec (x : Nat) : Nat := if x = 0 then 2 ^ 64 - 1 else x - 1

/-- A fresh `detail::Fiber`, fiber.cc:197-348 (bookkeeping at 312-322). -/
def newFiber (w : World) : World :=
  { w with
    fibs := upd w.fibs w.nextF (some ⟨.init, none, none, none, none, .fresh⟩)
    nextF := w.nextF + 1
    total := w.total + 1
    current := w.current + 1
    max := if w.current + 1 > w.max then w.current + 1 else w.max }

/-- `~Fiber`, fiber.cc:358-377. -/
def freeFiber (f : Nat) (w : World) : World :=
  { w with fibs := upd w.fibs f none, current := dec w.current }

/-- `Fiber::create`, fiber.cc:683-695. -/
def create (w : World) : Nat × World :=
  match w.cache with
  | f :: rest => (f, { w with cache := rest, cached := dec w.cached })
  | [] => (w.nextF, newFiber w)

/-- `Fiber::destroy` once the fiber is not suspended (any more), fiber.cc:704-718. -/
def recycle (f : Nat) (w : World) : World :=
  if w.cache.length < w.cap then { w with cache := f :: w.cache, cached := w.cached + 1 }
  else freeFiber f w

/-- `Fiber::init`, fiber.h:180-184. -/
def initFiber (x : Fib) (t : Nat) (p : Prog) : Fib :=
  { x with result := none, exc := none, func := some (t, p) }

/-- `_activate` (fiber.cc:545-580) followed by what the activated fiber does first; `op` and `r` are for the log. -/
def activate (op : Op) (r f : Nat) (w : World) : Res World :=
  match w.fibs f with
  | none => .ub
  | some x =>
    if w.curF = some f then .ub else
    match x.point with
    | .busy => .ub
    | .fresh | .loop =>
      -- fiber.cc:87-104
      if x.st = .running then
        match x.func with
        | none => .ub
        | some (t, p) =>
          .ok { w with
            initialized := match x.point with | .fresh => w.initialized + 1 | _ => w.initialized
            fibs := upd w.fibs f (some { x with caller := w.curF, point := .busy })
            curF := some f, curTag := some t, cur := p
            log := .started op r t :: w.log }
      else .ub
    | .inside t k =>
      -- fiber.cc:657-660, 805-806
      .ok { w with
        fibs := upd w.fibs f (some { x with caller := w.curF, point := .busy })
        curF := some f, curTag := some t
        cur := if x.st = .aborting then k .aborted else k .resumed
        log := (if x.st = .aborting then .unwinding op r t else .continued op r t) :: w.log }

/-- `Fiber::run`, fiber.cc:640-644; what comes after `_activate` is in `backIn`. -/
def fiberRun (op : Op) (r f : Nat) (w : World) : Res World :=
  match w.fibs f with
  | none => .ub
  | some x =>
    activate op r f { w with fibs := upd w.fibs f (some (if x.st = .aborting then x else { x with st := .running })) }

/-- The caller's frame while another fiber is active. -/
def frame (w : World) (op : Op) (r f : Nat) (k : Answer → Prog) : Frame :=
  ⟨op, r, f, w.curF, w.curTag, w.ctxRes, k⟩

/-- `Resumable::run`, fiber.cc:743-748. -/
def resRun (r : Nat) (k : Answer → Prog) (w : World) : Res World :=
  match w.res r with
  | none => .ub
  | some o =>
    match o.fiber with
    | none => .ok { w with cur := k .rejected, log := .answered .run r .rejected :: w.log }
    | some f => fiberRun .run r f { w with stack := frame w .run r f k :: w.stack, ctxRes := some f }

/-- `Resumable::resume`, fiber.cc:754-759, and `Fiber::resume`, fiber.cc:663-666. -/
def resResume (r : Nat) (k : Answer → Prog) (w : World) : Res World :=
  match w.res r with
  | none => .ub
  | some o =>
    match o.fiber with
    | none => .ok { w with cur := k .rejected, log := .answered .resume r .rejected :: w.log }
    | some f =>
      match w.fibs f with
      | none => .ub
      | some x =>
        if x.st = .yielded then
          fiberRun .resume r f { w with stack := frame w .resume r f k :: w.stack, ctxRes := some f }
        else .ub

/-- `Fiber::abort`, fiber.cc:668-681. -/
def fiberAbort (op : Op) (r f : Nat) (w : World) : Res World :=
  match w.fibs f with
  | none => .ub
  | some x =>
    if x.st = .yielded then
      fiberRun op r f { w with fibs := upd w.fibs f (some { x with st := .aborting }) }
    else .ub

/-- `Resumable::abort`, fiber.cc:765-771. -/
def resAbort (r : Nat) (k : Answer → Prog) (w : World) : Res World :=
  match w.res r with
  | none => .ub
  | some o =>
    match o.fiber with
    | none => .ok { w with cur := k .returned, log := .answered .abort r .returned :: w.log }
    | some f => fiberAbort .abort r f { w with stack := frame w .abort r f k :: w.stack, ctxRes := some f }

/-- `~Resumable`, fiber.h:342-349, with `Fiber::destroy`, fiber.cc:697-702. The fiber is not the resumable's any more while
    its function is unwound. Putting an executing fiber into the cache counts as undefined behaviour. -/
def resDrop (r : Nat) (k : Answer → Prog) (w : World) : Res World :=
  match w.res r with
  | none => .ub
  | some o =>
    match o.fiber with
    | none => .ok { w with res := upd w.res r none, cur := k .returned, log := .answered .drop r .returned :: w.log }
    | some f =>
      match w.fibs f with
      | none => .ub
      | some x =>
        if x.st = .yielded then
          fiberAbort .drop r f { w with res := upd w.res r none, stack := frame w .drop r f k :: w.stack }
        else if x.st = .running ∨ x.st = .aborting then .ub
        else
          .ok (recycle f { w with res := upd w.res r none, cur := k .returned,
                                  log := .answered .drop r .returned :: w.log })

/-- `Resumable::yielded`, fiber.cc:778-797, for the fiber `f` of resumable `r`. A fiber that is suspended and has an exception
    pending would be aborted here; this cannot happen and is left out. -/
def resYielded (fr : Frame) (x : Fib) (w : World) : Res (Answer × World) :=
  match w.res fr.r with
  | none => .ub
  | some o =>
    if o.fiber = some fr.fib then
      match x.exc with
      | some e =>
        if x.st = .yielded then .ub
        else .ok (.raised e, recycle fr.fib { w with res := upd w.res fr.r (some ⟨none, true, none⟩) })
      | none =>
        -- isDone(), fiber.h:199-213
        if x.st = .running ∨ x.st = .yielded then .ok (.returned, w)
        else .ok (.returned, recycle fr.fib { w with res := upd w.res fr.r (some ⟨none, true, x.result⟩) })
    else .ub

/-- The fiber waiting in `fr` continues: the end of `Fiber::run` (fiber.cc:646-650), of `Resumable::run`/`resume`
    (749-751, 760-762), of `Resumable::abort` (772-775) or of `Fiber::destroy` (704-718). -/
def backIn (fr : Frame) (x : Fib) (w : World) : Res (Answer × World) :=
  if x.st = .yielded ∨ x.st = .idle then
    match fr.op with
    | .run | .resume => resYielded fr x { w with ctxRes := fr.saved }
    | .abort =>
      match w.res fr.r with
      | none => .ub
      | some o => .ok (.returned, { w with ctxRes := fr.saved, res := upd w.res fr.r (some { o with result := none, done := true }) })
    | .drop => .ok (.returned, recycle fr.fib w)
  else .ub

/-- `_yield` (fiber.cc:582-620) by fiber `f`, whose state is now `x`: control goes to the caller. -/
def switchBack (f : Nat) (x : Fib) (how : How) (w : World) : Res World :=
  match w.stack with
  | [] => .ub
  | fr :: rest =>
    if fr.fib = f ∧ x.caller = fr.who ∧ x.caller ≠ some f then
      match backIn fr x { w with fibs := upd w.fibs f (some x), curF := fr.who, curTag := fr.tag, stack := rest } with
      | .ok (a, w') => .ok { w' with cur := fr.k a, log := .left w.curTag how fr.op fr.r a fr.tag :: w.log }
      | .throw e => .throw e
      | .ub => .ub
    else .ub

/-- The end of an iteration of the loop in `__fiber_run_trampoline`, fiber.cc:103-113. -/
def funcEnd (how : How) (w : World) : Res World :=
  match w.curF with
  | none => .ok w
  | some f =>
    match w.fibs f with
    | none => .ub
    | some x =>
      switchBack f
        { x with
          result := match how with | .finished v => some v | _ => x.result
          exc := match how with | .failed e => some e | _ => x.exc
          func := none, st := .idle, point := .loop } how w

/-- `detail::yield`, fiber.cc:799-807, and `Fiber::yield`, fiber.cc:653-661. -/
def doYield (k : Wake → Prog) (w : World) : Res World :=
  match w.ctxRes with
  | none => .ok { w with cur := k .notSuspendable, log := .refusedYield :: w.log }
  | some f =>
    if w.curF = some f then
      match w.fibs f, w.curTag with
      | some x, some t =>
        if x.st = .running then switchBack f { x with st := .yielded, point := .inside t k } .yielded w
        else .ub
      | _, _ => .ub
    else .ub

/-- `Resumable(Function)`, fiber.h:329-334. -/
def doSpawn (p : Prog) (k : Nat → Prog) (w : World) : Res World :=
  let fw := create w
  match fw.2.fibs fw.1 with
  | none => .ub
  | some x =>
    .ok { fw.2 with
      fibs := upd fw.2.fibs fw.1 (some (initFiber x w.nextR p))
      res := upd fw.2.res w.nextR (some ⟨some fw.1, false, none⟩)
      nextR := w.nextR + 1
      cur := k w.nextR
      log := .created w.nextR :: w.log }

/-- Defaulted move assignment of `Resumable`, fiber.h:340: the fiber is deleted, not given to `Fiber::destroy`. -/
def doClobber (r : Nat) (k : Prog) (w : World) : Res World :=
  match w.res r with
  | none => .ub
  | some o =>
    match o.fiber with
    | none => .ok { w with res := upd w.res r (some ⟨none, false, none⟩), cur := k, log := .clobbered r :: w.log }
    | some f =>
      match w.fibs f with
      | none => .ub
      | some x =>
        if x.st = .running ∨ x.st = .aborting then .ub
        else .ok (freeFiber f { w with res := upd w.res r (some ⟨none, false, none⟩), cur := k, log := .clobbered r :: w.log })

/-- `Fiber::primeCache`, fiber.cc:721-725: the loop creating fibers; gives them in order of creation. -/
def createN : Nat → World → List Nat × World
  | 0, w => ([], w)
  | n + 1, w =>
    let fw := create w
    let r := createN n fw.2
    (fw.1 :: r.1, r.2)

/-- The loop destroying them, fiber.cc:727-730. -/
def recycleAll : List Nat → World → World
  | [], w => w
  | f :: fs, w => recycleAll fs (recycle f w)

/-- `Fiber::primeCache`, fiber.cc:720-731. -/
def doPrime (k : Prog) (w : World) : World :=
  let fw := createN w.cap w
  { recycleAll fw.1.reverse fw.2 with cur := k }

/-- `cache.clear()`, fiber.cc:734. -/
def freeAll : List Nat → World → World
  | [], w => w
  | f :: fs, w => freeAll fs (freeFiber f w)

/-- `Fiber::reset`, fiber.cc:733-741. -/
def doReset (k : Prog) (w : World) : World :=
  { freeAll w.cache w with cache := [], total := 0, current := 0, cached := 0, max := 0, initialized := 0, cur := k }

/-- `Fiber::statistics`, fiber.cc:822-833. -/
def statistics (w : World) : Stats := ⟨w.total, w.current, w.cached, w.max, w.initialized⟩

/-- One operation of the program in control. When main has ended nothing more happens. -/
def step (w : World) : Res World :=
  match w.cur with
  | .ret v => funcEnd (.finished v) w
  | .fail e => funcEnd (.failed e) w
  | .emit n k => .ok { w with cur := k, log := .effect w.curTag n :: w.log }
  | .yield k => doYield k w
  | .spawn p k => doSpawn p k w
  | .call .run r k => resRun r k w
  | .call .resume r k => resResume r k w
  | .call .abort r k => resAbort r k w
  | .call .drop r k => resDrop r k w
  | .ask r k =>
    match w.res r with
    | none => .ub
    | some o =>
      -- operator bool, hasResult(), get(): fiber.h:367-389
      let v := if o.done then o.result else none
      .ok { w with cur := k o.done v, log := .asked r o.done v :: w.log }
  | .clobber r k => doClobber r k w
  | .stats k => .ok { w with cur := k (statistics w) }
  | .prime k => .ok (doPrime k w)
  | .reset k => .ok (doReset k w)

/-- The beginning: nothing exists, main is about to execute `p`. -/
def start (cap : Nat) (p : Prog) : World :=
  { cap := cap, fibs := fun _ => none, nextF := 0, res := fun _ => none, nextR := 0, cache := [], curF := none
    curTag := none, cur := p, ctxRes := none, stack := [], total := 0, current := 0, cached := 0, max := 0
    initialized := 0, log := [] }

end Verif.Fiber
