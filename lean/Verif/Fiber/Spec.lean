import Verif.Fiber.Model

/-!
# What users of resumables expect

A machine reading what can be seen of an execution (`Ev`). It knows nothing of fibers, their states, the cache, or contexts:
per resumable there is a phase, and there is the list of operations currently executing a function, innermost first.
-/

namespace Verif.Fiber

/-- Life of a resumable and its function. -/
inductive Phase where
  /-- Does not exist yet. -/
  | absent
  /-- Created, function not started. -/
  | fresh
  /-- Its function executes, or waits for another one that it started or resumed. -/
  | active
  /-- Its function has yielded. -/
  | suspended
  /-- Its function is ending because of an abort. -/
  | unwinding
  | finished (v : Nat)
  | raised (e : Exc)
  | aborted
  /-- Overwritten by an empty one. -/
  | vacant
  /-- Destroyed. -/
  | gone
  deriving DecidableEq, Repr

structure Spec where
  phase : Nat → Phase
  /-- Operations executing a function, innermost first. -/
  calls : List (Nat × Op)

def Spec.start : Spec := ⟨fun _ => .absent, []⟩

/-- The function in control; `none` is main. -/
def running : List (Nat × Op) → Option Nat
  | [] => none
  | c :: _ => some c.1

/-- The function has ended, or there never will be one. -/
def Phase.closed : Phase → Bool
  | .finished _ | .raised _ | .vacant => true
  | _ => false

/-- What the observers have to say: completed? value? -/
def Phase.shows : Phase → Bool × Option Nat
  | .finished v => (true, some v)
  | .raised _ | .aborted => (true, none)
  | _ => (false, none)

/-- What an operation that executed a function has to give to its caller, and the phase afterwards. -/
def leaving (p : Phase) (op : Op) (how : How) : Option (Answer × Phase) :=
  match p, how, op with
  | .active, .yielded, _ => some (.returned, .suspended)
  | .active, .finished v, _ => some (.returned, .finished v)
  | .active, .failed e, _ => some (.raised e, .raised e)
  | .unwinding, .yielded, _ => none
  | .unwinding, _, .abort => some (.returned, .aborted)
  | .unwinding, _, .drop => some (.returned, .gone)
  | _, _, _ => none

def Spec.set (s : Spec) (r : Nat) (p : Phase) : Spec := { s with phase := upd s.phase r p }

/-- Reads one event; `none` if it must not happen. -/
def Spec.read (s : Spec) : Ev → Option Spec
  | .created r => if s.phase r = .absent then some (s.set r .fresh) else none
  | .started op r t =>
    if op = .run ∧ t = r ∧ s.phase r = .fresh then some { s.set r .active with calls := (r, op) :: s.calls } else none
  | .continued op r t =>
    if op = .resume ∧ t = r ∧ s.phase r = .suspended then some { s.set r .active with calls := (r, op) :: s.calls }
    else none
  | .unwinding op r t =>
    if (op = .abort ∨ op = .drop) ∧ t = r ∧ s.phase r = .suspended then
      some { s.set r .unwinding with calls := (r, op) :: s.calls }
    else none
  | .effect t _ => if t = running s.calls then some s else none
  | .left t how op r a c =>
    match s.calls with
    | [] => none
    | call :: rest =>
      if call = (r, op) ∧ t = some r ∧ c = running rest then
        match leaving (s.phase r) op how with
        | some (a', p) => if a = a' then some { s.set r p with calls := rest } else none
        | none => none
      else none
  | .answered op r a =>
    match op with
    | .run | .resume => if (s.phase r).closed ∧ a = .rejected then some s else none
    | .abort => if (s.phase r).closed ∧ a = .returned then some s else none
    | .drop =>
      if ((s.phase r).closed ∨ s.phase r = .fresh ∨ s.phase r = .aborted) ∧ a = .returned then some (s.set r .gone)
      else none
  | .asked r d v =>
    if s.phase r ≠ .absent ∧ s.phase r ≠ .gone ∧ (s.phase r).shows = (d, v) then some s else none
  | .clobbered r =>
    if (s.phase r).closed ∨ s.phase r = .fresh ∨ s.phase r = .aborted then some (s.set r .vacant) else none
  | .refusedYield => if s.calls = [] then some s else none

/-- Reads a log (newest event first). -/
def readLog : List Ev → Option Spec
  | [] => some Spec.start
  | e :: l => match readLog l with | some s => s.read e | none => none

/-- Operations a program may do: start a function once; resume or abort it while it is suspended; not destroy a resumable
    whose function is in control; not use it after it was destroyed; not yield while being aborted; not use an aborted
    resumable other than looking at it and destroying it; not overwrite a suspended one. Using a resumable that has completed
    is allowed. -/
def Legal (s : Spec) : Prog → Prop
  | .yield _ => ∀ r, running s.calls = some r → s.phase r = .active
  | .call .run r _ => s.phase r = .fresh ∨ (s.phase r).closed
  | .call .resume r _ | .call .abort r _ => s.phase r = .suspended ∨ (s.phase r).closed
  | .call .drop r _ => s.phase r = .fresh ∨ s.phase r = .suspended ∨ s.phase r = .aborted ∨ (s.phase r).closed
  | .clobber r _ => s.phase r = .fresh ∨ s.phase r = .aborted ∨ (s.phase r).closed
  | .ask r _ => s.phase r ≠ .absent ∧ s.phase r ≠ .gone ∧ s.phase r ≠ .unwinding
  | _ => True

/-- States reached by legal programs. -/
inductive Reach (cap : Nat) (main : Prog) : World → Prop
  | start : Reach cap main (start cap main)
  | step {w w' : World} {s : Spec} : Reach cap main w → readLog w.log = some s → Legal s w.cur → step w = .ok w' →
      Reach cap main w'

/-- Number of fiber objects that exist. -/
def live (w : World) : Nat := ((List.range w.nextF).filter (fun f => (w.fibs f).isSome)).length

end Verif.Fiber
