/-!
# The profiler

Models `hilti/runtime/src/profiler.cc`, `hilti/runtime/include/profiler.h` and `profiler-state.h`, with profiling turned
on: blocks are started and stopped, the time and volume they take is added up under their names.

Simplifications: the table of profilers is a function with the default entry for names not in it; a `Profiler` object is
given by its number and stays where it is (moving it leaves an object without name behind, which records nothing); the
report is not modelled.
-/

namespace Verif.Prof

/-- Counters are `uint64_t`. -/
def M : Nat := 2 ^ 64

/-- `Measurement` (profiler-state.h:22-26). -/
structure Meas where
  count : Nat := 0
  time : Nat := 0
  volume : Option Nat := none
  deriving DecidableEq, Repr

/-- `operator+=` (profiler-state.h:27-40). -/
def Meas.add (a m : Meas) : Meas :=
  { a with
    time := (a.time + m.time) % M
    volume :=
      match m.volume with
      | some v => match a.volume with | some w => some ((w + v) % M) | none => some v
      | none => a.volume }

/-- `operator-=` (profiler-state.h:42-51). -/
def Meas.sub (a m : Meas) : Meas :=
  { a with
    time := (a.time + M - m.time) % M
    volume :=
      match a.volume, m.volume with
      | some w, some v => some ((w + M - v) % M)
      | w, _ => w }

/-- `MeasurementState` (profiler-state.h:61-65). -/
structure Entry where
  m : Meas := {}
  instances : Nat := 0
  deriving DecidableEq, Repr

/-- A `Profiler` (profiler.h:92-93): `_name` and `_start`. -/
structure Prof where
  name : String
  start : Meas
  deriving DecidableEq, Repr

/-- The clock, `globalState()->profilers`, and all `Profiler` objects made so far. -/
structure S where
  clock : Nat
  table : String → Entry
  profs : List Prof

/-- Time passes; a block is started; a block is stopped, with `stop` or by the destructor (then with no volume). -/
inductive Op
  | tick (d : Nat)
  | start (name : String) (volume : Option Nat)
  | stop (i : Nat) (volume : Option Nat)
  deriving DecidableEq, Repr

/-- `snapshot` (profiler.cc:39-47). -/
def snapshot (clock : Nat) (volume : Option Nat) : Meas := { time := clock, volume := volume }

/-- An entry of the table is changed. -/
def upd (t : String → Entry) (n : String) (e : Entry) : String → Entry := fun q => if q = n then e else t q

/-- The constructor and `_register` (profiler.h:79-81, profiler.cc:37). -/
def start (name : String) (volume : Option Nat) (s : S) : S :=
  { s with
    table := upd s.table name { s.table name with instances := ((s.table name).instances + 1) % M }
    profs := s.profs ++ [⟨name, snapshot s.clock volume⟩] }

/-- What `record` makes of an entry (profiler.cc:56-63). -/
def recordEntry (p : Entry) (begin «end» : Meas) : Entry :=
  let m := { p.m with count := (p.m.count + 1) % M }
  { m := if p.instances = 1 then m.add («end».sub begin) else m
    instances := (p.instances + M - 1) % M }

/-- `record` (profiler.cc:49-66), with the measurement taken by `stop` (profiler.h:108-111) or by the destructor
(profiler.h:55). -/
def record (i : Nat) (volume : Option Nat) (s : S) : S :=
  match s.profs[i]? with
  | none => s
  | some p =>
    if p.name = "" then s
    else
      { s with
        table := upd s.table p.name (recordEntry (s.table p.name) p.start (snapshot s.clock volume))
        profs := s.profs.set i { p with name := "" } }

/-- One step. -/
def step (op : Op) (s : S) : S :=
  match op with
  | .tick d => { s with clock := s.clock + d }
  | .start n v => start n v s
  | .stop i v => record i v s

/-- A history. -/
def run : List Op → S → S
  | [], s => s
  | op :: ops, s => run ops (step op s)

/-- The start, at some time. -/
def init (clock : Nat) : S := ⟨clock, fun _ => {}, []⟩

/-- `get` (profiler.cc:87-93), for names that are known. -/
def S.get (s : S) (n : String) : Meas := (s.table n).m

end Verif.Prof
