import Verif.Cont.MapModel
/-!
# Specification of maps and sets: finite maps in the order of their keys

A finite map is the list of its pairs in ascending order of the keys. An iterator refers to a container and is at a key, at the end,
or invalid. `unspecified` marks iterators about which nothing is claimed: iterators of containers that have been made by copying or
moving another one, and iterators of containers that have been moved from.
-/

namespace Verif.Cont

variable {K V : Type}

/-- A strict total order. -/
structure StrictTotal (lt : K → K → Bool) : Prop where
  irrefl : ∀ a, lt a a = false
  trans : ∀ a b c, lt a b = true → lt b c = true → lt a c = true
  total : ∀ a b, lt a b = true ∨ a = b ∨ lt b a = true

abbrev FMap (K V : Type) := List (K × V)

namespace FMap

def lookup [DecidableEq K] (m : FMap K V) (k : K) : Option V := (m.find? (fun p => p.1 = k)).map (·.2)

/-- Sets the value of a key. -/
def set (lt : K → K → Bool) (m : FMap K V) (k : K) (v : V) : FMap K V :=
  m.filter (fun p => lt p.1 k) ++ [(k, v)] ++ m.filter (fun p => lt k p.1)

def unset [DecidableEq K] (m : FMap K V) (k : K) : FMap K V := m.filter (fun p => p.1 ≠ k)

/-- The first of several values for a key is the one that counts. -/
def ofList [DecidableEq K] (lt : K → K → Bool) (l : List (K × V)) : FMap K V :=
  l.foldl (fun m p => match lookup m p.1 with | some _ => m | none => set lt m p.1 p.2) []

/-- In ascending order. -/
def Sorted (lt : K → K → Bool) (m : FMap K V) : Prop := m.Pairwise (fun p q => lt p.1 q.1 = true)

end FMap

inductive SPos (K : Type) where
  | at (k : K)
  | fin
  | invalid
  | unspecified
  deriving DecidableEq

def SPos.invalidated : SPos K → SPos K
  | .unspecified => .unspecified
  | _ => .invalid

def SPos.forgotten : SPos K → SPos K
  | .invalid => .invalid
  | _ => .unspecified

structure SObj (K V : Type) where
  m : FMap K V
  /-- Whether it has not been made by copying or moving another one. -/
  own : Bool

structure SIter (K : Type) where
  obj : Nat
  pos : SPos K
  const : Bool

structure SWorld (K V : Type) where
  objs : Nat → Option (SObj K V)
  nobjs : Nat
  its : Nat → Option (SIter K)
  nits : Nat

namespace SWorld

def empty : SWorld K V := ⟨fun _ => none, 0, fun _ => none, 0⟩

def setObj (s : SWorld K V) (o : Nat) (x : Option (SObj K V)) : SWorld K V := { s with objs := fun p => if p = o then x else s.objs p }

def add (s : SWorld K V) (x : SObj K V) : SWorld K V × Res (MOut K V) :=
  ({ s with objs := fun p => if p = s.nobjs then some x else s.objs p, nobjs := s.nobjs + 1 }, .ok (.obj s.nobjs))

/-- All iterators of a container become invalid. -/
def invalidate (s : SWorld K V) (o : Nat) : SWorld K V := { s with
  its := fun i => (s.its i).map fun t => if t.obj = o then { t with pos := t.pos.invalidated } else t }

/-- Nothing is claimed any more about the iterators of a container (invalid ones are still invalid). -/
def forget (s : SWorld K V) (o : Nat) : SWorld K V := { s with
  its := fun i => (s.its i).map fun t => if t.obj = o then { t with pos := t.pos.forgotten } else t }

/-- The position of the first pair. -/
def first : FMap K V → SPos K
  | [] => .fin
  | p :: _ => .at p.1

/-- A new iterator. -/
def ref (s : SWorld K V) (o : Nat) (x : SObj K V) (pos : SPos K) (const : Bool) : SWorld K V × Res (MOut K V) :=
  ({ s with its := fun i => if i = s.nits then some ⟨o, if x.own then pos else .unspecified, const⟩ else s.its i, nits := s.nits + 1 },
    .ok (.iter s.nits))

end SWorld

open SWorld

/-- What operations should do and return. -/
def SWorld.ideal [DecidableEq K] [DecidableEq V] (kind : Kind) (lt : K → K → Bool) (s : SWorld K V) : MOp K V → SWorld K V × Res (MOut K V)
  | .make init => s.add ⟨FMap.ofList lt init, true⟩
  | .copy o => match s.objs o with
    | some x => s.add ⟨x.m, false⟩
    | none => (s, .ok .none)
  | .move o => match s.objs o with
    | some x => ((s.setObj o (some { x with m := [] })).forget o).add ⟨x.m, false⟩
    | none => (s, .ok .none)
  | .destroy o => match s.objs o with
    | some _ => ((s.setObj o none).invalidate o, .ok .none)
    | none => (s, .ok .none)
  | .assignCopy dst src => match s.objs dst, s.objs src with
    | some d, some x => if dst = src then (s, .ok .none) else ((s.setObj dst (some { d with m := x.m })).invalidate dst, .ok .none)
    | _, _ => (s, .ok .none)
  | .assignMove dst src => match s.objs dst, s.objs src with
    | some d, some x => if dst = src then (s, .ok .none)
      else ((((s.setObj dst (some { d with m := x.m })).setObj src (some { x with m := [] })).invalidate dst).forget src, .ok .none)
    | _, _ => (s, .ok .none)
  | .contains o k => match s.objs o with
    | some x => (s, .ok (.bool (FMap.lookup x.m k).isSome))
    | none => (s, .ok .none)
  | .get o k => match s.objs o with
    | some x => (s, match FMap.lookup x.m k with | some v => .ok (.val v) | none => .throw .indexError)
    | none => (s, .ok .none)
  | .getOptional o k => match s.objs o with
    | some x => (s, .ok (.opt (FMap.lookup x.m k)))
    | none => (s, .ok .none)
  | .put o k v => match s.objs o with
    | some x => match kind, FMap.lookup x.m k with
      -- a new key invalidates the iterators of a map, but not the ones of a set
      | .map, none => ((s.setObj o (some { x with m := FMap.set lt x.m k v })).invalidate o, .ok .none)
      | .map, some _ => (s.setObj o (some { x with m := FMap.set lt x.m k v }), .ok .none)
      | .set, none => (s.setObj o (some { x with m := FMap.set lt x.m k v }), .ok (.bool true))
      | .set, some _ => (s, .ok (.bool false))
    | none => (s, .ok .none)
  | .erase o k => match s.objs o with
    | some x => match kind, FMap.lookup x.m k with
      | .map, none => (s, .ok (.num 0))
      | .set, none => (s.invalidate o, .ok (.num 0))
      | _, some _ => ((s.setObj o (some { x with m := FMap.unset x.m k })).invalidate o, .ok (.num 1))
    | none => (s, .ok .none)
  | .clear o => match s.objs o with
    | some x => ((s.setObj o (some { x with m := [] })).invalidate o, .ok .none)
    | none => (s, .ok .none)
  | .size o => match s.objs o with
    | some x => (s, .ok (.num x.m.length))
    | none => (s, .ok .none)
  | .equal a b => match s.objs a, s.objs b with
    | some x, some y => (s, .ok (.bool (decide (x.m = y.m))))
    | _, _ => (s, .ok .none)
  | .begin o c => match s.objs o with
    | some x => s.ref o x (first x.m) c
    | none => (s, .ok .none)
  | .fin o c => match s.objs o with
    | some x => s.ref o x .fin c
    | none => (s, .ok .none)
  | .deref i => match s.its i with
    | some t => (s, match t.pos with
      | .at k => match s.objs t.obj with
        | some x => match FMap.lookup x.m k with | some v => .ok (.elem k v) | none => .ub
        | none => .ub
      | .fin => .throw .indexError
      | .invalid => .throw .invalidIterator
      | .unspecified => .ub)
    | none => (s, .ok .none)
  | .incr i => match s.its i with
    | some t => match t.pos with
      | .at k => match s.objs t.obj with
        -- the next key in order
        | some x => ({ s with its := fun j => if j = i then some { t with pos := first (x.m.filter (fun p => lt k p.1)) } else s.its j }, .ok .none)
        | none => (s, .ub)
      | .fin => (s, .throw .indexError)
      | .invalid => (s, .throw .indexError)
      | .unspecified => (s, .ub)
    | none => (s, .ok .none)
  | .iterEq i j => match s.its i, s.its j with
    | some t, some u =>
      if t.pos = .invalid ∨ u.pos = .invalid ∨ t.obj ≠ u.obj then (s, .throw .invalidArgument) else (s, .ok (.bool (decide (t.pos = u.pos))))
    | _, _ => (s, .ok .none)

def SWorld.idealRun [DecidableEq K] [DecidableEq V] (kind : Kind) (lt : K → K → Bool) : SWorld K V → List (MOp K V) → SWorld K V
  | s, [] => s
  | s, op :: ops => SWorld.idealRun kind lt (s.ideal kind lt op).1 ops

/-- The operations about whose result something is claimed: not the ones on iterators of which nothing is known; not the increment of
    a constant iterator that is at the end of a map; not the comparison of two iterators that are both invalid. -/
def SWorld.Specified (kind : Kind) (s : SWorld K V) : MOp K V → Prop
  | .deref i => ∀ t, s.its i = some t → t.pos ≠ .unspecified
  | .incr i => ∀ t, s.its i = some t → t.pos ≠ .unspecified ∧ ¬ (kind = .map ∧ t.const = true ∧ t.pos = .fin)
  | .iterEq i j => ∀ t u, s.its i = some t → s.its j = some u → t.pos ≠ .unspecified ∧ u.pos ≠ .unspecified ∧ ¬ (t.pos = .invalid ∧ u.pos = .invalid)
  | _ => True

end Verif.Cont
