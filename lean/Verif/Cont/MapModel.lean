import Verif.Base
/-!
# Model of maps and sets

Source: `hilti/runtime/include/types/map.h` (`map.h`), `hilti/runtime/include/types/set.h` (`set.h`), and the control blocks of
`hilti/runtime/include/util.h` 692-825 (`util.h`).

The world holds all the containers and all the iterators a program has made so far, by number; a destroyed container is `none`.
`std::map` and `std::set` are modelled by their contract: elements live in nodes, identified by numbers, in the order of the
keys; an iterator refers to a node or to the end of one particular container; nodes keep their identity when a container is
moved and get new ones when it is copied. `lt` is the order of the keys (`std::less`). A set is a map to unit values.

A control block is a `std::shared_ptr` in a container, plus a pointer to the container; iterators hold a weak reference and
a copy of the pointer.
-/

namespace Verif.Cont

inductive Kind where
  | map | set
  deriving DecidableEq, Repr

structure Elem (K V : Type) where
  node : Nat
  key : K
  val : V
  deriving DecidableEq

/-- `map.h` 161-182, `set.h` 100-127: the container, with `_control._control` and `_control._data`. -/
structure MObj (K V : Type) where
  elems : List (Elem K V)
  ctl : Option Nat
  data : Nat

/-- What a `std::map::iterator` refers to: an element, or the end of a container. -/
inductive MPos where
  | node (n : Nat)
  | fin (o : Nat)
  deriving DecidableEq, Repr

/-- `map.h` 36-89 `Iterator`, 91-139 `ConstIterator`, `set.h` 31-83 `Iterator`. -/
structure MIter where
  ctl : Nat
  data : Nat
  pos : MPos
  const : Bool
  deriving DecidableEq, Repr

structure MWorld (K V : Type) where
  objs : Nat → Option (MObj K V)
  nobjs : Nat
  its : Nat → Option MIter
  nits : Nat
  nextCtl : Nat
  nextNode : Nat

/-- What an operation returns. -/
inductive MOut (K V : Type) where
  | none
  | elem (k : K) (v : V)
  | val (v : V)
  | opt (v : Option V)
  | bool (b : Bool)
  | num (n : Nat)
  | obj (o : Nat)
  | iter (i : Nat)
  deriving DecidableEq

/-- Operations of programs. Containers and iterators are referred to by number. `put` is `index_assign` for maps and `insert` for
    sets. The flag of `begin` and `fin` tells whether the container is constant. -/
inductive MOp (K V : Type) where
  | make (init : List (K × V))
  | copy (o : Nat)
  | move (o : Nat)
  | destroy (o : Nat)
  | assignCopy (dst src : Nat)
  | assignMove (dst src : Nat)
  | contains (o : Nat) (k : K)
  | get (o : Nat) (k : K)
  | getOptional (o : Nat) (k : K)
  | put (o : Nat) (k : K) (v : V)
  | erase (o : Nat) (k : K)
  | clear (o : Nat)
  | size (o : Nat)
  | equal (a b : Nat)
  | begin (o : Nat) (const : Bool)
  | fin (o : Nat) (const : Bool)
  | deref (i : Nat)
  | incr (i : Nat)
  | iterEq (i j : Nat)

variable {K V : Type}

/-! ## The contract of `std::map` -/

/-- `find`: neither key is less than the other. -/
def findElem (lt : K → K → Bool) (k : K) : List (Elem K V) → Option (Elem K V)
  | [] => none
  | e :: l => if lt k e.key then none else if lt e.key k then findElem lt k l else some e

/-- `insert`: an existing element stays as it is. -/
def insertElem (lt : K → K → Bool) (n : Nat) (k : K) (v : V) : List (Elem K V) → List (Elem K V)
  | [] => [⟨n, k, v⟩]
  | e :: l => if lt k e.key then ⟨n, k, v⟩ :: e :: l else if lt e.key k then e :: insertElem lt n k v l else e :: l

/-- `insert_or_assign`: an existing element gets the new value. -/
def assignElem (lt : K → K → Bool) (n : Nat) (k : K) (v : V) : List (Elem K V) → List (Elem K V)
  | [] => [⟨n, k, v⟩]
  | e :: l => if lt k e.key then ⟨n, k, v⟩ :: e :: l else if lt e.key k then e :: assignElem lt n k v l else { e with val := v } :: l

/-- `erase` -/
def eraseElem (lt : K → K → Bool) (k : K) : List (Elem K V) → List (Elem K V)
  | [] => []
  | e :: l => if lt k e.key then e :: l else if lt e.key k then e :: eraseElem lt k l else l

/-- Construction from a list: the first of equal keys wins. -/
def buildElems (lt : K → K → Bool) : Nat → List (K × V) → List (Elem K V) → List (Elem K V)
  | _, [], acc => acc
  | n, (k, v) :: l, acc => buildElems lt (n + 1) l (insertElem lt n k v acc)

/-- Copying: new nodes. -/
def renumber : Nat → List (Elem K V) → List (Elem K V)
  | _, [] => []
  | n, e :: l => { e with node := n } :: renumber (n + 1) l

/-- The position of the first element, or the end. -/
def firstPos (o : Nat) : List (Elem K V) → MPos
  | [] => .fin o
  | e :: _ => .node e.node

/-- The position following the one of a node. -/
def nextPos (o n : Nat) : List (Elem K V) → MPos
  | [] => .fin o
  | e :: l => if e.node = n then firstPos o l else nextPos o n l

namespace MWorld

def empty : MWorld K V := ⟨fun _ => none, 0, fun _ => none, 0, 0, 0⟩

def setObj (w : MWorld K V) (o : Nat) (x : Option (MObj K V)) : MWorld K V := { w with objs := fun p => if p = o then x else w.objs p }

/-- A new container. -/
def add (w : MWorld K V) (x : MObj K V) : MWorld K V × Res (MOut K V) :=
  ({ w with objs := fun p => if p = w.nobjs then some x else w.objs p, nobjs := w.nobjs + 1 }, .ok (.obj w.nobjs))

/-- `util.h` 780-797: a control block has expired: no container holds it any more. -/
def expired (w : MWorld K V) (c : Nat) : Bool := (List.range w.nobjs).all fun o => match w.objs o with
  | some x => x.ctl != some c
  | none => true

/-- The container an element is in. -/
def owner (w : MWorld K V) (n : Nat) : Option (Nat × MObj K V) := (List.range w.nobjs).findSome? fun o => match w.objs o with
  | some x => if x.elems.any (·.node == n) then some (o, x) else none
  | none => none

/-- `util.h` 743-748 `operator Ref`, with the constructors of the iterators: makes the control block when the first iterator is. -/
def ref (w : MWorld K V) (o : Nat) (x : MObj K V) (pos : MPos) (const : Bool) : MWorld K V × Res (MOut K V) :=
  let c := match x.ctl with | some c => c | none => w.nextCtl
  let n := match x.ctl with | some _ => w.nextCtl | none => w.nextCtl + 1
  ({ (w.setObj o (some { x with ctl := some c })) with
      its := fun i => if i = w.nits then some ⟨c, x.data, pos, const⟩ else w.its i, nits := w.nits + 1, nextCtl := n },
    .ok (.iter w.nits))

def setIter (w : MWorld K V) (i : Nat) (it : MIter) : MWorld K V := { w with its := fun j => if j = i then some it else w.its j }

/-- `++_iterator`: at the end, or if the element is gone, it is undefined. -/
def advance (w : MWorld K V) (i : Nat) (it : MIter) : MWorld K V × Res (MOut K V) := match it.pos with
  | .fin _ => (w, .ub)
  | .node n => match w.owner n with
    | none => (w, .ub)
    | some (o, x) => (w.setIter i { it with pos := nextPos o n x.elems }, .ok .none)

end MWorld

open MWorld

/-- Performs an operation. An operation on a container or an iterator that does not exist does nothing. -/
def MWorld.exec [DecidableEq K] [DecidableEq V] (kind : Kind) (lt : K → K → Bool) (w : MWorld K V) : MOp K V → MWorld K V × Res (MOut K V)
  -- `map.h` 178, `set.h` 121-122; `_control{this}`
  | .make init => { w with nextNode := w.nextNode + init.length }.add ⟨buildElems lt w.nextNode init [], none, w.nobjs⟩
  -- `map.h` 180, `set.h` 119; `util.h` 723: a block of its own, which refers to the container the other block does
  | .copy o => match w.objs o with
    | some x => { w with nextNode := w.nextNode + x.elems.length }.add ⟨renumber w.nextNode x.elems, none, x.data⟩
    | none => (w, .ok .none)
  -- `map.h` 181, `set.h` 120; `util.h` 724
  | .move o => match w.objs o with
    | some x => (w.setObj o (some { x with elems := [], ctl := none })).add x
    | none => (w, .ok .none)
  | .destroy o => match w.objs o with
    | some _ => (w.setObj o none, .ok .none)
    | none => (w, .ok .none)
  -- `map.h` 183-189, `set.h` 125-131
  | .assignCopy dst src => match w.objs dst, w.objs src with
    | some d, some s =>
      if dst = src then (w, .ok .none)
      else ({ (w.setObj dst (some { d with elems := renumber w.nextNode s.elems, ctl := none })) with
        nextNode := w.nextNode + s.elems.length }, .ok .none)
    | _, _ => (w, .ok .none)
  -- `map.h` 191-197, `set.h` 133-139: the block of the other container is not reset
  | .assignMove dst src => match w.objs dst, w.objs src with
    | some d, some s =>
      if dst = src then (w, .ok .none)
      else ((w.setObj dst (some { d with elems := s.elems, ctl := none })).setObj src (some { s with elems := [] }), .ok .none)
    | _, _ => (w, .ok .none)
  -- `map.h` 204, `set.h` 146
  | .contains o k => match w.objs o with
    | some x => (w, .ok (.bool (findElem lt k x.elems).isSome))
    | none => (w, .ok .none)
  -- `map.h` 213-219, 228-234, 256, 264
  | .get o k => match w.objs o with
    | some x => (w, match findElem lt k x.elems with | some e => .ok (.val e.val) | none => .throw .indexError)
    | none => (w, .ok .none)
  -- `map.h` 242-247
  | .getOptional o k => match w.objs o with
    | some x => (w, .ok (.opt ((findElem lt k x.elems).map (·.val))))
    | none => (w, .ok .none)
  -- `map.h` 276-281, `set.h` 189-192
  | .put o k v => match w.objs o with
    | some x => match kind with
      | .map =>
        let ctl := if (findElem lt k x.elems).isSome then x.ctl else none
        ({ (w.setObj o (some { x with elems := assignElem lt w.nextNode k v x.elems, ctl := ctl })) with nextNode := w.nextNode + 1 },
          .ok .none)
      | .set => ({ (w.setObj o (some { x with elems := insertElem lt w.nextNode k v x.elems })) with nextNode := w.nextNode + 1 },
          .ok (.bool (findElem lt k x.elems).isNone))
    | none => (w, .ok .none)
  -- `map.h` 311-319, `set.h` 161-166
  | .erase o k => match w.objs o with
    | some x =>
      let removed := (findElem lt k x.elems).isSome
      let ctl := match kind with | .map => if removed then none else x.ctl | .set => none
      (w.setObj o (some { x with elems := eraseElem lt k x.elems, ctl := ctl }), .ok (.num (if removed then 1 else 0)))
    | none => (w, .ok .none)
  -- `map.h` 298-302, `set.h` 172-177
  | .clear o => match w.objs o with
    | some x => (w.setObj o (some { x with elems := [], ctl := none }), .ok .none)
    | none => (w, .ok .none)
  -- `map.h` 292, `set.h` 152
  | .size o => match w.objs o with
    | some x => (w, .ok (.num x.elems.length))
    | none => (w, .ok .none)
  -- `map.h` 321, `set.h` 197
  | .equal a b => match w.objs a, w.objs b with
    | some x, some y => (w, .ok (.bool (x.elems.map (fun e => (e.key, e.val)) == y.elems.map (fun e => (e.key, e.val)))))
    | _, _ => (w, .ok .none)
  -- `map.h` 283-290, `set.h` 148-150
  | .begin o c => match w.objs o with
    | some x => w.ref o x (firstPos o x.elems) c
    | none => (w, .ok .none)
  | .fin o c => match w.objs o with
    | some x => w.ref o x (.fin o) c
    | none => (w, .ok .none)
  -- `map.h` 76-82, 124-132, `set.h` 49-55: the pointer is used to find the end of the container
  | .deref i => match w.its i with
    | some it =>
      if w.expired it.ctl then (w, .throw .invalidIterator)
      else match w.objs it.data with
        | none => (w, .ub)
        | some _ => if it.pos = .fin it.data then (w, .throw .indexError)
          else match it.pos with
            | .fin _ => (w, .ub)
            | .node n => match w.owner n with
              | some (_, x) => match x.elems.find? (·.node == n) with
                | some e => (w, .ok (.elem e.key e.val))
                | none => (w, .ub)
              | none => (w, .ub)
    | none => (w, .ok .none)
  -- `map.h` 56-66, `set.h` 57-66; `map.h` 110-116: no check for the end
  | .incr i => match w.its i with
    | some it =>
      if w.expired it.ctl then (w, .throw .indexError)
      else if it.const ∧ kind = .map then w.advance i it
      else match w.objs it.data with
        | none => (w, .ub)
        | some _ => if it.pos = .fin it.data then (w, .throw .indexError) else w.advance i it
    | none => (w, .ok .none)
  -- `map.h` 47-52, 101-106, `set.h` 74-79; `util.h` 812-814
  | .iterEq i j => match w.its i, w.its j with
    | some a, some b => if a.ctl ≠ b.ctl then (w, .throw .invalidArgument) else (w, .ok (.bool (a.pos == b.pos)))
    | _, _ => (w, .ok .none)

/-- Runs a program. -/
def MWorld.run [DecidableEq K] [DecidableEq V] (kind : Kind) (lt : K → K → Bool) : MWorld K V → List (MOp K V) → MWorld K V
  | w, [] => w
  | w, op :: ops => MWorld.run kind lt (w.exec kind lt op).1 ops

end Verif.Cont
