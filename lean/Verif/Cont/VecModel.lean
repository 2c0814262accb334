import Verif.Base
/-!
# Model of vectors

Source: `hilti/runtime/include/types/vector.h` (`vector.h`), with the control blocks of `hilti/runtime/include/util.h` 700-825
(`util.h`) and the generated code of `hilti/toolchain/src/compiler/codegen/operators.cc` 1266-1330.

The world holds all the vectors and all the iterators a program has made so far. Vectors are identified by their position in
`objs`; a destroyed one stays in the list with `alive = false`. A control block is a `std::shared_ptr` held by exactly one vector
and iterators hold weak references to it; blocks are identified by numbers. References to elements (`T&`) point into the
memory a `std::vector` has allocated, identified by a number that changes when the vector allocates anew.

`maxSize` stands for `std::vector::max_size()`; growing beyond throws `std::length_error` (here: `logicError`). Running out of
memory is not modelled.
-/

namespace Verif.Cont

/-- A vector: `std::vector` (content, allocated memory and its size) plus the `_control` block. -/
structure Vec (α : Type) where
  alive : Bool
  data : List α
  cap : Nat
  buf : Nat
  ctl : Option Nat
  deriving DecidableEq

/-- `vector.h` 121-187 `Iterator`, `ConstIterator`: a reference to a control block with the pointer to the vector, and an index
    (`integer::safe<uint64_t>`). -/
structure VIter where
  ctl : Nat
  obj : Nat
  idx : Nat
  deriving DecidableEq, Repr

/-- A reference to an element. -/
structure VRef where
  buf : Nat
  idx : Nat
  deriving DecidableEq, Repr

structure VWorld (α : Type) where
  objs : List (Vec α)
  its : List VIter
  nextCtl : Nat
  nextBuf : Nat

/-- What an operation returns. -/
inductive VOut (α : Type) where
  | none
  | elem (x : α)
  | bool (b : Bool)
  | num (n : Nat)
  | obj (o : Nat)
  | iter (i : Nat)
  deriving DecidableEq

/-- Operations of programs. Vectors and iterators are referred to by number. -/
inductive VOp (α : Type) where
  | make (init : List α)
  | copy (o : Nat)
  | move (o : Nat)
  | destroy (o : Nat)
  | assignCopy (dst src : Nat)
  | assignMove (dst src : Nat)
  | front (o : Nat)
  | back (o : Nat)
  | popBack (o : Nat)
  | pushBack (o : Nat) (x : α)
  | get (o i : Nat)
  | set (o i : Nat) (x : α)
  | assign (o i : Nat) (x : α)
  | resize (o n : Nat)
  | reserve (o n : Nat)
  | sub (o a b : Nat)
  | subEnd (o b : Nat)
  | sum (a b : Nat)
  | sumAssign (dst src : Nat)
  | size (o : Nat)
  | clear (o : Nat)
  | begin (o : Nat)
  | fin (o : Nat)
  | iteratorAt (o i : Nat)
  | deref (i : Nat)
  | incr (i : Nat)
  | iterEq (i j : Nat)
  | insert (o i : Nat) (x : α)

variable {α : Type}

namespace VWorld

def empty : VWorld α := ⟨[], [], 0, 0⟩

/-- The vector with a number, if there is such a one and it is alive. -/
def get? (w : VWorld α) (o : Nat) : Option (Vec α) := match w.objs[o]? with
  | some v => if v.alive then some v else none
  | none => none

def put (w : VWorld α) (o : Nat) (v : Vec α) : VWorld α := { w with objs := w.objs.set o v }

/-- A new vector (`vector.h` 295-301, 550: every constructor makes a control block of its own). -/
def add (w : VWorld α) (data : List α) : VWorld α × Res (VOut α) :=
  ({ w with objs := w.objs ++ [⟨true, data, data.length, w.nextBuf, none⟩], nextBuf := w.nextBuf + 1 }, .ok (.obj w.objs.length))

/-- Gives a vector new content of at most `cap` elements in the memory it has, or else in new memory. -/
def store (w : VWorld α) (o : Nat) (v : Vec α) (data : List α) : VWorld α :=
  if data.length ≤ v.cap then w.put o { v with data := data }
  else { w.put o { v with data := data, cap := data.length, buf := w.nextBuf } with nextBuf := w.nextBuf + 1 }

/-- `util.h` 743-748 `operator Ref`: makes the control block when the first iterator is. -/
def ref (w : VWorld α) (o : Nat) (v : Vec α) (idx : Nat) : VWorld α × Res (VOut α) := match v.ctl with
  | some c => ({ w with its := w.its ++ [⟨c, o, idx⟩] }, .ok (.iter w.its.length))
  | none => ({ w.put o { v with ctl := some w.nextCtl } with its := w.its ++ [⟨w.nextCtl, o, idx⟩], nextCtl := w.nextCtl + 1 },
      .ok (.iter w.its.length))

/-- `util.h` 780, 789-797: whether a control block has expired: no vector holds it any more. -/
def expired (w : VWorld α) (c : Nat) : Bool := !w.objs.any fun v => v.alive && v.ctl == some c

end VWorld

open VWorld

/-- `vector.h` 472-477 `assign`: `i + 1` is computed without a check. `none` stands for a write outside of the memory. -/
def assignData (maxSize : Nat) (dflt : α) (data : List α) (i : Nat) (x : α) : Res (List α) :=
  if i ≥ data.length then
    let n := (i + 1) % 2 ^ 64
    if n > maxSize then .throw .logicError
    else
      let data := data.take n ++ List.replicate (n - data.length) dflt
      if i < data.length then .ok (data.set i x) else .ub
  else .ok (data.set i x)

/-- Performs an operation. An operation on a vector or an iterator that does not exist does nothing. -/
def VWorld.exec (maxSize : Nat) (dflt : α) (w : VWorld α) : VOp α → VWorld α × Res (VOut α)
  -- `vector.h` 301
  | .make init => w.add init
  -- `vector.h` 298
  | .copy o => match w.get? o with
    | some v => w.add v.data
    | none => (w, .ok .none)
  -- `vector.h` 299: the memory is taken over, the control block is not
  | .move o => match w.get? o with
    | some v => ({ w.put o { v with data := [], cap := 0, buf := w.nextBuf } with
        objs := (w.put o { v with data := [], cap := 0, buf := w.nextBuf }).objs ++ [⟨true, v.data, v.cap, v.buf, none⟩],
        nextBuf := w.nextBuf + 1 }, .ok (.obj w.objs.length))
    | none => (w, .ok .none)
  -- `vector.h` 303
  | .destroy o => match w.get? o with
    | some v => (w.put o { v with alive := false, data := [], ctl := none }, .ok .none)
    | none => (w, .ok .none)
  -- `vector.h` 399-405
  | .assignCopy dst src => match w.get? dst, w.get? src with
    | some d, some s => if dst = src then (w, .ok .none) else (w.store dst d s.data, .ok .none)
    | _, _ => (w, .ok .none)
  -- `vector.h` 416-419; moving a vector to itself leaves it with unspecified content (here: none)
  | .assignMove dst src => match w.get? dst, w.get? src with
    | some d, some s =>
      let w' := w.put dst { d with data := s.data, cap := s.cap, buf := s.buf }
      ({ w'.put src { (if dst = src then d else s) with data := [], cap := 0, buf := w.nextBuf } with nextBuf := w.nextBuf + 1 }, .ok .none)
    | _, _ => (w, .ok .none)
  -- `vector.h` 311-316
  | .front o => match w.get? o with
    | some v => (w, match v.data.head? with | some x => .ok (.elem x) | none => .throw .indexError)
    | none => (w, .ok .none)
  -- `vector.h` 324-329
  | .back o => match w.get? o with
    | some v => (w, match v.data.getLast? with | some x => .ok (.elem x) | none => .throw .indexError)
    | none => (w, .ok .none)
  -- `vector.h` 336-341
  | .popBack o => match w.get? o with
    | some v => if v.data = [] then (w, .throw .indexError) else (w.put o { v with data := v.data.dropLast }, .ok .none)
    | none => (w, .ok .none)
  -- `std::vector::push_back`, `emplace_back`
  | .pushBack o x => match w.get? o with
    | some v => if v.data.length ≥ maxSize then (w, .throw .logicError) else (w.store o v (v.data ++ [x]), .ok .none)
    | none => (w, .ok .none)
  -- `vector.h` 428-433, 442-447, 456-461
  | .get o i => match w.get? o with
    | some v => (w, match v.data[i]? with | some x => .ok (.elem x) | none => .throw .indexError)
    | none => (w, .ok .none)
  | .set o i x => match w.get? o with
    | some v => if i ≥ v.data.length then (w, .throw .indexError) else (w.put o { v with data := v.data.set i x }, .ok .none)
    | none => (w, .ok .none)
  -- `vector.h` 472-477
  | .assign o i x => match w.get? o with
    | some v => match assignData maxSize dflt v.data i x with
      | .ok d => (w.store o v d, .ok .none)
      | .throw e => (w, .throw e)
      | .ub => (w, .ub)
    | none => (w, .ok .none)
  -- `std::vector::resize`
  | .resize o n => match w.get? o with
    | some v => if n > maxSize then (w, .throw .logicError)
      else (w.store o v (v.data.take n ++ List.replicate (n - v.data.length) dflt), .ok .none)
    | none => (w, .ok .none)
  -- `std::vector::reserve`
  | .reserve o n => match w.get? o with
    | some v => if n > maxSize then (w, .throw .logicError)
      else if n ≤ v.cap then (w, .ok .none)
      else ({ w.put o { v with cap := n, buf := w.nextBuf } with nextBuf := w.nextBuf + 1 }, .ok .none)
    | none => (w, .ok .none)
  -- `vector.h` 363-373
  | .sub o a b => match w.get? o with
    | some v =>
      if b ≤ a ∨ a ≥ v.data.length then w.add []
      else
        let b := if b ≥ v.data.length then v.data.length else b
        w.add ((v.data.take b).drop a)
    | none => (w, .ok .none)
  -- `vector.h` 381-388
  | .subEnd o b => match w.get? o with
    | some v => w.add (v.data.take (if b ≥ v.data.length then v.data.length else b))
    | none => (w, .ok .none)
  -- `vector.h` 485-489
  | .sum a b => match w.get? a, w.get? b with
    | some u, some v => if u.data.length + v.data.length > maxSize then (w, .throw .logicError) else w.add (u.data ++ v.data)
    | _, _ => (w, .ok .none)
  -- `vector.h` 497-500: `insert` must not be given iterators into the vector itself
  | .sumAssign dst src => match w.get? dst, w.get? src with
    | some d, some s =>
      if dst = src then (w, .ub)
      else if d.data.length + s.data.length > maxSize then (w, .throw .logicError)
      else (w.store dst d (d.data ++ s.data), .ok .none)
    | _, _ => (w, .ok .none)
  -- `vector.h` 530
  | .size o => match w.get? o with
    | some v => (w, .ok (.num v.data.length))
    | none => (w, .ok .none)
  | .clear o => match w.get? o with
    | some v => (w.put o { v with data := [] }, .ok .none)
    | none => (w, .ok .none)
  -- `vector.h` 518-525
  | .begin o => match w.get? o with
    | some v => w.ref o v 0
    | none => (w, .ok .none)
  | .fin o => match w.get? o with
    | some v => w.ref o v v.data.length
    | none => (w, .ok .none)
  -- `vector.h` 349-354
  | .iteratorAt o i => match w.get? o with
    | some v => if i ≥ v.data.length then (w, .throw .indexError) else w.ref o v i
    | none => (w, .ok .none)
  -- `vector.h` 636-680: the vector is used through the pointer if the control block has not expired
  | .deref i => match w.its[i]? with
    | some it =>
      if w.expired it.ctl then (w, .throw .invalidIterator)
      else match w.get? it.obj with
        | none => (w, .ub)
        | some v => (w, match v.data[it.idx]? with | some x => .ok (.elem x) | none => .throw .invalidIterator)
    | none => (w, .ok .none)
  -- `vector.h` 144-147
  | .incr i => match w.its[i]? with
    | some it => if it.idx + 1 ≥ 2 ^ 64 then (w, .throw .overflow)
      else ({ w with its := w.its.set i { it with idx := it.idx + 1 } }, .ok .none)
    | none => (w, .ok .none)
  -- `vector.h` 155-159; `util.h` 812-814
  | .iterEq i j => match w.its[i]?, w.its[j]? with
    | some a, some b => if a.ctl ≠ b.ctl then (w, .throw .invalidArgument) else (w, .ok (.bool (a.idx == b.idx)))
    | _, _ => (w, .ok .none)
  -- `vector.h` 509-516
  | .insert o i x => match w.get? o, w.its[i]? with
    | some v, some it =>
      if it.idx > v.data.length then (w, .throw .invalidIterator)
      else if v.data.length ≥ maxSize then (w, .throw .logicError)
      else (w.store o v (v.data.take it.idx ++ x :: v.data.drop it.idx), .ok .none)
    | _, _ => (w, .ok .none)

/-- Runs a program. -/
def VWorld.run (maxSize : Nat) (dflt : α) : VWorld α → List (VOp α) → VWorld α
  | w, [] => w
  | w, op :: ops => VWorld.run maxSize dflt (w.exec maxSize dflt op).1 ops

/-- Using a reference to an element: its memory must still be the one of a vector with that element. -/
def VWorld.readRef (w : VWorld α) (r : VRef) : Res α :=
  match w.objs.find? fun v => v.alive && v.buf == r.buf with
  | some v => match v.data[r.idx]? with
    | some x => .ok x
    | none => .ub
  | none => .ub

end Verif.Cont
