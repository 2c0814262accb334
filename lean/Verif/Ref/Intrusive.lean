/-!
# Intrusive pointers

Models `hilti/runtime/include/intrusive-ptr.h`, the reference counting that keeps the data of a stream alive
(`hilti/runtime/include/types/stream.h:92, 319`: `ChainPtr`).

Simplifications: objects do not themselves have intrusive pointers as members (a `Chain` has none); no threads (the
counter is not atomic). Conversions between pointer types (intrusive-ptr.h:129-134, 188-191) are moves.
-/

namespace Verif.Ref.Intrusive

/-- The counter is a `uint64_t` (intrusive-ptr.h:32). -/
def M : Nat := 2 ^ 64

/-- An object: with its counter, or deleted. -/
inductive Obj
  | live (n : Nat) | freed
  deriving DecidableEq, Repr

/-- A variable of pointer type: destroyed, or with its `ptr_`. -/
inductive Slot
  | gone | at (p : Option Nat)
  deriving DecidableEq, Repr

/-- All objects, all variables, and the raw pointers that `release()` has handed out and nobody has adopted yet. -/
structure S where
  heap : List Obj
  ptrs : List Slot
  raws : List Nat
  deriving DecidableEq, Repr

/-- `Ref` (intrusive-ptr.h:35-39); nothing if the object is deleted (undefined behaviour). -/
def ref (p : Option Nat) (h : List Obj) : Option (List Obj) :=
  match p with
  | none => some h
  | some o =>
    match h[o]? with
    | some (.live n) => some (h.set o (.live ((n + 1) % M)))
    | _ => none

/-- `Unref` (intrusive-ptr.h:41-58). -/
def unref (p : Option Nat) (h : List Obj) : Option (List Obj) :=
  match p with
  | none => some h
  | some o =>
    match h[o]? with
    | some (.live n) =>
      if (n + M - 1) % M = 0 then some (h.set o .freed) else some (h.set o (.live ((n + M - 1) % M)))
    | _ => none

/-- `ptr_` of a variable; nothing if the variable does not exist (any more). -/
def S.ptr (s : S) (i : Nat) : Option (Option Nat) :=
  match s.ptrs[i]? with
  | some (.at p) => some p
  | _ => none

/-- What one can do. Constructors make a new variable, the next one. -/
inductive Op
  | make | null | newRef (o : Nat) | adopt (o : Nat) | copy (i : Nat) | move (i : Nat)
  | release (i : Nat) | destroy (i : Nat) | swap (i j : Nat)
  | assign (d i : Nat) | assignMove (d i : Nat) | use (i : Nat)
  deriving DecidableEq, Repr

/-- One step; nothing if it is undefined behaviour. -/
def step (op : Op) (s : S) : Option S :=
  match op with
  -- make_intrusive (intrusive-ptr.h:176-180)
  | .make => some { s with heap := s.heap ++ [.live 1], ptrs := s.ptrs ++ [.at (some s.heap.length)] }
  -- IntrusivePtr(), IntrusivePtr(nullptr) (intrusive-ptr.h:95-99)
  | .null => some { s with ptrs := s.ptrs ++ [.at none] }
  -- IntrusivePtr(NewRef, raw) (intrusive-ptr.h:119-122)
  | .newRef o => do
    let h ← ref (some o) s.heap
    some { s with heap := h, ptrs := s.ptrs ++ [.at (some o)] }
  -- IntrusivePtr(AdoptRef, raw) (intrusive-ptr.h:109)
  | .adopt o => some { s with ptrs := s.ptrs ++ [.at (some o)], raws := s.raws.erase o }
  -- IntrusivePtr(const IntrusivePtr&) (intrusive-ptr.h:128)
  | .copy i => do
    let p ← s.ptr i
    let h ← ref p s.heap
    some { s with heap := h, ptrs := s.ptrs ++ [.at p] }
  -- IntrusivePtr(IntrusivePtr&&) (intrusive-ptr.h:124-126)
  | .move i => do
    let p ← s.ptr i
    some { s with ptrs := s.ptrs.set i (.at none) ++ [.at p] }
  -- release() (intrusive-ptr.h:156)
  | .release i => do
    let p ← s.ptr i
    some { s with ptrs := s.ptrs.set i (.at none), raws := p.toList ++ s.raws }
  -- ~IntrusivePtr() (intrusive-ptr.h:138-141)
  | .destroy i => do
    let p ← s.ptr i
    let h ← unref p s.heap
    some { s with heap := h, ptrs := s.ptrs.set i .gone }
  -- swap() (intrusive-ptr.h:143)
  | .swap i j => do
    let p ← s.ptr i
    let q ← s.ptr j
    some { s with ptrs := (s.ptrs.set i (.at q)).set j (.at p) }
  -- operator=(IntrusivePtr) with a copy (intrusive-ptr.h:158-161): the parameter is constructed, swapped, destroyed
  | .assign d i => do
    let p ← s.ptr i
    let h ← ref p s.heap
    let q ← s.ptr d
    let h ← unref q h
    some { s with heap := h, ptrs := s.ptrs.set d (.at p) }
  -- operator=(IntrusivePtr) with a moved pointer
  | .assignMove d i => do
    let p ← s.ptr i
    let s := { s with ptrs := s.ptrs.set i (.at none) }
    let q ← s.ptr d
    let h ← unref q s.heap
    some { s with heap := h, ptrs := s.ptrs.set d (.at p) }
  -- operator->, operator* (intrusive-ptr.h:165-167)
  | .use i => do
    let p ← s.ptr i
    let o ← p
    match s.heap[o]? with
    | some (.live _) => some s
    | _ => none

/-- A history. -/
def run : List Op → S → Option S
  | [], s => some s
  | op :: ops, s => (step op s).bind (run ops)

/-- The start. -/
def init : S := ⟨[], [], []⟩

end Verif.Ref.Intrusive
