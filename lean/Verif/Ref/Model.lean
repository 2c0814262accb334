import Verif.Ref.Spec

/-!
# References: model of `hilti/runtime/include/types/reference.h`

The values `T` are natural numbers: values that hold further references (and hence destruction cascades and reference
cycles) are not modelled. Reference counts are modelled: `std::shared_ptr` is a counted pointer whose object is freed
when the count drops to zero; `std::weak_ptr` remembers the object and asks if it is still there. Control blocks that
outlive their object are represented by the object's number, which is never reused. All objects are heap objects
created by `make_shared` (the "reference to non-heap instance" exception of `asSharedPtr`, 156-158, cannot occur), of a
type derived from `Controllable`. `StrongReferenceGeneric` (718-765) is not modelled.
-/

namespace Verif.Ref

/-- `std::variant<std::shared_ptr<T>, T*> _ptr`, reference.h:388. -/
inductive VPtr where
  | shared (p : Option Nat)
  | raw (p : Option Nat)
  deriving DecidableEq, Repr

/-- A live C++ object of one of the three classes: `ValueReference` (reference.h:53-389), `StrongReference`, a
    `std::shared_ptr` (399-540), `WeakReference`, a `std::weak_ptr` (552-711). -/
inductive Handle where
  | value (p : VPtr)
  | strong (p : Option Nat)
  | weak (p : Option Nat)
  deriving DecidableEq, Repr

/-- A heap object with its control block's use count. -/
structure Cell where
  val : Nat
  count : Nat
  deriving DecidableEq, Repr

/-- The heap (`none`: freed or never allocated) and all live reference objects. -/
structure World where
  cells : Nat → Option Cell := fun _ => none
  next : Nat := 0
  hs : Nat → Option Handle := fun _ => none
  nextH : Nat := 0

def upd {α : Type} (f : Nat → α) (i : Nat) (x : α) : Nat → α := fun j => if j = i then x else f j

/-- Copying a `shared_ptr` to object `o`: its count is incremented. The object must be there. -/
def retain (o : Nat) (w : World) : Res World :=
  match w.cells o with
  | none => .ub
  | some c => .ok { w with cells := upd w.cells o (some { c with count := c.count + 1 }) }

/-- Destroying a `shared_ptr` to object `o`: the last one frees it. -/
def release (o : Nat) (w : World) : Res World :=
  match w.cells o with
  | none => .ub
  | some c => .ok { w with cells := upd w.cells o (if c.count ≤ 1 then none else some { c with count := c.count - 1 }) }

def retain? (p : Option Nat) (w : World) : Res World :=
  match p with | none => .ok w | some o => retain o w
def release? (p : Option Nat) (w : World) : Res World :=
  match p with | none => .ok w | some o => release o w

/-- `std::make_shared<T>(v)`: a new object with a count of one. -/
def make (v : Nat) (w : World) : World :=
  { w with cells := upd w.cells w.next (some ⟨v, 1⟩), next := w.next + 1 }

/-- The `shared_ptr` inside a reference object, if any. -/
def Handle.owned : Handle → Option Nat
  | .value (.shared p) => p
  | .value (.raw _) => none
  | .strong p => p
  | .weak _ => none

/-- Overwriting a reference object's pointer with `x`, whose ownership is passed in: what was there is released
    afterwards. -/
def replace (h : Nat) (x : Handle) (w : World) : Res World :=
  match w.hs h with
  | none => .ub
  | some old => release? old.owned { w with hs := upd w.hs h (some x) }

/-- A new reference object; ownership is passed in. -/
def create (x : Handle) (w : World) : World :=
  { w with hs := upd w.hs w.nextH (some x), nextH := w.nextH + 1 }

/-- `ValueReference::_get`, reference.h:345-359: the raw pointer, without looking at what is there. -/
def VPtr.get : VPtr → Option Nat
  | .shared p => p
  | .raw p => p

/-- Access to the object behind a pointer; undefined if it has been freed. -/
def load (o : Nat) (w : World) : Res Nat :=
  match w.cells o with
  | none => .ub
  | some c => .ok c.val

def store (o v : Nat) (w : World) : Res World :=
  match w.cells o with
  | none => .ub
  | some c => .ok { w with cells := upd w.cells o (some { c with val := v }) }

/-- `ValueReference::_safeGet`, reference.h:361-383. -/
def VPtr.safeGet : VPtr → Res Nat
  | .raw (some o) => .ok o
  | .shared (some o) => .ok o
  | _ => .throw .nullReference

/-- `weak_ptr::lock().get()`: the object if it is still there. -/
def lockGet (p : Option Nat) (w : World) : Option Nat :=
  match p with
  | none => none
  | some o => match w.cells o with
    | none => none
    | some _ => some o

/-- `WeakReference::isExpired`, reference.h:595-598: expired and not the default-constructed one. -/
def weakExpired (p : Option Nat) (w : World) : Bool :=
  match p with
  | none => false
  | some o => (w.cells o).isNone

/-- `WeakReference::isNull`, reference.h:589. -/
def weakNull (p : Option Nat) (w : World) : Bool := (lockGet p w).isNone

/-- The pointer behind `operator*` / `operator->`: `ValueReference` (reference.h:172-200), `StrongReference` with
    `_check` (455-488, 536-539), `WeakReference` with `_check` (621-656, 704-710). -/
def derefPtr (x : Handle) (w : World) : Res Nat :=
  match x with
  | .value p => p.safeGet
  | .strong (some o) => .ok o
  | .strong none => .throw .nullReference
  | .weak p =>
    if weakExpired p w then .throw .expiredReference
    else match lockGet p w with
      | none => .throw .nullReference
      | some o => .ok o

/-- `ValueReference::asSharedPtr`, reference.h:141-160, for the pointer `p`: a `shared_ptr` of its own, so the count
    goes up. `shared_from_this` reads the object. -/
def asShared (p : VPtr) (w : World) : Res (Option Nat × World) :=
  match p with
  | .shared p => (retain? p w).bind fun w => .ok (p, w)
  | .raw (some o) => (retain o w).bind fun w => .ok (some o, w)
  | .raw none => .throw .illegalReference

/-- `weak_ptr::lock()`: a `shared_ptr` of its own if the object is still there. -/
def lock (p : Option Nat) (w : World) : Res (Option Nat × World) :=
  match lockGet p w with
  | none => .ok (none, w)
  | some o => (retain o w).bind fun w => .ok (some o, w)

/-- `ValueReference::operator=(T)`, reference.h:238-245. -/
def assignValue (d : Nat) (p : VPtr) (v : Nat) (w : World) : Res World :=
  match p.get with
  | some o => store o v w
  | none => replace d (.value (.shared (some w.next))) (make v w)

/-- `ValueReference::operator=(const ValueReference&)` (251-272) and `operator=(ValueReference&&)` (278-303). -/
def assignVV (mv : Bool) (d c : Nat) (pd pc : VPtr) (w : World) : Res World :=
  if d = c then .ok w
  else match pc.get with
    | none => replace d (.value (.raw none)) w
    | some oc =>
      (load oc w).bind fun v =>
        match pd.get with
        | some od => (store od v w).bind fun w =>
            if mv then replace c (.value (.raw none)) w else .ok w
        | none => replace d (.value (.shared (some w.next))) (make v w)

/-- `ValueReference::operator=(std::shared_ptr<T>)`, reference.h:310-315. The argument is passed by value: copied from
    the strong reference, or moved out of it; what is left of it is released at the end. -/
def assignVS (mv : Bool) (d c : Nat) (pd : VPtr) (pc : Option Nat) (w : World) : Res World :=
  let arg := if mv then .ok { w with hs := upd w.hs c (some (.strong none)) } else retain? pc w
  arg.bind fun w =>
    if pd.get = pc then release? pc w
    else replace d (.value (.shared pc)) w

/-- Assignment by the kinds of the two references. `StrongReference` from a value reference (509-512) and a strong one
    (515-527), `WeakReference` from a value reference (667-670), a strong one (677-680) and a weak one (689-701).
    Moving a smart pointer onto itself leaves it unchanged. -/
def assign (mv : Bool) (d c : Nat) (xd xc : Handle) (w : World) : Res (World × Out) :=
  match xd, xc with
  | .value pd, .value pc => (assignVV mv d c pd pc w).bind fun w => .ok (w, .unit)
  | .value pd, .strong pc => (assignVS mv d c pd pc w).bind fun w => .ok (w, .unit)
  | .strong _, .value pc => (asShared pc w).bind fun (p, w) => (replace d (.strong p) w).bind fun w => .ok (w, .unit)
  | .weak _, .value pc =>
    (asShared pc w).bind fun (p, w) => (replace d (.weak p) w).bind fun w => (release? p w).bind fun w => .ok (w, .unit)
  | .weak _, .strong p => (replace d (.weak p) w).bind fun w => .ok (w, .unit)
  | .strong _, .strong p =>
    if d = c then .ok (w, .unit)
    else if mv then
      (replace d (.strong p) { w with hs := upd w.hs c (some (.strong none)) }).bind fun w => .ok (w, .unit)
    else (retain? p w).bind fun w => (replace d (.strong p) w).bind fun w => .ok (w, .unit)
  | .weak _, .weak p =>
    if d = c then .ok (w, .unit)
    else (replace d (.weak p) w).bind fun w =>
      if mv then (replace c (.weak none) w).bind fun w => .ok (w, .unit) else .ok (w, .unit)
  | .value _, .weak _ => .ok (w, .illTyped)
  | .strong _, .weak _ => .ok (w, .illTyped)

/-- A new reference object as an operation's result. -/
def give (x : Handle) (w : World) : Res (World × Out) := .ok (create x w, .handle w.nextH)

/-- One operation. Whatever throws does so before changing anything. -/
def step (w : World) (op : Op) : Res (World × Out) :=
  match op with
  | .newValue v => give (.value (.shared (some w.next))) (make v w)                     -- 67
  | .newStrong v => give (.strong (some w.next)) (make v w)                             -- 419
  | .nullStrong => give (.strong none) w                                               -- 404
  | .nullWeak => give (.weak none) w                                                   -- 557
  | .selfOf h =>                                                                       -- 324-328
    match w.hs h with
    | some x => (derefPtr x w).bind fun o => (load o w).bind fun _ => give (.value (.raw (some o))) w
    | none => .ok (w, .illTyped)
  | .copyValue h =>                                                                    -- 85-90
    match w.hs h with
    | some (.value p) =>
      match p.get with
      | some o => (load o w).bind fun v => give (.value (.shared (some w.next))) (make v w)
      | none => give (.value (.shared none)) w
    | _ => .ok (w, .illTyped)
  | .move h =>                                                                         -- 93, 431, 583
    match w.hs h with
    | some (.value (.raw p)) => give (.value (.raw p)) w
    | some (.value (.shared p)) => give (.value (.shared p)) { w with hs := upd w.hs h (some (.value (.shared none))) }
    | some (.strong p) => give (.strong p) { w with hs := upd w.hs h (some (.strong none)) }
    | some (.weak p) => give (.weak p) { w with hs := upd w.hs h (some (.weak none)) }
    | none => .ok (w, .illTyped)
  | .strongOf h =>                                                                     -- 411, 428
    match w.hs h with
    | some (.value p) => (asShared p w).bind fun (p, w) => give (.strong p) w
    | some (.strong p) => (retain? p w).bind fun w => give (.strong p) w
    | _ => .ok (w, .illTyped)
  | .weakOf h =>                                                                       -- 564, 571, 580
    match w.hs h with
    | some (.value p) =>
      (asShared p w).bind fun (p, w) => (release? p w).bind fun w => give (.weak p) w
    | some (.strong p) => give (.weak p) w
    | some (.weak p) => give (.weak p) w
    | none => .ok (w, .illTyped)
  | .valueOf h =>                                                                      -- 442, 610
    match w.hs h with
    | some (.strong p) => (retain? p w).bind fun w => give (.value (.shared p)) w
    | some (.weak p) => (lock p w).bind fun (p, w) => give (.value (.shared p)) w
    | _ => .ok (w, .illTyped)
  | .assignT h v =>                                                                    -- 238-245, 499-502
    match w.hs h with
    | some (.value p) => (assignValue h p v w).bind fun w => .ok (w, .unit)
    | some (.strong _) => (replace h (.strong (some w.next)) (make v w)).bind fun w => .ok (w, .unit)
    | _ => .ok (w, .illTyped)
  | .assign d c =>
    match w.hs d, w.hs c with
    | some xd, some xc => assign false d c xd xc w
    | _, _ => .ok (w, .illTyped)
  | .assignMove d c =>
    match w.hs d, w.hs c with
    | some xd, some xc => assign true d c xd xc w
    | _, _ => .ok (w, .illTyped)
  | .reset h =>                                                                        -- 165, 448, 613
    match w.hs h with
    | some (.value _) => (replace h (.value (.shared none)) w).bind fun w => .ok (w, .unit)
    | some (.strong _) => (replace h (.strong none) w).bind fun w => .ok (w, .unit)
    | some (.weak _) => (replace h (.weak none) w).bind fun w => .ok (w, .unit)
    | none => .ok (w, .illTyped)
  | .read h =>
    match w.hs h with
    | some x => (derefPtr x w).bind fun o => (load o w).bind fun v => .ok (w, .val v)
    | none => .ok (w, .illTyped)
  | .write h v =>
    match w.hs h with
    | some x => (derefPtr x w).bind fun o => (store o v w).bind fun w => .ok (w, .unit)
    | none => .ok (w, .illTyped)
  | .isNull h =>                                                                       -- 103-106, 436, 589
    match w.hs h with
    | some (.value p) => .ok (w, .bool p.get.isNone)
    | some (.strong p) => .ok (w, .bool p.isNone)
    | some (.weak p) => .ok (w, .bool (weakNull p w))
    | none => .ok (w, .illTyped)
  | .isExpired h =>
    match w.hs h with
    | some (.weak p) => .ok (w, .bool (weakExpired p w))
    | _ => .ok (w, .illTyped)
  | .equal h h' =>                                                                     -- 208
    match w.hs h, w.hs h' with
    | some (.value p), some (.value p') =>
      p.safeGet.bind fun o => p'.safeGet.bind fun o' =>
        (load o w).bind fun v => (load o' w).bind fun v' => .ok (w, .bool (v == v'))
    | _, _ => .ok (w, .illTyped)
  | .drop h =>                                                                         -- destructors
    match w.hs h with
    | some x => (release? x.owned { w with hs := upd w.hs h none }).bind fun w => .ok (w, .unit)
    | none => .ok (w, .illTyped)

/-- A history. -/
def run (w : World) : List Op → Res (World × List Out)
  | [] => .ok (w, [])
  | op :: ops =>
    match step w op with
    | .ok (w', o) => (run w' ops).bind fun (w'', os) => .ok (w'', o :: os)
    | .throw e => (run w ops).bind fun (w'', os) => .ok (w'', .exn e :: os)
    | .ub => .ub

end Verif.Ref
