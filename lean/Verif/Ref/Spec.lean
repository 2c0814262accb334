import Verif.Base

/-!
# What references are: specification

Independent of reference counts, freeing and the pointer variant of the implementation. Every handle has a kind and
possibly a target object; objects are never destroyed here, each just has a value. Whether an object is still
*alive* is decided by asking if some handle owns it: value and strong references own their target, `self` and weak
references do not.
-/

namespace Verif.Ref

/-- The four kinds of references: `value_ref<T>`, the wrapper around `self` inside a method, `strong_ref<T>`,
    `weak_ref<T>`. A value reference set to null by assignment behaves like a null `self` wrapper. -/
inductive Kind where
  | value | self | strong | weak
  deriving DecidableEq, Repr

/-- Value and strong references keep their target alive. -/
def Kind.owning : Kind → Bool
  | .value => true | .strong => true | _ => false

/-- Both flavours of value references. -/
def Kind.isValue : Kind → Bool
  | .value => true | .self => true | _ => false

/-- A handle: what kind it is and what it refers to. -/
structure Bound where
  kind : Kind
  target : Option Nat
  deriving DecidableEq, Repr

/-- The operations of the three reference classes; `h`, `d`, `s` name handles. Operations creating a handle give it
    the next number. -/
inductive Op where
  | newValue (v : Nat)          -- `ValueReference(v)`
  | newStrong (v : Nat)         -- `StrongReference(v)`
  | nullStrong | nullWeak       -- default-constructed
  | selfOf (h : Nat)            -- `ValueReference::self(&*h)`
  | copyValue (h : Nat)         -- copy constructor of a value reference
  | move (h : Nat)              -- move constructor, all kinds
  | strongOf (h : Nat)          -- `StrongReference(h)`, `h` a value or strong reference
  | weakOf (h : Nat)            -- `WeakReference(h)`
  | valueOf (h : Nat)           -- `h.derefAsValue()` of a strong or weak reference
  | assignT (h v : Nat)         -- `h = v`
  | assign (d s : Nat)          -- `d = s`
  | assignMove (d s : Nat)      -- `d = std::move(s)`
  | reset (h : Nat)             -- `h.reset()`
  | read (h : Nat)              -- `*h`
  | write (h v : Nat)           -- `*h = v` through the reference to the value
  | isNull (h : Nat)
  | isExpired (h : Nat)
  | equal (h h' : Nat)          -- `h == h'` of value references
  | drop (h : Nat)              -- the handle goes out of scope
  deriving DecidableEq, Repr

/-- What an operation reports. `illTyped` marks operations C++ would not compile (or handles that do not exist). -/
inductive Out where
  | unit | handle (h : Nat) | val (v : Nat) | bool (b : Bool) | exn (e : Exn) | illTyped
  deriving DecidableEq, Repr

/-- Objects with their values, handles with their targets. -/
structure Ideal where
  hs : Nat → Option Bound := fun _ => none
  nextH : Nat := 0
  val : Nat → Nat := fun _ => 0
  next : Nat := 0

namespace Ideal

/-- Does handle `h` own object `o`? -/
def owns (s : Ideal) (h o : Nat) : Bool :=
  match s.hs h with
  | some b => b.kind.owning && b.target == some o
  | none => false

/-- An object is alive as long as some handle owns it. -/
def alive (s : Ideal) (o : Nat) : Bool := (List.range s.nextH).any fun h => s.owns h o

def set (s : Ideal) (h : Nat) (b : Option Bound) : Ideal := { s with hs := fun i => if i = h then b else s.hs i }
def push (s : Ideal) (b : Bound) : Ideal := { s.set s.nextH (some b) with nextH := s.nextH + 1 }
def put (s : Ideal) (o v : Nat) : Ideal := { s with val := fun i => if i = o then v else s.val i }
/-- A new object with value `v`; it is number `s.next`. -/
def fresh (s : Ideal) (v : Nat) : Ideal := { s.put s.next v with next := s.next + 1 }

/-- A new handle. -/
def give (s : Ideal) (b : Bound) : Res (Ideal × Out) := .ok (s.push b, .handle s.nextH)

/-- The object an access through a handle reaches. Null and expired references are reported; using a `self` wrapper
    that outlived its object is undefined. -/
def deref (s : Ideal) (b : Bound) : Res Nat :=
  match b.target with
  | none => .throw .nullReference
  | some o =>
    match b.kind with
    | .value | .strong => .ok o
    | .self => if s.alive o then .ok o else .ub
    | .weak => if s.alive o then .ok o else .throw .expiredReference

/-- What a strong or weak reference made from the reference `b` refers to. -/
def shared (s : Ideal) (b : Bound) : Res (Option Nat) :=
  match b.kind, b.target with
  | .self, none => .throw .illegalReference
  | .self, some o => if s.alive o then .ok (some o) else .ub
  | .weak, t => .ok (t.filter s.alive)
  | _, t => .ok t

/-- Reading what a value reference refers to when it may be null. -/
def peek (s : Ideal) (b : Bound) : Res (Option Nat) :=
  match b.target with
  | none => .ok none
  | some o => (s.deref ⟨b.kind, some o⟩).bind fun o => .ok (some (s.val o))

/-- `d = v` for a value reference: overwrite the object referred to, or get a new one. -/
def assignValue (s : Ideal) (d : Nat) (b : Bound) (v : Nat) : Res Ideal :=
  match b.target with
  | none => .ok ((s.fresh v).set d (some ⟨.value, some s.next⟩))
  | some o => (s.deref ⟨b.kind, some o⟩).bind fun o => .ok (s.put o v)

/-- `d = s` (or moving): by the kinds of the two handles. -/
def assign (s : Ideal) (mv : Bool) (d c : Nat) (bd bc : Bound) : Res (Ideal × Out) :=
  if bd.kind.isValue && bc.kind.isValue then
    if d = c then .ok (s, .unit)
    else if bc.target = none then .ok (s.set d (some ⟨.self, none⟩), .unit)
    else (s.peek bc).bind fun v =>
      (s.assignValue d bd (v.getD 0)).bind fun s' =>
        .ok (if mv && bd.target != none then s'.set c (some ⟨.self, none⟩) else s', .unit)
  else if bd.kind.isValue && bc.kind == .strong then
    let s' := if bd.target = bc.target then s else s.set d (some ⟨.value, bc.target⟩)
    .ok (if mv then s'.set c (some ⟨.strong, none⟩) else s', .unit)
  else if bd.kind == .strong && bc.kind.isValue || bd.kind == .weak && bc.kind.isValue then
    (s.shared bc).bind fun t => .ok (s.set d (some ⟨bd.kind, t⟩), .unit)
  else if bd.kind == .weak && bc.kind == .strong then .ok (s.set d (some ⟨.weak, bc.target⟩), .unit)
  else if bd.kind == bc.kind then
    if d = c then .ok (s, .unit)
    else
      let s' := s.set d (some bc)
      .ok (if mv then s'.set c (some ⟨bc.kind, none⟩) else s', .unit)
  else .ok (s, .illTyped)

/-- One operation. -/
def step (s : Ideal) (op : Op) : Res (Ideal × Out) :=
  match op with
  | .newValue v => (s.fresh v).give ⟨.value, some s.next⟩
  | .newStrong v => (s.fresh v).give ⟨.strong, some s.next⟩
  | .nullStrong => s.give ⟨.strong, none⟩
  | .nullWeak => s.give ⟨.weak, none⟩
  | .selfOf h =>
    match s.hs h with
    | some b => (s.deref b).bind fun o => s.give ⟨.self, some o⟩
    | none => .ok (s, .illTyped)
  | .copyValue h =>
    match s.hs h with
    | some b =>
      if b.kind.isValue then
        (s.peek b).bind fun
          | some v => (s.fresh v).give ⟨.value, some s.next⟩
          | none => s.give ⟨.value, none⟩
      else .ok (s, .illTyped)
    | none => .ok (s, .illTyped)
  | .move h =>
    match s.hs h with
    | some b =>
      if b.kind = .self then s.give b
      else (s.set h (some ⟨b.kind, none⟩)).give b
    | none => .ok (s, .illTyped)
  | .strongOf h =>
    match s.hs h with
    | some b =>
      if b.kind = .weak then .ok (s, .illTyped)
      else (s.shared b).bind fun t => s.give ⟨.strong, t⟩
    | none => .ok (s, .illTyped)
  | .weakOf h =>
    match s.hs h with
    | some b =>
      if b.kind = .weak then s.give b
      else (s.shared b).bind fun t => s.give ⟨.weak, t⟩
    | none => .ok (s, .illTyped)
  | .valueOf h =>
    match s.hs h with
    | some b =>
      if b.kind.isValue then .ok (s, .illTyped)
      else (s.shared b).bind fun t => s.give ⟨.value, t⟩
    | none => .ok (s, .illTyped)
  | .assignT h v =>
    match s.hs h with
    | some b =>
      if b.kind.isValue then (s.assignValue h b v).bind fun s' => .ok (s', .unit)
      else if b.kind = .strong then .ok ((s.fresh v).set h (some ⟨.strong, some s.next⟩), .unit)
      else .ok (s, .illTyped)
    | none => .ok (s, .illTyped)
  | .assign d c =>
    match s.hs d, s.hs c with
    | some bd, some bc => s.assign false d c bd bc
    | _, _ => .ok (s, .illTyped)
  | .assignMove d c =>
    match s.hs d, s.hs c with
    | some bd, some bc => s.assign true d c bd bc
    | _, _ => .ok (s, .illTyped)
  | .reset h =>
    match s.hs h with
    | some b => .ok (s.set h (some ⟨if b.kind = .self then .value else b.kind, none⟩), .unit)
    | none => .ok (s, .illTyped)
  | .read h =>
    match s.hs h with
    | some b => (s.deref b).bind fun o => .ok (s, .val (s.val o))
    | none => .ok (s, .illTyped)
  | .write h v =>
    match s.hs h with
    | some b => (s.deref b).bind fun o => .ok (s.put o v, .unit)
    | none => .ok (s, .illTyped)
  | .isNull h =>
    match s.hs h with
    | some b =>
      .ok (s, .bool (match b.target with
        | none => true
        | some o => b.kind == .weak && !s.alive o))
    | none => .ok (s, .illTyped)
  | .isExpired h =>
    match s.hs h with
    | some b =>
      if b.kind = .weak then
        .ok (s, .bool (match b.target with
          | none => false
          | some o => !s.alive o))
      else .ok (s, .illTyped)
    | none => .ok (s, .illTyped)
  | .equal h h' =>
    match s.hs h, s.hs h' with
    | some b, some b' =>
      if b.kind.isValue && b'.kind.isValue then
        if b.target = none ∨ b'.target = none then .throw .nullReference
        else (s.deref b).bind fun o => (s.deref b').bind fun o' => .ok (s, .bool (s.val o == s.val o'))
      else .ok (s, .illTyped)
    | _, _ => .ok (s, .illTyped)
  | .drop h =>
    match s.hs h with
    | some _ => .ok (s.set h none, .unit)
    | none => .ok (s, .illTyped)

/-- A history. An exception leaves everything as it was; nothing is said about what follows undefined behaviour. -/
def run (s : Ideal) : List Op → Res (Ideal × List Out)
  | [] => .ok (s, [])
  | op :: ops =>
    match s.step op with
    | .ok (s', o) => (s'.run ops).bind fun (s'', os) => .ok (s'', o :: os)
    | .throw e => (s.run ops).bind fun (s'', os) => .ok (s'', .exn e :: os)
    | .ub => .ub

end Ideal
end Verif.Ref
