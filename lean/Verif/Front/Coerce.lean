import Verif.Base
/-!
# Model of implicit conversions

Source: `hilti/toolchain/src/compiler/coercer.cc` (`coercer.cc`), `hilti/toolchain/src/compiler/codegen/coercions.cc` (`coercions.cc`),
`hilti/runtime/include/types/optional.h`, `hilti/runtime/include/result.h`, `hilti/runtime/include/types/enum.h`.

The conversion of an expression to a type, in the contexts of assignments, function calls, operators and conditions. Modelled are
booleans, integers, reals, strings, errors, enums, time and interval, `Null`, optionals, results, tuples, lists, vectors, sets and maps.
Left out: structs, units, bitfields, bytes, streams, references, unions, functions, wildcard types. Constness is left out: types that
differ only in it count as the same.
-/

namespace Verif.Front.Coerce

/-- Types. The elements of a tuple are a chain of `tcons`, ended by `tnil`. -/
inductive Ty where
  | bool | real | string | error | null | interval | time
  | int (signed : Bool) (w : Nat)
  /-- an enum, and the values of its labels -/
  | enum (id : Nat) (labels : List Int)
  | optional (t : Ty) | result (t : Ty) | list (t : Ty) | vector (t : Ty) | set (t : Ty)
  | map (k v : Ty)
  | tnil | tcons (t ts : Ty)
  deriving DecidableEq

/-- A `double`: `m / 2^e`, infinite, or not a number. -/
inductive Dbl where
  | fin (m : Int) (e : Nat)
  | inf (neg : Bool)
  | nan
  deriving DecidableEq

/-- Values. Integers of all types are numbers; their type is that of the expression. -/
inductive V where
  | bool (b : Bool) | real (d : Dbl) | str (s : List Char) | err (s : List Char) | null
  | interval (n : Int) | time (n : Int) | num (i : Int) | enum (n : Int)
  | unset | opt (v : V)
  | ok (v : V) | failed (s : List Char)
  | tnil | tcons (v vs : V)
  | seq (vs : List V) | set (vs : List V) | map (kvs : List (V × V))

mutual
/-- Expressions. -/
inductive E where
  /-- any expression that is none of the others: its type, and the value it has -/
  | dyn (t : Ty) (v : V)
  /-- `expression::Ctor` -/
  | ctor (c : C)
  /-- `expression::Name` of a constant whose value is a constructor -/
  | name (c : C)
  /-- `expression::Coerced` -/
  | coerced (e : E) (t : Ty)
/-- Constructors, that is constants. -/
inductive C where
  | bool (b : Bool) | real (d : Dbl) | str (s : List Char) | err (s : List Char) | null
  | int (signed : Bool) (w : Nat) (i : Int)
  /-- a label of an enum, and whether it is `Undef` -/
  | enum (id : Nat) (labels : List Int) (n : Int) (undef : Bool)
  /-- `ctor::Optional` without a value -/
  | unset (t : Ty)
  | tnil | tcons (e : E) (c : C)
  | list (t : Ty) (es : List E) | vector (t : Ty) (es : List E) | set (t : Ty) (es : List E)
  | map (k v : Ty) (es : List (E × E))
  /-- `ctor::Coerced` -/
  | coerced (orig new : C)
end

mutual
/-- `Expression::type` -/
def E.ty : E → Ty
  | .dyn t _ => t
  | .ctor c => c.ty
  | .name c => c.ty
  | .coerced _ t => t
/-- `Ctor::type` -/
def C.ty : C → Ty
  | .bool _ => .bool
  | .real _ => .real
  | .str _ => .string
  | .err _ => .error
  | .null => .null
  | .int s w _ => .int s w
  | .enum id ls _ _ => .enum id ls
  | .unset t => .optional t
  | .tnil => .tnil
  | .tcons e c => .tcons e.ty c.ty
  | .list t _ => .list t
  | .vector t _ => .vector t
  | .set t _ => .set t
  | .map k v _ => .map k v
  | .coerced _ new => new.ty
end

/-- `coercer.h` 19-105 `CoercionStyle`, as far as it matters here; `exact` is one of `TryExactMatch` and `TryConstPromotion`. -/
structure Style where
  assign : Bool
  call : Bool
  exact : Bool
  coerce : Bool
  contextual : Bool

/-- `TryAllForAssignment` -/
def forAssignment : Style := ⟨true, false, true, true, false⟩

/-- The range of an integer type (`util.h` 209-231, `std::numeric_limits`). -/
def fits (signed : Bool) (w : Nat) (i : Int) : Bool :=
  if signed then decide (-(2 : Int) ^ (w - 1) ≤ i) && decide (i < (2 : Int) ^ (w - 1))
  else decide (0 ≤ i) && decide (i < (2 : Int) ^ w)

/-- `coercer.cc` 40-61 `isRepresentable` -/
def isRepresentable (signed : Bool) (w : Nat) : Dbl → Bool
  | .fin m e => decide (m % 2 ^ e = 0) && fits signed w (m / 2 ^ e)
  | _ => false

/-- `static_cast<double>` of an integer: rounded to 53 significant bits, to the nearest, ties to even. -/
def toDouble (i : Int) : Int :=
  let n := i.natAbs
  if n < 2 ^ 53 then i
  else
    let s := Nat.log2 n - 52
    let q := n / 2 ^ s
    let r := n % 2 ^ s
    let q' := if 2 * r > 2 ^ s ∨ (2 * r = 2 ^ s ∧ q % 2 = 1) then q + 1 else q
    if i < 0 then -((q' * 2 ^ s : Nat) : Int) else ((q' * 2 ^ s : Nat) : Int)

section
-- What `static_cast<int64_t>` makes of a `double` of 2^63, which is undefined behaviour: anything.
variable (wild : Int)

/-- `static_cast<int64_t>` of a `double` that is an integer below 2^64 and above -2^63. -/
def castSigned (d : Int) : Int := if d < 2 ^ 63 then d else wild

/-- `coercer.cc` 274-284: a signed integer as a real. -/
def signedAsReal (i : Int) : Option Dbl :=
  let d := toDouble i
  if -(2 ^ 63) < d ∧ d < 2 ^ 64 ∧ castSigned wild d = i then some (.fin d 0) else none

/-- `coercer.cc` 366-375: an unsigned integer as a real. -/
def unsignedAsReal (i : Int) : Option Dbl :=
  let d := toDouble i
  if d < 2 ^ 64 ∧ d = i then some (.fin d 0) else none

mutual
/-- `coercer.cc` 518-752 `VisitorType` and 776-839 `coerceTypeBackend`: can one type be converted to the other? The new type is the
second one then. -/
def typeOk (st : Style) (src dst : Ty) : Bool :=
  if src = dst then true
  else
    match dst with
    | .optional d =>
      (if st.assign || st.call then typeOk { st with assign := true } src d else false) ||
      (match src with
        | .null => true
        | .result s => s = d
        | _ => false)
    | .result d =>
      (if st.assign || st.call then typeOk st src d else false) ||
      (match src with
        | .error => true
        | _ => false)
    | .bool => st.contextual &&
      (match src with
        | .enum _ _ | .interval | .time | .optional _ | .result _ | .int _ _ => true
        | _ => false)
    | .int sg w =>
      (match src with
        | .int s w' => if s then sg && w' ≤ w else if sg then w' < w else w' ≤ w
        | _ => false)
    | .error => st.contextual && (match src with | .string => true | _ => false)
    | .set d => (match src with | .list s => s = d | _ => false)
    | .vector d => (match src with | .list s => s = d | _ => false)
    | .tnil => (match src with | .tnil => true | _ => false)
    | .tcons d ds => (match src with
      | .tcons s ss => typeOk forAssignment s d && typesOk ss ds
      | _ => false)
    | _ => false
/-- `coercer.cc` 681-697: the elements of tuples. -/
def typesOk (src dst : Ty) : Bool :=
  match dst with
  | .tcons d ds => (match src with
    | .tcons s ss => typeOk forAssignment s d && typesOk ss ds
    | _ => false)
  | .tnil => (match src with | .tnil => true | _ => false)
  | _ => false
end

/-- The constructor an expression stands for (`coercer.cc` 1187-1194). -/
def E.const? : E → Option C
  | .ctor c => some c
  | .name c => some c
  | _ => none

/-- All of the results, if there are all. -/
def allOf {α β : Type} (f : α → Option β) : List α → Option (List β)
  | [] => some []
  | x :: xs => match f x with
    | none => none
    | some y => match allOf f xs with
      | none => none
      | some ys => some (y :: ys)

mutual
/-- `coercer.cc` 1031-1217 `coerceExpressionBackend`. The number bounds the depth of the recursion; with a larger one than
the sizes of the expression and the type nothing changes (`coerce_enough`). -/
def coerceExpr : Nat → Style → E → Ty → Option E
  | 0, _, _, _ => none
  | n + 1, st, e, dst =>
    if st.exact && decide (e.ty = dst) then some e
    else
      match (if st.assign || st.call then
          match dst with
          | .optional d => (coerceExpr n st e d).map fun x => .coerced x dst
          | .result d => (coerceExpr n st e d).map fun x => .coerced x dst
          | _ => none
        else none) with
      | some x => some x
      | none =>
        if st.coerce then
          match (match e.const? with
            | some c => (coerceCtor n st c dst).map fun nc => (.ctor (.coerced c nc) : E)
            | none => none) with
          | some x => some x
          | none => if typeOk st e.ty dst then some (.coerced e dst) else none
        else none
/-- `coercer.cc` 755-768 `coerceCtor` and 63-513 `VisitorCtor`. -/
def coerceCtor : Nat → Style → C → Ty → Option C
  | 0, _, _, _ => none
  | n + 1, st, c, dst =>
    if c.ty = dst then some c
    else
      match c, dst with
      | .enum _ _ _ undef, .bool => if st.contextual then some (.bool (!undef)) else none
      | .map _ _ es, .map k v =>
        (allOf (fun (x : E × E) => match coerceExpr n st x.1 k, coerceExpr n st x.2 v with
          | some a, some b => some (a, b)
          | _, _ => none) es).map fun xs => .map k v xs
      | .null, .optional t => some (.unset t)
      | .null, .bool => if st.contextual then some (.bool false) else none
      | .list _ es, .list t => (allOf (fun e => coerceExpr n forAssignment e t) es).map fun xs => .list t xs
      | .list _ es, .vector t => (allOf (fun e => coerceExpr n forAssignment e t) es).map fun xs => .vector t xs
      | .list _ es, .set t => (allOf (fun e => coerceExpr n forAssignment e t) es).map fun xs => .set t xs
      | .real d, .int sg w =>
        if isRepresentable sg 64 d && isRepresentable sg w d then
          match d with
          | .fin m e => some (.int sg w (m / 2 ^ e))
          | _ => none
        else none
      | .set _ es, .set t => (allOf (fun e => coerceExpr n st e t) es).map fun xs => .set t xs
      | .vector _ es, .vector t => (allOf (fun e => coerceExpr n st e t) es).map fun xs => .vector t xs
      | .int true w i, .int true w' => if w' = 64 then some (.int true w i) else if fits true w' i then some (.int true w' i) else none
      | .int true _ i, .int false w' => if 0 ≤ i ∧ fits false w' i = true then some (.int false w' i) else none
      | .int false w i, .int false w' =>
        if w' = 64 then some (.int false w i) else if fits false w' i then some (.int false w' i) else none
      | .int false _ i, .int true w' => if i < 2 ^ 63 ∧ fits true w' i = true then some (.int true w' i) else none
      | .int true _ i, .real => (signedAsReal wild i).map .real
      | .int false _ i, .real => (unsignedAsReal i).map .real
      | .int _ _ i, .bool => if st.contextual then some (.bool (i != 0)) else none
      | .str s, .error => if st.contextual then some (.err s) else none
      | .tcons e c, .tcons t ts => match coerceExpr n forAssignment e t, coerceTail n c ts with
        | some e', some c' => some (.tcons e' c')
        | _, _ => none
      | _, _ => none
/-- `coercer.cc` 388-411: the elements of a tuple after the first. -/
def coerceTail : Nat → C → Ty → Option C
  | 0, _, _ => none
  | n + 1, c, dst =>
    match c, dst with
    | .tnil, .tnil => some .tnil
    | .tcons e c, .tcons t ts => match coerceExpr n forAssignment e t, coerceTail n c ts with
      | some e', some c' => some (.tcons e' c')
      | _, _ => none
    | _, _ => none
end

end

/-- `enum.h` 23-31 `has_label` -/
def hasLabel (labels : List Int) (n : Int) : Bool := labels.any fun l => l != -1 && n == l

mutual
/-- `coercions.cc` 29-331 `Visitor` and 335-365 `coerce`: the value that the code generated for a conversion gives, nothing if it
throws or if there is no such code. Where the code constructs an optional or a result from a value, C++ converts the value; this is taken
to be the same conversion. -/
def genCode (src dst : Ty) (v : V) : Option V :=
  if src = dst then some v
  else
    match dst with
    | .optional d =>
      (match src with
        | .null => some .unset
        -- `tmp.hasValue() ? optional::make(*tmp) : Null{}`, of the type of the source; C++ makes an optional of that (`optional.h` 44)
        | .optional s => if d = .optional s then some (.opt v) else none
        -- the same code for a result; C++ converts an `Optional<T>` to an `Optional<Result<T>>` (`optional.h` 72-79)
        | .result s =>
          if s = d then (match v with | .ok x => some (.opt x) | .failed _ => some .unset | _ => none)
          else if d = .result s then (match v with | .ok x => some (.opt (.ok x)) | .failed _ => some .unset | _ => none)
          else none
        | s => (genCode s d v).map .opt)
    | .result d =>
      (match src with
        | .error => if d = .error then none else (match v with | .err s => some (.failed s) | _ => none)
        | s => (genCode s d v).map .ok)
    | .bool =>
      (match src, v with
        | .enum _ ls, .enum n => some (.bool (hasLabel ls n))
        | .interval, .interval n => some (.bool (n != 0))
        | .time, .time n => some (.bool (n != 0))
        | .optional _, .unset => some (.bool false)
        | .optional _, .opt _ => some (.bool true)
        | .result _, .ok _ => some (.bool true)
        | .result _, .failed _ => some (.bool false)
        | .int _ _, .num i => some (.bool (i != 0))
        | _, _ => none)
    | .int sg w =>
      (match src, v with
        | .int _ _, .num i => if fits sg w i then some (.num i) else none
        | _, _ => none)
    | .error => (match src, v with | .string, .str s => some (.err s) | _, _ => none)
    | .set _ => (match src, v with | .list _, .seq vs => some (.set vs) | _, _ => none)
    | .vector _ => (match src, v with | .list _, .seq vs => some (.seq vs) | _, _ => none)
    | .tcons d ds => (match src, v with
      | .tcons s ss, .tcons x xs => match genCode s d x, genCodes ss ds xs with
        | some y, some ys => some (.tcons y ys)
        | _, _ => none
      | _, _ => none)
    | _ => none
/-- `coercions.cc` 222-255: the elements of a tuple after the first. -/
def genCodes (src dst : Ty) (v : V) : Option V :=
  match dst with
  | .tnil => (match src, v with | .tnil, .tnil => some .tnil | _, _ => none)
  | .tcons d ds => (match src, v with
    | .tcons s ss, .tcons x xs => match genCode s d x, genCodes ss ds xs with
      | some y, some ys => some (.tcons y ys)
      | _, _ => none
    | _, _ => none)
  | _ => none
end

mutual
/-- The value of an expression. -/
inductive Ev : E → V → Prop where
  | dyn {t v} : Ev (.dyn t v) v
  | ctor {c v} : EvC c v → Ev (.ctor c) v
  | name {c v} : EvC c v → Ev (.name c) v
  | coerced {e t v v'} : Ev e v → genCode e.ty t v = some v' → Ev (.coerced e t) v'
/-- The value of a constructor. -/
inductive EvC : C → V → Prop where
  | bool {b} : EvC (.bool b) (.bool b)
  | real {d} : EvC (.real d) (.real d)
  | str {s} : EvC (.str s) (.str s)
  | err {s} : EvC (.err s) (.err s)
  | null : EvC .null .null
  | int {s w i} : EvC (.int s w i) (.num i)
  | enum {id ls n u} : EvC (.enum id ls n u) (.enum n)
  | unset {t} : EvC (.unset t) .unset
  | tnil : EvC .tnil .tnil
  | tcons {e c v vs} : Ev e v → EvC c vs → EvC (.tcons e c) (.tcons v vs)
  | list {t es vs} : EvL es vs → EvC (.list t es) (.seq vs)
  | vector {t es vs} : EvL es vs → EvC (.vector t es) (.seq vs)
  | set {t es vs} : EvL es vs → EvC (.set t es) (.set vs)
  | map {k v es kvs} : EvM es kvs → EvC (.map k v es) (.map kvs)
  | coerced {o c v} : EvC c v → EvC (.coerced o c) v
/-- The values of expressions. -/
inductive EvL : List E → List V → Prop where
  | nil : EvL [] []
  | cons {e es v vs} : Ev e v → EvL es vs → EvL (e :: es) (v :: vs)
/-- The values of pairs of expressions. -/
inductive EvM : List (E × E) → List (V × V) → Prop where
  | nil : EvM [] []
  | cons {a b es x y vs} : Ev a x → Ev b y → EvM es vs → EvM ((a, b) :: es) ((x, y) :: vs)
end

end Verif.Front.Coerce
