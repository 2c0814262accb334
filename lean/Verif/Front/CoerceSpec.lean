import Verif.Front.Coerce
/-!
# What it means for a conversion to keep a value
-/

namespace Verif.Front.Coerce

/-- A type without the widths of its integers. -/
def Ty.kind : Ty → Ty
  | .int _ _ => .int true 0
  | .optional t => .optional t.kind
  | .result t => .result t.kind
  | .list t => .list t.kind
  | .vector t => .vector t.kind
  | .set t => .set t.kind
  | .map k v => .map k.kind v.kind
  | .tcons t ts => .tcons t.kind ts.kind
  | .bool => .bool
  | .real => .real
  | .string => .string
  | .error => .error
  | .null => .null
  | .interval => .interval
  | .time => .time
  | .enum id ls => .enum id ls
  | .tnil => .tnil

/-- The values of a type: integers are within its range. -/
def HasType : Ty → V → Prop
  | .bool, v => ∃ b, v = .bool b
  | .real, v => ∃ d, v = .real d
  | .string, v => ∃ s, v = .str s
  | .error, v => ∃ s, v = .err s
  | .null, v => v = .null
  | .interval, v => ∃ n, v = .interval n
  | .time, v => ∃ n, v = .time n
  | .int s w, v => ∃ i, v = .num i ∧ fits s w i = true
  | .enum _ _, v => ∃ n, v = .enum n
  | .optional t, v => v = .unset ∨ ∃ x, v = .opt x ∧ HasType t x
  | .result t, v => (∃ s, v = .failed s) ∨ ∃ x, v = .ok x ∧ HasType t x
  | .list t, v => ∃ vs, v = .seq vs ∧ ∀ x ∈ vs, HasType t x
  | .vector t, v => ∃ vs, v = .seq vs ∧ ∀ x ∈ vs, HasType t x
  | .set t, v => ∃ vs, v = .set vs ∧ ∀ x ∈ vs, HasType t x
  | .map k u, v => ∃ kvs, v = .map kvs ∧ ∀ x ∈ kvs, HasType k x.1 ∧ HasType u x.2
  | .tnil, v => v = .tnil
  | .tcons t ts, v => ∃ x xs, v = .tcons x xs ∧ HasType t x ∧ HasType ts xs

/-- One by one. -/
def Each {α β : Type} (R : α → β → Prop) : List α → List β → Prop
  | [], [] => True
  | x :: xs, y :: ys => R x y ∧ Each R xs ys
  | _, _ => False

/-- The truth of a value, in a condition: numbers other than zero, what is set, results without errors, labels other than `Undef`. -/
def Truth : Ty → V → Bool → Prop
  | .null, _, b => b = false
  | .int _ _, v, b => ∃ i, v = .num i ∧ (b = true ↔ i ≠ 0)
  | .interval, v, b => ∃ n, v = .interval n ∧ (b = true ↔ n ≠ 0)
  | .time, v, b => ∃ n, v = .time n ∧ (b = true ↔ n ≠ 0)
  | .enum _ ls, v, b => ∃ n, v = .enum n ∧ (b = true ↔ n ∈ ls ∧ n ≠ -1)
  | .optional _, v, b => b = true ↔ v ≠ .unset
  | .result _, v, b => b = true ↔ ∃ x, v = .ok x
  | _, _, _ => False

/-- A value of the second type that stands for the given value of the first type: the same value; the same number; `Null` for what is
not set; a value for an optional or result that has it; an error for a result that has it; a result for an optional that has the same value, or
none in case of an error; the elements of lists and tuples one by one. In conditions also its truth, and a message for the error with
that message. -/
def Agree (contextual : Bool) : (src dst : Ty) → V → V → Prop
  | src, .int s w, v, v' =>
    (src.kind = (Ty.int s w).kind ∧ v = v') ∨
    (src = .real ∧ ∃ i m e, v = .real (.fin m e) ∧ v' = .num i ∧ m = i * 2 ^ e)
  | src, .real, v, v' =>
    (src = .real ∧ v = v') ∨
    ((∃ s w, src = .int s w) ∧ ∃ i m e, v = .num i ∧ v' = .real (.fin m e) ∧ m = i * 2 ^ e)
  | src, .bool, v, v' => (src = .bool ∧ v = v') ∨ (contextual = true ∧ ∃ b, v' = .bool b ∧ Truth src v b)
  | src, .error, v, v' => (src = .error ∧ v = v') ∨ (contextual = true ∧ ∃ s, src = .string ∧ v = .str s ∧ v' = .err s)
  | src, .optional d, v, v' =>
    (src.kind = (Ty.optional d).kind ∧ v = v') ∨
    (src = .null ∧ v' = .unset) ∨
    (src.kind = (Ty.result d).kind ∧ ((∃ x, v = .ok x ∧ v' = .opt x) ∨ (∃ s, v = .failed s ∧ v' = .unset))) ∨
    (∃ x, v' = .opt x ∧ Agree contextual src d v x)
  | src, .result d, v, v' =>
    (src.kind = (Ty.result d).kind ∧ v = v') ∨
    (src = .error ∧ ∃ s, v = .err s ∧ v' = .failed s) ∨
    (∃ x, v' = .ok x ∧ Agree contextual src d v x)
  | src, .list d, v, v' =>
    (src.kind = (Ty.list d).kind ∧ v = v') ∨
    (∃ s, src = .list s ∧ ∃ vs vs', v = .seq vs ∧ v' = .seq vs' ∧ Each (Agree contextual s d) vs vs')
  | src, .vector d, v, v' =>
    (src.kind = (Ty.vector d).kind ∧ v = v') ∨
    (∃ s, (src = .list s ∨ src = .vector s) ∧ ∃ vs vs', v = .seq vs ∧ v' = .seq vs' ∧ Each (Agree contextual s d) vs vs')
  | src, .set d, v, v' =>
    (src.kind = (Ty.set d).kind ∧ v = v') ∨
    (∃ s, src = .list s ∧ ∃ vs vs', v = .seq vs ∧ v' = .set vs' ∧ Each (Agree contextual s d) vs vs') ∨
    (∃ s, src = .set s ∧ ∃ vs vs', v = .set vs ∧ v' = .set vs' ∧ Each (Agree contextual s d) vs vs')
  | src, .map k u, v, v' =>
    (src.kind = (Ty.map k u).kind ∧ v = v') ∨
    (∃ k' u', src = .map k' u' ∧ ∃ vs vs', v = .map vs ∧ v' = .map vs' ∧
      Each (fun a b => Agree contextual k' k a.1 b.1 ∧ Agree contextual u' u a.2 b.2) vs vs')
  | src, .tcons d ds, v, v' =>
    (∃ s ss, src = .tcons s ss ∧ ∃ x xs x' xs', v = .tcons x xs ∧ v' = .tcons x' xs' ∧ Agree contextual s d x x' ∧ Agree contextual ss ds xs xs')
  | src, dst, v, v' => src = dst ∧ v = v'

/-- Optionals and results do not directly contain optionals, results or `Null`, results not errors. -/
def Plain : Ty → Prop
  | .optional t => Plain t ∧ (∀ u, t ≠ .optional u) ∧ (∀ u, t ≠ .result u) ∧ t ≠ .null
  | .result t => Plain t ∧ (∀ u, t ≠ .optional u) ∧ (∀ u, t ≠ .result u) ∧ t ≠ .null ∧ t ≠ .error
  | .list t => Plain t
  | .vector t => Plain t
  | .set t => Plain t
  | .map k v => Plain k ∧ Plain v
  | .tcons t ts => Plain t ∧ Plain ts
  | _ => True

/-- Conditions are not assignments or calls. -/
def Style.Real (st : Style) : Prop := st.contextual = true → st.assign = false ∧ st.call = false

mutual
/-- Well-typed expressions. -/
inductive Wt : E → Prop where
  | dyn {t v} : HasType t v → Wt (.dyn t v)
  | ctor {c} : WtC c → Wt (.ctor c)
  | name {c} : WtC c → Wt (.name c)
  | coerced {st : Style} {e t} : Wt e → st.Real → Plain t → typeOk st e.ty t = true → Wt (.coerced e t)
/-- Well-typed constructors: integers are within the range of their type (this is what the validator checks), labels of an enum are
numbered from zero on and only `Undef` is -1, the elements of containers are values of the type of the elements. -/
inductive WtC : C → Prop where
  | bool {b} : WtC (.bool b)
  | real {d} : WtC (.real d)
  | str {s} : WtC (.str s)
  | err {s} : WtC (.err s)
  | null : WtC .null
  | int {s w i} : w ≤ 64 → fits s w i = true → WtC (.int s w i)
  | enum {id ls n u} : n ∈ ls → (u = true ↔ n = -1) → WtC (.enum id ls n u)
  | unset {t} : WtC (.unset t)
  | tnil : WtC .tnil
  | tcons {e c} : Wt e → WtC c → WtC (.tcons e c)
  | list {t es} : (∀ e ∈ es, Wt e) → (∀ e ∈ es, e.ty.kind = t.kind ∧ ∀ v, Ev e v → HasType t v) → WtC (.list t es)
  | vector {t es} : (∀ e ∈ es, Wt e) → (∀ e ∈ es, e.ty.kind = t.kind ∧ ∀ v, Ev e v → HasType t v) → WtC (.vector t es)
  | set {t es} : (∀ e ∈ es, Wt e) → (∀ e ∈ es, e.ty.kind = t.kind ∧ ∀ v, Ev e v → HasType t v) → WtC (.set t es)
  | map {k u es} : (∀ e ∈ es, Wt e.1) → (∀ e ∈ es, Wt e.2) →
      (∀ e ∈ es, (e.1.ty.kind = k.kind ∧ ∀ v, Ev e.1 v → HasType k v) ∧ (e.2.ty.kind = u.kind ∧ ∀ v, Ev e.2 v → HasType u v)) →
      WtC (.map k u es)
  | cast {o c} : WtC c → WtC (.coerced o c)
end

end Verif.Front.Coerce
