import Verif.Front.Types
/-!
# What it means for two types to be the same

Two types are the same if they are equal once everything has been forgotten that the language does not compare: the constness of
parameters, the names of the elements of a tuple, the names and kinds of the parameters of a function, the attributes of a bitfield,
and the names that have been given to a type with `type X = ...`.
-/

namespace Verif.Front.Types

mutual
/-- A type without what does not matter. -/
def strip : Ty → Ty
  | .alias t => strip t
  | .memo _ t => strip t
  | .con c _ t => .con c false (strip t)
  | .map i _ a _ b => .map i false (strip a) false (strip b)
  | .tuple es => .tuple (stripEls es)
  | .func _ t es => .func false (strip t) (stripEls es)
  | .bitfield w bs _ => .bitfield w (bs.map fun b => { b with attrs := 0 }) 0
  | .auto => .auto
  | .never => .never
  | .atom a => .atom a
  | .int sg w => .int sg w
  | .library n => .library n
  | .member n => .member n
  | .decl id => .decl id
  | .unresolved => .unresolved
  | .wild w => .wild w
/-- The elements without what does not matter. -/
def stripEls : Els → Els
  | .nil => .nil
  | .cons _ _ t es => .cons ⟨[], 0⟩ false (strip t) (stripEls es)
end

/-- The same type. -/
def Same (t u : Ty) : Prop := strip t = strip u

mutual
/-- All names have been resolved, no type remains to be inferred. -/
def Settled : Ty → Prop
  | .auto | .unresolved | .decl none => False
  | .alias t => Settled t
  | .memo _ t => Settled t
  | .con _ _ t => Settled t
  | .map _ _ a _ b => Settled a ∧ Settled b
  | .tuple es => SettledEls es
  | .func _ t es => Settled t ∧ SettledEls es
  | _ => True
/-- The same for all elements. -/
def SettledEls : Els → Prop
  | .nil => True
  | .cons _ _ t es => Settled t ∧ SettledEls es
end

/-- Identifiers, and C++ types in the case of library types: no closing parenthesis, not a lone asterisk. -/
def NameOk (n : Text) : Prop := ')' ∉ n ∧ n ≠ ['*']

/-- The name of a range of bits is a plain identifier. -/
def BitOk (b : Bit) : Prop := ')' ∉ b.name ∧ ':' ∉ b.name ∧ '*' ∉ b.name

mutual
/-- The names in the type are names. -/
def NamesOk : Ty → Prop
  | .library n => NameOk n
  | .member n => NameOk n
  | .decl (some n) => NameOk n
  | .alias t => NamesOk t
  | .memo _ t => NamesOk t
  | .con _ _ t => NamesOk t
  | .map _ _ a _ b => NamesOk a ∧ NamesOk b
  | .tuple es => NamesOkEls es
  | .func _ t es => NamesOk t ∧ NamesOkEls es
  | .bitfield _ bs _ => ∀ b ∈ bs, BitOk b
  | _ => True
/-- The same for all elements. -/
def NamesOkEls : Els → Prop
  | .nil => True
  | .cons _ _ t es => NamesOk t ∧ NamesOkEls es
end

mutual
/-- A type without the unifications set so far. -/
def bare : Ty → Ty
  | .memo _ t => bare t
  | .alias t => .alias (bare t)
  | .con c k t => .con c k (bare t)
  | .map i kk a vk b => .map i kk (bare a) vk (bare b)
  | .tuple es => .tuple (bareEls es)
  | .func k t es => .func k (bare t) (bareEls es)
  | .auto => .auto
  | .never => .never
  | .atom a => .atom a
  | .int sg w => .int sg w
  | .library n => .library n
  | .member n => .member n
  | .decl id => .decl id
  | .unresolved => .unresolved
  | .bitfield w bs at' => .bitfield w bs at'
  | .wild w => .wild w
/-- The same for all elements. -/
def bareEls : Els → Els
  | .nil => .nil
  | .cons l k t es => .cons l k (bare t) (bareEls es)
end

mutual
/-- Every unification that has been set is that of the type as it is now; `any` and `unknown` never get one, only a name for them
does. -/
def Current : Ty → Prop
  | .memo s t => (strip t = .never → ∃ u, t = .alias u) ∧ text (bare t) = some s ∧ Current t
  | .alias t => Current t
  | .con _ _ t => Current t
  | .map _ _ a _ b => Current a ∧ Current b
  | .tuple es => CurrentEls es
  | .func _ t es => Current t ∧ CurrentEls es
  | _ => True
/-- The same for all elements. -/
def CurrentEls : Els → Prop
  | .nil => True
  | .cons _ _ t es => Current t ∧ CurrentEls es
end

end Verif.Front.Types
