import Verif.Base
/-!
# Model of type unification

Source: `hilti/toolchain/src/compiler/type-unifier.cc` (`type-unifier.cc`), `hilti/toolchain/include/ast/type.h` (`type.h`),
`hilti/toolchain/src/ast/type.cc` (`type.cc`), the headers in `hilti/toolchain/include/ast/types/`.

The compiler decides whether two types are the same by comparing strings, the types' unifications. A type is a tree here; the link
from the name of a type to the type is an edge of this tree, so that recursive types, which the unifier rejects, are not expressed.
The kind of a type with a name of its own (struct, union, enum, unit, exception with a base) is not kept: only its name enters the
unification. Lists of operands, which occur in the signatures of the built-in operators only, are left out.
-/

namespace Verif.Front.Types

abbrev Text := List Char

/-- Types whose unification is a constant, given to the constructor of `UnqualifiedType` by the headers in `ast/types/`; `exception`
is `type-unifier.cc` 248-250. -/
inductive Atom where
  | address | bool | bytes | bytesIter | error | exception | interval | network | null | port | real | regexp | sink
  | stream | streamIter | streamView | string | time | void
  deriving DecidableEq

/-- `ast/types/*.h`, for example `bool.h` 23, `bytes.h` 32 and 59, `stream.h` 32, 57 and 85; the word, and for an iterator the text
around it. -/
def Atom.text : Atom → Text
  | .address => "address".toList
  | .bool => "bool".toList
  | .bytes => "bytes".toList
  | .bytesIter => "iterator(bytes)".toList
  | .error => "error".toList
  | .exception => "exception".toList
  | .interval => "interval".toList
  | .network => "network".toList
  | .null => "null".toList
  | .port => "port".toList
  | .real => "real".toList
  | .regexp => "regexp".toList
  | .sink => "sink".toList
  | .stream => "stream".toList
  | .streamIter => "iterator(stream)".toList
  | .streamView => "view::stream".toList
  | .string => "string".toList
  | .time => "time".toList
  | .void => "void".toList

/-- Types with one parameter. -/
inductive Con where
  | list | set | vector | optional | result | strongRef | weakRef | valueRef | typeOf | listIter | setIter | vectorIter
  deriving DecidableEq

/-- `type-unifier.cc` 62-169: the text before the parameter. -/
def Con.head : Con → Text
  | .list => "list(".toList
  | .set => "set(".toList
  | .vector => "vector(".toList
  | .optional => "optional(".toList
  | .result => "result(".toList
  | .strongRef => "strong_ref(".toList
  | .weakRef => "weak_ref(".toList
  | .valueRef => "value_ref(".toList
  | .typeOf => "type(".toList
  | .listIter => "iterator(list(".toList
  | .setIter => "iterator(set(".toList
  | .vectorIter => "iterator(vector(".toList

/-- `type-unifier.cc` 62-169: the text behind the parameter. -/
def Con.tail : Con → Text
  | .listIter | .setIter | .vectorIter => "))".toList
  | _ => ")".toList

/-- Types that stand for all types of a class, in the signatures of operators and for constants without elements. -/
inductive Wild where
  | bitfield | enum | exception | function | int | list | listIter | map | mapIter | member | optional | result | set | setIter
  | strongRef | struct | tuple | typeOf | uint | union | unit | valueRef | vector | vectorIter | weakRef
  deriving DecidableEq

/-- `ast/types/*.h`, for example `integer.h` 58 and 78, `map.h` 59 and 106. -/
def Wild.text : Wild → Text
  | .bitfield => "bitfield(*)".toList
  | .enum => "enum(*)".toList
  | .exception => "exception(*)".toList
  | .function => "function(*)".toList
  | .int => "int<*>".toList
  | .list => "list(*)".toList
  | .listIter => "iterator(list(*))".toList
  | .map => "map(*)".toList
  | .mapIter => "iterator(map(*))".toList
  | .member => "member(*)".toList
  | .optional => "optional(*)".toList
  | .result => "result(*)".toList
  | .set => "set(*)".toList
  | .setIter => "iterator(set(*))".toList
  | .strongRef => "strong_ref(*)".toList
  | .struct => "struct(*)".toList
  | .tuple => "tuple(*)".toList
  | .typeOf => "type(*)".toList
  | .uint => "uint<*>".toList
  | .union => "union(*)".toList
  | .unit => "unit(*)".toList
  | .valueRef => "value_ref(*)".toList
  | .vector => "vector(*)".toList
  | .vectorIter => "iterator(vector(*))".toList
  | .weakRef => "weak_ref(*)".toList

/-- `type::bitfield::BitRange`: name, first and last bit, and its attributes (`&convert`, `&bit-order`), of which only the identity
matters here. -/
structure Bit where
  name : Text
  lower : Nat
  upper : Nat
  attrs : Nat
  deriving DecidableEq

/-- What an element of a tuple, or a parameter of a function, has beside its type: a name; the kind of a parameter, a number here. -/
structure Label where
  name : Text
  kind : Nat
  deriving DecidableEq

mutual
/-- Types: `UnqualifiedType`. The parameter of a type is a `QualifiedType`, a type and its constness. -/
inductive Ty where
  /-- `type::Auto` -/
  | auto
  /-- `type::Any`, `type::Unknown`: `type::NeverMatch` -/
  | never
  | atom (a : Atom)
  /-- `type::SignedInteger`, `type::UnsignedInteger` -/
  | int (signed : Bool) (w : Nat)
  /-- `type::Library`, with the name of the C++ type -/
  | library (n : Text)
  /-- `type::Member` -/
  | member (n : Text)
  /-- a type with a name of its own, `isNameType()`, with its canonical ID if it has one already -/
  | decl (id : Option Text)
  /-- `type::Name` that is not resolved yet -/
  | unresolved
  /-- `type::Name` and the type it stands for -/
  | alias (t : Ty)
  | con (c : Con) (k : Bool) (t : Ty)
  /-- `type::Map`, `type::map::Iterator` -/
  | map (iter : Bool) (kk : Bool) (key : Ty) (vk : Bool) (val : Ty)
  | tuple (es : Els)
  | func (rk : Bool) (res : Ty) (ps : Els)
  | bitfield (w : Nat) (bits : List Bit) (attrs : Nat)
  | wild (w : Wild)
  /-- a type whose unification has been set already -/
  | memo (s : Text) (t : Ty)
/-- The elements of a tuple, the parameters of a function. -/
inductive Els where
  | nil
  | cons (l : Label) (k : Bool) (t : Ty) (es : Els)
end

/-- `%u` -/
def decimal (n : Nat) : Text :=
  if n < 10 then [Char.ofNat (48 + n)] else decimal (n / 10) ++ [Char.ofNat (48 + n % 10)]
decreasing_by omega

/-- `type-unifier.cc` 44-47 -/
def bitText (b : Bit) : Text :=
  b.name ++ ':' :: decimal b.lower ++ ':' :: decimal b.upper ++ [',']

/-- `type-unifier.cc` 43-48 -/
def bitsText : List Bit → Text
  | [] => []
  | b :: bs => bitText b ++ bitsText bs

mutual
/-- `type-unifier.cc` 220-264 `Unifier::add`, with the functions of `VisitorSerializer`, 40-170, and the constants of the headers:
the serialization of a type, nothing if `abort` has been called. A unification that has been set is taken as it is (240-241), but
for the name of a type, where the type it stands for comes first (232-238, and 270, where `type()` follows the name). -/
def text : Ty → Option Text
  | .auto => none
  | .never => some "<never-match>".toList
  | .atom a => some a.text
  | .int true w => some ("int".toList ++ decimal w)
  | .int false w => some ("uint".toList ++ decimal w)
  | .library n => some ("library(".toList ++ n ++ [')'])
  | .member n => some ("member(".toList ++ n ++ [')'])
  | .decl none => none
  | .decl (some id) => some ("name(".toList ++ id ++ [')'])
  | .unresolved => none
  | .alias t => text t
  | .con c _ t => match text t with
    | none => none
    | some s => some (c.head ++ s ++ c.tail)
  | .map iter _ a _ b => match text a, text b with
    | some s, some s' =>
      some (if iter then "iterator(map(".toList ++ s ++ "->".toList ++ s' ++ "))".toList
        else "map(".toList ++ s ++ "->".toList ++ s' ++ ")".toList)
    | _, _ => none
  | .tuple es => match tupleText es with
    | none => none
    | some s => some ("tuple(".toList ++ s ++ [')'])
  | .func _ t ps => match text t, paramsText ps with
    | some s, some s' => some ("function(result:".toList ++ s ++ s' ++ [')'])
    | _, _ => none
  | .bitfield w bs _ => some ("bitfield(".toList ++ decimal w ++ ',' :: bitsText bs ++ [')'])
  | .wild w => some w.text
  | .memo s t => match t with
    | .alias u => text u
    | .unresolved => none
    | _ => some s
/-- `type-unifier.cc` 112-119 -/
def tupleText : Els → Option Text
  | .nil => some []
  | .cons _ _ t es => match text t, tupleText es with
    | some s, some s' => some (s ++ ',' :: s')
    | _, _ => none
/-- `type-unifier.cc` 55-58 -/
def paramsText : Els → Option Text
  | .nil => some []
  | .cons _ _ t es => match text t, paramsText es with
    | some s, some s' => some (", ".toList ++ s ++ s')
    | _, _ => none
end

/-- `type.h` 61-77 `Unification` -/
inductive Unif where
  | unset
  | neverMatch
  | str (s : Text)
  deriving DecidableEq

/-- `type.h` 118-126 `operator==` -/
def Unif.eq : Unif → Unif → Bool
  | .str a, .str b => a == b
  | _, _ => false

/-- `type.cc` 113-120 `follow`; `resolvedType()` goes through all names. -/
def follow : Ty → Ty
  | .alias t => follow t
  | .memo s t => match t with
    | .alias u => follow u
    | t => .memo s t
  | t => t

/-- The unification of a type after `unify` (`type-unifier.cc` 182-214, 296-303), which leaves it unset if the serialization has been
aborted. -/
def unif (t : Ty) : Unif :=
  match t with
  | .never => .neverMatch
  | t => match text t with
    | none => .unset
    | some s => .str s

/-- `type.h` 581-590 `same` for unqualified types. -/
def same (t u : Ty) : Bool := (unif (follow t)).eq (unif (follow u))

/-- `type.h` 596-608 `same` for qualified types. -/
def sameQualified (k : Bool) (t : Ty) (k' : Bool) (u : Ty) : Bool :=
  if k != k' then false else same t u

/-- The visitor `VisitorTypeUnifier` at one node, `type-unifier.cc` 182-214: nothing if the unification has been set. -/
def setUnif (t : Ty) : Ty :=
  match t with
  | .memo s u => .memo s u
  | .never => .never
  | t => match text t with
    | none => t
    | some s => .memo s t

mutual
/-- `type-unifier.cc` 279-285 `unify`: the visitor in post-order. Types behind a name belong to another part of the AST; they are
visited there. -/
def unify : Ty → Ty
  | .con c k t => setUnif (.con c k (unify t))
  | .map i kk a vk b => setUnif (.map i kk (unify a) vk (unify b))
  | .tuple es => setUnif (.tuple (unifyEls es))
  | .func k t es => setUnif (.func k (unify t) (unifyEls es))
  | .alias t => setUnif (.alias (unify t))
  | .memo s t => .memo s t
  | .auto => setUnif .auto
  | .never => setUnif .never
  | .atom a => setUnif (.atom a)
  | .int sg w => setUnif (.int sg w)
  | .library n => setUnif (.library n)
  | .member n => setUnif (.member n)
  | .decl id => setUnif (.decl id)
  | .unresolved => setUnif .unresolved
  | .bitfield w bs at' => setUnif (.bitfield w bs at')
  | .wild w => setUnif (.wild w)
/-- The elements of a type, in turn. -/
def unifyEls : Els → Els
  | .nil => .nil
  | .cons l k t es => .cons l k (unify t) (unifyEls es)
end

end Verif.Front.Types
