import Verif.Front.Coerce
/-!
# Model of function calls: which overload is meant, and what its parameters get

Source: `hilti/toolchain/src/compiler/resolver.cc` (`resolver.cc`), `hilti/toolchain/src/compiler/coercer.cc` (`coercer.cc`),
`hilti/toolchain/include/compiler/coercer.h` (`coercer.h`), `hilti/toolchain/src/ast/types/function.cc` (`function.cc`),
`hilti/toolchain/include/ast/declarations/parameter.h` (`parameter.h`), `hilti/toolchain/src/compiler/validator.cc` (`validator.cc`),
`hilti/toolchain/src/ast/operator-registry.cc` (`operator-registry.cc`).

Calls of functions by name. The types and conversions are those of `Verif.Front.Coerce`. Left out: hooks, methods, operators, `any`,
`auto`, references and built-in functions.
-/

namespace Verif.Front.Overload

open Verif.Front.Coerce

/-- `parameter.h` 21-27 `parameter::Kind` -/
inductive Kind where
  | copy | in_ | inout
  deriving DecidableEq

/-- A parameter: its kind, type and default, and how the default is printed. -/
structure Param where
  kind : Kind
  ty : Ty
  dflt : Option E
  text : String

/-- A function: something that tells it from all others, its result and its parameters. -/
structure Fn where
  id : Nat
  result : Ty
  params : List Param

/-- An argument of a call: the expression, and whether it is a constant one although it is no constructor or name of a constant. -/
structure Arg where
  e : E
  const : Bool

/-- `QualifiedType::isConstant` of the argument: constructors and names of constants always are. -/
def Arg.isConstant (a : Arg) : Bool := a.e.const?.isSome || a.const

/-- `coercer.h` 95-106 `TryDirectMatchForFunctionCall` and `TryAllForFunctionCall` -/
def callStyle (coerce : Bool) : Style := ⟨false, true, true, coerce, false⟩

noncomputable section
-- What casting a `double` of 2^63 to `int64_t` gives.
variable (wild : Int)

/-- `coercer.cc` 1227-1244 `coerceExpression`, of an argument. -/
def coerceArg (coerce : Bool) (e : E) (t : Ty) : Option E := coerceExpr wild (sizeOf e + sizeOf t) (callStyle coerce) e t

/-- `coercer.cc` 909-917: the default, for an argument of type `Null`. -/
def nullDefault (p : Param) (a : Arg) : Option E :=
  match p.dflt with
  | some d => if a.e.ty = .null then some d else none
  | none => none

/-- `coercer.cc` 882-1000 `coerceOperands`: what the parameters get, if the arguments match them. Too many arguments are noticed at the
end instead of first. That only one operand may change its type does not apply to calls. -/
def matchArgs (coerce : Bool) : List Param → List Arg → Option (List E)
  | [], [] => some []
  | [], _ :: _ => none
  | p :: ps, [] => match p.dflt with
    | none => none
    | some d => match matchArgs coerce ps [] with
      | none => none
      | some es => some (d :: es)
  | p :: ps, a :: as =>
    match nullDefault p a with
    | some d => (match matchArgs coerce ps as with
      | none => none
      | some es => some (d :: es))
    | none =>
      if p.kind = Kind.inout ∧ a.isConstant = true then none
      else match coerceArg wild coerce a.e p.ty with
        | none => none
        | some x =>
          if p.kind = Kind.inout ∧ x.ty ≠ a.e.ty then none
          else match matchArgs coerce ps as with
            | none => none
            | some es => some (x :: es)

/-- `resolver.cc` 345-352: all functions that match, and what their parameters get. -/
def allMatches (coerce : Bool) (fs : List Fn) (args : List Arg) : List (Fn × List E) :=
  fs.filterMap fun f => (matchArgs wild coerce f.params args).map fun es => (f, es)

/-- `resolver.cc` 253-261: the seven styles, and (`coercer.cc` 1134-1137) whether they include conversions of arguments, which is all
that the arguments of a call are told of a style. -/
def styles : List Bool := [false, false, false, true, false, false, true]

/-- `resolver.cc` 330-381 `try_all_candidates`: the matches of the first style that has any. Functions all are of normal priority. -/
def firstMatches (fs : List Fn) (args : List Arg) : List Bool → List (Fn × List E)
  | [] => []
  | s :: ss => match allMatches wild s fs args with
    | [] => firstMatches fs args ss
    | m :: ms => m :: ms

/-- What a call is: of a function, with what its parameters get; one that several functions match; one that none matches. -/
inductive Outcome where
  | call (f : Fn) (es : List E)
  | ambiguous
  | nothing

/-- `resolver.cc` 970-1002 `operator()(expression::UnresolvedOperator*)` -/
def resolve (fs : List Fn) (args : List Arg) : Outcome :=
  match firstMatches wild fs args styles with
  | [] => .nothing
  | [m] => .call m.1 m.2
  | _ => .ambiguous

/-- `ast-context.cc` 795-828, `operator-registry.cc` 96-120: a call is tried to be resolved in every round, among the functions
whose types have been resolved before that; the list has, for every round once the arguments are resolved, what functions these are.
Errors are cleared before each round, so that those of the last one stay. -/
def settle (fs : List Fn) (args : List Arg) : List (Fn → Bool) → Outcome
  | [] => .nothing
  | [ready] => resolve wild (fs.filter ready) args
  | ready :: rest => match resolve wild (fs.filter ready) args with
    | .call f es => .call f es
    | _ => settle fs args rest

end

/-- `parameter.h` 140-157 `areEquivalent` -/
def Param.equivalent (p q : Param) : Bool :=
  decide (p.kind = q.kind) &&
  (match p.dflt, q.dflt with
    | none, none => true
    | some _, some _ => p.text == q.text
    | _, _ => false) &&
  decide (p.ty = q.ty)

/-- `parameter.h` 160-162 `areEquivalent` -/
def equivalent : List Param → List Param → Bool
  | [], [] => true
  | p :: ps, q :: qs => p.equivalent q && equivalent ps qs
  | _, _ => false

/-- `function.cc` 30-54 `isValidOverload`. -/
def validOverload (f g : Fn) : Bool :=
  if decide (f.result = g.result) && equivalent f.params g.params then false
  else if !decide (f.result = g.result) && equivalent f.params g.params then false
  else if !equivalent f.params g.params &&
      equivalent (f.params.filter fun p => p.dflt.isNone) (g.params.filter fun p => p.dflt.isNone) then false
  else true

/-- `validator.cc` 213-262: in each scope, every function is a valid overload of every earlier one. -/
def validScope : List Fn → Bool
  | [] => true
  | f :: fs => fs.all (fun g => validOverload g f) && validScope fs

end Verif.Front.Overload
