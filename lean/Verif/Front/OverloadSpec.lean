import Verif.Front.Overload
import Verif.Front.CoerceSpec
/-!
# What a call should mean
-/

namespace Verif.Front.Overload

open Verif.Front.Coerce

/-- The second type is the first one, or an optional or result of such a type. -/
inductive Wraps (s : Ty) : Ty → Prop where
  | same : Wraps s s
  | optional {t} : Wraps s t → Wraps s (.optional t)
  | result {t} : Wraps s t → Wraps s (.result t)

/-- An argument converts to a type, in a call: there is an expression of the type that stands for it (this is property C79), whatever
bound there is on the depth of the conversion, from some bound on. -/
def Converts (wild : Int) (e : E) (t : Ty) : Prop := ∃ m, ∀ n ≥ m, ∃ x, coerceExpr wild n ⟨false, true, true, true, false⟩ e t = some x

/-- The arguments fit the parameters, where one may do for the other as given: there are not too many, those that are left out have a default,
so have those for which `Null` is given or else that may do; what is given for an `inout` is a variable of exactly its type. -/
inductive Fits (may : E → Ty → Prop) : List Param → List Arg → Prop where
  | nil : Fits may [] []
  | omitted {p ps d} : p.dflt = some d → Fits may ps [] → Fits may (p :: ps) []
  | null {p ps a as d} : p.dflt = some d → a.e.ty = .null → Fits may ps as → Fits may (p :: ps) (a :: as)
  | value {p ps a as} : (p.dflt = none ∨ a.e.ty ≠ .null) → p.kind ≠ .inout → may a.e p.ty → Fits may ps as → Fits may (p :: ps) (a :: as)
  | var {p ps a as} : (p.dflt = none ∨ a.e.ty ≠ .null) → p.kind = .inout → a.e.const? = none → a.const = false → a.e.ty = p.ty →
      Fits may ps as → Fits may (p :: ps) (a :: as)

/-- The function takes the arguments as they are, but for making optionals and results of them. -/
def Directly (f : Fn) (args : List Arg) : Prop := Fits (fun e t => Wraps e.ty t) f.params args

/-- The function takes the arguments, converted where needed. -/
def Loosely (wild : Int) (f : Fn) (args : List Arg) : Prop := Fits (Converts wild) f.params args

/-- The function is the best choice, and the only one: the only one that takes the arguments directly or, if there is none, the only one that
takes them. -/
def Best (wild : Int) (fs : List Fn) (args : List Arg) (f : Fn) : Prop :=
  f ∈ fs ∧ ((Directly f args ∧ ∀ g ∈ fs, Directly g args → g = f) ∨
    ((∀ g ∈ fs, ¬ Directly g args) ∧ Loosely wild f args ∧ ∀ g ∈ fs, Loosely wild g args → g = f))

/-- What a parameter should get of an argument: the default if there is none, or for a `Null`; the very variable if it is `inout`; else
an expression that has the value that stands for the one of the argument. -/
def Gets (p : Param) (a : Option Arg) (x : E) : Prop :=
  match a with
  | none => p.dflt = some x
  | some a => (p.dflt = some x ∧ a.e.ty = .null) ∨ (p.kind = .inout ∧ x = a.e) ∨
    (p.kind ≠ .inout ∧ ∃ v v', (∀ w, Ev a.e w ↔ w = v) ∧ (∀ w, Ev x w ↔ w = v') ∧ HasType p.ty v' ∧ Agree false a.e.ty p.ty v v')

end Verif.Front.Overload
