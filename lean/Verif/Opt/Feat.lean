/-!
# Turning off features that are not needed

Models `hilti/toolchain/src/compiler/optimizer/passes/feature-requirements.cc`: the pass finds out which features of a
type are needed and sets the constants of the others to `False`.

Simplifications: one type and one value of it, so that fields are part of the state; values are integers; the functions
that are called are external.
-/

namespace Verif.Opt.Feat

/-- Expressions. `flag f` is the name of the constant of feature `f`; `fld` an access to a field. -/
inductive Ex
  | lit (v : Int) | var (x : Nat) | fld (x : Nat) | flag (f : Nat)
  | or (a b : Ex)
  | tern (c a b : Ex)
  | op (k : Nat) (a b : Ex)
  deriving DecidableEq, Repr

/-- Statements; `call k e` calls external function `k` with the value and the argument `e`. -/
inductive Sm
  | skip
  | setVar (x : Nat) (e : Ex)
  | setFld (x : Nat) (e : Ex)
  | print (e : Ex)
  | call (k : Nat) (e : Ex)
  | seq (a b : Sm)
  | ite (c : Ex) (a b : Sm)
  | loop (c : Ex) (b : Sm)
  deriving DecidableEq, Repr

/-- What the program is compiled with. `needs x` are the features in the `&needed-by-feature` attributes of field `x`,
`req k` those in the `&requires-type-feature` attributes of the parameter of function `k`, `always` those in the
attributes of the type. `uses k` are the fields the function looks at or changes, `quiet k` says that it prints nothing;
the compiler knows neither. -/
structure Env where
  needs : Nat → List Nat
  req : Nat → List Nat
  always : List Nat
  op : Nat → Int → Int → Int
  uses : Nat → List Nat
  quiet : Nat → Bool
  run : Nat → Int → List Int → List Int → (Nat → Int) × List Int

/-- States: variables, the fields of the value, the output. -/
structure St where
  vars : Nat → Int
  flds : Nat → Int
  out : List Int

/-- Evaluation of an expression, with the constants `σ` of the features. -/
def evalE (V : Env) (σ : Nat → Bool) : Ex → St → Int
  | .lit v, _ => v
  | .var x, s => s.vars x
  | .fld x, s => s.flds x
  | .flag f, _ => if σ f then 1 else 0
  | .or a b, s => if evalE V σ a s ≠ 0 then 1 else if evalE V σ b s ≠ 0 then 1 else 0
  | .tern c a b, s => if evalE V σ c s ≠ 0 then evalE V σ a s else evalE V σ b s
  | .op k a b, s => V.op k (evalE V σ a s) (evalE V σ b s)

/-- A call: the function gets the argument, the fields it uses and the output. -/
def runCall (V : Env) (k : Nat) (v : Int) (s : St) : St :=
  { s with
    flds := fun x => if (V.uses k).contains x then (V.run k v ((V.uses k).map s.flds) s.out).1 x else s.flds x
    out := if V.quiet k then s.out else (V.run k v ((V.uses k).map s.flds) s.out).2 }

/-- `while`, with at most `n` tests. -/
def loopN : Nat → (St → Int) → (St → Option St) → St → Option St
  | 0, _, _, _ => none
  | n + 1, c, b, s => if c s ≠ 0 then (b s).bind fun s => loopN n c b s else some s

/-- Execution of a statement. -/
def evalS (V : Env) (σ : Nat → Bool) (n : Nat) : Sm → St → Option St
  | .skip, s => some s
  | .setVar x e, s => some { s with vars := fun y => if y = x then evalE V σ e s else s.vars y }
  | .setFld x e, s => some { s with flds := fun y => if y = x then evalE V σ e s else s.flds y }
  | .print e, s => some { s with out := s.out ++ [evalE V σ e s] }
  | .call k e, s => some (runCall V k (evalE V σ e s) s)
  | .seq a b, s => (evalS V σ n a s).bind fun s => evalS V σ n b s
  | .ite c a b, s => if evalE V σ c s ≠ 0 then evalS V σ n a s else evalS V σ n b s
  | .loop c b, s => loopN n (fun s => evalE V σ c s) (fun s => evalS V σ n b s) s

/-! ## The pass -/

/-- `featureFlagsFromCondition` (feature-requirements.cc:44-57). -/
def flagsOf : Ex → List Nat
  | .flag f => [f]
  | .or a b => flagsOf a ++ flagsOf b
  | _ => []

/-- The features an access needs, without those of conditions around it (feature-requirements.cc:137-141, 216-222). -/
def without (fs G : List Nat) : List Nat := fs.filter fun f => ! G.contains f

/-- The accesses of an expression, in conditions `G` (`conditionalFeatures`, feature-requirements.cc:60-78: any part of
a ternary counts, also its condition and what it is if the feature is off). -/
def reqE (V : Env) (G : List Nat) : Ex → List Nat
  | .lit _ | .var _ | .flag _ => []
  | .fld x => without (V.needs x) G
  | .or a b => reqE V G a ++ reqE V G b
  | .tern c a b => reqE V (flagsOf c ++ G) c ++ reqE V (flagsOf c ++ G) a ++ reqE V (flagsOf c ++ G) b
  | .op _ a b => reqE V G a ++ reqE V G b

/-- The accesses and calls of a statement (feature-requirements.cc:91-144, 191-226). -/
def reqS (V : Env) (G : List Nat) : Sm → List Nat
  | .skip => []
  | .setVar _ e => reqE V G e
  | .setFld x e => without (V.needs x) G ++ reqE V G e
  | .print e => reqE V G e
  | .call k e => without (V.req k) G ++ reqE V G e
  | .seq a b => reqS V G a ++ reqS V G b
  | .ite c a b => reqE V (flagsOf c ++ G) c ++ reqS V (flagsOf c ++ G) a ++ reqS V (flagsOf c ++ G) b
  | .loop c b => reqE V G c ++ reqS V G b

/-- The features that are needed (feature-requirements.cc:228-232). -/
def required (V : Env) (p : Sm) (f : Nat) : Bool := (reqS V [] p ++ V.always).contains f

/-- The constants after the pass (feature-requirements.cc:241-256). -/
def pass (V : Env) (p : Sm) (σ : Nat → Bool) (f : Nat) : Bool := if ! required V p f && σ f then false else σ f

end Verif.Opt.Feat
