import Verif.Opt.Feat

/-!
# Turning off features: specification

What belongs to a feature is not written down in the code. The compiler knows which features a field is for; for the
local variables of the generated code, `var` says so here. `idle` are fields that are for a feature and only ever reset
by code that does not need it.
-/

namespace Verif.Opt.Feat

/-- Whose variable is it, and which fields are idle? -/
structure Own where
  var : Nat → List Nat
  idle : Nat → Bool

/-- All of the first are among the second. -/
def sub (a b : List Nat) : Bool := a.all fun f => b.contains f

/-- They have one in common. -/
def meets (a b : List Nat) : Bool := a.any fun f => b.contains f

/-- What is for the features `fs`, and only for them, is of no interest if all of `F` are off. -/
def within (fs F : List Nat) : Bool := ! fs.isEmpty && sub fs F

/-- Is it a condition on features only? -/
def pure : Ex → Bool
  | .flag _ => true
  | .or a b => pure a && pure b
  | _ => false

/-- The features in such a condition. -/
def feats : Ex → List Nat
  | .flag f => [f]
  | .or a b => feats a ++ feats b
  | _ => []

/-- The conditions on features inside an expression. -/
def inner : Ex → List (List Nat)
  | .lit _ | .var _ | .fld _ | .flag _ => []
  | .or a b | .op _ a b => inner a ++ inner b
  | .tern c a b => (if pure c then [feats c] else inner c) ++ inner a ++ inner b

/-- Looking at things in code for the features `G` (one set for each condition): a variable for some features only in
code for some of these; a field, if the code is for one of its features, only in code for no others, or if idle. -/
def okE (V : Env) (W : Own) (G : List (List Nat)) : Ex → Bool
  | .lit _ => true
  | .var x => (W.var x).isEmpty || G.any fun F => sub F (W.var x)
  | .fld x => W.idle x || G.all fun F => ! meets (V.needs x) F || sub F (V.needs x)
  | .flag _ => false
  | .or a b | .op _ a b => okE V W G a && okE V W G b
  | .tern c a b =>
    if pure c then okE V W (feats c :: G) a && okE V W (feats c :: G) b
    else okE V W G c && okE V W G a && okE V W G b

/-- Code that runs only if an idle field is set need not be for the features the field is for. -/
def ifSet (V : Env) (W : Own) (E : List (List Nat)) : Ex → List (List Nat)
  | .fld x => if W.idle x then E.filter fun F => ! within (V.needs x) F else E
  | _ => E

/-- Doing things in code for the features `E`: it changes only what is for some of these, and always ends. -/
def okS (V : Env) (W : Own) (G E : List (List Nat)) : Sm → Bool
  | .skip => true
  | .setVar x e => okE V W G e && (E ++ inner e).all fun F => within (W.var x) F
  | .setFld x e => okE V W G e && ((E ++ inner e).all fun F => within (V.needs x) F) &&
      (! W.idle x || e == .lit 0 || (V.needs x).any fun f => ! G.flatten.contains f)
  | .print e => okE V W G e && (E ++ inner e).isEmpty
  | .call k e => okE V W G e &&
      ((E ++ inner e).all fun F => V.quiet k && (V.uses k).all fun x => within (V.needs x) F) &&
      ((V.uses k).all fun x => (V.needs x).isEmpty ||
        (meets (V.needs x) (V.req k) && G.all fun F => ! meets (V.needs x) F || sub F (V.needs x))) &&
      ((V.uses k).all fun x => ! W.idle x || (V.needs x).any fun f => (V.req k).contains f && ! G.flatten.contains f)
  | .seq a b => okS V W G E a && okS V W G E b
  | .ite c a b =>
    if pure c then okS V W (feats c :: G) (feats c :: E) a && okS V W (feats c :: G) (feats c :: E) b
    else okE V W G c && okS V W G (ifSet V W (inner c ++ E) c) a && okS V W G (inner c ++ E) b
  | .loop c b => okE V W G c && (E ++ inner c).isEmpty && okS V W G [] b

/-- It is for some features, and all of them are off. -/
def gone (fs : List Nat) (σ : Nat → Bool) : Prop := fs ≠ [] ∧ ∀ f ∈ fs, σ f = false

/-- Two states with the same output, variables and fields, but for what is for features that are off in `σ`. -/
structure Same (V : Env) (W : Own) (σ : Nat → Bool) (s s' : St) : Prop where
  out : s'.out = s.out
  vars : ∀ x, ¬ gone (W.var x) σ → s'.vars x = s.vars x
  flds : ∀ x, ¬ gone (V.needs x) σ → s'.flds x = s.flds x

/-- Both runs go on, or both end, in such states. -/
def SameEnd (V : Env) (W : Own) (σ : Nat → Bool) : Option St → Option St → Prop
  | some s, some s' => Same V W σ s s'
  | none, none => True
  | _, _ => False

end Verif.Opt.Feat
