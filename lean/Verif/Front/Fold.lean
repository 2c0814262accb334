import Verif.Base
/-!
# Model of constant folding

Source: `hilti/toolchain/src/compiler/constant-folder.cc` (`constant-folder.cc`), `hilti/runtime/src/safe-math.cc` (`safe-math.cc`),
`hilti/toolchain/src/compiler/validator.cc` (`validator.cc`).

Expressions are the kinds the folder knows, and other operators, whose meaning is a parameter. Reals, errors, ports, streams, times and
intervals are numbers without a meaning here: the constructors that take one argument of these kinds call, in the compiler, the
function the generated code calls as well (`made`).
-/

namespace Verif.Front.Fold

/-- Constants: booleans, signed and unsigned integers with their width, and everything else. -/
inductive Val where
  | bool (b : Bool)
  | sint (w : Nat) (n : Int)
  | uint (w : Nat) (n : Int)
  | other (k : Nat)
  deriving DecidableEq

/-- Operators with one operand. -/
inductive Un where
  /-- `signed_integer::SignNeg`, `unsigned_integer::SignNeg` -/
  | negS
  | negU
  /-- `signed_integer::CtorSignedN`, `CtorUnsignedN` for the width `w`: from a signed, an unsigned integer -/
  | sintS (w : Nat)
  | sintU (w : Nat)
  /-- `unsigned_integer::CtorSignedN`, `CtorUnsignedN` -/
  | uintS (w : Nat)
  | uintU (w : Nat)
  /-- `expression::LogicalNot` -/
  | not
  /-- `expression::Grouping` with one expression and without a local variable -/
  | group
  /-- constructors with one argument that call a function of the runtime library -/
  | made (k : Nat)
  deriving DecidableEq

/-- Operators with two operands: `expression::LogicalOr`, `expression::LogicalAnd`, any other. -/
inductive Bin where
  | or
  | and
  | other (k : Nat)
  deriving DecidableEq

/-- Expressions. -/
inductive Expr where
  | ctor (v : Val)
  | un (u : Un) (e : Expr)
  | bin (o : Bin) (a b : Expr)
  | ternary (c a b : Expr)
  /-- `expression::Name`: of a constant with the value `e`, `feature` if it is a feature flag; `bool` if of boolean type -/
  | name (feature bool : Bool) (e : Expr)
  deriving DecidableEq

/-- `Style` -/
structure Style where
  ternary : Bool
  inlineBool : Bool
  inlineFeature : Bool
  inlineAll : Bool

/-- The functions of the runtime library, which argument they take, and what other operators do. -/
structure Sem where
  made : Nat → Val → Res Val
  takes : Nat → Val → Bool
  op : Nat → Res Val → Res Val → Res Val

variable (S : Sem)

/-- `constant-folder.cc` 101-104, 106-115, 133-136, 168-172, 179-309: an operator with a constant operand; `none` if it is not of the
    kind the operator expects. Negating the smallest 64-bit integer (line 103) is undefined; `safe-math.cc` 15 for unsigned integers. -/
def foldUn : Un → Val → Res (Option Val)
  | .negS, .sint w n => if n = -2 ^ 63 then .ub else .ok (some (.sint w (-n)))
  | .negU, .uint w n => if n > 2 ^ 63 then .throw .outOfRange else .ok (some (.sint w (-n)))
  | .sintS w, .sint _ n => .ok (some (.sint w n))
  | .sintU w, .uint _ n => if n ≥ 2 ^ 63 then .throw .outOfRange else .ok (some (.sint w n))
  | .uintS w, .sint _ n => if n < 0 then .throw .outOfRange else .ok (some (.uint w n))
  | .uintU w, .uint _ n => .ok (some (.uint w n))
  | .not, .bool x => .ok (some (.bool (!x)))
  | .group, v => .ok (some v)
  | .made k, v => if S.takes k v then (S.made k v).bind fun v => .ok (some v) else .ok none
  | _, _ => .ok none

/-- `constant-folder.cc` 117-131: both operands are constants. -/
def foldBin : Bin → Val → Val → Option Val
  | .or, .bool x, .bool y => some (.bool (x || y))
  | .and, .bool x, .bool y => some (.bool (x && y))
  | _, _, _ => none

/-- `constant-folder.cc` 93-309: `foldConstant` of the visitor; `none` is "not a foldable constant expression", an exception passes
    through. Other operators are not even looked into. -/
def fold (st : Style) : Expr → Res (Option Val)
  | .ctor v => .ok (some v)
  | .un u e => (fold st e).bind fun
    | some v => foldUn S u v
    | none => .ok none
  | .bin (.other _) _ _ => .ok none
  | .bin .or a b => (fold st a).bind fun x => (fold st b).bind fun y => match x, y with
    | some x, some y => .ok (foldBin .or x y)
    | _, _ => .ok none
  | .bin .and a b => (fold st a).bind fun x => (fold st b).bind fun y => match x, y with
    | some x, some y => .ok (foldBin .and x y)
    | _, _ => .ok none
  | .ternary c a b =>
    if !st.ternary then .ok none
    else (fold st c).bind fun
      | some (.bool x) => match a, b with
        | .ctor v, .ctor w => .ok (some (if x then v else w))
        | _, _ => .ok none
      | _ => .ok none
  | .name feature _ e => if feature && !st.inlineFeature then .ok none else fold st e

/-- `constant-folder.cc` 323-343 `foldExpression`: names are folded only with some styles. An exception becomes an error. -/
def foldExpression (st : Style) (e : Expr) : Res (Option Val) := match e with
  | .name f b e' => if !st.inlineAll && (!st.inlineBool || !b) then .ok none else fold S st (.name f b e')
  | e => fold S st e

/-- What visiting a tree gives: the new tree, how many nodes have been replaced, the errors. -/
structure Visited where
  tree : Expr
  replaced : Nat
  errors : Nat

/-- `constant-folder.cc` 352-366: the node itself, after its children. -/
def atNode (st : Style) (n : Expr) (replaced errors : Nat) : Res Visited := match n with
  | .ctor v => .ok ⟨.ctor v, replaced, errors⟩
  | n => match foldExpression S st n with
    | .ok none => .ok ⟨n, replaced, errors⟩
    | .ok (some v) => .ok ⟨.ctor v, replaced + 1, errors⟩
    | .throw _ => .ok ⟨n, replaced, errors + 1⟩
    | .ub => .ub

/-- `constant-folder.cc` 345-367 `VisitorConstantFolderAST`, post-order. The value of a constant is not a child of its name. -/
def visit (st : Style) : Expr → Res Visited
  | .ctor v => .ok ⟨.ctor v, 0, 0⟩
  | .un u e => (visit st e).bind fun r => atNode S st (.un u r.tree) r.replaced r.errors
  | .bin o a b => (visit st a).bind fun r => (visit st b).bind fun q =>
      atNode S st (.bin o r.tree q.tree) (r.replaced + q.replaced) (r.errors + q.errors)
  | .ternary c a b => (visit st c).bind fun r => (visit st a).bind fun q => (visit st b).bind fun p =>
      atNode S st (.ternary r.tree q.tree p.tree) (r.replaced + q.replaced + p.replaced) (r.errors + q.errors + p.errors)
  | .name f b e => atNode S st (.name f b e) 0 0

/-- `constant-folder.cc` 369-382 `fold`: visiting until nothing is replaced any more; `rounds` bounds the number of times, and
    `none` is for when it is not enough. -/
def foldAll (st : Style) : Nat → Expr → Nat → Res (Option (Expr × Nat))
  | 0, _, _ => .ok none
  | rounds + 1, e, errors => (visit S st e).bind fun r =>
    if r.replaced = 0 then .ok (some (r.tree, errors + r.errors)) else foldAll st rounds r.tree (errors + r.errors)

/-! ## Specification -/

/-- The range of an integer type. -/
def Fits : Val → Prop
  | .sint w n => 0 < w ∧ w ≤ 64 ∧ -2 ^ (w - 1) ≤ n ∧ n < 2 ^ (w - 1)
  | .uint w n => 0 < w ∧ w ≤ 64 ∧ 0 ≤ n ∧ n < 2 ^ w
  | _ => True

instance (v : Val) : Decidable (Fits v) := by cases v <;> unfold Fits <;> infer_instance

/-- Integer operations are exact or throw. -/
def exact (v : Val) : Res Val := if Fits v then .ok v else .throw .overflow

/-- What operators do at run time. -/
def evalUn : Un → Val → Res Val
  | .negS, .sint w n => exact (.sint w (-n))
  | .negU, .uint w n => exact (.sint w (-n))
  | .sintS w, .sint _ n => exact (.sint w n)
  | .sintU w, .uint _ n => exact (.sint w n)
  | .uintS w, .sint _ n => exact (.uint w n)
  | .uintU w, .uint _ n => exact (.uint w n)
  | .not, .bool x => .ok (.bool (!x))
  | .group, v => .ok v
  | .made k, v => if S.takes k v then S.made k v else .ub
  | _, _ => .ub

/-- What an expression means at run time. -/
def eval : Expr → Res Val
  | .ctor v => .ok v
  | .un u e => (eval e).bind (evalUn S u)
  | .bin .or a b => (eval a).bind fun | .bool true => .ok (.bool true) | .bool false => eval b | _ => .ub
  | .bin .and a b => (eval a).bind fun | .bool true => eval b | .bool false => .ok (.bool false) | _ => .ub
  | .bin (.other k) a b => S.op k (eval a) (eval b)
  | .ternary c a b => (eval c).bind fun | .bool true => eval a | .bool false => eval b | _ => .ub
  | .name _ _ e => eval e

/-- The parts of an expression, with the expression itself and the values of the constants it names. -/
def parts : Expr → List Expr
  | .ctor v => [.ctor v]
  | .un u e => .un u e :: parts e
  | .bin o a b => .bin o a b :: (parts a ++ parts b)
  | .ternary c a b => .ternary c a b :: (parts c ++ (parts a ++ parts b))
  | .name f b e => .name f b e :: parts e

/-- An expression made up of constants and of what the folder knows only. -/
def constant : Expr → Bool
  | .ctor _ => true
  | .un _ e => constant e
  | .bin (.other _) _ _ => false
  | .bin _ a b => constant a && constant b
  | .ternary c a b => constant c && constant a && constant b
  | .name _ _ e => constant e

/-- No constant part of an expression overflows or is otherwise without a value. -/
def NoOverflow (e : Expr) : Prop := ∀ p ∈ parts e, constant p = true → ∃ v, eval S p = .ok v

/-- The constants in an expression fit their types: what the validator checks (`validator.cc` 515-532). -/
def ConstsFit (e : Expr) : Prop := ∀ v, Expr.ctor v ∈ parts e → Fits v

/-- The compiler accepts an expression and compiles `e'` for it: folding ends without errors, and the constants that are left fit
    their types. -/
def Compiles (st : Style) (e e' : Expr) : Prop := ∃ rounds, foldAll S st rounds e 0 = .ok (some (e', 0)) ∧ ConstsFit e'

end Verif.Front.Fold
