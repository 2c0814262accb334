import Verif.Opt.Fields

/-!
# What removing unused fields must not change: specification
-/

namespace Verif.Opt.Fields

/-- An operator marked quiet only computes a value: it does not throw and prints nothing, and the compiler knows it has
no effects. -/
def Ops.Law (O : Ops) : Prop :=
  ∀ k, O.quiet k = true → O.eff k = false ∧ ∀ a b out, ∃ v, O.run k a b out = (.ok v, out)

/-- How a run looks from outside. -/
inductive Ending
  | value (v : Val) | threw (x : Exn)
  deriving DecidableEq, Repr

/-- What an observer sees of a run that has finished: how it ended and everything printed. -/
def outcome : Option R → Option (Ending × List Val)
  | some (.ok v s) => some (.value v, s.out)
  | some (.ret v s) => some (.value v, s.out)
  | some (.exn x s) => some (.threw x, s.out)
  | none => none

/-- A plain variable. -/
def isVar : E → Bool
  | .loc _ | .glob _ => true
  | _ => false

/-- A value that can be dropped: constants, variables and quiet operators on such. -/
def quietE (O : Ops) : E → Bool
  | .lit _ | .loc _ | .glob _ => true
  | .ext k a b => O.quiet k && quietE O a && quietE O b
  | _ => false

/-- An expression that visibly does something: it contains a call, an assignment, a new object, .., or an operator with
effects. -/
def loudE (O : Ops) : E → Bool
  | .lit _ | .loc _ | .glob _ => false
  | .ext k a b => O.eff k || loudE O a || loudE O b
  | .read b _ | .tryRead b _ | .has b _ => loudE O b
  | _ => true

/-- A default that can be dropped. -/
def quietD (O : Ops) : DE → Bool
  | .lit _ | .glob _ => true
  | .ext k a b => O.quiet k && quietD O a && quietD O b

/-- Which items are harmless when the modes are `M`. -/
def safeItem (O : Ops) (M : Fld → Mode) (t : Tgt) (e : E) : Bool :=
  match t with
  | .loc _ => true
  | .init f => M f != .noWrites || loudE O e || quietE O e
  | .fld _ f => M f != .noWrites || quietE O e

/-- All fields a printed struct shows stay. -/
def allStay (M : Fld → Mode) (nf : Nat) : Bool :=
  (List.range nf).all fun f => M f != .noWrites && M f != .drop

mutual
/-- The pass removes accesses only from variables, drops only harmless values, and nothing prints a struct that loses
fields. -/
def safeE (O : Ops) (decl : Fld → Decl) (nf : Nat) (M : Fld → Mode) : E → Bool
  | .lit _ | .loc _ | .glob _ | .raise _ => true
  | .ext _ a b | .call _ a b | .seq a b | .loop a b => safeE O decl nf M a && safeE O decl nf M b
  | .read b f | .tryRead b f => safeE O decl nf M b && (M f != .noReads || isVar b)
  | .has b f => safeE O decl nf M b && (M f != .noReads || ! (decl f).opt || isVar b)
  | .assign b f src => safeE O decl nf M b && safeE O decl nf M src && (M f != .noWrites || isVar b)
  | .upd b _ _ a => safeE O decl nf M b && safeE O decl nf M a
  | .unset b _ => safeE O decl nf M b
  | .new is | .tasg is => safeIs O decl nf M is
  | .ite c a b => safeE O decl nf M c && safeE O decl nf M a && safeE O decl nf M b
  | .setl _ e | .setg _ e | .ret e => safeE O decl nf M e
  | .shw e => safeE O decl nf M e && allStay M nf
/-- The same for items. -/
def safeIs (O : Ops) (decl : Fld → Decl) (nf : Nat) (M : Fld → Mode) : Items → Bool
  | .nil => true
  | .cons t e rest => safeItem O M t e && safeE O decl nf M e && safeIs O decl nf M rest
end

/-- Programs for which the pass is expected to be harmless. -/
def Safe (O : Ops) (P : Prog) : Prop :=
  safeE O P.decl P.nf (mode P) P.main = true ∧
  (∀ e, e ∈ P.funs → safeE O P.decl P.nf (mode P) e = true) ∧
  ∀ f d, mode P f = .noWrites → (P.decl f).dflt = .expr d → quietD O d = true

mutual
/-- `x` is the expression itself or occurs in it: an independent account of "somewhere in the code". -/
inductive Within : E → E → Prop
  | refl (x) : Within x x
  | ext1 : Within x a → Within x (.ext k a b)
  | ext2 : Within x b → Within x (.ext k a b)
  | read : Within x b → Within x (.read b f)
  | tryRead : Within x b → Within x (.tryRead b f)
  | has : Within x b → Within x (.has b f)
  | assign1 : Within x b → Within x (.assign b f src)
  | assign2 : Within x src → Within x (.assign b f src)
  | upd1 : Within x b → Within x (.upd b f k a)
  | upd2 : Within x a → Within x (.upd b f k a)
  | unset : Within x b → Within x (.unset b f)
  | new : WithinIs x is → Within x (.new is)
  | tasg : WithinIs x is → Within x (.tasg is)
  | call1 : Within x a → Within x (.call g a b)
  | call2 : Within x b → Within x (.call g a b)
  | seq1 : Within x a → Within x (.seq a b)
  | seq2 : Within x b → Within x (.seq a b)
  | ite1 : Within x c → Within x (.ite c a b)
  | ite2 : Within x a → Within x (.ite c a b)
  | ite3 : Within x b → Within x (.ite c a b)
  | loop1 : Within x c → Within x (.loop c b)
  | loop2 : Within x b → Within x (.loop c b)
  | setl : Within x e → Within x (.setl n e)
  | setg : Within x e → Within x (.setg n e)
  | ret : Within x e → Within x (.ret e)
  | shw : Within x e → Within x (.shw e)
inductive WithinIs : E → Items → Prop
  | head : Within x e → WithinIs x (.cons t e rest)
  | tail : WithinIs x rest → WithinIs x (.cons t e rest)
end

/-- Does the list have an item for the target? -/
inductive HasTgt (t : Tgt) : Items → Prop
  | head : HasTgt t (.cons t e rest)
  | tail : HasTgt t rest → HasTgt t (.cons t' e rest)

/-- The target names the field. -/
inductive Names (f : Fld) : Tgt → Prop
  | fld : Names f (.fld b f)
  | init : Names f (.init f)

/-- The expression as such (not a part of it) accesses the field. -/
inductive Accesses (f : Fld) : E → Prop
  | read : Accesses f (.read b f)
  | tryRead : Accesses f (.tryRead b f)
  | has : Accesses f (.has b f)
  | assign : Accesses f (.assign b f src)
  | upd : Accesses f (.upd b f k a)
  | unset : Accesses f (.unset b f)
  | new : HasTgt t is → Names f t → Accesses f (.new is)
  | tasg : HasTgt t is → Names f t → Accesses f (.tasg is)

/-- Somewhere in the program the field is accessed. -/
def Mentioned (f : Fld) (P : Prog) : Prop :=
  ∃ e x, (e = P.main ∨ e ∈ P.funs) ∧ Within x e ∧ Accesses f x

end Verif.Opt.Fields
