/-!
# Removing unused struct fields

Models `hilti/toolchain/src/compiler/optimizer/passes/remove-unused-fields.cc` on a small language of expressions over
heap-allocated structs, with the meaning `hilti/toolchain/src/compiler/codegen/operators.cc` and `types.cc` give to
field accesses.

Simplifications, for the whole file: one struct type; void results are not observable, so `unset e.f` yields the value
of `e`; there is no exception handler; statements are expressions.
-/

namespace Verif.Opt.Fields

abbrev Fld := Nat

/-- Values: integers, booleans, references to structs and the null reference. -/
inductive Val
  | int (i : Int) | bool (b : Bool) | ref (o : Nat) | null
  deriving DecidableEq, Repr

/-- Ways a run throws: a user-level exception, `UnsetOptional`, `AttributeNotSet`
(hilti/runtime/include/exception.h:142,207), and the null dereference of a reference. -/
inductive Exn
  | user (c : Nat) | unsetOptional | attributeNotSet | nullRef
  deriving DecidableEq, Repr

/-- All operators that do not touch struct fields: on values and the output, possibly throwing. `eff` is the answer
`cfg::Cache::mayHaveSideEffects` (hilti/toolchain/src/compiler/cfg.cc:1292-1324) gets from the data flow for the
operator alone. `quiet` is not part of the compiler: it marks operators that do nothing but compute a value. -/
structure Ops where
  run : Nat → Val → Val → List Val → Except Nat Val × List Val
  eff : Nat → Bool
  quiet : Nat → Bool

/-- Expressions of `&default` attributes: constants, globals, operators. Simplification: no field accesses in them, and
functions called there count as operators. -/
inductive DE
  | lit (v : Val) | glob (n : Nat) | ext (k : Nat) (a b : DE)
  deriving DecidableEq, Repr

/-- `&default` of a field: absent, a constant (`expression::Ctor`), or another expression. -/
inductive Dflt
  | none | const (v : Val) | expr (d : DE)
  deriving DecidableEq, Repr

/-- A struct field declaration. `keep`: `considerField` (remove-unused-fields.cc:63-80) says no for a reason other than
`&no-emit`; `gone`: `&no-emit`; `zero`: the default value of its type. -/
structure Decl where
  opt : Bool
  dflt : Dflt
  zero : Val
  keep : Bool
  gone : Bool
  deriving DecidableEq, Repr

/-- Targets in an item list: a local, a field of the struct a local refers to, or (in a struct constructor) a field. -/
inductive Tgt
  | loc (n : Nat) | fld (b : Nat) (f : Fld) | init (f : Fld)
  deriving DecidableEq, Repr

mutual
/-- Expressions. `read` is `e.f`, `tryRead` is `e.?f`, `has` is `e?.f`; `upd` is an access that both reads and writes
(`e.f += a`, a mutating method on `e.f`); `new` is a struct constructor with field initialisers; `tasg` is
`(t1, t2, ..) = (e1, e2, ..)`; `raise` is a call of `hilti::throw_attribute_not_set` / `throw_unset_optional`; `shw`
prints a value, a struct field by field. -/
inductive E
  | lit (v : Val) | loc (n : Nat) | glob (n : Nat)
  | ext (k : Nat) (a b : E)
  | read (b : E) (f : Fld) | tryRead (b : E) (f : Fld) | has (b : E) (f : Fld)
  | assign (b : E) (f : Fld) (src : E)
  | upd (b : E) (f : Fld) (k : Nat) (a : E)
  | unset (b : E) (f : Fld)
  | new (is : Items)
  | tasg (is : Items)
  | call (g : Nat) (a b : E)
  | seq (a b : E)
  | ite (c a b : E)
  | loop (c b : E)
  | setl (n : Nat) (e : E) | setg (n : Nat) (e : E)
  | ret (e : E)
  | raise (attr : Bool)
  | shw (e : E)
/-- Item lists of struct constructors and tuple assignments. -/
inductive Items
  | nil
  | cons (t : Tgt) (e : E) (rest : Items)
end

/-- A program: the fields of its struct type, its functions (two parameters each) and its entry point. -/
structure Prog where
  nf : Nat
  decl : Fld → Decl
  funs : List E
  main : E

/-- A program state: locals, globals, what has been printed, and the structs allocated so far. -/
structure St where
  loc : Nat → Val
  glob : Nat → Val
  out : List Val
  heap : Nat → Fld → Option Val
  next : Nat

/-- How an evaluation ends. -/
inductive R
  | ok (v : Val) (s : St)
  | ret (v : Val) (s : St)
  | exn (x : Exn) (s : St)

/-- Continue after a value; returns and exceptions propagate; `none` is "not finished with this much fuel". -/
def bind (r : Option R) (k : Val → St → Option R) : Option R :=
  match r with
  | some (.ok v s) => k v s
  | some (.ret v s) => some (.ret v s)
  | some (.exn x s) => some (.exn x s)
  | none => none

/-- The result of applying an operator. -/
def apply (O : Ops) (k : Nat) (a b : Val) (s : St) : Option R :=
  match O.run k a b s.out with
  | (.ok v, out) => some (.ok v { s with out := out })
  | (.error c, out) => some (.exn (.user c) { s with out := out })

/-- Evaluating a default expression. -/
def evalD (O : Ops) : DE → St → Option R
  | .lit v, s => some (.ok v s)
  | .glob n, s => some (.ok (s.glob n) s)
  | .ext k a b, s => bind (evalD O a s) fun va s => bind (evalD O b s) fun vb s => apply O k va vb s

/-- Going through a reference. -/
def deref (v : Val) (s : St) (k : Nat → Option R) : Option R :=
  match v with
  | .ref o => if o < s.next then k o else some (.exn .nullRef s)
  | _ => some (.exn .nullRef s)

/-- Storing into a field. -/
def store (s : St) (o : Nat) (f : Fld) (v : Option Val) : St :=
  { s with heap := fun o' f' => if o' = o ∧ f' = f then v else s.heap o' f' }

/-- Storing into a local. -/
def setLoc (s : St) (n : Nat) (v : Val) : St :=
  { s with loc := fun n' => if n' = n then v else s.loc n' }

/-- Storing into a global. -/
def setGlob (s : St) (n : Nat) (v : Val) : St :=
  { s with glob := fun n' => if n' = n then v else s.glob n' }

/-- Reading a field, `structMember` and `TryMember` (operators.cc:885-911, 954-972): `valueOr(default)` — the argument
is evaluated in any case —, `value()`/`value_or_exception` for optional fields, else the member.
Simplification: `.?` on a field with a default is taken to be `valueOr` (the code emits `e.value_or(d)`, without the
field). -/
def readFld (O : Ops) (d : Decl) (attr : Bool) (o : Nat) (f : Fld) (s : St) : Option R :=
  if d.opt then
    match d.dflt with
    | .none =>
      match s.heap o f with
      | some v => some (.ok v s)
      | none => some (.exn (if attr then .attributeNotSet else .unsetOptional) s)
    | .const v => some (.ok ((s.heap o f).getD v) s)
    | .expr e => bind (evalD O e s) fun v s => some (.ok ((s.heap o f).getD v) s)
  else some (.ok ((s.heap o f).getD d.zero) s)

/-- What a field access on the left of an assignment evaluates first: the argument of `valueOrInit(default)`
(operators.cc:897-902). -/
def preWrite (O : Ops) (d : Decl) (s : St) : Option R :=
  if d.opt then
    match d.dflt with
    | .expr e => bind (evalD O e s) fun _ s => some (.ok .null s)
    | _ => some (.ok .null s)
  else some (.ok .null s)

/-- `e.f = v` once `e` and `v` are values. -/
def writeFld (O : Ops) (d : Decl) (b : Val) (f : Fld) (v : Val) (s : St) : Option R :=
  deref b s fun o => bind (preWrite O d s) fun _ s => some (.ok v (store s o f (some v)))

/-- What the C++ constructor puts into a field whose default is no expression (types.cc:249-271). -/
def initCell (d : Decl) : Option Val :=
  if d.gone then none
  else if d.opt then none
  else match d.dflt with
    | .const v => some v
    | _ => some d.zero

/-- The defaults that are expressions, evaluated by the C++ constructor field after field (types.cc:253-268); a field
that is not emitted has no statement in the constructor (types.cc:226-242). -/
def ctorExprs (O : Ops) (decl : Fld → Decl) : List Fld → (Fld → Option Val) → St →
    ((Fld → Option Val) → St → Option R) → Option R
  | [], c, s, k => k c s
  | f :: fs, c, s, k =>
    match (decl f).dflt with
    | .expr e =>
      if (decl f).gone || (decl f).opt then ctorExprs O decl fs c s k
      else bind (evalD O e s) fun v s => ctorExprs O decl fs (fun f' => if f' = f then some v else c f') s k
    | _ => ctorExprs O decl fs c s k

/-- Applying the initialisers of a struct constructor. -/
def applyInits : Items → List Val → (Fld → Option Val) → (Fld → Option Val)
  | .cons (.init f) _ rest, v :: vs, c => applyInits rest vs (fun f' => if f' = f then some v else c f')
  | .cons _ _ rest, _ :: vs, c => applyInits rest vs c
  | _, _, c => c

/-- Allocating a struct. -/
def alloc (s : St) (c : Fld → Option Val) : Option R :=
  some (.ok (.ref s.next) { s with heap := fun o f => if o = s.next then c f else s.heap o f, next := s.next + 1 })

/-- Assigning the values of a tuple to the targets. -/
def assignAll (O : Ops) (decl : Fld → Decl) : Items → List Val → St → Option R
  | .cons (.loc n) _ rest, v :: vs, s => assignAll O decl rest vs (setLoc s n v)
  | .cons (.fld b f) _ rest, v :: vs, s =>
    bind (writeFld O (decl f) (s.loc b) f v s) fun _ s => assignAll O decl rest vs s
  | .cons (.init _) _ rest, _ :: vs, s => assignAll O decl rest vs s
  | _, _, s => some (.ok .null s)

/-- Is a condition true? -/
def truthy : Val → Bool
  | .bool b => b
  | _ => false

/-- `while`, with at most `n` tests of the condition. -/
def loopN : Nat → (St → Option R) → (St → Option R) → St → Option R
  | 0, _, _, _ => none
  | n + 1, c, b, s =>
    bind (c s) fun v s => if truthy v then bind (b s) fun _ s => loopN n c b s else some (.ok .null s)

/-- What evaluation needs from outside the expression: the functions, and the fuel for loops. -/
structure Handler where
  call : Nat → Val → Val → St → Option R
  fuel : Nat

/-- Printing: a struct shows its emitted fields in order. -/
def shown (decl : Fld → Decl) (nf : Nat) (v : Val) (s : St) : List Val :=
  match v with
  | .ref o => ((List.range nf).filter fun f => ! (decl f).gone).map fun f => (s.heap o f).getD .null
  | v => [v]

mutual
/-- Evaluation of an expression. -/
def evalE (O : Ops) (decl : Fld → Decl) (nf : Nat) (H : Handler) : E → St → Option R
  | .lit v, s => some (.ok v s)
  | .loc n, s => some (.ok (s.loc n) s)
  | .glob n, s => some (.ok (s.glob n) s)
  | .ext k a b, s =>
    bind (evalE O decl nf H a s) fun va s => bind (evalE O decl nf H b s) fun vb s => apply O k va vb s
  | .read b f, s => bind (evalE O decl nf H b s) fun v s => deref v s fun o => readFld O (decl f) false o f s
  | .tryRead b f, s => bind (evalE O decl nf H b s) fun v s => deref v s fun o => readFld O (decl f) true o f s
  | .has b f, s =>
    if (decl f).opt then
      bind (evalE O decl nf H b s) fun v s => deref v s fun o => some (.ok (.bool (s.heap o f).isSome) s)
    else some (.ok (.bool true) s)
  | .assign b f src, s =>
    bind (evalE O decl nf H src s) fun v s => bind (evalE O decl nf H b s) fun vb s => writeFld O (decl f) vb f v s
  | .upd b f k a, s =>
    bind (evalE O decl nf H a s) fun v s => bind (evalE O decl nf H b s) fun vb s =>
      deref vb s fun o => bind (readFld O (decl f) false o f s) fun w s =>
        bind (apply O k w v s) fun r s => some (.ok r (store s o f (some r)))
  | .unset b f, s =>
    bind (evalE O decl nf H b s) fun v s => deref v s fun o =>
      some (.ok v (if (decl f).opt then store s o f none else s))
  | .new is, s =>
    evalIs O decl nf H is s fun vs s =>
      ctorExprs O decl (List.range nf) (fun f => initCell (decl f)) s fun c s => alloc s (applyInits is vs c)
  | .tasg is, s => evalIs O decl nf H is s fun vs s => assignAll O decl is vs s
  | .call g a b, s =>
    bind (evalE O decl nf H a s) fun va s => bind (evalE O decl nf H b s) fun vb s => H.call g va vb s
  | .seq a b, s => bind (evalE O decl nf H a s) fun _ s => evalE O decl nf H b s
  | .ite c a b, s =>
    bind (evalE O decl nf H c s) fun v s => if truthy v then evalE O decl nf H a s else evalE O decl nf H b s
  | .loop c b, s => loopN H.fuel (fun s => evalE O decl nf H c s) (fun s => evalE O decl nf H b s) s
  | .setl n e, s => bind (evalE O decl nf H e s) fun v s => some (.ok v (setLoc s n v))
  | .setg n e, s => bind (evalE O decl nf H e s) fun v s => some (.ok v (setGlob s n v))
  | .ret e, s => bind (evalE O decl nf H e s) fun v s => some (.ret v s)
  | .raise attr, s => some (.exn (if attr then .attributeNotSet else .unsetOptional) s)
  | .shw e, s => bind (evalE O decl nf H e s) fun v s => some (.ok .null { s with out := s.out ++ shown decl nf v s })
/-- Evaluation of the items of a constructor or tuple, in order. -/
def evalIs (O : Ops) (decl : Fld → Decl) (nf : Nat) (H : Handler) :
    Items → St → (List Val → St → Option R) → Option R
  | .nil, s, k => k [] s
  | .cons _ e rest, s, k =>
    bind (evalE O decl nf H e s) fun v s => evalIs O decl nf H rest s fun vs s => k (v :: vs) s
end

/-- Running a function body on two arguments: fresh locals, and the caller's back afterwards. -/
def frame (body : St → Option R) (a b : Val) (s : St) : Option R :=
  match body { s with loc := fun n => if n = 0 then a else if n = 1 then b else .null } with
  | some (.ok v t) => some (.ok v { t with loc := s.loc })
  | some (.ret v t) => some (.ok v { t with loc := s.loc })
  | some (.exn x t) => some (.exn x { t with loc := s.loc })
  | none => none

/-- What is available with a given amount of fuel: calls nested at most that deep. A function the program does not
define does nothing. -/
def handler (O : Ops) (P : Prog) : Nat → Handler
  | 0 => { call := fun _ _ _ _ => none, fuel := 0 }
  | n + 1 =>
    { call := fun g a b s =>
        match P.funs[g]? with
        | some body => frame (fun s => evalE O P.decl P.nf (handler O P n) body s) a b s
        | none => some (.ok .null s)
      fuel := n + 1 }

/-- Running the program from a state. -/
def run (O : Ops) (P : Prog) (n : Nat) (s : St) : Option R :=
  evalE O P.decl P.nf (handler O P n) P.main s

/-! ## The collector -/

mutual
/-- Does the collector record a read of field `f` in the expression? `HasMember`, `MemberConst`, `TryMember`, and
`MemberNonConst` other than as the target of an assignment (remove-unused-fields.cc:132-161). -/
def reads (f : Fld) : E → Bool
  | .lit _ | .loc _ | .glob _ | .raise _ => false
  | .ext _ a b | .call _ a b | .seq a b | .loop a b => reads f a || reads f b
  | .read b g | .tryRead b g | .has b g => g == f || reads f b
  | .assign b _ src => reads f b || reads f src
  | .upd b g _ a => g == f || reads f b || reads f a
  | .unset b _ => reads f b
  | .new is | .tasg is => readsIs f is
  | .ite c a b => reads f c || reads f a || reads f b
  | .setl _ e | .setg _ e | .ret e | .shw e => reads f e
/-- The same for items. -/
def readsIs (f : Fld) : Items → Bool
  | .nil => false
  | .cons _ e rest => reads f e || readsIs f rest
end

/-- Is the target the field? -/
def Tgt.writes (f : Fld) : Tgt → Bool
  | .loc _ => false
  | .fld _ g => g == f
  | .init g => g == f

mutual
/-- Does the collector record a write of field `f` in the expression? Struct constructor initialisers, assignment
targets, elements of the left side of a tuple assignment, and accesses that modify (remove-unused-fields.cc:104-157). -/
def writes (f : Fld) : E → Bool
  | .lit _ | .loc _ | .glob _ | .raise _ => false
  | .ext _ a b | .call _ a b | .seq a b | .loop a b => writes f a || writes f b
  | .read b _ | .tryRead b _ | .has b _ => writes f b
  | .assign b g src => g == f || writes f b || writes f src
  | .upd b g _ a => g == f || writes f b || writes f a
  | .unset b _ => writes f b
  | .new is | .tasg is => writesIs f is
  | .ite c a b => writes f c || writes f a || writes f b
  | .setl _ e | .setg _ e | .ret e | .shw e => writes f e
/-- The same for items. -/
def writesIs (f : Fld) : Items → Bool
  | .nil => false
  | .cons t e rest => t.writes f || writes f e || writesIs f rest
end

/-- What the mutator does about a field (remove-unused-fields.cc:340-357). -/
inductive Mode
  | keep | drop | noWrites | noReads
  deriving DecidableEq, Repr

/-- Is the default an expression that is no constant? -/
def Dflt.isExpr : Dflt → Bool
  | .expr _ => true
  | _ => false

/-- Reads of a field in the whole program. -/
def readsP (P : Prog) (f : Fld) : Bool := reads f P.main || P.funs.any (reads f)

/-- Writes of a field in the whole program, a non-constant default included (remove-unused-fields.cc:118-131). -/
def writesP (P : Prog) (f : Fld) : Bool :=
  (P.decl f).dflt.isExpr || writes f P.main || P.funs.any (writes f)

/-- The decision for a field. -/
def mode (P : Prog) (f : Fld) : Mode :=
  if (P.decl f).keep || (P.decl f).gone then .keep
  else match readsP P f, writesP P f with
    | false, false => .drop
    | false, true => .noWrites
    | true, false => .noReads
    | true, true => .keep

/-! ## The mutator -/

mutual
/-- `cfg::Cache::mayHaveSideEffects` (cfg.cc:1292-1324): names and constants have none; otherwise the data flow of the
expression decides, for which reading a member is no effect, and a call, an assignment or a new object is one. -/
def mayEff (O : Ops) : E → Bool
  | .lit _ | .loc _ | .glob _ => false
  | .ext k a b => O.eff k || mayEff O a || mayEff O b
  | .read b _ | .tryRead b _ | .has b _ => mayEff O b
  | _ => true
end

/-- `removeReads` (remove-unused-fields.cc:184-231): what replaces a read of a field that is never written. -/
def replRead (d : Decl) (attr : Bool) : E :=
  if d.opt then
    match d.dflt with
    | .const v => .lit v
    | _ => .raise attr
  else
    match d.dflt with
    | .const v => .lit v
    | _ => .lit d.zero

/-- Does the field's mode ask for removing writes? -/
def Mode.isNoWrites : Mode → Bool
  | .noWrites => true
  | _ => false

/-- Does the field's mode ask for removing reads? -/
def Mode.isNoReads : Mode → Bool
  | .noReads => true
  | _ => false

/-- Is the field removed? -/
def Mode.isDrop : Mode → Bool
  | .drop => true
  | _ => false

/-- Is an item removed? A struct constructor's initialiser if its expression has no side effects
(remove-unused-fields.cc:246-260), a tuple element always (remove-unused-fields.cc:262-309). -/
def dropItem (O : Ops) (M : Fld → Mode) (t : Tgt) (e : E) : Bool :=
  match t with
  | .loc _ => false
  | .init f => (M f).isNoWrites && ! mayEff O e
  | .fld _ f => (M f).isNoWrites

/-- `{old_element, rhs}`: tuple elements that are removed but may have effects are evaluated in front
(remove-unused-fields.cc:276-286). Simplification: several of them in tuple order, in the code this second time does
not find a tuple on the right. -/
def group : List E → E → E
  | [], e => e
  | p :: ps, e => .seq p (group ps e)

mutual
/-- The mutator on an expression: `removeReads`, `removeWrites`, `removeUnsets`
(remove-unused-fields.cc:184-338). -/
def tr (O : Ops) (decl : Fld → Decl) (M : Fld → Mode) : E → E
  | .lit v => .lit v
  | .loc n => .loc n
  | .glob n => .glob n
  | .ext k a b => .ext k (tr O decl M a) (tr O decl M b)
  | .read b f => if (M f).isNoReads then replRead (decl f) false else .read (tr O decl M b) f
  | .tryRead b f => if (M f).isNoReads then replRead (decl f) true else .tryRead (tr O decl M b) f
  | .has b f => if (M f).isNoReads then .lit (.bool (! (decl f).opt)) else .has (tr O decl M b) f
  | .assign b f src =>
    if (M f).isNoWrites then tr O decl M src else .assign (tr O decl M b) f (tr O decl M src)
  | .upd b f k a => .upd (tr O decl M b) f k (tr O decl M a)
  | .unset b f => if (M f).isDrop then tr O decl M b else .unset (tr O decl M b) f
  | .new is => .new (trIs O decl M is)
  | .tasg is => group (fronts O decl M is) (.tasg (trIs O decl M is))
  | .call g a b => .call g (tr O decl M a) (tr O decl M b)
  | .seq a b => .seq (tr O decl M a) (tr O decl M b)
  | .ite c a b => .ite (tr O decl M c) (tr O decl M a) (tr O decl M b)
  | .loop c b => .loop (tr O decl M c) (tr O decl M b)
  | .setl n e => .setl n (tr O decl M e)
  | .setg n e => .setg n (tr O decl M e)
  | .ret e => .ret (tr O decl M e)
  | .raise attr => .raise attr
  | .shw e => .shw (tr O decl M e)
/-- The items that remain. -/
def trIs (O : Ops) (decl : Fld → Decl) (M : Fld → Mode) : Items → Items
  | .nil => .nil
  | .cons t e rest =>
    if dropItem O M t e then trIs O decl M rest else .cons t (tr O decl M e) (trIs O decl M rest)
/-- The removed tuple elements that may have effects. -/
def fronts (O : Ops) (decl : Fld → Decl) (M : Fld → Mode) : Items → List E
  | .nil => []
  | .cons t e rest =>
    if dropItem O M t e && mayEff O e then tr O decl M e :: fronts O decl M rest else fronts O decl M rest
end

/-- The mutator on a declaration: `&no-emit` for a removed field (remove-unused-fields.cc:176-182), no non-constant
default for one that is never read (remove-unused-fields.cc:319-323). -/
def trDecl (d : Decl) (m : Mode) : Decl :=
  match m with
  | .drop => { d with gone := true }
  | .noWrites => if d.dflt.isExpr then { d with dflt := .none } else d
  | _ => d

/-- One run of the pass (remove-unused-fields.cc:361-369). -/
def pass (O : Ops) (P : Prog) : Prog :=
  { nf := P.nf
    decl := fun f => trDecl (P.decl f) (mode P f)
    funs := P.funs.map (tr O P.decl (mode P))
    main := tr O P.decl (mode P) P.main }

end Verif.Opt.Fields
