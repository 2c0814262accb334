import Verif.Opt.ParamsSpec

/-!
# Model of the pass that optimizes parameters

`hilti/toolchain/src/compiler/optimizer/passes/optimize-parameters.cc`: unused parameters are removed, `copy` and `inout` parameters that
are not modified become `in` parameters. The collector's analysis of what is modified uses the data flow of `cfg.cc`. Not modelled: default values of parameters, parameters of units and
structs, aliases, containers.
-/

namespace Verif.Opt.Whole

section
variable (K : Fn → List Kind)

mutual
/-- Local variables the data flow always notes as changed: targets of assignments (`cfg.cc:861-885`), arguments for `inout` parameters
    (`cfg.cc:786-799`). Like `Expr.writes` without operators that change their operand. -/
def Expr.noted : Expr → List Nat
  | .lit _ => []
  | .name _ => []
  | .op _ as => as.noted
  | .mod _ _ => []
  | .assign (.loc x) e => x :: e.noted
  | .assign (.glob _) e => e.noted
  | .tern q a b => q.noted ++ (a.noted ++ b.noted)
  | .call f as => Exprs.inouts (K f) as ++ as.noted
/-- The same for a list. -/
def Exprs.noted : Exprs → List Nat
  | .nil => []
  | .cons e r => e.noted ++ r.noted
end

/-- Local names that are not operands of the operator itself: `isConstOperand` does not know them (`cfg.cc:86-135`). -/
def Exprs.inner : Exprs → List Nat
  | .nil => []
  | .cons (.name _) r => r.inner
  | .cons e r => e.locs ++ r.inner

/-- Local variables noted as changed by a statement that is an expression, or by a condition (`cfg.cc:888-928`). Names at the top of other expressions than assignments, names
    and operators are noted as changed. -/
def Expr.changed : Expr → List Nat
  | .lit _ => []
  | .name _ => []
  | .op _ as => as.noted K ++ as.inner
  | .mod _ (.loc x) => [x]
  | .mod _ (.glob _) => []
  | .assign (.loc x) e => x :: e.noted K
  | .assign (.glob _) e => e.noted K
  | .tern q a b => q.locs ++ (a.locs ++ b.locs)
  | .call f as => Exprs.inouts (K f) as ++ (as.noted K ++ as.inner)

/-- The same for a declaration: all other names are noted as read (`cfg.cc:892-911`). -/
def initChanged : Option (Nat × Expr) → List Nat
  | none => []
  | some (x, e) => x :: e.noted K

/-- The same for the expression of a `return` (`cfg.cc:915-922`). -/
def optChanged : Option Expr → List Nat
  | none => []
  | some e => e.noted K

mutual
/-- `modifiedParameters`, `optimize-parameters.cc:98-124`, with the local variables. -/
def Stmt.changed : Stmt → List Nat
  | .expr e => e.changed K
  | .decl x e => x :: e.noted K
  | .ret e => optChanged K e
  | .throw_ e => e.locs
  | .brk => []
  | .cont => []
  | .block b => b.changed
  | .ite i q t e => initChanged K i ++ (q.changed K ++ (t.changed ++ e.changed))
  | .while_ i q b e => initChanged K i ++ (q.changed K ++ (b.changed ++ e.changed))
  | .try_ b h => b.changed ++ h.changed
/-- The same for a list. -/
def Stmts.changed : Stmts → List Nat
  | .nil => []
  | .cons s r => s.changed ++ r.changed
end
end

/-! ## Promotion to `in` -/

/-- `collectPromotable` for the parameters of an implementation, `optimize-parameters.cc:145-165`; `m`: what its body modifies. -/
def promoteKinds (m : List Nat) : List Nat → List Kind → List Kind
  | x :: xs, k :: ks => (if m.contains x then k else .in_) :: promoteKinds m xs ks
  | _, ks => ks

/-- Parameters of the prototype: those of the same kind as a parameter that is promoted (`old`: kinds of the prototype, `ik`, `ik'`:
    of the implementation, before and after), `optimize-parameters.cc:160-162`. -/
def promoteProto : List Kind → List Kind → List Kind → List Kind → List Kind
  | o :: old, k :: ik, k' :: ik', a :: acc => (if k = o ∧ k' = .in_ then .in_ else a) :: promoteProto old ik ik' acc
  | _, _, _, acc => acc

/-- An implementation after promotion. -/
def Impl.promote (K : Fn → List Kind) (i : Impl) : Impl :=
  { i with kinds := promoteKinds (i.body.changed K) i.params i.kinds }

/-- A function after promotion, `optimize-parameters.cc:167-174, 347-372`. -/
def Fun.promote (K : Fn → List Kind) (F : Fun) : Fun :=
  if F.fixed then F else
    { F with
      kinds := F.impls.foldl (fun acc i => promoteProto F.kinds i.kinds (i.promote K).kinds acc) F.kinds
      impls := F.impls.map (Impl.promote K) }

/-- A program after promotion. -/
def promote (P : Prog) : Prog := P.map fun x => (x.1, x.2.promote P.kinds)

/-! ## Removal of unused parameters -/

/-- An argument is a call of a function (not of a method). `optimize-parameters.cc:60-63`. -/
def Prog.functionCall (P : Prog) : Expr → Bool
  | .call g _ => match P.get g with
    | some G => !G.method
    | none => false
  | _ => false

/-- All calls in a program. -/
def Prog.uses (P : Prog) : List (Fn × Exprs) := P.flatMap fun x => x.2.impls.flatMap fun i => i.body.invocations

/-- `usesContainSideEffects`, `optimize-parameters.cc:38-67`. -/
def Prog.effectful (P : Prog) (f : Fn) : Bool := P.uses.any fun c => c.1 == f && c.2.toList.any P.functionCall

/-- `unused_params`: the positions that are removed. `optimize-parameters.cc:69-96, 176-247`. -/
def Prog.unused (P : Prog) (f : Fn) (j : Nat) : Bool :=
  match P.get f with
  | none => false
  | some F => !F.fixed && F.lead && (F.method || !F.impls.isEmpty) && !P.effectful f && decide (j < F.kinds.length)
      && F.impls.all fun i => match i.params[j]? with
        | some x => !i.body.locs.contains x
        | none => true

/-- There are parameters to be removed. -/
def Prog.prunes (P : Prog) (f : Fn) : Bool := (List.range (P.kinds f).length).any fun j => P.unused f j

/-- `std::erase` at positions, `optimize-parameters.cc:271-277, 318-324`. -/
def dropAt {α : Type} (r : Nat → Bool) : List α → List α
  | [] => []
  | a :: l => if r 0 then dropAt (fun j => r (j + 1)) l else a :: dropAt (fun j => r (j + 1)) l

/-- The same for arguments. -/
def Exprs.dropAt (r : Nat → Bool) : Exprs → Exprs
  | .nil => .nil
  | .cons e l => if r 0 then Exprs.dropAt (fun j => r (j + 1)) l else .cons e (Exprs.dropAt (fun j => r (j + 1)) l)

/-- When a function is processed: the order of declarations. -/
def Prog.rank : Prog → Fn → Nat
  | [], _ => 0
  | (g, _) :: P, f => if f = g then 0 else Prog.rank P f + 1

section
variable (r : Fn → Nat → Bool) (prunes : Fn → Bool) (rank : Fn → Nat)

mutual
/-- Arguments are removed from the calls the collector saw, function by function (`pruneFromUses`, `optimize-parameters.cc:287-309`). The new
    tuple of arguments has copies of the old arguments, as these have a parent (`ast/node.cc:152-157, 164-178`): calls inside of them that the collector saw are
    no longer part of the program. `out`: functions whose calls enclose the expression; if one of them comes first the call here is such a copy. -/
def pruneE (out : List Fn) : Expr → Expr
  | .lit v => .lit v
  | .name x => .name x
  | .op o as => .op o (pruneEs out as)
  | .mod o x => .mod o x
  | .assign x e => .assign x (pruneE out e)
  | .tern q a b => .tern (pruneE out q) (pruneE out a) (pruneE out b)
  | .call f as =>
    if out.any fun g => rank g ≤ rank f then .call f (pruneEs out as)
    else if prunes f then .call f ((pruneEs (f :: out) as).dropAt (r f))
    else .call f (pruneEs out as)
/-- The same for a list. -/
def pruneEs (out : List Fn) : Exprs → Exprs
  | .nil => .nil
  | .cons e l => .cons (pruneE out e) (pruneEs out l)
end

/-- The same for a head. -/
def pruneI : Option (Nat × Expr) → Option (Nat × Expr)
  | none => none
  | some (x, e) => some (x, pruneE r prunes rank [] e)

/-- The same for an optional expression. -/
def pruneO : Option Expr → Option Expr
  | none => none
  | some e => some (pruneE r prunes rank [] e)

mutual
/-- The same for a statement. -/
def prune : Stmt → Stmt
  | .expr e => .expr (pruneE r prunes rank [] e)
  | .decl x e => .decl x (pruneE r prunes rank [] e)
  | .ret e => .ret (pruneO r prunes rank e)
  | .throw_ e => .throw_ (pruneE r prunes rank [] e)
  | .brk => .brk
  | .cont => .cont
  | .block b => .block (prunes' b)
  | .ite i q t e => .ite (pruneI r prunes rank i) (pruneE r prunes rank [] q) (prunes' t) (prunes' e)
  | .while_ i q b e => .while_ (pruneI r prunes rank i) (pruneE r prunes rank [] q) (prunes' b) (prunes' e)
  | .try_ b h => .try_ (prunes' b) (prunes' h)
/-- The same for statements. -/
def prunes' : Stmts → Stmts
  | .nil => .nil
  | .cons s l => .cons (prune s) (prunes' l)
end
end

/-- `pruneFromDecl`, `optimize-parameters.cc:311-328`, and the calls in the bodies. -/
def Fun.prune (r : Fn → Nat → Bool) (pr : Fn → Bool) (rank : Fn → Nat) (f : Fn) (F : Fun) : Fun :=
  { F with
    kinds := Whole.dropAt (r f) F.kinds
    impls := F.impls.map fun i =>
      { params := Whole.dropAt (r f) i.params, kinds := Whole.dropAt (r f) i.kinds, body := prunes' r pr rank i.body } }

/-- A program after removal of parameters. -/
def pruneProg (r : Fn → Nat → Bool) (pr : Fn → Bool) (rank : Fn → Nat) (P : Prog) : Prog :=
  P.map fun x => (x.1, x.2.prune r pr rank x.1)

/-- One run of the pass, `optimize-parameters.cc:375-383`. -/
def optimizeParams (P : Prog) : Prog := pruneProg P.unused P.prunes P.rank (promote P)

end Verif.Opt.Whole
