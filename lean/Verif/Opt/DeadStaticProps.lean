import Verif.Opt.WholeMono
import Verif.Opt.DeadStatic
import Verif.Opt.DeadStaticSpec

/-!
# Removing statically dead code keeps what programs do (C83)
-/

namespace Verif.Opt.Whole

variable {M : Sem}

mutual
theorem plain_of_busy : (e : Expr) → e.busy = false → e.plain = true
  | .lit _, _ => rfl
  | .name _, h => by simp [Expr.busy] at h
  | .op _ as, h => by simp only [Expr.busy] at h; simp only [Expr.plain, plains_of_busy as h]
  | .mod _ _, h => by simp [Expr.busy] at h
  | .assign _ _, h => by simp [Expr.busy] at h
  | .tern q a b, h => by
    simp only [Expr.busy, Bool.or_eq_false_iff] at h
    simp only [Expr.plain, plain_of_busy q h.1.1, plain_of_busy a h.1.2, plain_of_busy b h.2, Bool.and_self]
  | .call _ _, h => by simp [Expr.busy] at h
theorem plains_of_busy : (as : Exprs) → as.busy = false → as.plain = true
  | .nil, _ => rfl
  | .cons e r, h => by
    simp only [Exprs.busy, Bool.or_eq_false_iff] at h
    simp only [Exprs.plain, plain_of_busy e h.1, plains_of_busy r h.2, Bool.and_self]
end

theorem plains_of_deep : (as : Exprs) → as.deep = false → as.plain = true
  | .nil, _ => rfl
  | .cons e r, h => by
    cases e with
    | name x => simp only [Exprs.deep] at h; simp only [Exprs.plain, Expr.plain, plains_of_deep r h, Bool.and_self]
    | _ =>
      simp only [Exprs.deep, Bool.or_eq_false_iff] at h
      simp only [Exprs.plain, plain_of_busy _ h.1, plains_of_deep r h.2, Bool.and_self]

/-- What the analysis takes to have no side effects calls nothing and changes nothing. -/
theorem plain_of_effects {e : Expr} (h : e.effects = false) : e.plain = true := by
  cases e with
  | lit v => rfl
  | name x => rfl
  | op o as => simp only [Expr.effects] at h; simp only [Expr.plain, plains_of_deep as h]
  | mod o x => simp [Expr.effects] at h
  | assign x e => simp [Expr.effects] at h
  | tern q a b => exact plain_of_busy _ (by simpa only [Expr.effects, Expr.busy] using h)
  | call f as => simp [Expr.effects] at h

theorem boolLit_eq {e : Expr} {b : Bool} (h : boolLit e = some b) : e = .lit (.bool b) := by
  cases e with
  | lit v => cases v with
    | bool b' => simp only [boolLit, Option.some.injEq] at h; rw [h]
    | void => simp [boolLit] at h
    | int i => simp [boolLit] at h
  | name x => simp [boolLit] at h
  | op o as => simp [boolLit] at h
  | mod o x => simp [boolLit] at h
  | assign x e => simp [boolLit] at h
  | tern q a b => simp [boolLit] at h
  | call f as => simp [boolLit] at h

theorem evalArgs_harmless {c : Calls M} {K : Fn → List Kind} {env : Nat → Loc} {d : Nat} :
    ∀ (as : Exprs), (∀ e ∈ as.toList, Harmless M e) → ∀ ks s, ∃ vs, evalArgs c K env d ks as s = some (.vals vs s)
  | .nil, _, ks, s => ⟨[], by simp only [evalArgs]⟩
  | .cons e r, h, ks, s => by
    obtain ⟨v, hv⟩ := h e (by simp [Exprs.toList]) c K env d s
    obtain ⟨vs, hr⟩ := evalArgs_harmless (c := c) (K := K) (env := env) (d := d) r (fun x hx => h x (by simp [Exprs.toList, hx])) ks.tail s
    cases hb : byRef env (ks.headD .copy) e with
    | some l => exact ⟨.ref l :: vs, by simp only [evalArgs, hb, hr]⟩
    | none => exact ⟨.val v :: vs, by simp only [evalArgs, hb, hv, hr]⟩

section
variable {U : Fn → Option Val} {c : Calls M} {K : Fn → List Kind} {env : Nat → Loc} {d : Nat}

/-- Calls of unimplemented hooks return the default value. -/
def Skips (U : Fn → Option Val) (c : Calls M) : Prop := ∀ f v, U f = some v → ∀ args d s, c f args d s = some (.val v s)

/-- Conditions on the calls in a piece of code. -/
def ArgsOk (M : Sem) (U : Fn → Option Val) (l : List (Fn × Exprs)) : Prop :=
  ∀ x ∈ l, ((U x.1).isSome → ∀ e ∈ x.2.toList, Harmless M e) ∧ ∀ e ∈ x.2.toList, ¬ PicksName e

theorem ArgsOk.sub {l l' : List (Fn × Exprs)} (h : ArgsOk M U l) (hs : ∀ x ∈ l', x ∈ l) : ArgsOk M U l' :=
  fun x hx => h x (hs x hx)

/-- The visit of an expression keeps how it is passed. -/
theorem byRef_visit (k : Kind) (e : Expr) (h : k = .copy ∨ ¬ PicksName e) : byRef env k (visitE U e) = byRef env k e := by
  cases h with
  | inl h => subst h; rfl
  | inr h =>
    cases e with
    | lit v => simp only [visitE]
    | name x => simp only [visitE]
    | op o as => simp only [visitE]; cases k <;> rfl
    | mod o x => simp only [visitE]
    | assign x e => simp only [visitE]; cases k <;> rfl
    | call f as => simp only [visitE]; cases U f <;> cases k <;> rfl
    | tern q a b =>
      simp only [visitE]
      cases hq : boolLit q with
      | none => cases k <;> rfl
      | some v =>
        have := boolLit_eq hq
        subst this
        cases v with
        | true =>
          simp only
          have ha : ∀ x, a ≠ .name x := fun x hx => h ⟨x, b, .inl (by rw [hx])⟩
          cases k <;> cases a <;> first | rfl | exact absurd rfl (ha _)
        | false =>
          simp only
          have ha : ∀ x, b ≠ .name x := fun x hx => h ⟨x, a, .inr (by rw [hx])⟩
          cases k <;> cases b <;> first | rfl | exact absurd rfl (ha _)

mutual
theorem eval_visit (hs : Skips U c) : (e : Expr) → ArgsOk M U e.invocations → ∀ s,
    eval c K env d (visitE U e) s = eval c K env d e s
  | .lit v, _, s => by simp only [visitE]
  | .name x, _, s => by simp only [visitE]
  | .mod o x, _, s => by simp only [visitE]
  | .op o as, h, s => by
    simp only [Expr.invocations] at h
    simp only [visitE, eval, evalArgs_visit hs as h [] (.inl rfl)]
  | .assign x e, h, s => by
    simp only [Expr.invocations] at h
    simp only [visitE, eval, eval_visit hs e h]
  | .tern q a b, h, s => by
    simp only [Expr.invocations] at h
    have iq := eval_visit hs q (h.sub (by intro f hf; simp [hf]))
    have ia := eval_visit hs a (h.sub (by intro f hf; simp [hf]))
    have ib := eval_visit hs b (h.sub (by intro f hf; simp [hf]))
    simp only [visitE]
    cases hq : boolLit q with
    | none => simp only [eval, iq, ia, ib]
    | some v =>
      have := boolLit_eq hq
      subst this
      cases v with
      | true => simp only [eval, Val.truth, if_true]
      | false => simp [eval, Val.truth]
  | .call f as, h, s => by
    simp only [Expr.invocations] at h
    have ia := evalArgs_visit hs as (h.sub (by intro x hx; simp [hx])) (K f) (.inr (h (f, as) (by simp)).2)
    simp only [visitE]
    cases hf : U f with
    | none => simp only [eval, ia]
    | some v =>
      obtain ⟨vs, hv⟩ := evalArgs_harmless (c := c) (K := K) (env := env) (d := d) as ((h (f, as) (by simp)).1 (by simp [hf])) (K f) s
      simp only [eval, hv]
      rw [hs f v hf]
theorem evalArgs_visit (hs : Skips U c) : (as : Exprs) → ArgsOk M U as.invocations → ∀ ks,
    (ks = [] ∨ ∀ e ∈ as.toList, ¬ PicksName e) → ∀ s, evalArgs c K env d ks (visitEs U as) s = evalArgs c K env d ks as s
  | .nil, _, ks, _, s => by simp only [visitEs]
  | .cons e r, h, ks, hk, s => by
    simp only [Exprs.invocations] at h
    have ie := eval_visit hs e (h.sub (by intro f hf; simp [hf]))
    have ir := evalArgs_visit hs r (h.sub (by intro f hf; simp [hf])) ks.tail
      (hk.elim (fun h => .inl (by rw [h]; rfl)) (fun h => .inr fun x hx => h x (by simp [Exprs.toList, hx])))
    have hb : byRef env (ks.headD .copy) (visitE U e) = byRef env (ks.headD .copy) e :=
      byRef_visit _ e (hk.elim (fun h => .inl (by rw [h]; rfl)) (fun h => .inr (h e (by simp [Exprs.toList]))))
    simp only [visitEs, evalArgs, hb, ie, ir]
end

theorem evalInit_visit (hs : Skips U c) (i : Option (Nat × Expr)) (h : ArgsOk M U (initInvocations i)) (s : St M) :
    evalInit c K env d (visitI U i) s = evalInit c K env d i s := by
  cases i with
  | none => rfl
  | some p => obtain ⟨x, e⟩ := p; simp only [visitI, evalInit, eval_visit hs e h]

/-- What a condition that is always true makes of the `else` of a loop. -/
theorem loop_true (q : St M → Option (Ev M)) (b e e' : St M → Option (Out M)) (hq : ∀ s, q s = some (.val (.bool true) s)) :
    ∀ n s, loop q b e n s = loop q b e' n s
  | 0, s => rfl
  | n + 1, s => by
    simp only [loop, hq, Val.truth, if_true]
    cases b s with
    | none => rfl
    | some o => cases o <;> first | rfl | exact loop_true q b e e' hq n _

/-- What a statement does that may have been removed. -/
def execO (c : Calls M) (K : Fn → List Kind) (env : Nat → Loc) (d n : Nat) : Option Stmt → St M → Option (Out M)
  | none, s => some (.norm s)
  | some a, s => exec c K env d n a s

theorem isEmpty_eq {b : Stmts} (h : b.isEmpty = true) : b = .nil := by
  cases b with
  | nil => rfl
  | cons => simp [Stmts.isEmpty] at h

variable {n : Nat}

mutual
theorem exec_visit (hs : Skips U c) (hn : 1 ≤ n) : (a : Stmt) → ArgsOk M U a.invocations →
    (∀ e ∈ a.exprStmts, e.effects = false → Harmless M e) → ∀ s,
    execO c K env d n (visit U a) s = exec c K env d n a s
  | .expr e, h, he, s => by
    simp only [Stmt.invocations] at h
    simp only [visit]
    cases hq : e.effects with
    | true => simp only [if_true, execO, exec, eval_visit hs e h]
    | false =>
      obtain ⟨v, hv⟩ := he e (by simp [Stmt.exprStmts]) hq c K env d s
      simp [execO, exec, hv]
  | .decl x e, h, _, s => by
    simp only [Stmt.invocations] at h
    simp only [visit, execO, exec, evalInit, eval_visit hs e h]
  | .ret none, h, _, s => by simp only [visit, visitO, execO]
  | .ret (some e), h, _, s => by
    simp only [Stmt.invocations, optInvocations] at h
    simp only [visit, visitO, execO, exec, eval_visit hs e h]
  | .throw_ e, h, _, s => by
    simp only [Stmt.invocations] at h
    simp only [visit, execO, exec, eval_visit hs e h]
  | .brk, _, _, s => by simp only [visit, execO]
  | .cont, _, _, s => by simp only [visit, execO]
  | .block b, h, he, s => by
    simp only [Stmt.invocations] at h
    simp only [Stmt.exprStmts] at he
    simp only [visit, execO, exec, execs_visit hs hn b false h he]
  | .ite i q t e, h, he, s => by
    simp only [Stmt.invocations] at h
    simp only [Stmt.exprStmts] at he
    have ii := evalInit_visit (K := K) (env := env) (d := d) hs i (h.sub (by intro f hf; simp [hf]))
    have iq := eval_visit (K := K) (env := env) (d := d) hs q (h.sub (by intro f hf; simp [hf]))
    have it := execs_visit hs hn t false (h.sub (by intro f hf; simp [hf]))
      (fun x hx => he x (by simp [hx]))
    have ie := execs_visit hs hn e false (h.sub (by intro f hf; simp [hf]))
      (fun x hx => he x (by simp [hx]))
    have std : execO c K env d n (some (.ite (visitI U i) (visitE U q) (visits U false t) (visits U false e))) s
        = exec c K env d n (.ite i q t e) s := by
      simp only [execO, exec, ii, iq, it, ie]
    simp only [visit]
    cases i with
    | some p => simpa only [visitI] using std
    | none =>
      cases hq : boolLit q with
      | none => simpa only [visitI] using std
      | some v =>
        have := boolLit_eq hq
        subst this
        cases v with
        | true => simp only [execO, exec, evalInit, eval, Val.truth, if_true]
        | false =>
          cases hE : e.isEmpty with
          | true =>
            have := isEmpty_eq hE
            subst this
            simp [execO, exec, evalInit, eval, Val.truth, execs]
          | false => simp [execO, exec, evalInit, eval, Val.truth]
  | .while_ i q b e, h, he, s => by
    simp only [Stmt.invocations] at h
    simp only [Stmt.exprStmts] at he
    have ii := evalInit_visit (K := K) (env := env) (d := d) hs i (h.sub (by intro f hf; simp [hf]))
    have iq : eval c K env d (visitE U q) = eval c K env d q :=
      funext (eval_visit (K := K) (env := env) (d := d) hs q (h.sub (by intro f hf; simp [hf])))
    have ib : execs c K env d n (visits U false b) = execs c K env d n b :=
      funext (execs_visit hs hn b false (h.sub (by intro f hf; simp [hf]))
        (fun x hx => he x (by simp [hx])))
    have ie : execs c K env d n (visits U false e) = execs c K env d n e :=
      funext (execs_visit hs hn e false (h.sub (by intro f hf; simp [hf]))
        (fun x hx => he x (by simp [hx])))
    have std : execO c K env d n (some (.while_ (visitI U i) (visitE U q) (visits U false b) (visits U false e))) s
        = exec c K env d n (.while_ i q b e) s := by
      simp only [execO, exec, ii, iq, ib, ie]
    simp only [visit]
    cases i with
    | some p => simpa only [visitI] using std
    | none =>
      cases hq : boolLit q with
      | none => simpa only [visitI] using std
      | some v =>
        have := boolLit_eq hq
        subst this
        cases v with
        | true =>
          simp only [execO, exec, evalInit, ib]
          exact loop_true _ _ _ _ (fun s => by simp only [eval]) n s
        | false =>
          obtain ⟨m, rfl⟩ : ∃ m, n = m + 1 := ⟨n - 1, by omega⟩
          cases hE : e.isEmpty with
          | true =>
            have := isEmpty_eq hE
            subst this
            simp [execO, exec, evalInit, loop, eval, Val.truth, execs]
          | false => simp [execO, exec, evalInit, loop, eval, Val.truth]
  | .try_ b g, h, he, s => by
    simp only [Stmt.invocations] at h
    simp only [Stmt.exprStmts] at he
    have ib := execs_visit hs hn b false (h.sub (by intro f hf; simp [hf]))
      (fun x hx => he x (by simp [hx]))
    have ig := execs_visit hs hn g false (h.sub (by intro f hf; simp [hf]))
      (fun x hx => he x (by simp [hx]))
    simp only [visit, execO, exec, ib, ig]
theorem execs_visit (hs : Skips U c) (hn : 1 ≤ n) : (b : Stmts) → ∀ skip, ArgsOk M U b.invocations →
    (∀ e ∈ b.exprStmts, e.effects = false → Harmless M e) → ∀ s,
    execs c K env d n (visits U skip b) s = execs c K env d n b s
  | .nil, skip, _, _, s => by cases skip <;> simp only [visits]
  | .cons a r, skip, h, he, s => by
    simp only [Stmts.invocations] at h
    simp only [Stmts.exprStmts] at he
    have ia := exec_visit hs hn a (h.sub (by intro f hf; simp [hf]))
      (fun x hx => he x (by simp [hx]))
    have ir := fun k => execs_visit hs hn r k (h.sub (by intro f hf; simp [hf]))
      (fun x hx => he x (by simp [hx]))
    cases skip with
    | true => simp only [visits, execs, ir]
    | false =>
      simp only [visits]
      cases ha : visit U a with
      | none =>
        have := ia s
        rw [ha] at this
        simp only [execO] at this
        simp only [execs, ← this, ir]
      | some a' =>
        have := ia s
        rw [ha] at this
        simp only [execO] at this
        simp only [execs, this, ir]
end
end

end Verif.Opt.Whole
