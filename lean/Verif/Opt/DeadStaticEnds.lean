import Verif.Opt.DeadStaticMain

/-!
# The removal of dead code: when all calls are still declared, and that it ends (C83)
-/

namespace Verif.Opt.Whole

/-! ## Calls that are left -/

mutual
/-- There is a ternary operator with a constant condition. -/
def Expr.constCond : Expr → Bool
  | .lit _ => false
  | .name _ => false
  | .op _ as => as.constCond
  | .mod _ _ => false
  | .assign _ e => e.constCond
  | .tern q a b => (match q with | .lit (.bool _) => true | _ => false) || q.constCond || a.constCond || b.constCond
  | .call _ as => as.constCond
/-- The same for a list. -/
def Exprs.constCond : Exprs → Bool
  | .nil => false
  | .cons e r => e.constCond || r.constCond
end

/-- The same for the variable of a head. -/
def initConst : Option (Nat × Expr) → Bool
  | none => false
  | some (_, e) => e.constCond

/-- The same for an optional expression. -/
def optConst : Option Expr → Bool
  | none => false
  | some e => e.constCond

/-- A condition that is a constant. -/
def isConst : Expr → Bool
  | .lit (.bool _) => true
  | _ => false

mutual
/-- There is a ternary operator, an `if` or a `while` with a constant condition. -/
def Stmt.constCond : Stmt → Bool
  | .expr e => e.constCond
  | .decl _ e => e.constCond
  | .ret e => optConst e
  | .throw_ e => e.constCond
  | .brk => false
  | .cont => false
  | .block b => b.constCond
  | .ite i q t e => isConst q || initConst i || q.constCond || t.constCond || e.constCond
  | .while_ i q b e => isConst q || initConst i || q.constCond || b.constCond || e.constCond
  | .try_ b h => b.constCond || h.constCond
/-- The same for a list. -/
def Stmts.constCond : Stmts → Bool
  | .nil => false
  | .cons s r => s.constCond || r.constCond
end

variable {U : Fn → Option Val}

theorem boolLit_none {q : Expr} (h : isConst q = false) : boolLit q = none := by
  cases hq : boolLit q with
  | none => rfl
  | some b => rw [boolLit_eq hq] at h; simp [isConst] at h

mutual
theorem visitE_calls : (e : Expr) → ∀ f ∈ (visitE U e).calls, f ∈ e.calls
  | .lit v => by simp only [visitE]; exact fun f h => h
  | .name v => by simp only [visitE]; exact fun f h => h
  | .mod _ v => by simp only [visitE]; exact fun f h => h
  | .op o as => by simp only [visitE, Expr.calls]; exact visitEs_calls as
  | .assign x e => by simp only [visitE, Expr.calls]; exact visitE_calls e
  | .tern q a b => by
    have hq := visitE_calls q
    have ha := visitE_calls a
    have hb := visitE_calls b
    simp only [visitE]
    cases hv : boolLit q with
    | none =>
      simp only [Expr.calls, List.mem_append]
      exact fun f h => h.imp (hq f) (Or.imp (ha f) (hb f))
    | some v =>
      cases v with
      | true => intro f h; simp only [Expr.calls, List.mem_append]; exact .inr (.inl h)
      | false => intro f h; simp only [Expr.calls, List.mem_append]; exact .inr (.inr h)
  | .call g as => by
    have ha := visitEs_calls as
    simp only [visitE]
    cases U g with
    | some v => intro f h; simp [Expr.calls] at h
    | none => simp only [Expr.calls, List.mem_cons]; exact fun f h => h.imp id (ha f)
theorem visitEs_calls : (as : Exprs) → ∀ f ∈ (visitEs U as).calls, f ∈ as.calls
  | .nil => by simp only [visitEs]; exact fun f h => h
  | .cons e r => by
    have he := visitE_calls e
    have hr := visitEs_calls r
    simp only [visitEs, Exprs.calls, List.mem_append]
    exact fun f h => h.imp (he f) (hr f)
end

theorem visitI_calls (i : Option (Nat × Expr)) : ∀ f ∈ initCalls (visitI U i), f ∈ initCalls i := by
  cases i with
  | none => exact fun f h => h
  | some p => exact visitE_calls p.2

theorem visitO_calls (i : Option Expr) : ∀ f ∈ optCalls (visitO U i), f ∈ optCalls i := by
  cases i with
  | none => exact fun f h => h
  | some p => exact visitE_calls p

/-- Calls of a statement that may have been removed. -/
def callsO : Option Stmt → List Fn
  | none => []
  | some a => a.calls

mutual
theorem visit_calls : (a : Stmt) → ∀ f ∈ callsO (visit U a), f ∈ a.calls
  | .expr e => by
    simp only [visit]
    cases e.effects with
    | true => simp only [if_true, callsO, Stmt.calls]; exact visitE_calls e
    | false => intro f h; simp [callsO] at h
  | .decl x e => by simp only [visit, callsO, Stmt.calls]; exact visitE_calls e
  | .ret e => by simp only [visit, callsO, Stmt.calls]; exact visitO_calls e
  | .throw_ e => by simp only [visit, callsO, Stmt.calls]; exact visitE_calls e
  | .brk => by simp only [visit]; exact fun f h => h
  | .cont => by simp only [visit]; exact fun f h => h
  | .block b => by simp only [visit, callsO, Stmt.calls]; exact visits_calls b false
  | .ite i q t e => by
    have hi := visitI_calls (U := U) i
    have hq := visitE_calls (U := U) q
    have ht := visits_calls t false
    have he := visits_calls e false
    have std : ∀ f ∈ callsO (some (.ite (visitI U i) (visitE U q) (visits U false t) (visits U false e))),
        f ∈ (Stmt.ite i q t e).calls := by
      simp only [callsO, Stmt.calls, List.mem_append]
      exact fun f h => h.imp (hi f) (Or.imp (hq f) (Or.imp (ht f) (he f)))
    simp only [visit]
    cases i with
    | some p => simpa only [visitI] using std
    | none =>
      cases hv : boolLit q with
      | none => simpa only [visitI] using std
      | some v =>
        cases v with
        | true => intro f h; simp only [callsO, Stmt.calls] at h; simp [Stmt.calls, h]
        | false =>
          cases e.isEmpty with
          | true => intro f h; simp [callsO] at h
          | false => intro f h; simp only [Bool.false_eq_true, if_false, callsO, Stmt.calls] at h; simp [Stmt.calls, h]
  | .while_ i q b e => by
    have hi := visitI_calls (U := U) i
    have hq := visitE_calls (U := U) q
    have hb := visits_calls b false
    have he := visits_calls e false
    have std : ∀ f ∈ callsO (some (.while_ (visitI U i) (visitE U q) (visits U false b) (visits U false e))),
        f ∈ (Stmt.while_ i q b e).calls := by
      simp only [callsO, Stmt.calls, List.mem_append]
      exact fun f h => h.imp (hi f) (Or.imp (hq f) (Or.imp (hb f) (he f)))
    simp only [visit]
    cases i with
    | some p => simpa only [visitI] using std
    | none =>
      cases hv : boolLit q with
      | none => simpa only [visitI] using std
      | some v =>
        cases v with
        | true =>
          intro f h
          simp only [callsO, Stmt.calls, List.mem_append, Stmts.calls, initCalls] at h ⊢
          exact h.imp id (Or.imp id fun h => .inl (hb f (h.elim id (fun h => nomatch h))))
        | false =>
          cases e.isEmpty with
          | true => intro f h; simp [callsO] at h
          | false => intro f h; simp only [Bool.false_eq_true, if_false, callsO, Stmt.calls] at h; simp [Stmt.calls, h]
  | .try_ b g => by
    have hb := visits_calls b false
    have hg := visits_calls g false
    simp only [visit, callsO, Stmt.calls, List.mem_append]
    exact fun f h => h.imp (hb f) (hg f)
theorem visits_calls : (b : Stmts) → ∀ skip, ∀ f ∈ (visits U skip b).calls, f ∈ b.calls
  | .nil => by intro skip; cases skip <;> simp only [visits] <;> exact fun f h => h
  | .cons a r => by
    have ha := visit_calls a
    have hr := visits_calls r
    intro skip
    cases skip with
    | true => simp only [visits, Stmts.calls, List.mem_append]; exact fun f h => h.imp id (hr false f)
    | false =>
      simp only [visits]
      cases hv : visit U a with
      | none => intro f h; simp only [Stmts.calls, List.mem_append]; exact .inr (hr _ f h)
      | some a' =>
        rw [hv] at ha
        simp only [Stmts.calls, List.mem_append]; exact fun f h => h.imp (ha f) (hr false f)
end

mutual
theorem visitE_left : (e : Expr) → e.constCond = false → ∀ f ∈ (visitE U e).calls, U f = none
  | .lit v, _ => by intro f h; simp [visitE, Expr.calls] at h
  | .name v, _ => by intro f h; simp [visitE, Expr.calls] at h
  | .mod _ v, _ => by intro f h; simp [visitE, Expr.calls] at h
  | .op o as, hc => by
    simp only [Expr.constCond] at hc
    simp only [visitE, Expr.calls]; exact visitEs_left as hc
  | .assign x e, hc => by
    simp only [Expr.constCond] at hc
    simp only [visitE, Expr.calls]; exact visitE_left e hc
  | .tern q a b, hc => by
    simp only [Expr.constCond, Bool.or_eq_false_iff] at hc
    obtain ⟨⟨⟨h1, h2⟩, h3⟩, h4⟩ := hc
    have hq := visitE_left q h2
    have ha := visitE_left a h3
    have hb := visitE_left b h4
    simp only [visitE, boolLit_none (q := q) (by simpa only [isConst] using h1), Expr.calls, List.mem_append]
    exact fun f h => h.elim (hq f) (fun h => h.elim (ha f) (hb f))
  | .call g as, hc => by
    simp only [Expr.constCond] at hc
    have ha := visitEs_left as hc
    simp only [visitE]
    cases hg : U g with
    | some v => intro f h; simp [Expr.calls] at h
    | none => simp only [Expr.calls, List.mem_cons]; exact fun f h => h.elim (fun h => h ▸ hg) (ha f)
theorem visitEs_left : (as : Exprs) → as.constCond = false → ∀ f ∈ (visitEs U as).calls, U f = none
  | .nil, _ => by intro f h; simp [visitEs, Exprs.calls] at h
  | .cons e r, hc => by
    simp only [Exprs.constCond, Bool.or_eq_false_iff] at hc
    have he := visitE_left e hc.1
    have hr := visitEs_left r hc.2
    simp only [visitEs, Exprs.calls, List.mem_append]
    exact fun f h => h.elim (he f) (hr f)
end

theorem visitI_left (i : Option (Nat × Expr)) (h : initConst i = false) : ∀ f ∈ initCalls (visitI U i), U f = none := by
  cases i with
  | none => intro f h; simp [visitI, initCalls] at h
  | some p => exact visitE_left p.2 h

theorem visitO_left (i : Option Expr) (h : optConst i = false) : ∀ f ∈ optCalls (visitO U i), U f = none := by
  cases i with
  | none => intro f h; simp [visitO, optCalls] at h
  | some p => exact visitE_left p h

mutual
theorem visit_left : (a : Stmt) → a.constCond = false → ∀ f ∈ callsO (visit U a), U f = none
  | .expr e, hc => by
    simp only [Stmt.constCond] at hc
    simp only [visit]
    cases e.effects with
    | true => simp only [if_true, callsO, Stmt.calls]; exact visitE_left e hc
    | false => intro f h; simp [callsO] at h
  | .decl x e, hc => by
    simp only [Stmt.constCond] at hc
    simp only [visit, callsO, Stmt.calls]; exact visitE_left e hc
  | .ret e, hc => by
    simp only [Stmt.constCond] at hc
    simp only [visit, callsO, Stmt.calls]; exact visitO_left e hc
  | .throw_ e, hc => by
    simp only [Stmt.constCond] at hc
    simp only [visit, callsO, Stmt.calls]; exact visitE_left e hc
  | .brk, _ => by intro f h; simp [visit, callsO, Stmt.calls] at h
  | .cont, _ => by intro f h; simp [visit, callsO, Stmt.calls] at h
  | .block b, hc => by
    simp only [Stmt.constCond] at hc
    simp only [visit, callsO, Stmt.calls]; exact visits_left b false hc (fun h => nomatch h)
  | .ite i q t e, hc => by
    simp only [Stmt.constCond, Bool.or_eq_false_iff] at hc
    obtain ⟨⟨⟨⟨h0, h1⟩, h2⟩, h3⟩, h4⟩ := hc
    have hi := visitI_left (U := U) i h1
    have hq := visitE_left (U := U) q h2
    have ht := visits_left t false h3 (fun h => nomatch h)
    have he := visits_left e false h4 (fun h => nomatch h)
    have std : ∀ f ∈ callsO (some (.ite (visitI U i) (visitE U q) (visits U false t) (visits U false e))), U f = none := by
      simp only [callsO, Stmt.calls, List.mem_append]
      exact fun f h => h.elim (hi f) (fun h => h.elim (hq f) (fun h => h.elim (ht f) (he f)))
    simp only [visit, boolLit_none h0]
    cases i <;> simpa only using std
  | .while_ i q t e, hc => by
    simp only [Stmt.constCond, Bool.or_eq_false_iff] at hc
    obtain ⟨⟨⟨⟨h0, h1⟩, h2⟩, h3⟩, h4⟩ := hc
    have hi := visitI_left (U := U) i h1
    have hq := visitE_left (U := U) q h2
    have ht := visits_left t false h3 (fun h => nomatch h)
    have he := visits_left e false h4 (fun h => nomatch h)
    have std : ∀ f ∈ callsO (some (.while_ (visitI U i) (visitE U q) (visits U false t) (visits U false e))), U f = none := by
      simp only [callsO, Stmt.calls, List.mem_append]
      exact fun f h => h.elim (hi f) (fun h => h.elim (hq f) (fun h => h.elim (ht f) (he f)))
    simp only [visit, boolLit_none h0]
    cases i <;> simpa only using std
  | .try_ b g, hc => by
    simp only [Stmt.constCond, Bool.or_eq_false_iff] at hc
    have hb := visits_left b false hc.1 (fun h => nomatch h)
    have hg := visits_left g false hc.2 (fun h => nomatch h)
    simp only [visit, callsO, Stmt.calls, List.mem_append]
    exact fun f h => h.elim (hb f) (hg f)
theorem visits_left : (b : Stmts) → ∀ skip, b.constCond = false → (skip = true → False) → ∀ f ∈ (visits U skip b).calls, U f = none
  | .nil => by intro skip _ _ f h; cases skip <;> simp [visits, Stmts.calls] at h
  | .cons a r => by
    intro skip hc hs
    simp only [Stmts.constCond, Bool.or_eq_false_iff] at hc
    have ha := visit_left a hc.1
    cases skip with
    | true => exact (hs rfl).elim
    | false =>
      simp only [visits]
      cases hv : visit U a with
      | none =>
        have hdw : deadWhile a = false := by
          cases a with
          | while_ i q b e =>
            have h0 := hc.1
            simp only [Stmt.constCond, Bool.or_eq_false_iff] at h0
            obtain ⟨⟨⟨⟨h0, _⟩, _⟩, _⟩, _⟩ := h0
            cases i with
            | none => simp [deadWhile, boolLit_none h0]
            | some p => rfl
          | _ => rfl
        rw [hdw]
        exact visits_left r false hc.2 (fun h => nomatch h)
      | some a' =>
        rw [hv] at ha
        have hr := visits_left r false hc.2 (fun h => nomatch h)
        simp only [Stmts.calls, List.mem_append]; exact fun f h => h.elim (ha f) (hr f)
end

/-- Calls after the pass are calls from before it. -/
theorem deadStatic_calls (P : Prog) : ∀ f ∈ (deadStatic P).calls, f ∈ P.calls := by
  intro f hf
  simp only [Prog.calls, Fun.calls, List.mem_flatMap] at hf ⊢
  obtain ⟨x, hx, j, hj, hf⟩ := hf
  simp only [deadStatic, List.mem_filterMap] at hx
  obtain ⟨y, hy, hx⟩ := hx
  by_cases hp : P.droppable y.1 y.2 = true
  · rw [if_pos hp] at hx; simp at hx
  · rw [if_neg hp] at hx; injection hx with hx; subst hx
    simp only [Fun.visited, List.mem_map] at hj
    obtain ⟨i, hi, rfl⟩ := hj
    exact ⟨y, hy, i, hi, visits_calls i.body false f hf⟩

/-- A function that is called is removed only if it is a hook, not a method, without implementation. -/
theorem called_stays {P : Prog} (hd : Distinct P) {f : Fn} {F : Fun} (h : P.get f = some F) (hf : f ∈ P.calls) :
    ((deadStatic P).get f).isSome ↔ ¬ (F.hook = true ∧ F.method = false ∧ F.impls = [] ∧ F.ext = false) := by
  rw [get_deadStatic hd, h]
  have hr : P.referenced f F = true := by simp [Prog.referenced, hf]
  simp only [Prog.droppable, hr, Fun.defined]
  cases F.method <;> cases F.hook <;> cases F.ext <;> cases F.impls <;> simp

/-- Every call is still declared if no hook without implementation is still called. -/
theorem closed_iff {P : Prog} (hd : Distinct P) (hc : Closed P) :
    Closed (deadStatic P) ↔ ∀ f ∈ (deadStatic P).calls, ∀ F, P.get f = some F →
      ¬ (F.hook = true ∧ F.method = false ∧ F.impls = [] ∧ F.ext = false) := by
  constructor
  · intro h f hf F hF
    exact (called_stays hd hF (deadStatic_calls P f hf)).mp (h f hf)
  · intro h f hf
    obtain ⟨F, hF⟩ := Option.isSome_iff_exists.mp (hc f (deadStatic_calls P f hf))
    exact (called_stays hd hF (deadStatic_calls P f hf)).mpr (h f hf F hF)

/-- In particular if there are no constant conditions. -/
theorem closed_of_no_constants {P : Prog} (hd : Distinct P) (hc : Closed P) (hb : ∀ b ∈ P.bodies, b.constCond = false) :
    Closed (deadStatic P) := by
  refine (closed_iff hd hc).mpr fun f hf F hF hh => ?_
  simp only [Prog.calls, Fun.calls, List.mem_flatMap] at hf
  obtain ⟨x, hx, j, hj, hf⟩ := hf
  simp only [deadStatic, List.mem_filterMap] at hx
  obtain ⟨y, hy, hx⟩ := hx
  by_cases hp : P.droppable y.1 y.2 = true
  · rw [if_pos hp] at hx; simp at hx
  · rw [if_neg hp] at hx; injection hx with hx; subst hx
    simp only [Fun.visited, List.mem_map] at hj
    obtain ⟨i, hi, rfl⟩ := hj
    have hbm : i.body ∈ P.bodies := by
      simp only [Prog.bodies, List.mem_flatMap, List.mem_map]
      exact ⟨y, hy, i, hi, rfl⟩
    have := visits_left (U := P.unimpl) i.body false (hb _ hbm) (fun h => nomatch h) f hf
    simp [Prog.unimpl, hF, Fun.unimplemented, Fun.defined, hh.1, hh.2.2.1, hh.2.2.2] at this

/-! ## The pass ends -/

mutual
/-- Number of nodes. -/
def Expr.size : Expr → Nat
  | .lit _ => 1
  | .name _ => 1
  | .op _ as => 1 + as.size
  | .mod _ _ => 1
  | .assign _ e => 1 + e.size
  | .tern q a b => 1 + q.size + a.size + b.size
  | .call _ as => 2 + as.size
/-- Number of nodes. -/
def Exprs.size : Exprs → Nat
  | .nil => 0
  | .cons e r => e.size + r.size
end

/-- Number of nodes. -/
def initSize : Option (Nat × Expr) → Nat
  | none => 0
  | some (_, e) => e.size

/-- Number of nodes. -/
def optSize : Option Expr → Nat
  | none => 0
  | some e => e.size

mutual
/-- Number of nodes. -/
def Stmt.size : Stmt → Nat
  | .expr e => 1 + e.size
  | .decl _ e => 1 + e.size
  | .ret e => 1 + optSize e
  | .throw_ e => 1 + e.size
  | .brk => 1
  | .cont => 1
  | .block b => 1 + b.size
  | .ite i q t e => 1 + initSize i + q.size + t.size + e.size
  | .while_ i q b e => 1 + initSize i + q.size + b.size + e.size
  | .try_ b h => 1 + b.size + h.size
/-- Number of nodes. -/
def Stmts.size : Stmts → Nat
  | .nil => 0
  | .cons s r => s.size + r.size
end

/-- Number of nodes. -/
def implsSize : List Impl → Nat
  | [] => 0
  | i :: r => 1 + i.body.size + implsSize r

/-- Number of nodes. -/
def Prog.size : Prog → Nat
  | [] => 0
  | x :: P => 1 + implsSize x.2.impls + Prog.size P

mutual
theorem Expr.size_pos : (e : Expr) → 0 < e.size
  | .lit _ => by simp [Expr.size]
  | .name _ => by simp [Expr.size]
  | .op _ as => by simp only [Expr.size]; omega
  | .mod _ _ => by simp [Expr.size]
  | .assign _ e => by simp only [Expr.size]; omega
  | .tern q a b => by simp only [Expr.size]; omega
  | .call _ as => by simp only [Expr.size]; omega
end

mutual
theorem visitE_size : (e : Expr) → visitE U e = e ∨ (visitE U e).size < e.size
  | .lit _ => by simp [visitE]
  | .name _ => by simp [visitE]
  | .op _ as => by
    simp only [visitE, Expr.size]
    rcases visitEs_size as with h | h
    · left; rw [h]
    · right; omega
  | .mod _ _ => by simp [visitE]
  | .assign _ e => by
    simp only [visitE, Expr.size]
    rcases visitE_size e with h | h
    · left; rw [h]
    · right; omega
  | .tern q a b => by
    simp only [visitE]
    have := q.size_pos; have := a.size_pos; have := b.size_pos
    cases boolLit q with
    | some v => cases v <;> (right; simp only [Expr.size]; omega)
    | none =>
      simp only [Expr.size]
      rcases visitE_size q with h1 | h1 <;> rcases visitE_size a with h2 | h2 <;> rcases visitE_size b with h3 | h3
      · left; rw [h1, h2, h3]
      all_goals (right; (try simp only [*]); omega)
  | .call f as => by
    simp only [visitE]
    cases U f with
    | some v => right; simp only [Expr.size]; omega
    | none =>
      simp only [Expr.size]
      rcases visitEs_size as with h | h
      · left; rw [h]
      · right; omega
theorem visitEs_size : (as : Exprs) → visitEs U as = as ∨ (visitEs U as).size < as.size
  | .nil => by simp [visitEs]
  | .cons e r => by
    simp only [visitEs, Exprs.size]
    rcases visitE_size e with h1 | h1 <;> rcases visitEs_size r with h2 | h2
    · left; rw [h1, h2]
    all_goals (right; (try simp only [*]); omega)
end

theorem visitI_size (i : Option (Nat × Expr)) : visitI U i = i ∨ initSize (visitI U i) < initSize i := by
  cases i with
  | none => exact .inl rfl
  | some p =>
    rcases visitE_size (U := U) p.2 with h | h
    · left; simp only [visitI, h]
    · right; exact h

theorem visitO_size (i : Option Expr) : visitO U i = i ∨ optSize (visitO U i) < optSize i := by
  cases i with
  | none => exact .inl rfl
  | some p =>
    rcases visitE_size (U := U) p with h | h
    · left; simp only [visitO, h]
    · right; exact h

/-- Number of nodes of a statement that may have been removed. -/
def sizeO : Option Stmt → Nat
  | none => 0
  | some a => a.size

theorem Stmt.size_pos (a : Stmt) : 0 < a.size := by
  cases a <;> simp only [Stmt.size] <;> omega

mutual
theorem visit_size : (a : Stmt) → visit U a = some a ∨ sizeO (visit U a) < a.size
  | .expr e => by
    simp only [visit]
    cases e.effects with
    | true =>
      simp only [if_true, sizeO, Stmt.size]
      rcases visitE_size (U := U) e with h | h
      · left; rw [h]
      · right; omega
    | false => right; simp only [Bool.false_eq_true, if_false, sizeO, Stmt.size]; omega
  | .decl x e => by
    simp only [visit, sizeO, Stmt.size]
    rcases visitE_size (U := U) e with h | h
    · left; rw [h]
    · right; omega
  | .ret e => by
    simp only [visit, sizeO, Stmt.size]
    rcases visitO_size (U := U) e with h | h
    · left; rw [h]
    · right; omega
  | .throw_ e => by
    simp only [visit, sizeO, Stmt.size]
    rcases visitE_size (U := U) e with h | h
    · left; rw [h]
    · right; omega
  | .brk => by simp [visit]
  | .cont => by simp [visit]
  | .block b => by
    simp only [visit, sizeO, Stmt.size]
    rcases visits_size b false with h | h
    · left; rw [h]
    · right; omega
  | .ite i q t e => by
    have hqp := q.size_pos
    have std : some (Stmt.ite (visitI U i) (visitE U q) (visits U false t) (visits U false e)) = some (.ite i q t e) ∨
        sizeO (some (.ite (visitI U i) (visitE U q) (visits U false t) (visits U false e))) < (Stmt.ite i q t e).size := by
      simp only [sizeO, Stmt.size]
      rcases visitI_size (U := U) i with h1 | h1 <;> rcases visitE_size (U := U) q with h2 | h2 <;>
        rcases visits_size t false with h3 | h3 <;> rcases visits_size e false with h4 | h4
      · left; rw [h1, h2, h3, h4]
      all_goals (right; (try simp only [*]); omega)
    simp only [visit]
    cases i with
    | some p => simpa only using std
    | none =>
      cases hv : boolLit q with
      | none => simpa only using std
      | some v =>
        cases v with
        | true => right; simp only [sizeO, Stmt.size]; omega
        | false =>
          right
          cases e.isEmpty with
          | true => simp only [if_true, sizeO, Stmt.size]; omega
          | false => simp only [Bool.false_eq_true, if_false, sizeO, Stmt.size]; omega
  | .while_ i q b e => by
    have hqp := q.size_pos
    have std : some (Stmt.while_ (visitI U i) (visitE U q) (visits U false b) (visits U false e)) = some (.while_ i q b e) ∨
        sizeO (some (.while_ (visitI U i) (visitE U q) (visits U false b) (visits U false e))) < (Stmt.while_ i q b e).size := by
      simp only [sizeO, Stmt.size]
      rcases visitI_size (U := U) i with h1 | h1 <;> rcases visitE_size (U := U) q with h2 | h2 <;>
        rcases visits_size b false with h3 | h3 <;> rcases visits_size e false with h4 | h4
      · left; rw [h1, h2, h3, h4]
      all_goals (right; (try simp only [*]); omega)
    simp only [visit]
    cases i with
    | some p => simpa only using std
    | none =>
      cases hv : boolLit q with
      | none => simpa only using std
      | some v =>
        cases v with
        | true =>
          simp only [sizeO, Stmt.size, Stmts.size]
          have hb := visits_size b false
          cases e with
          | nil =>
            rcases hb with h | h
            · left; rw [h]
            · right; simp only [Stmts.size]; omega
          | cons a r =>
            right
            have := a.size_pos
            simp only [Stmts.size]
            rcases hb with h | h
            · rw [h]; omega
            · omega
        | false =>
          right
          cases e.isEmpty with
          | true => simp only [if_true, sizeO, Stmt.size]; omega
          | false => simp only [Bool.false_eq_true, if_false, sizeO, Stmt.size]; omega
  | .try_ b g => by
    simp only [visit, sizeO, Stmt.size]
    rcases visits_size b false with h1 | h1 <;> rcases visits_size g false with h2 | h2
    · left; rw [h1, h2]
    all_goals (right; (try simp only [*]); omega)
theorem visits_size : (b : Stmts) → ∀ skip, visits U skip b = b ∨ (visits U skip b).size < b.size
  | .nil => by intro skip; left; cases skip <;> simp only [visits]
  | .cons a r => by
    intro skip
    have ha := visit_size a
    have hr := visits_size r
    have hp := a.size_pos
    cases skip with
    | true =>
      simp only [visits, Stmts.size]
      rcases hr false with h | h
      · left; rw [h]
      · right; omega
    | false =>
      simp only [visits]
      cases hv : visit U a with
      | none =>
        right
        simp only [Stmts.size]
        rcases hr (deadWhile a) with h | h
        · rw [h]; omega
        · omega
      | some a' =>
        rw [hv] at ha
        simp only [sizeO, Option.some.injEq] at ha
        simp only [Stmts.size]
        rcases ha with h1 | h1 <;> rcases hr false with h2 | h2
        · left; rw [h1, h2]
        all_goals (right; (try simp only [*]); omega)
end

theorem impls_size : ∀ (l : List Impl),
    l.map (fun i => { i with body := visits U false i.body }) = l ∨
      implsSize (l.map (fun i => { i with body := visits U false i.body })) < implsSize l
  | [] => .inl rfl
  | i :: l => by
    simp only [List.map_cons, implsSize]
    rcases visits_size (U := U) i.body false with h1 | h1 <;> rcases impls_size l with h2 | h2
    · left; rw [h1, h2]
    all_goals (right; (try simp only [*]); omega)

theorem filterMap_size (p : Fn → Fun → Bool) (U : Fn → Option Val) : ∀ (L : Prog),
    L.filterMap (fun x => if p x.1 x.2 then none else some (x.1, x.2.visited U)) = L ∨
      Prog.size (L.filterMap (fun x => if p x.1 x.2 then none else some (x.1, x.2.visited U))) < Prog.size L
  | [] => .inl rfl
  | (f, F) :: L => by
    have ih := filterMap_size p U L
    cases hp : p f F with
    | true =>
      right
      simp only [List.filterMap_cons, hp, if_true, Prog.size]
      rcases ih with h | h
      · rw [h]; omega
      · omega
    | false =>
      simp only [List.filterMap_cons, hp, Bool.false_eq_true, if_false, Prog.size, Fun.visited]
      rcases impls_size (U := U) F.impls with h1 | h1 <;> rcases ih with h2 | h2
      · left; rw [h1]; simp only [Fun.visited] at h2; rw [h2]
      all_goals (right; (try simp only [Fun.visited] at *); (try simp only [*]); omega)

/-- **C83**: a run of the pass that changes anything makes the program smaller, so the pass ends. -/
theorem dead_code_static_ends (P : Prog) : deadStatic P = P ∨ Prog.size (deadStatic P) < Prog.size P :=
  filterMap_size P.droppable P.unimpl P

end Verif.Opt.Whole
