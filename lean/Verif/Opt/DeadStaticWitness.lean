import Verif.Opt.DeadStaticEnds

/-!
# The removal of dead code: a program that meets the conditions, and programs it breaks (C83)
-/

namespace Verif.Opt.Whole

variable {M : Sem}

/-! ## The conditions in terms of operators -/

mutual
/-- If no operator throws, an expression made of constants, variables and operators has no effect. -/
theorem harmless_of_total (ht : ∀ o vs, (M.op o vs).isSome) : (e : Expr) → e.plain = true → Harmless M e
  | .lit v, _ => fun c K env d s => ⟨v, by simp only [eval]⟩
  | .name x, _ => fun c K env d s => ⟨s.mem (locOf env x), by simp only [eval]⟩
  | .op o as, h => fun c K env d s => by
    simp only [Expr.plain] at h
    obtain ⟨vs, hv⟩ := harmless_args ht as h c K env d [] s
    obtain ⟨v, ho⟩ := Option.isSome_iff_exists.mp (ht o (vs.map (Arg.get s)))
    exact ⟨v, by simp only [eval, hv, ho]⟩
  | .mod o x, h => by simp [Expr.plain] at h
  | .assign x e, h => by simp [Expr.plain] at h
  | .tern q a b, h => fun c K env d s => by
    simp only [Expr.plain, Bool.and_eq_true] at h
    obtain ⟨v, hv⟩ := harmless_of_total ht q h.1.1 c K env d s
    obtain ⟨va, ha⟩ := harmless_of_total ht a h.1.2 c K env d s
    obtain ⟨vb, hb⟩ := harmless_of_total ht b h.2 c K env d s
    simp only [eval, hv]
    cases v.truth with
    | true => exact ⟨va, by simpa using ha⟩
    | false => exact ⟨vb, by simpa using hb⟩
  | .call f as, h => by simp [Expr.plain] at h
theorem harmless_args (ht : ∀ o vs, (M.op o vs).isSome) : (as : Exprs) → as.plain = true → ∀ (c : Calls M) K env d ks s,
    ∃ vs, evalArgs c K env d ks as s = some (.vals vs s)
  | .nil, _ => fun c K env d ks s => ⟨[], by simp only [evalArgs]⟩
  | .cons e r, h => fun c K env d ks s => by
    simp only [Exprs.plain, Bool.and_eq_true] at h
    obtain ⟨vs, hv⟩ := harmless_args ht r h.2 c K env d ks.tail s
    obtain ⟨v, he⟩ := harmless_of_total ht e h.1 c K env d s
    cases hb : byRef env (ks.headD .copy) e with
    | none => exact ⟨.val v :: vs, by simp only [evalArgs, hb, he, hv]⟩
    | some l => exact ⟨.ref l :: vs, by simp only [evalArgs, hb, hv]⟩
end

/-- If no operator throws, expression statements are no obstacle. -/
theorem quiet_of_total (ht : ∀ o vs, (M.op o vs).isSome) (P : Prog) : QuietStatements M P :=
  fun _ _ e _ h => harmless_of_total ht e h

/-- The conditions of the theorem in terms of the source: no constant conditions, no operator throws, arguments of calls of hooks without implementation are
    made of constants, variables and operators. -/
theorem dead_code_static_plain {P : Prog} (hd : Distinct P) (hc : Closed P) (hb : ∀ b ∈ P.bodies, b.constCond = false)
    (ht : ∀ o vs, (M.op o vs).isSome)
    (ha : ∀ b ∈ P.bodies, ∀ x ∈ b.invocations, Unimplemented P x.1 → ∀ e ∈ x.2.toList, e.plain = true) (hp : NoPicks P)
    (f : Fn) (hf : ((deadStatic P).get f).isSome) (args : List Arg) (d : Nat) (s : St M)
    (r : Ev M) : Does M P f args d s r ↔ Does M (deadStatic P) f args d s r :=
  dead_code_static_partial hd (closed_of_no_constants hd hc hb) (fun b h x hx hu e he => harmless_of_total ht e (ha b h x hx hu e he))
    (quiet_of_total ht P) hp f hf args d s r

/-! ## Programs -/

namespace Witness

/-- A world that counts calls of external functions; operator 0 is `+ 1`, operator 1 throws. -/
def M1 : Sem where
  W := Nat
  op := fun o vs => match o, vs with
    | 0, [.int i] => some (.int (i + 1))
    | 1, _ => none
    | _, _ => some .void
  ext := fun _ _ w => (some (.int w), [], w + 1)

/-- The same without the operator that throws. -/
def M0 : Sem where
  W := Nat
  op := fun o vs => match o, vs with
    | 0, [.int i] => some (.int (i + 1))
    | _, _ => some .void
  ext := fun _ _ w => (some (.int w), [], w + 1)

def l (v : Int) : Expr := .lit (.int v)
def g (x : Nat) : Expr := .name (.glob x)
def one (e : Expr) : Exprs := .cons e .nil
def ss : List Stmt → Stmts
  | [] => .nil
  | a :: r => .cons a (ss r)

/-- The outcome of a call, as far as it can be compared: its value, if it has one, the globals 0 and 1, and the number of external calls. -/
def seen {M : Sem} (w : M.W → Nat) : Option (Ev M) → Option (Option Val × Val × Val × Nat)
  | some (.val v s) => some (some v, s.mem (.glob 0), s.mem (.glob 1), w s.w)
  | some (.exn s) => some (none, s.mem (.glob 0), s.mem (.glob 1), w s.w)
  | none => none

theorem seen_of_does {M : Sem} {w : M.W → Nat} {P Q : Prog} {f : Fn} {args : List Arg} {d : Nat} {s : St M} {n m : Nat}
    {a b : Option Val × Val × Val × Nat} (hP : seen w (callN M P n f args d s) = some a)
    (hQ : seen w (callN M Q m f args d s) = some b) (hab : a ≠ b) :
    ¬ ∀ r, Does M P f args d s r ↔ Does M Q f args d s r := by
  intro h
  cases hr : callN M P n f args d s with
  | none => rw [hr] at hP; simp [seen] at hP
  | some r =>
    cases hq : callN M Q m f args d s with
    | none => rw [hq] at hQ; simp [seen] at hQ
    | some q =>
      have h1 := (h r).mp ⟨n, hr⟩
      have h2 : r = q := Does.unique h1 ⟨m, hq⟩
      rw [hr] at hP; rw [hq, ← h2, hP] at hQ
      injection hQ with hQ
      exact hab hQ

/-- The start: every location is 0, no external call. -/
def s0 : St M1 := { mem := fun _ => .int 0, w := (0 : Nat) }
/-- The start for `M0`. -/
def t0 : St M0 := { mem := fun _ => .int 0, w := (0 : Nat) }

/-- Functions: 0 `main`, 1 a hook without implementation, 2 a hook with two implementations, 3 a function nobody calls, 4 an external function, 5 a
    function called by the hook. `main` has a constant `if`, a `while` that is never entered, a ternary operator with a constant condition,
    a statement without effect, and a call of the hook without implementation as an operand. -/
def prog : Prog :=
  [(0, { kinds := [.copy], keep := true, impls := [{ params := [0], kinds := [.copy], body := ss [
        .expr (.op 0 (one (g 0))),
        .ite none (.lit (.bool true)) (ss [.expr (.call 2 (one (.name (.loc 0))))]) (ss [.expr (.call 4 .nil)]),
        .expr (.assign (.glob 0) (.call 1 (one (g 0)))),
        .expr (.call 1 (one (.op 0 (one (g 1))))),
        .while_ none (.lit (.bool false)) (ss [.expr (.call 3 .nil)]) .nil,
        .while_ none (.op 2 .nil) (ss [.expr (.call 3 .nil)]) .nil,
        .ret (some (.tern (.lit (.bool true)) (.name (.glob 1)) (.call 3 .nil)))] }] }),
   (1, { kinds := [.in_], hook := true, impls := [], dflt := .int 7 }),
   (2, { kinds := [.inout], hook := true, impls := [
        { params := [0], kinds := [.inout], body := ss [.expr (.assign (.glob 1) (.op 0 (one (.name (.loc 0))))), .expr (.call 5 .nil)] },
        { params := [3], kinds := [.inout], body := ss [.expr (.mod 0 (.glob 1)), .expr (.mod 0 (.loc 3))] }] }),
   (3, { kinds := [], impls := [{ params := [], kinds := [], body := ss [.expr (.call 6 .nil)] }] }),
   (6, { kinds := [], impls := [{ params := [], kinds := [], body := ss [.ret (some (l 1))] }] }),
   (7, { kinds := [], impls := [{ params := [], kinds := [], body := ss [.expr (.call 4 .nil)] }] }),
   (4, { kinds := [], ext := true, keep := true, impls := [] }),
   (5, { kinds := [], impls := [{ params := [], kinds := [], body := ss [.expr (.call 4 .nil), .ret none] }] })]

theorem total_M0 : ∀ o vs, (M0.op o vs).isSome := by
  intro o vs
  show (match o, vs with
    | 0, [.int i] => some (Val.int (i + 1))
    | _, _ => some Val.void).isSome = true
  split <;> rfl

instance (P : Prog) : Decidable (Closed P) := inferInstanceAs (Decidable (∀ f ∈ P.calls, (P.get f).isSome = true))
instance (P : Prog) : Decidable (Distinct P) := inferInstanceAs (Decidable ((P.map Prod.fst).Nodup))

theorem get_cases {P : Prog} {f : Fn} {F : Fun} (h : P.get f = some F) : (f, F) ∈ P := get_mem h

/-- The hooks without implementation of the program. -/
theorem prog_unimpl {f : Fn} (h : Unimplemented prog f) : f = 1 := by
  obtain ⟨F, hF, h1, h2, h3⟩ := h
  have := get_mem hF
  simp only [prog, List.mem_cons, Prod.mk.injEq, List.not_mem_nil, or_false] at this
  rcases this with ⟨_, h⟩ | ⟨h, _⟩ | ⟨_, h⟩ | ⟨_, h⟩ | ⟨_, h⟩ | ⟨_, h⟩ | ⟨_, h⟩ | ⟨_, h⟩
  · subst h; simp at h2
  · exact h
  all_goals subst h; simp_all

/-- All calls of the program, with their arguments. -/
theorem prog_args {b : Stmts} (hb : b ∈ prog.bodies) {x : Fn × Exprs} (hx : x ∈ b.invocations) {e : Expr} (he : e ∈ x.2.toList) :
    e = .name (.loc 0) ∨ e = g 0 ∨ e = .op 0 (one (g 1)) := by
  simp only [Prog.bodies, prog, List.flatMap_cons, List.flatMap_nil, List.map_cons, List.map_nil, List.cons_append, List.nil_append,
    List.append_nil, List.mem_cons, List.not_mem_nil, or_false] at hb
  rcases hb with rfl | rfl | rfl | rfl | rfl | rfl | rfl <;>
    simp only [ss, Stmts.invocations, Stmt.invocations, Expr.invocations, Exprs.invocations, initInvocations, optInvocations, one, g, l,
      List.nil_append, List.append_nil, List.cons_append, List.mem_cons, List.not_mem_nil, or_false] at hx
  · rcases hx with rfl | rfl | rfl | rfl | rfl | rfl | rfl <;> simp [Exprs.toList] at he <;> simp [he, g, one]
  · rcases hx with rfl <;> simp [Exprs.toList] at he
  · rcases hx with rfl <;> simp [Exprs.toList] at he
  · rcases hx with rfl <;> simp [Exprs.toList] at he
  · rcases hx with rfl <;> simp [Exprs.toList] at he

/-- **The conditions can be met**, and the program keeps its meaning: for every state. -/
theorem prog_kept (f : Fn) (hf : ((deadStatic prog).get f).isSome) (args : List Arg) (d : Nat) (s : St M0) (r : Ev M0) :
    Does M0 prog f args d s r ↔ Does M0 (deadStatic prog) f args d s r := by
  refine dead_code_static_partial (by decide) (by decide +kernel) ?_ (quiet_of_total total_M0 _) ?_ f hf args d s r
  · intro b hb x hx hu e he
    rcases prog_args hb hx he with rfl | rfl | rfl <;> exact harmless_of_total total_M0 _ rfl
  · intro b hb x hx e he hpk
    obtain ⟨y, z, h⟩ := hpk
    rcases prog_args hb hx he with rfl | rfl | rfl <;> rcases h with h | h <;> simp [g, one] at h

/-- The hook without implementation and the function nobody calls are gone, and it is a smaller program. -/
theorem prog_smaller : (deadStatic prog).map Prod.fst = [0, 2, 3, 6, 4, 5] ∧ Prog.size (deadStatic prog) < Prog.size prog := by
  decide +kernel

/-- What it does. -/
theorem prog_result : seen (M := M0) id (callN M0 prog 5 0 [.val (.int 3)] 0 t0) = some (some (.int 5), .int 7, .int 5, 1)
    ∧ seen (M := M0) id (callN M0 (deadStatic prog) 5 0 [.val (.int 3)] 0 t0) = some (some (.int 5), .int 7, .int 5, 1) := by
  decide +kernel

/-! ## What goes wrong -/

/-- A hook without implementation is called inside of `if ( True )`. -/
def lost : Prog :=
  [(0, { kinds := [], keep := true, impls := [{ params := [], kinds := [], body := ss [
        .ite none (.lit (.bool true)) (ss [.expr (.call 1 .nil)]) .nil, .ret (some (l 1))] }] }),
   (1, { kinds := [], hook := true, impls := [] })]

/-- Its declaration is removed, the call is not: what replaces the `if` has not been visited. Further runs leave the call: nothing is left that says it
    is a hook. -/
theorem hook_call_left : Closed lost ∧ ¬ Closed (deadStatic lost) ∧ ¬ Closed (deadStatic (deadStatic lost)) ∧
    (deadStatic (deadStatic lost)).calls = [1] ∧ (deadStatic (deadStatic lost)).get 1 = none := by
  refine ⟨by decide +kernel, by decide +kernel, by decide +kernel, by decide +kernel, ?_⟩
  rfl

/-- However often the pass runs. -/
theorem hook_call_left_forever (n : Nat) : 1 ∈ (Nat.repeat deadStatic (n + 1) lost).calls ∧ (Nat.repeat deadStatic (n + 1) lost).get 1 = none := by
  have h : ∀ n, Nat.repeat deadStatic (n + 1) lost = deadStatic lost := by
    intro n
    induction n with
    | zero => rfl
    | succ n ih =>
      show deadStatic (Nat.repeat deadStatic (n + 1) lost) = _
      rw [ih]
      rcases dead_code_static_ends (deadStatic lost) with h | h
      · exact h
      · exact absurd h (by decide +kernel)
  rw [h n]
  exact ⟨by decide +kernel, rfl⟩

/-- The same happens to the statement after a `while ( False )` that is removed: the visitor skips it. -/
def skipped : Prog :=
  [(0, { kinds := [], keep := true, impls := [{ params := [], kinds := [], body := ss [
        .while_ none (.lit (.bool false)) .nil .nil, .expr (.call 1 .nil), .ret (some (l 1))] }] }),
   (1, { kinds := [], hook := true, impls := [] })]

theorem hook_call_skipped : Closed skipped ∧ (deadStatic skipped).calls = [1] ∧ (deadStatic skipped).get 1 = none :=
  ⟨by decide +kernel, by decide +kernel, rfl⟩

/-- The program had an outcome, and has none. -/
theorem hook_call_has_no_outcome : seen (M := M0) id (callN M0 lost 3 0 [] 0 t0) = some (some (.int 1), .int 0, .int 0, 0)
    ∧ ∀ r, ¬ Does M0 (deadStatic lost) 0 [] 0 t0 r := by
  refine ⟨by decide +kernel, ?_⟩
  rintro r ⟨n, hn⟩
  match n with
  | 0 => exact absurd hn (by simp [callN])
  | 1 => exact absurd hn (by simp [callN, deadStatic, lost, Prog.get, Prog.droppable, Prog.referenced, Fun.visited, visits, visit, ss, boolLit,
      runImpls, execs, exec, eval, evalArgs, Fun.defined, Prog.calls, Fun.calls, Stmts.calls, Stmt.calls, Expr.calls])
  | n + 2 => exact absurd hn (by simp [callN, deadStatic, lost, Prog.get, Prog.droppable, Prog.referenced, Fun.visited, visits, visit, ss, boolLit,
      runImpls, execs, exec, eval, evalArgs, Fun.defined, Prog.calls, Fun.calls, Stmts.calls, Stmt.calls, Expr.calls])

/-- An argument of a hook without implementation is a call with effects. -/
def argEffect : Prog :=
  [(0, { kinds := [], keep := true, impls := [{ params := [], kinds := [], body := ss [.expr (.call 1 (one (.call 4 .nil))), .ret (some (l 1))] }] }),
   (1, { kinds := [.in_], hook := true, impls := [] }),
   (4, { kinds := [], ext := true, keep := true, impls := [] })]

/-- The external function is no longer called. -/
theorem argument_dropped : ¬ ∀ r, Does M0 argEffect 0 [] 0 t0 r ↔ Does M0 (deadStatic argEffect) 0 [] 0 t0 r :=
  seen_of_does (w := id) (n := 5) (m := 5) (a := (some (.int 1), .int 0, .int 0, 1)) (b := (some (.int 1), .int 0, .int 0, 0))
    (by decide +kernel) (by decide +kernel) (by decide)

/-- An expression statement throws, such as `m["missing"];`. -/
def throwing : Prog :=
  [(0, { kinds := [], keep := true, impls := [{ params := [], kinds := [], body := ss [.expr (.op 1 (one (g 0))), .ret (some (l 1))] }] })]

/-- There is no exception any more. -/
theorem exception_dropped : ¬ ∀ r, Does M1 throwing 0 [] 0 s0 r ↔ Does M1 (deadStatic throwing) 0 [] 0 s0 r :=
  seen_of_does (w := id) (n := 5) (m := 5) (a := (none, .int 0, .int 0, 0)) (b := (some (.int 1), .int 0, .int 0, 0))
    (by decide +kernel) (by decide +kernel) (by decide)

/-- `f(True ? g : 1)` for a function with an `in` parameter that changes `g` and returns its parameter. -/
def picks : Prog :=
  [(0, { kinds := [], keep := true, impls := [{ params := [], kinds := [], body := ss [
        .ret (some (.call 1 (one (.tern (.lit (.bool true)) (g 0) (l 1)))))] }] }),
   (1, { kinds := [.in_], impls := [{ params := [0], kinds := [.in_], body := ss [
        .expr (.mod 0 (.glob 0)), .ret (some (.name (.loc 0)))] }] })]

/-- The parameter was a temporary, and is the variable. -/
theorem temporary_dropped : ¬ ∀ r, Does M0 picks 0 [] 0 t0 r ↔ Does M0 (deadStatic picks) 0 [] 0 t0 r :=
  seen_of_does (w := id) (n := 5) (m := 5) (a := (some (.int 0), .int 1, .int 0, 0)) (b := (some (.int 1), .int 1, .int 0, 0))
    (by decide +kernel) (by decide +kernel) (by decide)

end Witness

end Verif.Opt.Whole
