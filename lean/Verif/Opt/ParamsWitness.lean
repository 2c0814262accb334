import Verif.Opt.ParamsCompiles
import Verif.Opt.DeadStaticWitness

/-!
# Optimizing parameters: programs (C84)

A program that meets the conditions of the theorem, and for each condition a program that shows that it is needed.
-/

namespace Verif.Opt.Whole.Witness

theorem all_get {P : Prog} {Q : Fn → Fun → Prop} (h : ∀ x ∈ P, Q x.1 x.2) (f : Fn) (F : Fun) (hF : P.get f = some F) : Q f F :=
  h (f, F) (get_mem hF)

/-- `Consistent`, as a check. -/
theorem consistent_of {P : Prog} (h : ∀ x ∈ P, (x.2.ext = true → x.2.impls.isEmpty = true) ∧
    ∀ i ∈ x.2.impls, i.kinds = x.2.kinds ∧ i.params.length = x.2.kinds.length ∧ i.params.Nodup) : Consistent P :=
  fun f F hF => ⟨fun he => by simpa using (h (f, F) (get_mem hF)).1 he, (h (f, F) (get_mem hF)).2⟩

/-- `ConstOk`, as a check. -/
theorem const_of {P : Prog} (h : ∀ x ∈ P, ∀ i ∈ x.2.impls, ∀ p ∈ i.params.zip i.kinds, p.2 = .in_ → p.1 ∉ i.body.writes P.kinds) : ConstOk P :=
  fun f F hF i hi x hx => h (f, F) (get_mem hF) i hi (x, .in_) hx rfl

/-- `Arity`, as a check. -/
theorem arity_of {P : Prog} (h : ∀ x ∈ P, ∀ i ∈ x.2.impls, ∀ c ∈ i.body.invocations, c.2.toList.length = (P.kinds c.1).length) : Arity P :=
  fun f F hF => h (f, F) (get_mem hF)

/-- The check of arguments for `copy` parameters. -/
def safeArg (P : Prog) (i : Impl) (c : Fn × Exprs) (j : Nat) : Bool :=
  match c.2.toList[j]?, (P.kinds c.1)[j]? with
  | some (.name (.loc x)), some .copy => (i.params.zip i.kinds).all (fun p => p.1 != x || p.2 == .copy) && !(Exprs.inouts (P.kinds c.1) c.2).contains x
      && !(c.2.writes P.kinds).contains x
  | some (.name (.glob _)), some .copy => false
  | _, _ => true

theorem safe_of {P : Prog} (h : ∀ x ∈ P, ∀ i ∈ x.2.impls, ∀ c ∈ i.body.invocations, ∀ j < c.2.toList.length, safeArg P i c j = true) : SafeCopies P := by
  intro f F hF i hi c hc j n hn hk _
  have := h (f, F) (get_mem hF) i hi c hc j (lt_of_some hn)
  unfold safeArg at this
  rw [hn, hk] at this
  cases n with
  | glob g => simp at this
  | loc x =>
    simp only [Bool.and_eq_true, Bool.not_eq_true', List.contains_eq_mem, decide_eq_false_iff_not, List.all_eq_true, Bool.or_eq_true, bne_iff_ne,
      beq_iff_eq] at this
    refine ⟨x, rfl, fun k hk => ?_, this.1.2, this.2⟩
    rcases this.1.1 (x, k) hk with h | h
    · exact absurd rfl h
    · exact h

theorem idle_of {P : Prog} (h : PlainArgs P) : IdleArgs M0 P := by
  intro f F hF i hi c hc j e he hu
  have hp : e.plain = true := by
    have := h f F hF i hi c hc
    generalize c.2 = as at this he
    clear hc hu
    induction as using Exprs.rec (motive_1 := fun _ => True) generalizing j with
    | nil => simp [Exprs.toList] at he
    | cons a l _ ih =>
      simp only [Exprs.plain, Bool.and_eq_true] at this
      cases j with
      | zero => simp only [Exprs.toList, List.getElem?_cons_zero, Option.some.injEq] at he; rw [← he]; exact this.1
      | succ j => exact ih j this.2 (by simpa [Exprs.toList] using he)
    | _ => trivial
  exact ⟨harmless_of_total total_M0 e hp, hp⟩

def x (n : Nat) : Expr := .name (.loc n)
def es : List Expr → Exprs
  | [] => .nil
  | a :: r => .cons a (es r)

/-! ## A program that meets the conditions -/

/-- `public function main(copy a: int64): local b = 5; local c = 0; f(b, a + 1, c); g0 = c; return c;`
    `function f(copy p: int64, copy q: int64, inout r: int64): r = p + 1;` -/
def good : Prog :=
  [(0, { kinds := [.copy], fixed := true, impls := [{ params := [0], kinds := [.copy], body := ss [
        .decl 1 (l 5), .decl 2 (l 0),
        .expr (.call 1 (es [x 1, .op 0 (one (x 0)), x 2])),
        .expr (.assign (.glob 0) (x 2)),
        .ret (some (x 2))] }] }),
   (1, { kinds := [.copy, .copy, .inout], impls := [{ params := [0, 1, 2], kinds := [.copy, .copy, .inout], body := ss [
        .expr (.assign (.loc 2) (.op 0 (one (x 0))))] }] })]

theorem good_compiles : Compiles good := ⟨consistent_of (by decide), const_of (by decide), arity_of (by decide)⟩

theorem good_plain : PlainArgs good := all_get (by decide)

/-- **The conditions can be met.** The first parameter becomes `in`, the second is removed. -/
theorem good_same (v : Val) (d : Nat) (s : St M0) (r : Ev M0) :
    Does M0 good 0 [.val v] d s r ↔ Does M0 (optimizeParams good) 0 [.val v] d s r :=
  optimize_parameters_plain good_compiles (all_get (by decide)) (all_get (by decide)) (all_get (by decide)) good_plain
    (idle_of good_plain) (safe_of (by decide)) (F := _) rfl rfl (by simp [Fits]) s r

theorem good_kinds : (optimizeParams good).kinds 1 = [.in_, .inout] := by decide

/-- The program runs, and returns 6. -/
theorem good_runs : (seen (fun w => w) (callN M0 (optimizeParams good) 3 0 [.val (.int 1)] 0 t0)) = some (some (.int 6), .int 6, .int 0, 0) := by decide

/-! ## Operators the analysis does not see -/

/-- `function f(copy p: int64) : int64 { return p++; }` -/
def hiddenRet : Prog :=
  [(1, { kinds := [.copy], impls := [{ params := [0], kinds := [.copy], body := ss [.ret (some (.mod 0 (.loc 0)))] }] })]
/-- `local y = p++;` -/
def hiddenDecl : Prog :=
  [(1, { kinds := [.copy], impls := [{ params := [0], kinds := [.copy], body := ss [.decl 1 (.mod 0 (.loc 0))] }] })]
/-- `y = p++;` -/
def hiddenAssign : Prog :=
  [(1, { kinds := [.inout], impls := [{ params := [0], kinds := [.inout], body := ss [.expr (.assign (.glob 0) (.mod 0 (.loc 0)))] }] })]

theorem not_const {P : Prog} {F : Fun} {i : Impl} {y : Nat} (hF : P.get 1 = some F) (hi : i ∈ F.impls) (hz : (y, Kind.in_) ∈ i.params.zip i.kinds)
    (hw : y ∈ i.body.writes P.kinds) : ¬ Compiles P := fun h => h.const 1 F hF i hi y hz hw

/-- **A parameter that is modified becomes `in`**: the C++ code does not compile. -/
theorem hidden_breaks : (Compiles hiddenRet ∧ ¬ Compiles (optimizeParams hiddenRet)) ∧ (Compiles hiddenDecl ∧ ¬ Compiles (optimizeParams hiddenDecl)) ∧
    Compiles hiddenAssign ∧ ¬ Compiles (optimizeParams hiddenAssign) :=
  ⟨⟨⟨consistent_of (by decide), const_of (by decide), arity_of (by decide)⟩, not_const (y := 0) rfl (.head _) (by decide) (by decide)⟩,
   ⟨⟨consistent_of (by decide), const_of (by decide), arity_of (by decide)⟩, not_const (y := 0) rfl (.head _) (by decide) (by decide)⟩,
   ⟨consistent_of (by decide), const_of (by decide), arity_of (by decide)⟩, not_const (y := 0) rfl (.head _) (by decide) (by decide)⟩

/-! ## Hooks with several implementations -/

/-- `hook void h(inout p: int64) { p = 1; }`, `hook void h(inout p: int64) { g0 = p; }` -/
def twoImpls : Prog :=
  [(1, { kinds := [.inout], hook := true, impls := [
      { params := [0], kinds := [.inout], body := ss [.expr (.assign (.loc 0) (l 1))] },
      { params := [0], kinds := [.inout], body := ss [.expr (.assign (.glob 0) (x 0))] }] })]

/-- **The implementations of a hook get different kinds of parameters**: the C++ code does not compile. -/
theorem hooks_break : Compiles twoImpls ∧ ¬ Compiles (optimizeParams twoImpls) :=
  ⟨⟨consistent_of (by decide), const_of (by decide), arity_of (by decide)⟩, fun h => by
    have := ((h.consistent 1 _ rfl).2 _ (.head _)).1
    revert this
    decide⟩

/-! ## Calls in arguments -/

/-- `f(1, g(2) + 1)`, where `f` ignores its first and `g` its only argument, and `f` is declared first. -/
def nested : Prog :=
  [(1, { kinds := [.in_, .in_], impls := [{ params := [0, 1], kinds := [.in_, .in_], body := ss [.expr (.assign (.glob 0) (x 1))] }] }),
   (2, { kinds := [.in_], impls := [{ params := [0], kinds := [.in_], body := ss [.ret (some (l 3))] }] }),
   (0, { kinds := [], fixed := true, impls := [{ params := [], kinds := [], body := ss [
        .expr (.call 1 (es [l 1, .op 0 (one (.call 2 (one (l 2))))]))] }] })]

/-- **A call keeps the argument of a parameter that has been removed**: the C++ code does not compile. -/
theorem nested_breaks : Compiles nested ∧ ¬ Compiles (optimizeParams nested) :=
  ⟨⟨consistent_of (by decide), const_of (by decide), arity_of (by decide)⟩, fun h => by
    have := h.arity 0 _ rfl _ (.head _) (2, one (l 2)) (.tail _ (.head _))
    revert this
    decide⟩

/-! ## Variables that change during the call -/

/-- `function f(copy p: int64) { g0 = g0 + 1; g1 = p; }`, called with `g0`. -/
def aliasGlobal : Prog :=
  [(0, { kinds := [], fixed := true, impls := [{ params := [], kinds := [], body := ss [.expr (.call 1 (one (g 0)))] }] }),
   (1, { kinds := [.copy], impls := [{ params := [0], kinds := [.copy], body := ss [.expr (.mod 0 (.glob 0)), .expr (.assign (.glob 1) (x 0))] }] })]

/-- `function f(copy p: int64, inout q: int64) { q = 9; g1 = p; }`, called with a variable for both. -/
def aliasTwice : Prog :=
  [(0, { kinds := [], fixed := true, impls := [{ params := [], kinds := [], body := ss [.decl 0 (l 3), .expr (.call 1 (es [x 0, x 0]))] }] }),
   (1, { kinds := [.copy, .inout], impls := [{ params := [0, 1], kinds := [.copy, .inout], body := ss [
        .expr (.assign (.loc 1) (l 9)), .expr (.assign (.glob 1) (x 0))] }] })]

/-- The same through an `inout` parameter: `main` passes `g0` to `h(inout a)`, which calls `f(a)`. -/
def aliasInout : Prog :=
  [(0, { kinds := [], fixed := true, impls := [{ params := [], kinds := [], body := ss [.expr (.call 2 (one (g 0)))] }] }),
   (1, { kinds := [.copy], impls := [{ params := [0], kinds := [.copy], body := ss [.expr (.mod 0 (.glob 0)), .expr (.assign (.glob 1) (x 0))] }] }),
   (2, { kinds := [.inout], impls := [{ params := [0], kinds := [.inout], body := ss [.expr (.call 1 (one (x 0)))] }] })]

/-- **A `copy` parameter that became `in` changes during the call**, and the C++ code compiles. -/
theorem alias_breaks :
    (Compiles aliasGlobal ∧ Compiles (optimizeParams aliasGlobal) ∧ ¬ ∀ r, Does M0 aliasGlobal 0 [] 0 t0 r ↔ Does M0 (optimizeParams aliasGlobal) 0 [] 0 t0 r) ∧
    (Compiles aliasTwice ∧ Compiles (optimizeParams aliasTwice) ∧ ¬ ∀ r, Does M0 aliasTwice 0 [] 0 t0 r ↔ Does M0 (optimizeParams aliasTwice) 0 [] 0 t0 r) ∧
    Compiles aliasInout ∧ Compiles (optimizeParams aliasInout) ∧ ¬ ∀ r, Does M0 aliasInout 0 [] 0 t0 r ↔ Does M0 (optimizeParams aliasInout) 0 [] 0 t0 r :=
  ⟨⟨⟨consistent_of (by decide), const_of (by decide), arity_of (by decide)⟩, ⟨consistent_of (by decide), const_of (by decide), arity_of (by decide)⟩,
    seen_of_does (w := fun w => w) (n := 3) (m := 3) (a := (some .void, .int 1, .int 0, 0)) (b := (some .void, .int 1, .int 1, 0)) (by decide) (by decide) (by decide)⟩,
   ⟨⟨consistent_of (by decide), const_of (by decide), arity_of (by decide)⟩, ⟨consistent_of (by decide), const_of (by decide), arity_of (by decide)⟩,
    seen_of_does (w := fun w => w) (n := 3) (m := 3) (a := (some .void, .int 0, .int 3, 0)) (b := (some .void, .int 0, .int 9, 0)) (by decide) (by decide) (by decide)⟩,
   ⟨consistent_of (by decide), const_of (by decide), arity_of (by decide)⟩, ⟨consistent_of (by decide), const_of (by decide), arity_of (by decide)⟩,
    seen_of_does (w := fun w => w) (n := 4) (m := 4) (a := (some .void, .int 1, .int 0, 0)) (b := (some .void, .int 1, .int 1, 0)) (by decide) (by decide) (by decide)⟩

/-! ## Arguments with effects -/

/-- `function f(in p: int64) {}`, called with some argument. -/
def effect (e : Expr) : Prog :=
  [(0, { kinds := [], fixed := true, impls := [{ params := [], kinds := [], body := ss [.expr (.call 1 (one e))] }] }),
   (1, { kinds := [.in_], impls := [{ params := [0], kinds := [.in_], body := .nil }] }),
   (2, { kinds := [], method := true, impls := [{ params := [], kinds := [], body := ss [.expr (.mod 0 (.glob 0)), .ret (some (l 1))] }] }),
   (3, { kinds := [], impls := [{ params := [], kinds := [], body := ss [.expr (.mod 0 (.glob 0)), .ret (some (l 1))] }] })]

/-- **Arguments with effects are removed**: the call of a method, the call of a function inside of an operator, `x++`, an assignment, an operator that throws. -/
theorem effects_break :
    (¬ ∀ r, Does M0 (effect (.call 2 .nil)) 0 [] 0 t0 r ↔ Does M0 (optimizeParams (effect (.call 2 .nil))) 0 [] 0 t0 r) ∧
    (¬ ∀ r, Does M0 (effect (.op 0 (one (.call 3 .nil)))) 0 [] 0 t0 r ↔ Does M0 (optimizeParams (effect (.op 0 (one (.call 3 .nil))))) 0 [] 0 t0 r) ∧
    (¬ ∀ r, Does M0 (effect (.mod 0 (.glob 0))) 0 [] 0 t0 r ↔ Does M0 (optimizeParams (effect (.mod 0 (.glob 0)))) 0 [] 0 t0 r) ∧
    (¬ ∀ r, Does M0 (effect (.assign (.glob 0) (l 1))) 0 [] 0 t0 r ↔ Does M0 (optimizeParams (effect (.assign (.glob 0) (l 1)))) 0 [] 0 t0 r) ∧
    ¬ ∀ r, Does M1 (effect (.op 1 .nil)) 0 [] 0 s0 r ↔ Does M1 (optimizeParams (effect (.op 1 .nil))) 0 [] 0 s0 r :=
  ⟨seen_of_does (w := fun w => w) (n := 3) (m := 3) (a := (some .void, .int 1, .int 0, 0)) (b := (some .void, .int 0, .int 0, 0)) (by decide) (by decide) (by decide),
   seen_of_does (w := fun w => w) (n := 3) (m := 3) (a := (some .void, .int 1, .int 0, 0)) (b := (some .void, .int 0, .int 0, 0)) (by decide) (by decide) (by decide),
   seen_of_does (w := fun w => w) (n := 3) (m := 3) (a := (some .void, .int 1, .int 0, 0)) (b := (some .void, .int 0, .int 0, 0)) (by decide) (by decide) (by decide),
   seen_of_does (w := fun w => w) (n := 3) (m := 3) (a := (some .void, .int 1, .int 0, 0)) (b := (some .void, .int 0, .int 0, 0)) (by decide) (by decide) (by decide),
   seen_of_does (w := fun w => w) (n := 3) (m := 3) (a := (none, .int 0, .int 0, 0)) (b := (some .void, .int 0, .int 0, 0)) (by decide) (by decide) (by decide)⟩

/-- The call of a function as an argument is seen: nothing is removed. -/
theorem function_call_kept : (optimizeParams (effect (.call 3 .nil))).kinds 1 = [.in_] := by decide

end Verif.Opt.Whole.Witness
