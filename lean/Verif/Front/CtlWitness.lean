import Verif.Front.CtlFinal
/-! # Statements and the C++ for them: programs -/

namespace Verif.Front.Ctl

/-- Numbers, a list of what was printed, and two functions: to print, and to add. A sequence is a number that is counted down. -/
def lib : Lib Nat (List Nat) where
  call f a b w := if f = 0 then (.ok a, w ++ [a]) else if f = 1 then (.ok (a + b), w) else (.error a, w)
  un f v := 100 * (f + 1) + v
  bool b := if b then 1 else 0
  truth v := v != 0
  eqv a b := a == b
  next v _ := if v = 0 then none else some (v, v - 1)
  isA t v := t == v

theorem lib_ok : ∀ b, lib.truth (lib.bool b) = b := by decide

/-- A block. -/
def sq : List (Stmt Nat) → Stmts Nat
  | [] => .nil
  | s :: ss => .cons s (sq ss)

/-- Print a value. -/
def print (e : Expr Nat) : Stmt Nat := .expr (.app 0 e (.lit 0))

/-- `local x = 3; while ( x + 0 ) { switch ( x ) { case 2: break; case 3, 4: print(x); default: continue; } x = 2; } for ( y in 3 ) { if
( local z = y; z == 2 ) { print(z); break; } else { { local x = 9; } print(x); } } while ( local u = 0 ) print(1); else print(u + 7);
try { throw 5; } catch ( 4 e ) {} catch ( 5 e ) { print(e); } switch ( "x" ) { case print(1): {} } return x;` -/
def example_ : Stmts Nat := sq [
  .decl 0 (.lit 3),
  .loop 1 (.cond (.app 1 (.var 0) (.lit 0))) (sq [
    .switch 1 (.var 0) true (.cons [.const 2 true] (sq [.brk]) (.cons [.const 3 true, .const 4 true] (sq [print (.var 0)]) .nil))
      true (sq [.cont]),
    .expr (.set 0 (.lit 2))]) false .nil,
  .each 2 2 (.lit 3) false (sq [
    .ite (some (3, .var 2)) (.eq (.var 3) (.lit 2)) (sq [print (.var 3), .brk])
      (sq [.block (sq [.decl 0 (.lit 9)]), print (.var 0)])]),
  .loop 3 (.init 4 (.lit 0)) (sq [print (.lit 1)]) true (sq [print (.app 1 (.var 4) (.lit 7))]),
  .try_ (sq [.throw (.lit 5)]) (.cons (some (4, 5)) .nil (.cons (some (5, 5)) (sq [print (.var 5)]) .nil)),
  .try_ (sq [.switch 6 (.lit 8) false (.cons [.dyn (.app 0 (.lit 1) (.lit 0))] .nil .nil) false .nil])
    (.cons (some (108, 7)) (sq [print (.var 7)]) .nil),
  .ret (.var 0)]

theorem example_ok : OkB true 0 example_ := by
  simp [example_, sq, OkB, Ok, OkC, OkH, Expr.names, Head.Ok, Stmts.breaks, Stmts.conts, Stmt.breaks, Stmt.conts, print,
    Cases.allConst, CaseExpr.isConst, Cases.allSame]

/-- It prints 3, 2, 2, 7, 5, 1 and 108, and returns 2, in C++ too. -/
theorem example_runs : srcB lib 10 example_ ([], []) = some (.ret 2, ([(0, some 2)], [3, 2, 2, 7, 5, 1, 108])) ∧
    cxxB lib 10 (genB true 0 example_) ([], []) = some (.ret 2, ([(0, some 2)], [3, 2, 2, 7, 5, 1, 108])) := by decide +kernel

example : Agree (srcB lib 10 example_ ([], [])) (cxxB lib 10 (genB true 0 example_) ([], [])) :=
  body_compiled lib lib_ok true 0 example_ example_ok rfl 10 _

/-- **A block with nothing but a declaration has no scope in C++** if no code for locations is generated: `local x = 1; if ( True ) { {
local x = 2; } print(x); }` -/
theorem lone_declaration : ∃ b : Stmts Nat,
    srcB lib 5 b ([], []) = some (.norm, ([(0, some 1)], [1])) ∧ cxxB lib 5 (genB false 0 b) ([], []) = some (.norm, ([(0, some 1)], [2])) ∧
    cxxB lib 5 (genB true 0 b) ([], []) = some (.norm, ([(0, some 1)], [1])) :=
  ⟨sq [.decl 0 (.lit 1), .ite none (.lit 1) (sq [.block (sq [.decl 0 (.lit 2)]), print (.var 0)]) .nil], rfl, rfl, rfl⟩

/-- **A variable is in scope in its own initial value**: `local x = 1; { local x = x + 1; print(x); }` reads a variable that has no value
yet. -/
theorem own_initial_value : ∃ b : Stmts Nat,
    srcB lib 5 b ([], []) = some (.norm, ([(0, some 1)], [2])) ∧ cxxB lib 5 (genB true 0 b) ([], []) = some (.ub, ([(0, some 1)], [])) :=
  ⟨sq [.decl 0 (.lit 1), .block (sq [.decl 0 (.app 1 (.var 0) (.lit 1)), print (.var 0)])], rfl, rfl⟩

/-- **`break` in a loop with an `else`**: it goes to a label that is not there. -/
theorem break_with_else : ∃ b : Stmts Nat,
    srcB lib 5 b ([], []) = some (.norm, ([], [1])) ∧ cxxB lib 5 (genB true 0 b) ([], []) = some (.goto 1, ([], [1])) :=
  ⟨sq [.loop 1 (.cond (.lit 1)) (sq [print (.lit 1), .brk]) true (sq [print (.lit 2)])], rfl, rfl⟩

/-- **`continue` in the `else` of a loop** starts that loop again, and again: it never ends, whatever the outer loop is. -/
theorem continue_in_else : ∃ b : Stmts Nat,
    (∃ σ, srcB lib 5 b ([], []) = some (.cont, σ)) ∧ ∀ n, cxxB lib n (genB true 0 b) ([], []) = none := by
  refine ⟨sq [.loop 1 (.cond (.lit 0)) .nil true (sq [.cont])], ⟨_, rfl⟩, fun n => ?_⟩
  have key : ∀ m, whileN lib (fun σ => (.val (lib.bool true), σ)) (cxxB lib n (.cons (.ite none (.neg (.lit 0))
      ((genB true 1 (sq [.cont])).append (.one .brk)) .nil) (genB true 1 .nil))) (fun σ => some (.norm, σ)) m ([], []) = none := by
    intro m
    induction m with
    | zero => rfl
    | succ m ih => exact ih
  show cxxB lib n (.cons .loc (.one (.bare (.one (.forever _))))) ([], []) = none
  rw [cxxB_cons]
  show cxxB lib n (.one (.bare (.one (.forever _)))) ([], []) = none
  simp only [one_run, cxx]
  exact key n

/-- **A constant of another type in a `switch`**: the case is left out. `switch ( local x: uint64 = 5 ) { case uint8(5): print(1); default:
print(2); }` -/
theorem case_of_other_type : ∃ b : Stmts Nat,
    srcB lib 5 b ([], []) = some (.norm, ([], [1])) ∧ cxxB lib 5 (genB true 0 b) ([], []) = some (.norm, ([], [2])) :=
  ⟨sq [.switch 0 (.lit 5) true (.cons [.const 5 false] (sq [print (.lit 1)]) .nil) true (sq [print (.lit 2)])], rfl, rfl⟩

/-- **A `switch` with nothing but a default** that is not for integers does not evaluate its control expression, nor declare its
variable. -/
theorem only_default : ∃ b c : Stmts Nat,
    srcB lib 5 b ([], []) = some (.norm, ([], [1, 2])) ∧ cxxB lib 5 (genB true 0 b) ([], []) = some (.norm, ([], [2])) ∧
    srcB lib 5 c ([], []) = some (.norm, ([], [3])) ∧ cxxB lib 5 (genB true 0 c) ([], []) = some (.ub, ([], [])) :=
  ⟨sq [.switch 0 (.app 0 (.lit 1) (.lit 0)) false .nil true (sq [print (.lit 2)])],
   sq [.switch 0 (.lit 3) false .nil true (sq [print (.var 0)])], rfl, rfl, rfl, rfl⟩

end Verif.Front.Ctl
