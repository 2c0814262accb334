import Verif.Opt.PeepMain

/-!
# The peephole pass: examples
-/

namespace Verif.Opt.Peep

/-- Operator 0 adds, 1 prints, 2 throws an exception of type 7; hooks print the error and change it. -/
def exOps : Ops where
  run := fun k a b out => match k with
    | 0 => (.ok (a + b), out)
    | 1 => (.ok a, out ++ [a])
    | _ => (.error 7, out)
  hook := fun _ err out => (err + 1, out ++ [err])
  isa := fun t ty => t == ty

/-- `(*self).__error = __error;` -/
def exPush : Sm := .expr (.setErr (.var 0))
/-- `__error = (*self).__error;` -/
def exPop : Sm := .expr (.set 0 .getErr)
/-- Prints the expression. -/
def exPrint (e : Ex) : Sm := .expr (.ext 1 e (.lit 0))

/-- All that the pass works on: a hook between push and pop, pushes and pops with nothing in between, a move, a catch
block that rethrows, and the local of a grouping. -/
def exGood : Sms :=
  .cons exPush <| .cons (.hook 1) <| .cons exPop <|
  .cons exPush <| .cons exPop <| .cons (exPrint (.grp 3 (.lit 4) (.var 3))) <|
  .cons exPush <| .cons .dvoid <| .cons exPop <|
  .cons .dvoid <| .cons .dvoid <|
  .cons (.expr (.move (.grp 3 (.lit 4) (.var 3)))) <|
  .cons (.try_ (.cons (.try_ (.cons (.expr (.ext 2 (.lit 0) (.lit 0))) .nil)
      (.cons (some 7) 5 (.cons .rethrow .nil) .nil)) .nil)
    (.cons (some 7) 5 (.cons (exPrint (.var 5)) .nil) .nil)) <|
  .cons (.ret (.ext 0 (.grp 3 (.var 0) (.var 3)) (.lit 10))) .nil

/-- What the pass makes of it, in one round: a grouping after a removed pair and one `default<void>` are passed over. -/
def exGood' : Sms :=
  .cons exPush <| .cons (.hook 1) <| .cons exPop <|
  .cons (exPrint (.grp 3 (.lit 4) (.var 3))) <|
  .cons .dvoid <|
  .cons .dvoid <|
  .cons (.expr (.grp 3 (.lit 4) (.var 3))) <|
  .cons (.try_ (.cons (.block (.cons (.expr (.ext 2 (.lit 0) (.lit 0))) .nil)) .nil)
    (.cons (some 7) 5 (.cons (exPrint (.var 5)) .nil) .nil)) <|
  .cons (.ret (.ext 0 (.var 0) (.lit 10))) .nil

example : pass exGood = exGood' := by
  simp [pass, exGood, exGood', exPush, exPop, exPrint, trL, trS, trC, trTop, trX, isVoid, isPush, isPop, popAt,
    onlyRethrows, mayEff, replace, errVar]

/-- The second round gets at what was passed over. -/
def exGood'' : Sms :=
  .cons exPush <| .cons (.hook 1) <| .cons exPop <|
  .cons (exPrint (.lit 4)) <|
  .cons .dvoid <|
  .cons (.expr (.lit 4)) <|
  .cons (.try_ (.cons (.block (.cons (.expr (.ext 2 (.lit 0) (.lit 0))) .nil)) .nil)
    (.cons (some 7) 5 (.cons (exPrint (.var 5)) .nil) .nil)) <|
  .cons (.ret (.ext 0 (.var 0) (.lit 10))) .nil

example : rounds 2 exGood = exGood'' := by
  simp [rounds, pass, exGood, exGood'', exPush, exPop, exPrint, trL, trS, trC, trTop, trX, isVoid, isPush, isPop, popAt,
    onlyRethrows, mayEff, replace, errVar]

/-- It meets the condition of the theorems. -/
theorem exGood_ok : okL true exGood = true := by decide +kernel

/-- A state: `__error` is 2, the field 9. -/
def exSt : St := ⟨fun x => if x = 0 then 2 else 0, 9, []⟩

/-- The output and the result. -/
def outOf : Option R → Option (List Int × Option Int)
  | some (.done s) => some (s.out, none)
  | some (.ret v s) => some (s.out, some v)
  | some (.exn t s) => some (s.out ++ [(-1 : Int), (t : Int)], none)
  | none => none

example : outOf (evalL exOps 5 0 exGood exSt) = some ([2, 4, 7], some 13) := by decide +kernel
example : outOf (evalL exOps 5 0 (rounds 2 exGood) exSt) = some ([2, 4, 7], some 13) := by decide +kernel
example : seen (evalL exOps 5 0 (rounds 2 exGood) exSt) = seen (evalL exOps 5 0 exGood exSt) :=
  rounds_keep_partial exOps exGood exGood_ok 2 5 0 exSt

/-- A hook that runs without a push of its own, after a pair the pass removes: it saw the error of the function, and now
sees the one that the struct had before. -/
def exStale : Sms := .cons exPush <| .cons exPop <| .cons (.hook 1) .nil

theorem stale_error_differs :
    okL true exStale = false ∧
    outOf (evalL exOps 5 0 exStale exSt) = some ([2], none) ∧
    outOf (evalL exOps 5 0 (pass exStale) exSt) = some ([9], none) := by
  refine ⟨?_, ?_, ?_⟩ <;> decide +kernel

end Verif.Opt.Peep
