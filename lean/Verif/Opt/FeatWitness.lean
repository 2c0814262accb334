import Verif.Opt.FeatNeed

/-!
# Turning off features: examples
-/

namespace Verif.Opt.Feat

/-- Features 0 (`uses_random_access`), 1 (`uses_offset`) and 2 (`supports_filters`); fields 0 (`position_update`), 1
(`offset`), 2 (`begin`), 3 (of the user) and 4 (`filters`), with features as in
spicy/toolchain/src/compiler/codegen/unit-builder.cc:302-330. Field 5 is for both 0 and 1. Function 0 sets up filters. -/
def exEnv : Env where
  needs := fun x => [[0], [1], [0], [], [2], [0, 1]].getD x []
  req := fun k => if k = 0 then [2] else []
  always := []
  op := fun k a b => if k = 0 then a + b else if a < b then 1 else 0
  uses := fun k => if k = 0 then [4] else []
  quiet := fun k => k == 0
  run := fun _ v fs out => (fun _ => v + fs.sum, out ++ [v])

/-- Variable 1 (`pre_container_offset`) is for feature 1; `position_update` is idle. -/
def exOwn : Own where
  var := fun x => if x = 1 then [1] else []
  idle := fun x => x == 0

/-- Statements one after the other. -/
def exSeq : List Sm → Sm
  | [] => .skip
  | a :: rest => .seq a (exSeq rest)

/-- Code as generated around hooks and fields (spicy/toolchain/src/compiler/codegen/parser-builder.cc:826-829, 980-989,
3032-3073), with `hook` in between: variable 0 is the current position. -/
def exBody (hook : Sm) : Sm := exSeq
  [.ite (.or (.flag 0) (.flag 1)) (.setFld 0 (.lit 0)) .skip,
   .setVar 1 (.tern (.flag 1) (.fld 1) (.lit 0)),
   hook,
   .ite (.or (.flag 0) (.flag 1))
     (.ite (.fld 0) (.seq (.setVar 0 (.op 0 (.var 0) (.fld 0))) (.setFld 0 (.lit 0))) .skip) .skip,
   .ite (.flag 0) (.setFld 2 (.var 0)) .skip,
   .ite (.flag 1) (.setFld 1 (.op 0 (.var 0) (.lit 5))) .skip,
   .ite (.flag 1) (.setFld 1 (.op 0 (.fld 1) (.var 1))) .skip,
   .ite (.flag 2) (.call 0 (.lit 1)) .skip,
   .loop (.op 1 (.var 0) (.lit 3)) (.seq (.setVar 0 (.op 0 (.var 0) (.lit 1))) (.print (.var 0)))]

/-- A hook that uses no feature, one that prints the offset, and one that sets the position. -/
def exNone : Sm := exBody (.print (.fld 3))
def exOffset : Sm := exBody (.print (.fld 1))
def exMove : Sm := exBody (.setFld 0 (.lit 2))

/-- They meet the condition of the theorem. -/
theorem exNone_ok : okS exEnv exOwn [] [] exNone = true := by decide +kernel
theorem exOffset_ok : okS exEnv exOwn [] [] exOffset = true := by decide +kernel
theorem exMove_ok : okS exEnv exOwn [] [] exMove = true := by decide +kernel

/-- All features are on. -/
def allOn : Nat → Bool := fun _ => true

/-- Nothing is set. -/
def exSt : St := ⟨fun _ => 0, fun _ => 0, []⟩

example : [0, 1, 2].map (pass exEnv exNone allOn) = [false, false, false] := by decide +kernel
example : [0, 1, 2].map (pass exEnv exOffset allOn) = [false, true, false] := by decide +kernel
example : [0, 1, 2].map (pass exEnv exMove allOn) = [true, false, false] := by decide +kernel

example (p : Sm) (h : p = exNone ∨ p = exOffset ∨ p = exMove) (n : Nat) :
    SameEnd exEnv exOwn (pass exEnv p allOn) (evalS exEnv allOn n p exSt) (evalS exEnv (pass exEnv p allOn) n p exSt) :=
  pass_keeps_partial exEnv exOwn p
    (by rcases h with rfl | rfl | rfl <;> first | exact exNone_ok | exact exOffset_ok | exact exMove_ok) allOn (fun _ _ => rfl) n exSt
    (fun _ _ => rfl)

/-- The output of a run. -/
def outOf (r : Option St) : Option (List Int) := r.map St.out

example : outOf (evalS exEnv allOn 5 exMove exSt) = some [3] ∧
    outOf (evalS exEnv (pass exEnv exMove allOn) 5 exMove exSt) = some [3] := by decide +kernel
example : outOf (evalS exEnv allOn 5 exNone exSt) = some [0, 1, 2, 3] ∧
    outOf (evalS exEnv (pass exEnv exNone allOn) 5 exNone exSt) = some [0, 1, 2, 3] := by decide +kernel

/-- The branch taken if a feature is off counts as code for the feature: what is used there does not keep it on. -/
theorem else_branch_differs :
    let p := exSeq [.ite (.flag 1) (.setFld 1 (.lit 5)) .skip, .ite (.flag 0) .skip (.print (.fld 2))]
    okS exEnv exOwn [] [] p = false ∧ pass exEnv p allOn 0 = false ∧
    outOf (evalS exEnv allOn 5 p exSt) = some [] ∧
    outOf (evalS exEnv (pass exEnv p allOn) 5 p exSt) = some [0] := by decide +kernel

/-- Code for one of two features counts as code for both: `begin`, set for feature 0, is read in code for 0 or 1; it
keeps neither on, and the code runs for the sake of feature 1. -/
theorem either_feature_differs :
    let p := exSeq [.ite (.flag 0) (.setFld 2 (.lit 7)) .skip, .ite (.or (.flag 0) (.flag 1)) (.setFld 1 (.fld 2)) .skip,
      .print (.fld 1)]
    okS exEnv exOwn [] [] p = false ∧ pass exEnv p allOn 0 = false ∧ pass exEnv p allOn 1 = true ∧
    outOf (evalS exEnv allOn 5 p exSt) = some [7] ∧
    outOf (evalS exEnv (pass exEnv p allOn) 5 p exSt) = some [0] := by decide +kernel

/-- Code for a feature that does more than what the feature is for. -/
theorem effect_differs :
    let p := .ite (.flag 0) (.print (.lit 7)) .skip
    okS exEnv exOwn [] [] p = false ∧
    outOf (evalS exEnv allOn 5 p exSt) = some [7] ∧
    outOf (evalS exEnv (pass exEnv p allOn) 5 p exSt) = some [] := by decide +kernel

/-- A condition with more than features in it counts as well. -/
theorem mixed_condition_differs :
    let p := exSeq [.ite (.flag 0) (.setFld 2 (.lit 7)) .skip, .ite (.or (.flag 0) (.lit 1)) (.print (.fld 2)) .skip]
    okS exEnv exOwn [] [] p = false ∧
    outOf (evalS exEnv allOn 5 p exSt) = some [7] ∧
    outOf (evalS exEnv (pass exEnv p allOn) 5 p exSt) = some [0] := by decide +kernel

end Verif.Opt.Feat
