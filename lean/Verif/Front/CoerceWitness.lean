import Verif.Front.CoerceLaws
/-!
# Conversions: cases that meet the hypotheses, and what the exclusions are about
-/

namespace Verif.Front.Coerce

/-- What x86-64 makes of casting 2^63. -/
abbrev x86 : Int := -2 ^ 63

/-- What saturating casts (ARM) make of it. -/
abbrev arm : Int := 2 ^ 63 - 1

example : toDouble x86 < 2 ^ 63 := by decide
example : ¬ toDouble arm < 2 ^ 63 := by decide

/-- `tuple<real, optional<vector<uint8>>> x = (3, [1, 2, y])` for a `y` of type `uint<8>` is accepted, and its hypotheses are met. -/
def listOf : E := .ctor (.list (.int false 8) [.ctor (.int false 8 1), .ctor (.int false 8 2), .dyn (.int false 8) (.num 200)])
def pairOf : E := .ctor (.tcons (.ctor (.int false 64 3)) (.tcons listOf .tnil))
def pairTo : Ty := .tcons .real (.tcons (.optional (.vector (.int true 32))) .tnil)

theorem wt_pairOf : Wt pairOf := by
  refine .ctor (.tcons (.ctor (.int (by decide) (by decide))) (.tcons (.ctor (.list ?_ ?_)) .tnil))
  · intro e he
    simp at he
    rcases he with rfl | rfl | rfl
    · exact .ctor (.int (by decide) (by decide))
    · exact .ctor (.int (by decide) (by decide))
    · exact .dyn ⟨200, rfl, by decide⟩
  · intro e he
    simp at he
    rcases he with rfl | rfl | rfl
    · exact ⟨rfl, fun v hv => by cases hv with | ctor hv => cases hv; exact ⟨_, rfl, by decide⟩⟩
    · exact ⟨rfl, fun v hv => by cases hv with | ctor hv => cases hv; exact ⟨_, rfl, by decide⟩⟩
    · exact ⟨rfl, fun v hv => by cases hv; exact ⟨_, rfl, by decide⟩⟩

example : ∃ e', coerceExpr x86 100 forAssignment pairOf pairTo = some e' ∧
    Ev e' (.tcons (.real (.fin 3 0)) (.tcons (.opt (.seq [.num 1, .num 2, .num 200])) .tnil)) := by
  refine ⟨_, rfl, .ctor (.coerced (.tcons (.ctor (.coerced .real)) (.tcons ?_ .tnil)))⟩
  refine .coerced (.ctor (.coerced (.vector (.cons (.ctor (.coerced .int)) (.cons (.ctor (.coerced .int)) (.cons (.coerced .dyn rfl) .nil)))))) rfl

example : forAssignment.Real ∧ Plain pairTo :=
  ⟨(fun h => by cases h), (by simp [pairTo, Plain])⟩

/-- Conditions. -/
def condition : Style := ⟨false, false, true, true, true⟩

example : condition.Real := fun _ => ⟨rfl, rfl⟩

example : coerceExpr x86 10 condition (.ctor (.int true 64 0)) .bool = some (.ctor (.coerced (.int true 64 0) (.bool false))) := rfl
example : coerceExpr x86 10 forAssignment (.ctor (.int true 64 0)) .bool = none := rfl

/-- 300 is not a `uint<8>`, 255 is; an `int<64>` is not, whatever its value. -/
example : coerceExpr x86 10 forAssignment (.ctor (.int false 64 300)) (.int false 8) = none := by decide +kernel
example : (coerceExpr x86 10 forAssignment (.ctor (.int false 64 255)) (.int false 8)).isSome := by decide +kernel
example : coerceExpr x86 10 forAssignment (.dyn (.int true 64) (.num 5)) (.int false 8) = none := by decide +kernel
/-- 2^53 + 1 is not a real, 2^53 + 2 is. -/
example : coerceExpr x86 10 forAssignment (.ctor (.int false 64 (2 ^ 53 + 1))) .real = none := by decide +kernel
example : (coerceExpr x86 10 forAssignment (.ctor (.int false 64 (2 ^ 53 + 2))) .real).isSome := by decide +kernel

/-! ## The exclusions -/

/-- If the cast saturates, the constant 9223372036854775807 becomes the real 9223372036854775808. -/
theorem saturating_cast_changes_value :
    coerceExpr arm 10 forAssignment (.ctor (.int true 64 (2 ^ 63 - 1))) .real =
      some (.ctor (.coerced (.int true 64 (2 ^ 63 - 1)) (.real (.fin (2 ^ 63) 0)))) := rfl

/-- -2^63 is rejected though a `double` holds it. -/
theorem smallest_int64_rejected :
    coerceExpr x86 10 forAssignment (.ctor (.int true 64 (-2 ^ 63))) .real = none ∧ toDouble (-2 ^ 63) = -2 ^ 63 := ⟨rfl, rfl⟩

/-- A constant converted to 64 bits keeps its own type: `int<64> x = int8(5)` assigns an expression of type `int<8>`. -/
theorem constant_keeps_type :
    ∃ e', coerceExpr x86 10 forAssignment (.ctor (.int true 8 5)) (.int true 64) = some e' ∧ e'.ty = .int true 8 := ⟨_, rfl, rfl⟩

/-- A failed `result<T>` becomes an unset `optional<result<T>>`: the error is lost. -/
theorem error_lost :
    ∃ e', coerceExpr x86 10 forAssignment (.dyn (.result .bool) (.failed ['x'])) (.optional (.result .bool)) = some e' ∧ Ev e' .unset ∧
      ¬ Agree false (.result .bool) (.optional (.result .bool)) (.failed ['x']) .unset := by
  refine ⟨_, rfl, .coerced .dyn rfl, ?_⟩
  simp [Agree, Ty.kind]

/-- The same for an error: it becomes an unset `optional<result<T>>`. -/
theorem error_lost' :
    ∃ e', coerceExpr x86 10 forAssignment (.dyn .error (.err ['x'])) (.optional (.result .bool)) = some e' ∧ Ev e' .unset ∧
      ¬ Agree false .error (.optional (.result .bool)) (.err ['x']) .unset := by
  refine ⟨_, rfl, .coerced (.coerced .dyn rfl) rfl, ?_⟩
  simp [Agree, Ty.kind]

/-- `Null` becomes an `optional<optional<T>>` that is set. -/
theorem null_is_set :
    ∃ e', coerceExpr x86 10 forAssignment (.ctor .null) (.optional (.optional .bool)) = some e' ∧ Ev e' (.opt .unset) := by
  exact ⟨_, rfl, .coerced (.ctor (.coerced .unset)) rfl⟩

end Verif.Front.Coerce
