import Verif.Front.TypesProps
/-!
# Types that are the same, types that are not, and what the comparison does not see
-/

namespace Verif.Front.Types

abbrev u8 : Ty := .int false 8
abbrev str : Ty := .atom .string
abbrev lbl (n : String) : Label := ⟨n.toList, 0⟩

/-- `map<string, vector<tuple<a: uint8, X>>>` where `type X = M::Y`, `M::Y` a struct. -/
def wide : Ty :=
  .map false false str true (.con .vector false (.tuple (.cons (lbl "a") false u8 (.cons (lbl "") true (.alias (.decl (some "M::Y".toList))) .nil))))
/-- `map<string, vector<tuple<uint8, M::Y>>>`, the unification of the vector set already. -/
def wide' : Ty :=
  .map false true str false (.memo "vector(tuple(uint8,name(M::Y),))".toList (.con .vector true (.tuple (.cons (lbl "") true u8 (.cons (lbl "b") true (.decl (some "M::Y".toList)) .nil)))))
/-- `map<string, vector<tuple<uint16, M::Y>>>` -/
def narrow : Ty :=
  .map false true str false (.con .vector true (.tuple (.cons (lbl "") true (.int false 16) (.cons (lbl "b") true (.decl (some "M::Y".toList)) .nil))))

theorem wide_ok : Current wide ∧ NamesOk wide ∧ Settled wide := by
  refine ⟨?_, ?_, ?_⟩
  · simp only [wide, Current, CurrentEls, and_self]
  · simp only [wide, NamesOk, NamesOkEls, NameOk, and_true, true_and]; decide
  · simp only [wide, Settled, SettledEls, and_self]
theorem wide'_ok : Current wide' ∧ NamesOk wide' ∧ Settled wide' := by
  refine ⟨?_, ?_, ?_⟩
  · simp only [wide', Current, CurrentEls, and_self, and_true, true_and]
    exact ⟨(fun h => by simp only [strip] at h; cases h), (by decide +kernel)⟩
  · simp only [wide', NamesOk, NamesOkEls, NameOk, and_true, true_and]; decide
  · simp only [wide', Settled, SettledEls, and_self]
theorem narrow_ok : Current narrow ∧ NamesOk narrow ∧ Settled narrow := by
  refine ⟨?_, ?_, ?_⟩
  · simp only [narrow, Current, CurrentEls, and_self]
  · simp only [narrow, NamesOk, NamesOkEls, NameOk, and_true, true_and]; decide
  · simp only [narrow, Settled, SettledEls, and_self]

/-- The first two are the same, by the theorem; the third is not. -/
theorem wide_same : same wide wide' = true ∧ same wide narrow = false := by
  constructor
  · exact (same_iff _ _ wide_ok.1 wide'_ok.1 wide_ok.2.1 wide'_ok.2.1 wide_ok.2.2 wide'_ok.2.2).2
      ⟨(by simp only [Same, wide, wide', strip, stripEls]), (fun h => by simp only [wide, strip] at h; cases h)⟩
  · rw [Bool.eq_false_iff]
    intro h
    have := ((same_iff _ _ wide_ok.1 narrow_ok.1 wide_ok.2.1 narrow_ok.2.1 wide_ok.2.2 narrow_ok.2.2).1 h).1
    simp [Same, wide, narrow, strip, stripEls] at this

/-- What the specification counts as the same, although a program can tell the difference: the names of a tuple's elements, the kind of
a function's parameter (`inout` or not), the constness of a parameter, the attributes of a range of bits (`&convert` changes the type
of the field). -/
theorem same_ignores :
    same (.tuple (.cons (lbl "a") false u8 .nil)) (.tuple (.cons (lbl "b") false u8 .nil)) = true ∧
    same (.func true (.atom .void) (.cons ⟨"x".toList, 0⟩ false u8 .nil)) (.func true (.atom .void) (.cons ⟨"y".toList, 1⟩ false u8 .nil)) = true ∧
    same (.con .vector true u8) (.con .vector false u8) = true ∧
    same (.bitfield 8 [⟨"x".toList, 0, 3, 0⟩] 0) (.bitfield 8 [⟨"x".toList, 0, 3, 1⟩] 0) = true := by decide +kernel

/-- `any` is not even the same as itself; a vector of `any` is. -/
theorem same_any : same .never .never = false ∧ same (.con .vector false .never) (.con .vector false .never) = true := by decide +kernel

/-- The name of a C++ type goes into the unification as it is. With a closing parenthesis in it, a tuple of one library type is the same
as one of two. -/
theorem same_library :
    same (.tuple (.cons (lbl "") false (.library "A),library(B".toList) .nil))
      (.tuple (.cons (lbl "") false (.library "A".toList) (.cons (lbl "") false (.library "B".toList) .nil))) = true ∧
    ¬ Same (.tuple (.cons (lbl "") false (.library "A),library(B".toList) .nil))
      (.tuple (.cons (lbl "") false (.library "A".toList) (.cons (lbl "") false (.library "B".toList) .nil))) := by
  refine ⟨by decide +kernel, fun h => ?_⟩
  simp [Same, strip, stripEls] at h

/-- A unification is computed once. When the type has changed after it was set, the comparison does not notice. -/
theorem same_stale :
    same (.memo "vector(uint8)".toList (.con .vector false (.int false 16))) (.con .vector false u8) = true ∧
    ¬ Same (.memo "vector(uint8)".toList (.con .vector false (.int false 16))) (.con .vector false u8) := by
  refine ⟨by decide +kernel, fun h => ?_⟩
  simp [Same, strip] at h

end Verif.Front.Types
