import Verif.Regex.Find
/-!
# Regular expressions: concrete cases
-/

namespace Verif.Regex
open Verif.Stream

theorem plain_of_ignores {A : Auto} (h : ∀ s b f l, A.step s b f l = A.step s b true false) : Plain A :=
  ⟨fun b l => h _ b true l, fun w _ b f l => by rw [h _ b f l, h _ b false false]⟩

/-- `[0-9]+`. -/
def digits : Auto where
  init := 0
  step s b _ _ := if s < 2 ∧ 48 ≤ b.toNat ∧ b.toNat ≤ 57 then 1 else 2
  acc s := if s = 1 then 1 else 0
  more s := s < 2
  late := false
  stuck s b f l h := by
    have : ¬ s < 2 := by simpa using h
    simp [this]

/-- `abc(123)?`, with either behaviour of `jrx_current_accept`. -/
def abc123 (late : Bool) : Auto where
  init := 0
  step s b _ _ := if s < 6 ∧ b.toNat = ([97, 98, 99, 49, 50, 51] : List Nat).getD s 0 then s + 1 else 7
  acc s := if s = 3 ∨ s = 6 then 1 else 0
  more s := s < 6
  late := late
  stuck s b f l h := by
    have : ¬ s < 6 := by simpa using h
    simp [this]

theorem plain_digits : Plain digits := plain_of_ignores (fun _ _ _ _ => rfl)

theorem plain_abc123 (late : Bool) : Plain (abc123 late) := plain_of_ignores (fun _ _ _ _ => rfl)

theorem runFrom_two (w : List Byte) : ∀ f, runFrom digits 2 f w = 2 := by
  induction w with
  | nil => intro f; rfl
  | cons b w ih => intro f; exact ih _

theorem runFrom_digits (w : List Byte) : ∀ f, w ≠ [] → ∀ s, s < 2 → runFrom digits s f w = 1 ∨ runFrom digits s f w = 2 := by
  induction w with
  | nil => intro f h; exact absurd rfl h
  | cons b w ih =>
    intro f _ s hs
    simp only [runFrom]
    have : digits.step s b f false = 1 ∨ digits.step s b f false = 2 := by
      simp only [digits]; split <;> simp
    rcases this with h | h
    · rw [h]
      by_cases hw : w = []
      · subst hw; exact Or.inl rfl
      · exact ih _ hw 1 (by omega)
    · rw [h, runFrom_two]; exact Or.inr rfl

/-- `[0-9]+` never goes back. -/
theorem noBack_digits : NoBack digits := by
  intro w hm ha
  by_cases hw : w = []
  · subst hw; intro n hn; simp at hn; subst hn; rfl
  · rcases runFrom_digits w true hw 0 (by omega) with h | h
    · exfalso
      unfold accepts run at ha
      have hi : digits.init = 0 := rfl
      rw [hi, h] at ha
      exact absurd ha (by decide)
    · exfalso
      unfold run at hm
      have hi : digits.init = 0 := rfl
      rw [hi, h] at hm
      exact absurd hm (by decide)

/-- The hypotheses of `C61_incremental_matching_partial` are met: "12", "", "3x" and nothing at the end. -/
example : (advanceAll digits (some (Pimpl.new digits)) (calls [[49, 50], [], [51, 120]] [])).1 =
    [.ok (-1, 2), .ok (-1, 0), .ok (1, 1), .throw .matchStateReuse] := by decide

example : Outcomes digits [49, 50, 51, 120] [] [[49, 50], [], [51, 120], []]
    [.ok (-1, 2), .ok (-1, 0), .ok (1, 1), .throw .matchStateReuse] :=
  C61_incremental_matching_partial plain_digits [[49, 50], [], [51, 120]] [] (Or.inr noBack_digits)

/-- Going back: `abc(123)?` on "abc", "1", "2", "X" gives 1 with -2 (as in `tests/regexp.cc`). -/
example : (advanceAll (abc123 false) (some (Pimpl.new (abc123 false))) (calls [[97, 98, 99], [49], [50]] [88])).1 =
    [.ok (-1, 3), .ok (-1, 1), .ok (-1, 1), .ok (1, -2)] := by decide

/-- Both patterns: `find` in "12 345 678" gives "345" (the longest, and the first of them). -/
example : find digits [49, 50, 32, 51, 52, 53, 32, 54, 55, 56] = (1, [51, 52, 53]) := by decide

/-- `abc(123)?` does go back: after "abc1" there is more, "abc1" is no match, but "abc" is. -/
theorem abc123_goes_back (late : Bool) : ¬ NoBack (abc123 late) := by
  intro h
  have := h [97, 98, 99, 49] (by cases late <;> decide) (by cases late <;> decide) 3 (by decide)
  cases late <;> exact absurd this (by decide)

/-- C61 cannot hold for all expressions when the last piece is empty: `abc(123)?` on "abc12" as final data matches "abc" and goes
    back by 2; on "abc12" and then an empty final piece it does not go back. If `jrx_current_accept` gives 0, the match is lost;
    if it gives the match, its end is wrong. -/
theorem C61_fails_for_empty_end :
    (advanceAll (abc123 false) (some (Pimpl.new (abc123 false))) (calls [] [97, 98, 99, 49, 50])).1 = [.ok (1, 3)] ∧
    (advanceAll (abc123 true) (some (Pimpl.new (abc123 true))) (calls [] [97, 98, 99, 49, 50])).1 = [.ok (1, 3)] ∧
    (advanceAll (abc123 false) (some (Pimpl.new (abc123 false))) (calls [[97, 98, 99, 49, 50]] [])).1 = [.ok (-1, 5), .ok (0, 0)] ∧
    (advanceAll (abc123 true) (some (Pimpl.new (abc123 true))) (calls [[97, 98, 99, 49, 50]] [])).1 = [.ok (-1, 5), .ok (1, 0)] := by
  decide

/-- `a^b`: matches nothing, as `^` wants the beginning of the data. -/
def inner : Auto where
  init := 0
  step s b first _ := if s = 0 ∧ b.toNat = 97 then 1 else if s = 1 ∧ b.toNat = 98 ∧ first = true then 2 else 3
  acc s := if s = 2 then 1 else 0
  more s := s < 2
  late := false
  stuck s b f l h := by
    have h : ¬ s < 2 := by simpa using h
    have h0 : s ≠ 0 := by omega
    have h1 : s ≠ 1 := by omega
    simp [h0, h1]

/-- With `^` inside of an expression the result depends on how the data is laid out in memory: the same data in one call, in one
    block or in two (`first` is not reset between the blocks of one call). -/
theorem C61_fails_for_inner_assertion :
    (advanceBlocks inner [([97, 98], true)] true (Pimpl.new inner)).1 = (0, 1) ∧
    (advanceBlocks inner [([97], false), ([98], true)] true (Pimpl.new inner)).1 = (1, 2) := by
  decide

/-- Copying a match state that is complete gives one that is not (`_done` is not copied): no `MatchStateReuse`. -/
theorem C61_fails_for_copies :
    (advanceAll digits (some (Pimpl.new digits)) [([49, 120], false), ([50], false)]).1 = [.ok (1, 1), .throw .matchStateReuse] ∧
    (MState.copy { noSub := true } (advanceBytes digits [49, 120] false (some (Pimpl.new digits))).2).bind
      (fun m => (advanceBytes digits [50] false m).1) = .ok (1, 1) := by
  decide

/-- Copying a match state that is default-constructed dereferences a null pointer. -/
theorem C61_copy_of_null_is_undefined (f : Flags) : MState.copy f none = .ub := rfl

/-- A copy of a match state that is not complete is equivalent to the original, for all further calls. -/
theorem C61_copy_is_independent_partial {p : Pimpl} (f : Flags) (hd : p.done = false) (hf : f.useStd = false ∨ f.noSub = true) :
    MState.copy f (some p) = .ok (some p) := by
  obtain ⟨a, b, c, d⟩ := p
  dsimp only at hd
  subst hd
  rcases hf with h | h <;> simp [MState.copy, h, Pimpl.copy]

end Verif.Regex
