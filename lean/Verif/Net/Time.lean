import Verif.Net.Spec
/-!
# C36: times and intervals
-/

namespace Verif.Net

open Verif.Ints

theorem has_u64 (x : Int) : u64.has x ↔ IsTime x := by
  unfold Ty.has Ty.min Ty.max IsTime u64
  simp only [Bool.false_eq_true, if_false]
  omega

theorem has_i64 (x : Int) : i64.has x ↔ IsInterval x := by
  unfold Ty.has Ty.min Ty.max IsInterval i64
  simp only [if_true]
  omega

theorem safe_u64 (x : Int) : safe u64 x = if 0 ≤ x ∧ x < 2 ^ 64 then .ok x else .throw .overflow := by
  unfold safe
  by_cases h : IsTime x
  · rw [if_pos ((has_u64 x).mpr h), if_pos (show 0 ≤ x ∧ x < 2 ^ 64 from h)]
  · rw [if_neg (fun g => h ((has_u64 x).mp g)), if_neg (show ¬ (0 ≤ x ∧ x < 2 ^ 64) from h)]

theorem safe_i64 (x : Int) : safe i64 x = if -2 ^ 63 ≤ x ∧ x < 2 ^ 63 then .ok x else .throw .overflow := by
  unfold safe
  by_cases h : IsInterval x
  · rw [if_pos ((has_i64 x).mpr h), if_pos (show -2 ^ 63 ≤ x ∧ x < 2 ^ 63 from h)]
  · rw [if_neg (fun g => h ((has_i64 x).mp g)), if_neg (show ¬ (-2 ^ 63 ≤ x ∧ x < 2 ^ 63) from h)]

/-- C36: adding an interval to a time is exact whenever it gives a result, and the result is a time. -/
theorem C36_add_exact {t i r : Int} (h : timeAdd t i = .ok r) : r = t + i ∧ IsTime r := by
  unfold timeAdd at h
  simp only [safe_u64, safe_i64] at h
  unfold IsTime
  split at h
  · split at h
    · cases h
    · split at h
      · simp only [Res.ok_bind] at h
        split at h
        · cases h
        · split at h
          · next hh => cases h; exact ⟨rfl, hh⟩
          · cases h
      · cases h
  · split at h
    · next hh => cases h; exact ⟨rfl, hh⟩
    · cases h

/-- C36: the same for subtracting an interval, the difference of two times, and the operations on intervals. -/
theorem C36_exact {t u i j r : Int} :
    (timeSub t i = .ok r → r = t - i ∧ IsTime r) ∧
    (timeDiff t u = .ok r → r = t - u ∧ IsInterval r) ∧
    (intervalAdd i j = .ok r → r = i + j ∧ IsInterval r) ∧
    (intervalSub i j = .ok r → r = i - j ∧ IsInterval r) ∧
    (intervalMul i j = .ok r → r = i * j ∧ IsInterval r) := by
  have key : ∀ x, safe i64 x = .ok r → r = x ∧ IsInterval r := by
    intro x h
    rw [safe_i64] at h
    split at h
    · next hh => cases h; exact ⟨rfl, hh⟩
    · cases h
  refine ⟨?_, ?_, key _, key _, key _⟩
  · intro h
    unfold timeSub at h
    rw [safe_u64] at h
    split at h
    · cases h
    · split at h
      · next hh => cases h; exact ⟨rfl, hh⟩
      · cases h
  · intro h
    unfold timeDiff at h
    simp only [safe_i64] at h
    split at h
    · simp only [Res.ok_bind] at h
      split at h
      · simp only [Res.ok_bind] at h
        split at h
        · next hh => cases h; exact ⟨rfl, hh⟩
        · cases h
      · cases h
    · cases h

/-- C36: a result outside of the range is an exception, a result inside the range is delivered. For subtraction and for interval
    operations this is exact. -/
theorem C36_complete {t i j : Int} :
    (IsTime (t - i) → timeSub t i = .ok (t - i)) ∧ (¬ IsTime (t - i) → ∃ e, timeSub t i = .throw e) ∧
    (IsInterval (i + j) → intervalAdd i j = .ok (i + j)) ∧ (¬ IsInterval (i + j) → intervalAdd i j = .throw .overflow) ∧
    (IsInterval (i - j) → intervalSub i j = .ok (i - j)) ∧ (¬ IsInterval (i - j) → intervalSub i j = .throw .overflow) ∧
    (IsInterval (i * j) → intervalMul i j = .ok (i * j)) ∧ (¬ IsInterval (i * j) → intervalMul i j = .throw .overflow) := by
  unfold timeSub intervalAdd intervalSub intervalMul
  simp only [safe_i64, safe_u64]
  refine ⟨?_, ?_, fun h => if_pos h, fun h => if_neg h, fun h => if_pos h, fun h => if_neg h, fun h => if_pos h, fun h => if_neg h⟩
  · intro h
    unfold IsTime at *
    rw [if_neg (show ¬ t < i by omega), if_pos h]
  · intro h
    unfold IsTime at *
    by_cases h1 : t < i
    · exact ⟨_, if_pos h1⟩
    · rw [if_neg h1, if_neg h]; exact ⟨_, rfl⟩

/-- C36 (partial): adding to a time. What is missing: see `C36_fails_min` and `C36_fails_late`; for times before 2262 (nanoseconds
    that fit into 63 bits) and intervals other than the smallest one the sum is delivered iff it is a time. -/
theorem C36_add_partial {t i : Int} (ht : IsTime t) (hi : IsInterval i) (hm : i ≠ -2 ^ 63) :
    (0 ≤ i ∨ t < 2 ^ 63 → IsTime (t + i) → timeAdd t i = .ok (t + i)) ∧ (¬ IsTime (t + i) → ∃ e, timeAdd t i = .throw e) := by
  unfold timeAdd
  simp only [safe_i64, safe_u64]
  unfold IsTime IsInterval at *
  constructor
  · intro hc h
    by_cases h0 : i < 0
    · rw [if_pos h0, if_neg hm, if_pos (show -2 ^ 63 ≤ t ∧ t < 2 ^ 63 by omega)]
      simp only [Res.ok_bind]
      rw [if_neg (show ¬ t < -i by omega), if_pos h]
    · rw [if_neg h0, if_pos h]
  · intro h
    by_cases h0 : i < 0
    · rw [if_pos h0, if_neg hm]
      by_cases h1 : -2 ^ 63 ≤ t ∧ t < 2 ^ 63
      · rw [if_pos h1]
        simp only [Res.ok_bind]
        by_cases h2 : t < -i
        · exact ⟨_, if_pos h2⟩
        · rw [if_neg h2, if_neg h]; exact ⟨_, rfl⟩
      · rw [if_neg h1]; exact ⟨_, rfl⟩
    · rw [if_neg h0, if_neg h]; exact ⟨_, rfl⟩

/-- C36: adding an interval and taking the difference gives the interval again, whenever both give a result; and taking the
    difference never gives a wrong one. -/
theorem C36_round_trip {t i r d : Int} (h : timeAdd t i = .ok r) (h' : timeDiff r t = .ok d) : d = i := by
  have h1 := (C36_add_exact h).1
  have h2 := ((C36_exact (t := r) (u := t) (i := 0) (j := 0) (r := d)).2.1 h').1
  omega

/-- C36: `(t + i) - i` and `(t - i) + i`. -/
theorem C36_inverse {t i r : Int} (ht : IsTime t) (hi : IsInterval i) :
    (timeAdd t i = .ok r → timeSub r i = .ok t) ∧
    (timeSub t i = .ok r → i ≠ -2 ^ 63 → 0 ≤ i ∨ r < 2 ^ 63 → timeAdd r i = .ok t) := by
  constructor
  · intro h
    obtain ⟨h1, h2⟩ := C36_add_exact h
    have := (C36_complete (t := r) (i := i) (j := 0)).1
    have e : r - i = t := by omega
    rw [e] at this
    exact this ht
  · intro h hm hr
    obtain ⟨h1, h2⟩ := (C36_exact (t := t) (u := 0) (i := i) (j := 0) (r := r)).1 h
    have := (C36_add_partial h2 hi hm).1 hr
    have e : r + i = t := by omega
    rw [e] at this
    exact this ht

/-- C36: times before 2262 have all their differences. -/
theorem C36_diff {t u : Int} (ht : 0 ≤ t ∧ t < 2 ^ 63) (hu : 0 ≤ u ∧ u < 2 ^ 63) : timeDiff t u = .ok (t - u) := by
  unfold timeDiff
  simp only [safe_i64]
  rw [if_pos (show -2 ^ 63 ≤ t ∧ t < 2 ^ 63 by omega)]
  simp only [Res.ok_bind]
  rw [if_pos (show -2 ^ 63 ≤ u ∧ u < 2 ^ 63 by omega)]
  simp only [Res.ok_bind]
  rw [if_pos (show -2 ^ 63 ≤ t - u ∧ t - u < 2 ^ 63 by omega)]

/-- C36 does not hold for the smallest interval: adding it is undefined. -/
theorem C36_fails_min : IsTime 5 ∧ IsInterval (-2 ^ 63) ∧ timeAdd 5 (-2 ^ 63) = .ub := by
  refine ⟨by unfold IsTime; decide, by unfold IsInterval; decide, ?_⟩
  unfold timeAdd
  rw [if_pos (by decide), if_pos rfl]

/-- C36: later than 2262, going back and taking differences fail although the results are in range. -/
theorem C36_fails_late : timeAdd (2 ^ 63) (-1) = .throw .overflow ∧ timeDiff (2 ^ 63 + 1) (2 ^ 63) = .throw .overflow ∧
    timeSub (2 ^ 63) 1 = .ok (2 ^ 63 - 1) := by
  refine ⟨?_, ?_, ?_⟩
  · unfold timeAdd; simp only [safe_i64, safe_u64]; decide
  · unfold timeDiff; simp only [safe_i64]; decide
  · unfold timeSub; simp only [safe_u64]; decide

example : IsTime 1700000000000000000 ∧ IsInterval (-5) ∧ timeAdd 1700000000000000000 (-5) = .ok 1699999999999999995 := by
  refine ⟨by unfold IsTime; decide, by unfold IsInterval; decide, ?_⟩
  exact (C36_add_partial (by unfold IsTime; decide) (by unfold IsInterval; decide) (by decide)).1 (Or.inr (by decide)) (by unfold IsTime; decide)

/-- C36: `mktime` passes on the values it is given, if they are in range and the year is less than 2^31. -/
theorem C36_mktime_partial {y m d H M S : Nat} (hy : y < 2 ^ 31) : mktimeFields y m d H M S =
    if 1970 ≤ y ∧ 1 ≤ m ∧ m ≤ 12 ∧ 1 ≤ d ∧ d ≤ 31 ∧ H < 24 ∧ M < 60 ∧ S < 60
    then .ok ⟨S, M, H, d, m - 1, y - 1900⟩ else .throw .invalidValue := by
  have small : ∀ x : Nat, x < 2 ^ 31 → toCInt x = x := by
    intro x h
    unfold toCInt
    rw [BitVec.toInt_eq_toNat_cond, BitVec.toNat_ofNat, Nat.mod_eq_of_lt (by omega), if_pos (by omega)]
  unfold mktimeFields
  by_cases h : 1970 ≤ y ∧ 1 ≤ m ∧ m ≤ 12 ∧ 1 ≤ d ∧ d ≤ 31 ∧ H < 24 ∧ M < 60 ∧ S < 60
  · rw [if_neg (by omega), if_pos h, small y hy, small S (by omega), small M (by omega), small H (by omega), small d (by omega),
      small m (by omega), if_neg (by omega)]
  · rw [if_pos (by omega), if_neg h]

/-- C36: years are truncated: the year 2^32 + 1970 is taken for 1970, and 2^31 + 5 gives an undefined subtraction. -/
theorem C36_fails_year : mktimeFields (2 ^ 32 + 1970) 1 1 0 0 0 = .ok ⟨0, 0, 0, 1, 0, 70⟩ ∧
    mktimeFields (2 ^ 31 + 5) 1 1 0 0 0 = .ub := by decide

end Verif.Net
