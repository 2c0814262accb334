import Verif.Ints.Spec
import Mathlib.Tactic.Linarith
import Mathlib.Tactic.Ring
/-!
# Powers (C26)
-/

namespace Verif.Ints

theorem square_ne_two_pow_odd (j b : Nat) : b * b ≠ 2 ^ (2 * j + 1) := by
  induction j generalizing b with
  | zero =>
    intro h
    have h : b * b = 2 := h
    rcases Nat.lt_or_ge b 2 with hb | hb
    · have : b = 0 ∨ b = 1 := by omega
      rcases this with rfl | rfl <;> omega
    · have := Nat.mul_le_mul hb hb
      omega
  | succ j ih =>
    intro h
    have h4 : 2 ^ (2 * (j + 1) + 1) = 4 * 2 ^ (2 * j + 1) := by
      rw [show 2 * (j + 1) + 1 = (2 * j + 1) + 2 by omega, Nat.pow_add]; omega
    rw [h4] at h
    rcases Nat.even_or_odd' b with ⟨c, rfl | rfl⟩
    · apply ih c
      have : 2 * c * (2 * c) = 4 * (c * c) := by ring
      omega
    · have : (2 * c + 1) * (2 * c + 1) = 4 * (c * c + c) + 1 := by ring
      omega

/-- A square beyond the largest value of a type is beyond the smallest one when negated. -/
theorem square_asym (t : Ty) (ht : 0 < t.bytes) {b : Int} (h : t.max < b * b) : -(b * b) < t.min := by
  unfold Ty.max Ty.min at *
  cases hs : t.signed
  · rw [hs] at h
    simp only [Bool.false_eq_true, if_false] at *
    have : (0 : Int) < 2 ^ (8 * t.bytes) := by positivity
    omega
  · rw [hs] at h
    simp only [if_true] at *
    have hne : b * b ≠ 2 ^ (8 * t.bytes - 1) := by
      intro he
      apply square_ne_two_pow_odd (4 * t.bytes - 1) b.natAbs
      have h1 : ((b.natAbs * b.natAbs : Nat) : Int) = b * b := by
        rw [Int.natAbs_mul_self]
      have h2 : 2 * (4 * t.bytes - 1) + 1 = 8 * t.bytes - 1 := by omega
      rw [h2]
      exact_mod_cast h1.trans he
    omega

theorem has_mono {t : Ty} {x y : Int} (h : ¬ t.has x) (hm : t.min ≤ 0) (hM : 0 ≤ t.max) (hp : (0 ≤ x → x ≤ y) ∧ (x ≤ 0 → y ≤ x)) : ¬ t.has y := by
  unfold Ty.has at *
  intro ⟨h1, h2⟩
  apply h
  rcases Int.le_total 0 x with h0 | h0
  · have := hp.1 h0; omega
  · have := hp.2 h0; omega

theorem Ty.min_le (t : Ty) : t.min ≤ 0 := by
  unfold Ty.min
  split
  · have : (0 : Int) < 2 ^ (8 * t.bytes - 1) := by positivity
    omega
  · omega

theorem Ty.max_ge (t : Ty) : 0 ≤ t.max := by
  unfold Ty.max
  split
  · have : (0 : Int) < 2 ^ (8 * t.bytes - 1) := by positivity
    omega
  · have : (0 : Int) < 2 ^ (8 * t.bytes) := by positivity
    omega

theorem one_le_pow_int {b : Int} (h : 1 ≤ b) (n : Nat) : 1 ≤ b ^ n := by
  induction n with
  | zero => simp
  | succ n ih => rw [pow_succ]; nlinarith

/-- The result of a power in type `t`. -/
def Ty.checked (t : Ty) (x : Int) : Res Int := if t.has x then .ok x else .throw .overflow

theorem powLoop_spec (t : Ty) (ht : 0 < t.bytes) (fuel : Nat) (x base : Int) (e : Nat) (hf : e < 2 ^ fuel) (hx : t.has x)
    (h0 : base ≠ 0 → x ≠ 0) (hfu : 0 < fuel) :
    powLoop t fuel x base (e : Int) = some (t.checked (x * base ^ e)) := by
  induction fuel generalizing x base e with
  | zero => omega
  | succ n ih =>
    have hdiv : ((e : Int) / 2) = ((e / 2 : Nat) : Int) := by omega
    have key : ∀ x', x * base ^ e = x' * (base * base) ^ (e / 2) → (base ≠ 0 → x' ≠ 0) → (base = 0 → x' = 0 ∨ x' = x) →
        (match t.checked x' with
          | .throw e => some (.throw e)
          | .ub => some .ub
          | .ok x' => if (e : Int) / 2 = 0 then some (.ok x')
            else match t.mul base base with
              | .throw e => some (.throw e)
              | .ub => some .ub
              | .ok base => powLoop t n x' base ((e : Int) / 2)) = some (t.checked (x * base ^ e)) := by
      intro x' hE hne hz
      have hmin := t.min_le
      have hmax := t.max_ge
      by_cases hb0 : base = 0
      · -- everything stays in range
        have hx' : t.has x' := by
          rcases hz hb0 with h | h
          · rw [h]; exact ⟨hmin, hmax⟩
          · rw [h]; exact hx
        have hc : t.checked x' = .ok x' := if_pos hx'
        rw [hc]
        dsimp only
        by_cases he : (e : Int) / 2 = 0
        · have : e / 2 = 0 := by omega
          rw [if_pos he, hE, this, pow_zero, mul_one, hc]
        · rw [if_neg he]
          have hm : t.mul base base = .ok 0 := by
            unfold Ty.mul; rw [hb0]; exact if_pos ⟨hmin, hmax⟩
          rw [hm]
          dsimp only
          have hn : 0 < n := by
            rcases Nat.eq_zero_or_pos n with h | h
            · subst h; simp at hf; omega
            · exact h
          rw [hdiv, ih x' 0 (e / 2) (by rw [pow_succ] at hf; omega) hx' (fun h => absurd rfl h) hn, hE, hb0]
          rfl
      · have hsq : 1 ≤ base * base := by
          rcases Int.lt_or_gt_of_ne hb0 with h | h <;> nlinarith
        have hx'0 := hne hb0
        by_cases hx' : t.has x'
        · have hc : t.checked x' = .ok x' := if_pos hx'
          rw [hc]
          dsimp only
          by_cases he : (e : Int) / 2 = 0
          · have : e / 2 = 0 := by omega
            rw [if_pos he, hE, this, pow_zero, mul_one, hc]
          · rw [if_neg he]
            obtain ⟨k, hk⟩ : ∃ k, e / 2 = k + 1 := ⟨e / 2 - 1, by omega⟩
            by_cases hm : t.has (base * base)
            · have : t.mul base base = .ok (base * base) := if_pos hm
              rw [this]
              dsimp only
              have hn : 0 < n := by
                rcases Nat.eq_zero_or_pos n with h | h
                · subst h; simp at hf; omega
                · exact h
              rw [hdiv, ih x' (base * base) (e / 2) (by rw [pow_succ] at hf; omega) hx' (fun _ => hx'0) hn, hE]
            · have : t.mul base base = .throw .overflow := if_neg hm
              rw [this]
              dsimp only
              have hgt : t.max < base * base := by
                unfold Ty.has at hm
                rcases lt_or_ge t.max (base * base) with h | h
                · exact h
                · exact absurd ⟨by omega, h⟩ hm
              have hno : ¬ t.has (x * base ^ e) := by
                rw [hE, hk, pow_succ]
                have h1 := one_le_pow_int hsq k
                have h2 : base * base ≤ (base * base) ^ k * (base * base) := by nlinarith
                generalize hq : (base * base) ^ k * (base * base) = q at h2
                intro ⟨g1, g2⟩
                rcases Int.lt_or_gt_of_ne hx'0 with h | h
                · have := square_asym t ht hgt
                  nlinarith
                · nlinarith
              exact congrArg some (if_neg hno).symm
        · have hc : t.checked x' = .throw .overflow := if_neg hx'
          rw [hc]
          dsimp only
          have h1 := one_le_pow_int hsq (e / 2)
          have hno : ¬ t.has (x * base ^ e) := by
            rw [hE]
            refine has_mono hx' hmin hmax ⟨fun h => ?_, fun h => ?_⟩ <;> nlinarith
          exact congrArg some (if_neg hno).symm
    unfold powLoop
    dsimp only
    by_cases hodd : (e : Int) % 2 = 1
    · rw [if_pos hodd]
      refine key (x * base) ?_ ?_ ?_
      · have : e = 2 * (e / 2) + 1 := by omega
        conv => lhs; rw [this]
        rw [pow_succ, pow_mul, pow_two]; ring
      · intro hb hmul
        rcases mul_eq_zero.1 hmul with h | h
        · exact h0 hb h
        · exact hb h
      · intro hb; left; rw [hb, mul_zero]
    · rw [if_neg hodd]
      have hc : (Res.ok x : Res Int) = t.checked x := (if_pos hx).symm
      rw [hc]
      refine key x ?_ h0 (fun _ => Or.inr rfl)
      have : e = 2 * (e / 2) := by omega
      conv => lhs; rw [this]
      rw [pow_mul, pow_two]

/-- C26: for an exponent that is not negative, the loop ends and computes the power exactly, or throws if, and only if, the power
    is not a value of the type. The number of iterations is at most the number of bits of the exponent (at least 1). -/
theorem C26_pow (t : Ty) (ht : 0 < t.bytes) (base : Int) (e fuel : Nat) (hf : e < 2 ^ fuel) (hfu : 0 < fuel) :
    powLoop t fuel 1 base (e : Int) = some (if t.has (base ^ e) then .ok (base ^ e) else .throw .overflow) := by
  have h1 : t.has 1 := by
    unfold Ty.has Ty.min Ty.max
    cases t.signed
    · simp only [Bool.false_eq_true, if_false]
      have : (2 : Int) ^ 1 ≤ 2 ^ (8 * t.bytes) := pow_le_pow_right₀ (by norm_num) (by omega)
      omega
    · simp only [if_true]
      have : (2 : Int) ^ 1 ≤ 2 ^ (8 * t.bytes - 1) := pow_le_pow_right₀ (by norm_num) (by omega)
      omega
  rw [powLoop_spec t ht fuel 1 base e hf h1 (fun _ => by norm_num) hfu, one_mul]
  rfl

/-- With a negative exponent the loop never returns a value. -/
theorem powLoop_negative (t : Ty) (fuel : Nat) (x base e : Int) (he : e < 0) (y : Int) : powLoop t fuel x base e ≠ some (.ok y) := by
  induction fuel generalizing x base e with
  | zero => intro h; cases h
  | succ n ih =>
    intro h
    unfold powLoop at h
    dsimp only at h
    split at h
    · cases h
    · cases h
    · rw [if_neg (by omega)] at h
      split at h
      · cases h
      · cases h
      · exact ih _ _ _ (by omega) h

/-- C26 does not hold for negative exponents: with base 1 the loop goes on for ever. -/
theorem C26_fails_negative_exponent (fuel : Nat) : powLoop ⟨8, true⟩ fuel 1 1 (-1) = none := by
  induction fuel with
  | zero => rfl
  | succ n ih =>
    have : powLoop ⟨8, true⟩ (n + 1) 1 1 (-1) = powLoop ⟨8, true⟩ n 1 1 (-1) := rfl
    rw [this, ih]

theorem powLoop_mono (t : Ty) (fuel : Nat) (x base e : Int) (r : Res Int) (h : powLoop t fuel x base e = some r) :
    powLoop t (fuel + 1) x base e = some r := by
  induction fuel generalizing x base e with
  | zero => cases h
  | succ n ih =>
    unfold powLoop at h ⊢
    dsimp only at h ⊢
    split at h
    · exact h
    · exact h
    · split at h
      · rename_i he
        rw [if_pos he]
        exact h
      · rename_i he
        rw [if_neg he]
        split at h
        · exact h
        · exact h
        · exact ih _ _ _ h

/-- C26, for every exponent: if a value comes out, it is the power, and the exponent is not negative. -/
theorem C26_value (t : Ty) (ht : 0 < t.bytes) (base e : Int) {fuel : Nat} {y : Int} (h : powLoop t fuel 1 base e = some (.ok y)) :
    0 ≤ e ∧ y = base ^ e.toNat := by
  have h0 : 0 ≤ e := by
    rcases lt_or_ge e 0 with hn | hn
    · exact absurd h (powLoop_negative t fuel 1 base e hn y)
    · exact hn
  refine ⟨h0, ?_⟩
  have hm : ∀ k, powLoop t (fuel + k) 1 base e = some (.ok y) := by
    intro k
    induction k with
    | zero => exact h
    | succ k ih => exact powLoop_mono t _ _ _ _ _ ih
  have hlt : e.toNat < 2 ^ (fuel + (e.toNat + 1)) :=
    Nat.lt_of_lt_of_le Nat.lt_two_pow_self (Nat.pow_le_pow_right (by decide) (by omega))
  have := C26_pow t ht base e.toNat _ hlt (by omega)
  rw [Int.toNat_of_nonneg h0, hm] at this
  split at this
  · injection this with this; injection this
  · cases this

example : powLoop ⟨8, true⟩ 64 1 (-2) 63 = some (.ok (-9223372036854775808)) := by decide
example : powLoop ⟨8, true⟩ 64 1 2 63 = some (.throw .overflow) := by decide
example : powLoop ⟨8, false⟩ 64 1 3 40 = some (.ok 12157665459056928801) := by decide

end Verif.Ints
