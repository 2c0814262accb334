import Verif.Ints.Spec
/-!
# Integers from text (C27)
-/

namespace Verif.Ints

/-- No character is one of those between `9` and the end of the range `'0' + base`, which the code takes for digits. There are none
    for bases up to 10; `:` to `?` for base 16; all of `:` to `S` for base 36. -/
def Plain (base : Nat) (s : List Byte) : Prop := ∀ c ∈ s, ¬ (58 ≤ c.toNat ∧ c.toNat < 48 + base)

theorem plain_decimal {base : Nat} (h : base ≤ 10) (s : List Byte) : Plain base s := fun c _ => by omega

theorem digit_iff {base : Nat} (h2 : 2 ≤ base) (h36 : base ≤ 36) {c : Byte} (hp : ¬ (58 ≤ c.toNat ∧ c.toNat < 48 + base)) (d : Nat) :
    digit base c = some d ↔ IsDigit base c d := by
  unfold digit IsDigit
  dsimp only
  constructor
  · intro h
    split at h
    · injection h with h; omega
    · split at h
      · injection h with h; omega
      · split at h
        · injection h with h; omega
        · cases h
  · rintro ⟨hd, h | h | h⟩
    · rw [if_pos (by omega)]; congr 1; omega
    · rw [if_neg (by omega), if_pos (by omega)]; congr 1; omega
    · rw [if_neg (by omega), if_neg (by omega), if_pos (by omega)]; congr 1; omega

/-- The value of more digits. -/
def foldDigits (base n : Nat) (ds : List Nat) : Nat := ds.foldl (fun n d => n * base + d) n

theorem foldDigits_ge {base n : Nat} (hb : 0 < base) (ds : List Nat) : n ≤ foldDigits base n ds := by
  induction ds generalizing n with
  | nil => exact Nat.le_refl _
  | cons d ds ih =>
    have : n * base + d ≤ foldDigits base (n * base + d) ds := ih
    have h2 : n ≤ n * base := Nat.le_mul_of_pos_right n hb
    show n ≤ foldDigits base (n * base + d) ds
    omega

theorem guard_iff {max base n d : Nat} (hb : 0 < base) : (n > max / base ∨ d > max - n * base) ↔ max < n * base + d := by
  have h1 : n > max / base ↔ max < n * base := Nat.div_lt_iff_lt_mul hb
  constructor
  · rintro (h | h)
    · have := h1.1 h; omega
    · omega
  · intro h
    by_cases hn : n > max / base
    · exact .inl hn
    · have : ¬ max < n * base := fun hh => hn (h1.2 hh)
      right; omega

theorem digitsLoop_complete {max base : Nat} (h2 : 2 ≤ base) (h36 : base ≤ 36) {cs : List Byte} {ds : List Nat} (hp : Plain base cs)
    (h : Digits base cs ds) (n k : Nat) :
    digitsLoop max base cs n k = if ds = [] ∨ foldDigits base n ds ≤ max then .ok (foldDigits base n ds, k + cs.length) else .throw .outOfRange := by
  induction h generalizing n k with
  | nil => rfl
  | @cons c d cs ds hd hds ih =>
    have hdig := (digit_iff h2 h36 (hp c (by simp)) d).2 hd
    unfold digitsLoop
    rw [hdig]
    dsimp only
    have hfold : foldDigits base n (d :: ds) = foldDigits base (n * base + d) ds := rfl
    have hge := foldDigits_ge (base := base) (n := n * base + d) (by omega) ds
    by_cases hg : max < n * base + d
    · rw [if_pos ((guard_iff (by omega)).2 hg), if_neg]
      rintro (h | h)
      · cases h
      · omega
    · rw [if_neg (fun h => hg ((guard_iff (by omega)).1 h)), ih (fun c hc => hp c (by simp [hc]))]
      have hl : k + 1 + cs.length = k + (c :: cs).length := by simp; omega
      rw [hfold, hl]
      by_cases hds0 : ds = []
      · subst hds0
        rw [if_pos (.inl rfl), if_pos (.inr (by show n * base + d ≤ max; omega))]
      · by_cases hle : foldDigits base (n * base + d) ds ≤ max
        · rw [if_pos (.inr hle), if_pos (.inr hle)]
        · rw [if_neg (by rintro (h | h); exact hds0 h; exact hle h), if_neg (by rintro (h | h); cases h; exact hle h)]

theorem digitsLoop_sound {max base : Nat} (h2 : 2 ≤ base) (h36 : base ≤ 36) {cs : List Byte} (hp : Plain base cs)
    {n k m j : Nat} (h : digitsLoop max base cs n k = .ok (m, j)) :
    j ≤ k + cs.length ∧ (j = k + cs.length → ∃ ds, Digits base cs ds ∧ m = foldDigits base n ds ∧ (ds = [] ∨ m ≤ max)) := by
  induction cs generalizing n k with
  | nil =>
    injection h with h; injection h with h1 h2'
    subst h1 h2'
    exact ⟨by simp, fun _ => ⟨[], .nil, rfl, .inl rfl⟩⟩
  | cons c cs ih =>
    unfold digitsLoop at h
    split at h
    · injection h with h; injection h with h1 h2'
      subst h1 h2'
      refine ⟨by simp, fun hj => ?_⟩
      simp at hj
    · rename_i d hd
      split at h
      · cases h
      · rename_i hg
        have hg' : ¬ max < n * base + d := fun h => hg ((guard_iff (by omega)).2 h)
        obtain ⟨g1, g2⟩ := ih (fun c hc => hp c (by simp [hc])) h
        have hl : k + 1 + cs.length = k + (c :: cs).length := by simp; omega
        rw [hl] at g1 g2
        refine ⟨g1, fun hj => ?_⟩
        obtain ⟨ds, d1, d2, d3⟩ := g2 hj
        refine ⟨d :: ds, .cons ((digit_iff h2 h36 (hp c (by simp)) d).1 hd) d1, d2, .inr ?_⟩
        rcases d3 with d3 | d3
        · subst d3; rw [d2]; show n * base + d ≤ max; omega
        · exact d3

theorem digits_unsigned {base : Nat} {c : Byte} {cs : List Byte} {ds : List Nat} (h : Digits base (c :: cs) ds) : 48 ≤ c.toNat := by
  cases h with
  | cons hd _ => obtain ⟨_, h⟩ := hd; omega

theorem wrap_neg {n : Nat} (h : n ≤ 2 ^ 63) : (BitVec.ofInt 64 (-(n : Int))).toInt = -(n : Int) := by
  rw [BitVec.toInt_ofInt, Int.bmod]
  omega

theorem wrap_pos {n : Nat} (h : n ≤ 2 ^ 63) : (BitVec.ofNat 64 n).toInt = if (n : Int) = 2 ^ 63 then -2 ^ 63 else (n : Int) := by
  rw [BitVec.toInt_ofNat', Int.bmod]
  split <;> omega

/-- What the sign and the digits of a text are. -/
def textBody : List Byte → List Byte
  | [] => []
  | c :: cs => if c = 45 ∨ c = 43 then cs else c :: cs

def textNeg (s : List Byte) : Bool := s.head? = some 45

/-- A text with a number is its sign and its digits. -/
theorem denotes_iff {base : Nat} {s : List Byte} {v : Int} : Denotes base s v ↔
    ∃ ds, textBody s ≠ [] ∧ Digits base (textBody s) ds ∧ v = if textNeg s then -(digitsValue base ds : Int) else digitsValue base ds := by
  constructor
  · rintro ⟨cs, ds, hne, hd, h⟩
    refine ⟨ds, ?_⟩
    rcases h with ⟨rfl, hv⟩ | ⟨rfl, hv⟩ | ⟨rfl, hv⟩
    · obtain ⟨c, cs, rfl⟩ := List.exists_cons_of_ne_nil hne
      have h48 := digits_unsigned hd
      have h1 : c ≠ 45 := by rintro rfl; exact absurd h48 (by decide)
      have h2 : c ≠ 43 := by rintro rfl; exact absurd h48 (by decide)
      have e : textBody (c :: cs) = c :: cs := if_neg (by rintro (h | h); exact h1 h; exact h2 h)
      have e2 : textNeg (c :: cs) = false := by simp [textNeg, h1]
      rw [e, e2]
      exact ⟨hne, hd, hv⟩
    · exact ⟨hne, hd, hv⟩
    · exact ⟨hne, hd, hv⟩
  · rintro ⟨ds, hne, hd, hv⟩
    refine ⟨textBody s, ds, hne, hd, ?_⟩
    cases s with
    | nil => exact absurd rfl hne
    | cons c cs =>
      by_cases h1 : c = 45
      · subst h1; right; right; exact ⟨rfl, hv⟩
      · have e2 : textNeg (c :: cs) = false := by simp [textNeg, h1]
        rw [e2] at hv
        by_cases h2 : c = 43
        · subst h2; right; left; exact ⟨rfl, hv⟩
        · left
          exact ⟨(if_neg (by rintro (h | h); exact h1 h; exact h2 h) : textBody (c :: cs) = c :: cs).symm, hv⟩

theorem denotes_unique {base : Nat} {s : List Byte} {v w : Int} (hv : Denotes base s v) (hw : Denotes base s w) (h36 : base ≤ 36) : v = w := by
  obtain ⟨ds, _, h1, h2⟩ := denotes_iff.1 hv
  obtain ⟨es, _, g1, g2⟩ := denotes_iff.1 hw
  have : ds = es := by
    generalize textBody s = b at h1 g1
    clear h2 g2
    induction h1 generalizing es with
    | nil => cases g1; rfl
    | cons hd _ ih =>
      cases g1 with
      | cons he hes =>
        congr 1
        · obtain ⟨_, hd⟩ := hd; obtain ⟨_, he⟩ := he; omega
        · exact ih _ hes
  subst this
  rw [h2, g2]

/-- The outcome of the conversion of a text, before the check that all of it was used. -/
theorem atoi64_eq {base : Nat} (h2 : 2 ≤ base) (h36 : base ≤ 36) {s : List Byte} (hne : s ≠ []) :
    atoi64 s base = match digitsLoop (2 ^ 63) base (textBody s) 0 0 with
      | .throw e => .throw e
      | .ub => .ub
      | .ok (n, k) =>
        let k := k + (s.length - (textBody s).length)
        if k = 0 then .ok (0, 0)
        else .ok (k % 256, (if textNeg s then (BitVec.ofInt 64 (-(n : Int))).toInt else (BitVec.ofNat 64 n).toInt)) := by
  cases s with
  | nil => exact absurd rfl hne
  | cons c cs =>
    unfold atoi64
    rw [if_neg (by omega)]
    dsimp only
    by_cases h1 : c = 45
    · subst h1
      have e : textBody (45 :: cs) = cs := rfl
      have e1 : (45 :: cs).length - cs.length = 1 := by simp
      have e2 : textNeg (45 :: cs) = true := rfl
      rw [e, e1, e2]
      rfl
    · by_cases h3 : c = 43
      · subst h3
        have e : textBody (43 :: cs) = cs := rfl
        have e1 : (43 :: cs).length - cs.length = 1 := by simp
        have e2 : textNeg (43 :: cs) = false := rfl
        rw [e, e1, e2]
        rfl
      · have hn : ¬ (c = 45 ∨ c = 43) := by rintro (h | h); exact h1 h; exact h3 h
        have e : textBody (c :: cs) = c :: cs := if_neg hn
        have e2 : textNeg (c :: cs) = false := by simp [textNeg, h1]
        rw [e, e2, if_neg hn, Nat.sub_self]
        simp only [Nat.add_zero, h1, h3, or_self, if_false, Bool.false_eq_true]
        rfl

/-- `to_int`: accepted texts and their values. -/
def textValue (v : Int) : Int := if v = 2 ^ 63 then -2 ^ 63 else v

theorem atoi64_all {base : Nat} (h2 : 2 ≤ base) (h36 : base ≤ 36) {s : List Byte} (hl : s.length ≤ 255) (hp : Plain base s)
    (hs : s ≠ [43] ∧ s ≠ [45]) (w : Int) :
    (∃ k, atoi64 s base = .ok (k, w) ∧ k = s.length ∧ s ≠ []) ↔
      ∃ v, Denotes base s v ∧ -2 ^ 63 ≤ v ∧ v ≤ 2 ^ 63 ∧ w = textValue v := by
  have hbody : Plain base (textBody s) := by
    intro c hc
    cases s with
    | nil => cases hc
    | cons d ds =>
      change c ∈ (if d = 45 ∨ d = 43 then ds else d :: ds) at hc
      split at hc
      · exact hp c (by simp [hc])
      · exact hp c hc
  have hbl : (textBody s).length ≤ s.length := by
    cases s with
    | nil => exact Nat.le_refl _
    | cons d ds =>
      show (if d = 45 ∨ d = 43 then ds else d :: ds).length ≤ (d :: ds).length
      split <;> simp
  have hbne : s ≠ [] → textBody s ≠ [] := by
    intro h
    cases s with
    | nil => exact absurd rfl h
    | cons c cs =>
      show (if c = 45 ∨ c = 43 then cs else c :: cs) ≠ []
      split
      · rename_i hc
        rintro rfl
        rcases hc with rfl | rfl
        · exact hs.2 rfl
        · exact hs.1 rfl
      · intro h; cases h
  constructor
  · rintro ⟨k, h, hk, hne⟩
    rw [atoi64_eq h2 h36 hne] at h
    split at h
    · cases h
    · cases h
    · rename_i n j hd
      dsimp only at h
      obtain ⟨g1, g2⟩ := digitsLoop_sound h2 h36 hbody hd
      have hpos : s.length ≠ 0 := by
        intro h0; exact hne (List.length_eq_zero_iff.1 h0)
      have hj : j = 0 + (textBody s).length := by
        split at h
        · injection h with h; injection h with h3 h4
          omega
        · injection h with h; injection h with h3 h4
          rw [hk, Nat.mod_eq_of_lt (by omega)] at h3
          omega
      obtain ⟨ds, d1, d2, d3⟩ := g2 hj
      have hb := hbne hne
      have hds : ds ≠ [] := by
        rintro rfl
        cases hb' : textBody s with
        | nil => exact hb hb'
        | cons c cs => rw [hb'] at d1; cases d1
      have hle : n ≤ 2 ^ 63 := by
        rcases d3 with d3 | d3
        · exact absurd d3 hds
        · exact d3
      have hn : n = digitsValue base ds := d2
      split at h
      · omega
      · injection h with h; injection h with h3 h4
        refine ⟨if textNeg s then -(n : Int) else n, denotes_iff.2 ⟨ds, hb, d1, by rw [hn]⟩, ?_, ?_, ?_⟩
        · split <;> omega
        · split <;> omega
        · rw [← h4]
          unfold textValue
          split
          · rw [wrap_neg hle, if_neg (by omega)]
          · rw [wrap_pos hle]
  · rintro ⟨v, hv, h3, h4, rfl⟩
    obtain ⟨ds, hb, hd, hval⟩ := denotes_iff.1 hv
    have hne : s ≠ [] := by rintro rfl; exact hb rfl
    have hle : digitsValue base ds ≤ 2 ^ 63 := by
      split at hval <;> omega
    rw [atoi64_eq h2 h36 hne, digitsLoop_complete h2 h36 hbody hd]
    rw [if_pos (.inr hle)]
    dsimp only
    have hbpos : (textBody s).length ≠ 0 := fun h => hb (List.length_eq_zero_iff.1 h)
    rw [if_neg (by omega)]
    refine ⟨_, ?_, rfl, hne⟩
    have e : (0 + (textBody s).length + (s.length - (textBody s).length)) % 256 = s.length := by
      rw [Nat.mod_eq_of_lt] <;> omega
    rw [e]
    congr 2
    unfold textValue
    have e' : foldDigits base 0 ds = digitsValue base ds := rfl
    rw [e', hval]
    split
    · rw [wrap_neg hle, if_neg (by omega)]
    · rw [wrap_pos hle]

/-- C27: conversion to a signed integer succeeds exactly for the texts of numbers between -2^63 and 2^63, with that number as the
    result, except that 2^63 gives -2^63. Texts of 256 and more characters, a sign on its own and characters from `:` to
    `'0' + base` are excluded. -/
theorem C27_toInt_partial {base : Nat} (h2 : 2 ≤ base) (h36 : base ≤ 36) {s : List Byte} (hl : s.length ≤ 255) (hp : Plain base s)
    (hs : s ≠ [43] ∧ s ≠ [45]) (w : Int) :
    toInt s base = .ok w ↔ ∃ v, Denotes base s v ∧ -2 ^ 63 ≤ v ∧ v ≤ 2 ^ 63 ∧ w = if v = 2 ^ 63 then -2 ^ 63 else v := by
  have hiff := atoi64_all h2 h36 hl hp hs w
  have : (∃ k, atoi64 s base = .ok (k, w) ∧ k = s.length ∧ s ≠ []) ↔ toInt s base = .ok w := by
    unfold toInt
    rw [Nat.mod_eq_of_lt (by omega : base < 256)]
    constructor
    · rintro ⟨k, h, hk, _⟩
      rw [h]
      exact if_pos hk
    · intro h
      split at h
      · rename_i k x hx
        split at h
        · rename_i hk
          injection h with h
          subst h
          refine ⟨k, hx, hk, ?_⟩
          rintro rfl
          unfold atoi64 at hx
          rw [if_neg (by omega)] at hx
          cases hx
        · cases h
      · cases h
      · cases h
  exact this.symm.trans hiff

/-- C27: conversion to an unsigned integer succeeds exactly for the texts of numbers below 2^63. -/
theorem C27_toUInt_partial {base : Nat} (h2 : 2 ≤ base) (h36 : base ≤ 36) {s : List Byte} (hl : s.length ≤ 255) (hp : Plain base s)
    (hs : s ≠ [43] ∧ s ≠ [45]) (w : Nat) :
    toUInt s base = .ok w ↔ ((w : Int) < 2 ^ 63 ∧ Denotes base s w) := by
  have hiff := C27_toInt_partial h2 h36 hl hp hs w
  have hrel : toUInt s base = .ok w ↔ toInt s base = .ok (w : Int) := by
    unfold toUInt toInt
    split
    · rename_i k x hx
      split
      · rename_i hk
        split
        · rename_i hneg
          constructor
          · intro h; cases h
          · intro h; injection h with h; omega
        · rename_i hneg
          constructor
          · intro h; injection h with h; rw [← h]; congr 1; omega
          · intro h; injection h with h; rw [h]; rfl
      · constructor <;> (intro h; cases h)
    · constructor <;> (intro h; cases h)
    · constructor <;> (intro h; cases h)
  rw [hrel, hiff]
  constructor
  · rintro ⟨v, hv, h3, h4, h5⟩
    split at h5
    · omega
    · subst h5; exact ⟨by omega, hv⟩
  · rintro ⟨h1, hv⟩
    exact ⟨w, hv, by omega, by omega, by rw [if_neg (by omega)]⟩

/-- C27: what is not converted raises an error; nothing else happens. -/
theorem C27_defined (s : List Byte) (base : Nat) : toInt s base ≠ .ub ∧ toUInt s base ≠ .ub := by
  have hloop : ∀ (cs : List Byte) (max b n k : Nat), digitsLoop max b cs n k ≠ .ub := by
    intro cs
    induction cs with
    | nil => intro max b n k h; cases h
    | cons c cs ih =>
      intro max b n k h
      unfold digitsLoop at h
      split at h
      · cases h
      · split at h
        · cases h
        · exact ih _ _ _ _ h
  have ha : atoi64 s (base % 256) ≠ .ub := by
    unfold atoi64
    intro h
    split at h
    · cases h
    · split at h
      · cases h
      · dsimp only at h
        split at h
        · cases h
        · rename_i hx; exact hloop _ _ _ _ _ hx
        · split at h <;> (split at h <;> cases h)
  constructor
  · unfold toInt
    intro h
    split at h
    · split at h <;> cases h
    · cases h
    · rename_i hx; exact ha hx
  · unfold toUInt
    intro h
    split at h
    · split at h
      · split at h <;> cases h
      · cases h
    · cases h
    · rename_i hx; exact ha hx

/-- C27: what is left out does not hold. 2^63 becomes -2^63. -/
theorem C27_fails_two_pow_63 : toInt [57, 50, 50, 51, 51, 55, 50, 48, 51, 54, 56, 53, 52, 55, 55, 53, 56, 48, 56] 10 = .ok (-9223372036854775808) := by decide
/-- 2^63 is an unsigned 64 bit integer, but not accepted as one. -/
theorem C27_fails_unsigned : toUInt [57, 50, 50, 51, 51, 55, 50, 48, 51, 54, 56, 53, 52, 55, 55, 53, 56, 48, 56] 10 = .throw .overflow := by decide
/-- A sign without digits is accepted as 0. -/
theorem C27_fails_sign : toInt [45] 10 = .ok 0 := by decide
/-- Characters that are no digits are accepted for bases above 10. -/
theorem C27_fails_punctuation : toInt [58] 16 = .ok 10 ∧ toInt [49, 63] 16 = .ok 31 := by decide
/-- For bases from 18 on, upper case letters have the wrong value: in base 36, `A` is 17 while `a` is 10. -/
theorem C27_fails_upper_case : toInt [65] 36 = .ok 17 ∧ toInt [97] 36 = .ok 10 := by decide
/-- The base is reduced modulo 256. -/
theorem C27_fails_base : toInt [49, 50] 266 = .ok 12 := by decide
/-- A number with 256 characters is not accepted. -/
theorem C27_fails_long : toInt (List.replicate 256 48) 10 = .throw .runtimeError := by decide +kernel

example : toInt [45, 102, 102] 16 = .ok (-255) := by decide
example : Plain 16 [45, 102, 102] := by unfold Plain; decide
example : Denotes 16 [45, 102, 102] (-255) :=
  ⟨[102, 102], [15, 15], by decide, .cons (by unfold IsDigit; decide) (.cons (by unfold IsDigit; decide) .nil), .inr (.inr ⟨rfl, by decide⟩)⟩

end Verif.Ints
