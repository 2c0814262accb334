import Verif.Front.PreprocSpec
import Verif.Ints.Text
import Verif.Bytes.Search
/-!
# Conditions of `@if`
-/

namespace Verif.Front

open Verif.Bytes (Str isWs Words splitWs C29_words)
open Verif.Ints

theorem wrap32_neg {n : Nat} (h : n ≤ 2 ^ 31) : (BitVec.ofInt 32 (-(n : Int))).toInt = -(n : Int) := by
  rw [BitVec.toInt_ofInt, Int.bmod]
  omega

theorem wrap32_pos {n : Nat} (h : n ≤ 2 ^ 31) : (BitVec.ofNat 32 n).toInt = if (n : Int) = 2 ^ 31 then -2 ^ 31 else (n : Int) := by
  rw [BitVec.toInt_ofNat', Int.bmod]
  split <;> omega

theorem atoi32_eq {s : List Byte} (hne : s ≠ []) :
    atoi32 s = match digitsLoop (2 ^ 31) 10 (textBody s) 0 0 with
      | .throw e => .throw e
      | .ub => .ub
      | .ok (n, k) =>
        let k := k + (s.length - (textBody s).length)
        if k = 0 then .ok (0, 0)
        else .ok (k % 256, (if textNeg s then (BitVec.ofInt 32 (-(n : Int))).toInt else (BitVec.ofNat 32 n).toInt)) := by
  cases s with
  | nil => exact absurd rfl hne
  | cons c cs =>
    unfold atoi32
    dsimp only
    by_cases h1 : c = 45
    · subst h1
      have e : textBody (45 :: cs) = cs := rfl
      have e1 : (45 :: cs).length - cs.length = 1 := by simp
      have e2 : textNeg (45 :: cs) = true := rfl
      rw [e, e1, e2]
      rfl
    · by_cases h3 : c = 43
      · subst h3
        have e : textBody (43 :: cs) = cs := rfl
        have e1 : (43 :: cs).length - cs.length = 1 := by simp
        have e2 : textNeg (43 :: cs) = false := rfl
        rw [e, e1, e2]
        rfl
      · have hn : ¬ (c = 45 ∨ c = 43) := by rintro (h | h); exact h1 h; exact h3 h
        have e : textBody (c :: cs) = c :: cs := if_neg hn
        have e2 : textNeg (c :: cs) = false := by simp [textNeg, h1]
        rw [e, e2, if_neg hn, Nat.sub_self]
        simp only [Nat.add_zero, h1, h3, or_self, if_false, Bool.false_eq_true]
        rfl

theorem textBody_le (s : Str) : (textBody s).length ≤ s.length := by
  cases s with
  | nil => exact Nat.le_refl _
  | cons d ds =>
    show (if d = 45 ∨ d = 43 then ds else d :: ds).length ≤ (d :: ds).length
    split <;> simp

theorem textBody_ne {s : Str} (h : s ≠ []) (h1 : s ≠ [43]) (h2 : s ≠ [45]) : textBody s ≠ [] := by
  cases s with
  | nil => exact absurd rfl h
  | cons c cs =>
    show (if c = 45 ∨ c = 43 then cs else c :: cs) ≠ []
    split
    · rename_i hc
      rintro rfl
      rcases hc with rfl | rfl
      · exact h2 rfl
      · exact h1 rfl
    · intro h; cases h

/-- A number is used as a whole exactly if it is a decimal number between -2^31 and 2^31. -/
theorem atoi32_iff {s : Str} (hl : s.length ≤ 255) (h1 : s ≠ [43]) (h2 : s ≠ [45]) (w : Int) :
    atoi32 s = .ok (s.length, w) ↔
      ∃ v, Denotes 10 s v ∧ -2 ^ 31 ≤ v ∧ v ≤ 2 ^ 31 ∧ w = if v = 2 ^ 31 then -2 ^ 31 else v := by
  have hb := textBody_le s
  have hp : Plain 10 (textBody s) := plain_decimal (Nat.le_refl _) _
  constructor
  · intro h
    have hne : s ≠ [] := by rintro rfl; cases h
    have hbn := textBody_ne hne h1 h2
    have hpos : s.length ≠ 0 := fun h => hne (List.length_eq_zero_iff.1 h)
    rw [atoi32_eq hne] at h
    cases hd : digitsLoop (2 ^ 31) 10 (textBody s) 0 0 with
    | throw e => rw [hd] at h; cases h
    | ub => rw [hd] at h; cases h
    | ok p =>
      obtain ⟨n, j⟩ := p
      rw [hd] at h
      dsimp only at h
      obtain ⟨g1, g2⟩ := digitsLoop_sound (by omega) (by omega) hp hd
      split at h
      · injection h with h; injection h with h3 h4; omega
      · injection h with h; injection h with h3 h4
        rw [Nat.mod_eq_of_lt (by omega)] at h3
        obtain ⟨ds, d1, d2, d3⟩ := g2 (by omega)
        have hds : ds ≠ [] := by
          rintro rfl
          cases hb' : textBody s with
          | nil => exact hbn hb'
          | cons c cs => rw [hb'] at d1; cases d1
        have hle : n ≤ 2 ^ 31 := by
          rcases d3 with d3 | d3
          · exact absurd d3 hds
          · exact d3
        have hn : n = digitsValue 10 ds := d2
        refine ⟨if textNeg s then -(n : Int) else n, denotes_iff.2 ⟨ds, hbn, d1, by rw [hn]⟩, ?_, ?_, ?_⟩
        · split <;> omega
        · split <;> omega
        · rw [← h4]
          split
          · rw [wrap32_neg hle, if_neg (by omega)]
          · rw [wrap32_pos hle]
  · rintro ⟨v, hv, h3, h4, rfl⟩
    obtain ⟨ds, hbn, hd, hval⟩ := denotes_iff.1 hv
    have hne : s ≠ [] := by rintro rfl; exact hbn rfl
    have hle : digitsValue 10 ds ≤ 2 ^ 31 := by split at hval <;> omega
    rw [atoi32_eq hne, digitsLoop_complete (by omega) (by omega) hp hd, if_pos (.inr hle)]
    dsimp only
    have hbpos : (textBody s).length ≠ 0 := fun h => hbn (List.length_eq_zero_iff.1 h)
    rw [if_neg (by omega)]
    have e : (0 + (textBody s).length + (s.length - (textBody s).length)) % 256 = s.length := by
      rw [Nat.mod_eq_of_lt] <;> omega
    rw [e]
    congr 2
    have e' : foldDigits 10 0 ds = digitsValue 10 ds := rfl
    rw [e', hval]
    split
    · rw [wrap32_neg hle, if_neg (by omega)]
    · rw [wrap32_pos hle]

/-- What the theorems exclude: words of 256 and more characters, a sign in place of a number, and the number 2^31. -/
def PlainCond (s : Str) : Prop :=
  ∀ ws, Words isWs s ws → ∀ w ∈ ws, w.length ≤ 255 ∧ w ≠ [43] ∧ w ≠ [45] ∧ ¬ Denotes 10 w (2 ^ 31)

theorem compare_iff (op : Str) (a b : Int) (r : Bool) :
    compare op a b = some r ↔ ∃ cmp : Cmp, op = cmp.text ∧ (r = true ↔ cmp.holds a b) := by
  constructor
  · intro h
    unfold compare at h
    repeat' split at h
    case isTrue e => injection h with h; subst h; exact ⟨.eq, e, by simp [Cmp.holds]⟩
    case isTrue e => injection h with h; subst h; exact ⟨.ne, e, by simp [Cmp.holds]⟩
    case isTrue e => injection h with h; subst h; exact ⟨.lt, e, by simp [Cmp.holds]⟩
    case isTrue e => injection h with h; subst h; exact ⟨.le, e, by simp [Cmp.holds]⟩
    case isTrue e => injection h with h; subst h; exact ⟨.gt, e, by simp [Cmp.holds]⟩
    case isTrue e => injection h with h; subst h; exact ⟨.ge, e, by simp [Cmp.holds]⟩
    case isFalse => cases h
  · rintro ⟨cmp, rfl, h⟩
    cases cmp <;> cases r <;> simp [compare, Cmp.text, Cmp.holds] at h ⊢ <;> omega

theorem operand_iff {m : List Str} (hp : ∀ w ∈ m, w.length ≤ 255 ∧ w ≠ [43] ∧ w ≠ [45] ∧ ¬ Denotes 10 w (2 ^ 31)) (id op : Str) (v : Int) :
    operand m = .ok (some (id, op, v)) ↔
      ((m = [id] ∧ op = [33, 61] ∧ v = 0) ∨ ∃ num, m = [id, op, num] ∧ Denotes 10 num v ∧ -2 ^ 31 ≤ v ∧ v < 2 ^ 31) := by
  rcases m with _ | ⟨a, _ | ⟨b, _ | ⟨c, _ | ⟨d, m⟩⟩⟩⟩
  · simp [operand]
  · simp only [operand]
    constructor
    · intro h; injection h with h; injection h with h; injection h with h1 h2; injection h2 with h2 h3
      subst h1 h2 h3; exact .inl ⟨rfl, rfl, rfl⟩
    · rintro (⟨h, rfl, rfl⟩ | ⟨num, h, _⟩)
      · injection h with h; subst h; rfl
      · injection h with _ h; cases h
  · simp [operand]
  · obtain ⟨h1, h2, h3, h4⟩ := hp c (by simp)
    have hiff := atoi32_iff h1 h2 h3
    simp only [operand]
    constructor
    · intro h
      cases ha : atoi32 c with
      | throw e => rw [ha] at h; cases h
      | ub => rw [ha] at h; cases h
      | ok p =>
        obtain ⟨n, want⟩ := p
        rw [ha] at h
        dsimp only at h
        split at h
        · rename_i hn
          injection h with h; injection h with h; injection h with g1 g2; injection g2 with g2 g3
          subst g1 g2 g3
          rw [hn] at ha
          obtain ⟨v, q1, q2, q3, q4⟩ := (hiff _).1 ha
          have hv : v ≠ 2 ^ 31 := by rintro rfl; exact h4 q1
          rw [if_neg hv] at q4
          subst q4
          exact .inr ⟨c, rfl, q1, q2, by omega⟩
        · injection h with h; cases h
    · rintro (⟨h, _, _⟩ | ⟨num, h, q1, q2, q3⟩)
      · injection h with _ h; cases h
      · injection h with g1 h; injection h with g2 h; injection h with g3 h
        subst g1 g2 g3
        rw [(hiff v).2 ⟨v, q1, q2, by omega, by rw [if_neg (by omega)]⟩]
        simp
  · simp [operand]

/-- The value of a condition: exactly the texts that are conditions have one, the value of what they say. -/
theorem parseIf_iff (consts : Consts) {s : Str} (hp : PlainCond s) (b : Bool) :
    parseIf consts s = .ok (some b) ↔ Holds consts s b := by
  have hw := C29_words s
  have hpw := hp _ hw
  generalize hm : splitWs s = m at hw hpw
  constructor
  · intro h
    unfold parseIf at h
    rw [hm] at h
    dsimp only at h
    cases ho : operand (if decide (m.head? = some bang) = true then m.drop 1 else m) with
    | throw e => rw [ho] at h; cases h
    | ub => rw [ho] at h; cases h
    | ok o =>
      rw [ho] at h
      cases o with
      | none => cases h
      | some t =>
        obtain ⟨id, op, want⟩ := t
        dsimp only at h
        cases hc : compare op ((consts id).getD 0) want with
        | none => rw [hc] at h; cases h
        | some r =>
          rw [hc] at h
          dsimp only at h
          injection h with h; injection h with h
          obtain ⟨cmp, hop, hr⟩ := (compare_iff _ _ _ _).1 hc
          subst hop
          by_cases hb : m.head? = some bang
          · rw [if_pos (by simpa using hb)] at ho
            rw [if_pos (by simpa using hb)] at h
            obtain ⟨ws, rfl⟩ : ∃ ws, m = bang :: ws := by
              cases m with
              | nil => cases hb
              | cons x xs => injection hb with hb; subst hb; exact ⟨xs, rfl⟩
            have ho' := (operand_iff (fun w hw => hpw w (List.mem_cons_of_mem _ (by simpa using hw))) _ _ _).1 ho
            refine ⟨true, id, cmp, want, ?_, ?_⟩
            · rcases ho' with ⟨g1, g2, g3⟩ | ⟨num, g1, g2⟩
              · have g1' : ws = [id] := g1
                subst g1'
                refine ⟨[], hw, by simp, .inl ⟨rfl, ?_, g3⟩⟩
                cases cmp <;> simp [Cmp.text] at g2 ⊢
              · have g1' : ws = [id, cmp.text, num] := g1
                subst g1'
                exact ⟨[cmp.text, num], hw, by simp, .inr ⟨num, rfl, g2⟩⟩
            · rw [← h, ← hr]; simp
          · rw [if_neg (by simpa using hb)] at ho
            rw [if_neg (by simpa using hb)] at h
            have ho' := (operand_iff hpw _ _ _).1 ho
            refine ⟨false, id, cmp, want, ?_, ?_⟩
            · rcases ho' with ⟨g1, g2, g3⟩ | ⟨num, g1, g2⟩
              · subst g1
                refine ⟨[], hw, fun _ h => hb (by rw [h]; rfl), .inl ⟨rfl, ?_, g3⟩⟩
                cases cmp <;> simp [Cmp.text] at g2 ⊢
              · subst g1
                exact ⟨[cmp.text, num], hw, fun _ h => hb (by rw [h]; rfl), .inr ⟨num, rfl, g2⟩⟩
            · rw [← h, ← hr]; simp
  · rintro ⟨neg, id, cmp, v, ⟨rest, h1, h2, h3⟩, hb⟩
    have hmw : m = (if neg then [[33]] else []) ++ id :: rest := hw.unique h1
    unfold parseIf
    rw [hm]
    dsimp only
    have hneg : (m.head? = some bang) ↔ neg = true := by
      rw [hmw]
      cases neg
      · simp [bang]; exact h2 rfl
      · simp [bang]
    have hdrop : (if neg = true then m.drop 1 else m) = id :: rest := by
      rw [hmw]; cases neg <;> rfl
    have hdec : decide (m.head? = some bang) = neg := by
      cases neg <;> simp [hneg]
    rw [hdec, hdrop]
    have ho : operand (id :: rest) = .ok (some (id, cmp.text, v)) := by
      refine (operand_iff (fun w hw => hpw w ?_) _ _ _).2 ?_
      · rw [hmw]; exact List.mem_append_right _ hw
      · rcases h3 with ⟨rfl, rfl, rfl⟩ | ⟨num, rfl, g⟩
        · exact .inl ⟨rfl, rfl, rfl⟩
        · exact .inr ⟨num, rfl, g⟩
    rw [ho]
    dsimp only
    have hc := (compare_iff cmp.text ((consts id).getD 0) v (if neg then !b else b)).2 ⟨cmp, rfl, by cases neg <;> cases b <;> simp at hb ⊢ <;> exact hb⟩
    rw [hc]
    cases neg <;> cases b <;> rfl

end Verif.Front
