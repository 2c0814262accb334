import Verif.Parse.Refine
/-! # Parsing: the specification is monotone in the bound on loops, and in the input -/

namespace Verif.Parse
open Verif.Stream

/-! ## Raising the bound on loops and recursion -/

/-- `b` is `a`, unless `a` ran out of its bound. -/
def SRes.Le {α : Type} (a b : SRes α) : Prop := a = .diverge ∨ a = b

theorem SRes.Le.refl {α : Type} (a : SRes α) : SRes.Le a a := Or.inr rfl

theorem SRes.Le.bind {α β : Type} {a b : SRes α} {f g : α → SRes β} (h : SRes.Le a b) (k : ∀ x, SRes.Le (f x) (g x)) :
    SRes.Le (a >>= f) (b >>= g) := by
  rcases h with rfl | rfl
  · exact Or.inl rfl
  · cases a with
    | ok x => exact k x
    | fail e => exact Or.inr rfl
    | more => exact Or.inr rfl
    | diverge => exact Or.inl rfl

/-- Pointwise. -/
def SParser.Le (a b : SParser) : Prop := ∀ I lim pos, SRes.Le (a I lim pos) (b I lim pos)

theorem counter_le {g h : SParser} (k : SParser.Le g h) (stop : Val → Stop) (I : Input) (lim : Option Nat) (n : Nat) :
    ∀ pos acc, SRes.Le (counterSpec g stop I lim n pos acc) (counterSpec h stop I lim n pos acc) := by
  induction n with
  | zero => intro pos acc; exact Or.inr rfl
  | succ n ih =>
    intro pos acc
    unfold counterSpec
    refine SRes.Le.bind (k I lim pos) (fun r => ?_)
    cases stop r.1 with
    | go => exact ih _ _
    | drop => exact Or.inr rfl
    | keep => exact Or.inr rfl

theorem foreach_le {g h : SParser} (k : SParser.Le g h) (eodOk : Bool) (stop : Val → Stop) (I : Input) (lim : Option Nat)
    (n : Nat) : ∀ m pos acc, n ≤ m →
      SRes.Le (foreachSpec eodOk g stop I lim n pos acc) (foreachSpec eodOk h stop I lim m pos acc) := by
  induction n with
  | zero => intro m pos acc hm; exact Or.inl rfl
  | succ n ih =>
    intro m pos acc hm
    obtain ⟨m, rfl⟩ : ∃ k, m = k + 1 := ⟨m - 1, by omega⟩
    unfold foreachSpec
    refine SRes.Le.bind (SRes.Le.refl _) (fun e => ?_)
    cases e with
    | true => exact Or.inr rfl
    | false =>
      simp only [Bool.false_eq_true, if_false]
      refine SRes.Le.bind (k I lim pos) (fun r => ?_)
      cases stop r.1 with
      | go =>
        refine SRes.Le.bind (SRes.Le.refl _) (fun bad => ?_)
        cases bad with
        | true => exact Or.inr rfl
        | false => exact ih _ _ _ (by omega)
      | drop => exact Or.inr rfl
      | keep => exact Or.inr rfl

theorem evalWith_le {callee callee' : Nat → SParser} (hc : ∀ i, SParser.Le (callee i) (callee' i)) {f f' : Nat}
    (hf : f ≤ f') (g : G) : SParser.Le (evalWith callee f g) (evalWith callee' f' g) := by
  induction g with
  | ret | fail | offset | unpack | bytesSize | bytesSizeEod | lit | «until» | regexp | eod | chunkedEod | skip | skipEod =>
    intro I lim pos; exact Or.inr rfl
  | seq g k ih1 ih2 =>
    intro I lim pos
    exact SRes.Le.bind (ih1 I lim pos) (fun r => ih2 r.1 I lim r.2)
  | limit n g ih =>
    intro I lim pos
    exact SRes.Le.bind (ih I _ pos) (fun r => SRes.Le.refl _)
  | maxSize n g ih =>
    intro I lim pos
    exact SRes.Le.bind (ih I _ pos) (fun r => SRes.Le.refl _)
  | try_ g ih =>
    intro I lim pos
    simp only [evalWith]
    rcases ih I lim pos with h | h
    · rw [h]; exact Or.inl rfl
    · rw [h]; exact Or.inr rfl
  | counter n g stop ih => intro I lim pos; exact counter_le ih stop I lim n pos []
  | foreach eodOk g stop ih => intro I lim pos; exact foreach_le ih eodOk stop I lim f f' pos [] hf
  | lah lits k ih =>
    intro I lim pos
    rw [evalWith, evalWith]
    refine SRes.Le.bind (SRes.Le.refl _) (fun e => ?_)
    cases e with
    | true => exact ih _ I lim pos
    | false =>
      simp only [Bool.false_eq_true, if_false]
      refine SRes.Le.bind (SRes.Le.refl _) (fun t => ?_)
      cases t with
      | none => exact ih _ I lim pos
      | some x => exact ih _ I lim pos
  | parseFrom bs g ih =>
    intro I lim pos
    exact SRes.Le.bind (ih _ _ _) (fun r => SRes.Le.refl _)
  | random k ih => intro I lim pos; exact ih pos I lim pos
  | parseAt p g ih =>
    intro I lim pos
    exact SRes.Le.bind (ih _ _ _) (fun r => SRes.Le.refl _)
  | call i => exact hc i

theorem eval_succ_le (Γ : Nat → G) (f : Nat) : ∀ g, SParser.Le (eval Γ f g) (eval Γ (f + 1) g) := by
  induction f with
  | zero => intro g I lim pos; exact Or.inl rfl
  | succ f ih =>
    intro g
    exact evalWith_le (fun i => ih (Γ i)) (Nat.le_succ f) g

theorem eval_le (Γ : Nat → G) {f f' : Nat} (h : f ≤ f') (g : G) : SParser.Le (eval Γ f g) (eval Γ f' g) := by
  induction h with
  | refl => intro I lim pos; exact Or.inr rfl
  | step h ih =>
    intro I lim pos
    rcases ih I lim pos with e | e
    · exact Or.inl e
    · rw [e]; exact eval_succ_le Γ _ g I lim pos

/-! ## More input -/

/-- `I'` continues `I`: the same, or `I` was not closed and `I'` has more data (or is closed). -/
def Input.Le (I I' : Input) : Prop := I = I' ∨ (I.closed = false ∧ I.data <+: I'.data)

/-- `b` is `a`, unless `a` was waiting for more input. -/
def SRes.Settled {α : Type} (a b : SRes α) : Prop := a = .more ∨ a = b

theorem SRes.Settled.refl {α : Type} (a : SRes α) : SRes.Settled a a := Or.inr rfl

theorem SRes.Settled.bind {α β : Type} {a b : SRes α} {f g : α → SRes β} (h : SRes.Settled a b)
    (k : ∀ x, a = .ok x → SRes.Settled (f x) (g x)) : SRes.Settled (a >>= f) (b >>= g) := by
  rcases h with rfl | rfl
  · exact Or.inl rfl
  · cases a with
    | ok x => exact k x rfl
    | fail e => exact SRes.Settled.refl _
    | more => exact Or.inl rfl
    | diverge => exact Or.inr rfl

/-- Parsing gives the same once there is more input. -/
def SParser.Stable (g : SParser) : Prop := ∀ I I' lim pos, Input.Le I I' → SRes.Settled (g I lim pos) (g I' lim pos)

variable {I I' : Input} {lim : Option Nat}

theorem Input.Le.stop_le (h : Input.Le I I') : I.stop lim ≤ I'.stop lim := by
  rcases h with rfl | ⟨_, h⟩
  · exact Nat.le_refl _
  · have := h.length_le
    unfold Input.stop
    cases lim with
    | none => exact this
    | some l => simp only; omega

theorem Input.Le.rest (h : Input.Le I I') (pos : Nat) : I.rest lim pos = (I'.rest lim pos).take (I.stop lim - pos) := by
  rcases h with rfl | ⟨_, t, h⟩
  · rw [List.take_of_length_le (by rw [rest_length]; exact Nat.le_refl _)]
  · have hle : I.stop lim ≤ I'.stop lim := Input.Le.stop_le (Or.inr ⟨by assumption, t, h⟩)
    have hl : I.stop lim ≤ I.data.length := by unfold Input.stop; cases lim <;> simp only <;> omega
    unfold Input.rest
    rw [List.drop_take, List.drop_take, List.take_take, ← h, Nat.min_eq_left (by omega)]
    rcases Nat.le_total pos I.data.length with hp | hp
    · rw [List.drop_append_of_le_length hp, List.take_append_of_le_length (by simp; omega)]
    · have : I.stop lim - pos = 0 := by omega
      rw [this]; rfl

theorem Input.Le.complete (h : Input.Le I I') (hc : I.complete lim = true) :
    I'.complete lim = true ∧ I'.stop lim = I.stop lim := by
  rcases h with rfl | ⟨h1, h⟩
  · exact ⟨hc, rfl⟩
  · have := h.length_le
    unfold Input.complete at hc ⊢
    unfold Input.stop
    rw [h1] at hc
    cases lim with
    | none => simp at hc
    | some l =>
      simp only [Bool.false_or, decide_eq_true_eq] at hc
      simp only [Bool.or_eq_true, decide_eq_true_eq]
      exact ⟨Or.inr (by omega), by omega⟩

theorem Input.Le.complete_rest (h : Input.Le I I') (hc : I.complete lim = true) (pos : Nat) : I'.rest lim pos = I.rest lim pos := by
  rw [h.rest, List.take_of_length_le]
  rw [rest_length, (h.complete hc).2]; exact Nat.le_refl _

theorem Input.Le.has (h : Input.Le I I') (pos n : Nat) : SRes.Settled (I.has lim pos n) (I'.has lim pos n) := by
  unfold Input.has
  by_cases h1 : pos + n ≤ I.stop lim
  · rw [if_pos h1, if_pos (Nat.le_trans h1 h.stop_le)]; exact SRes.Settled.refl _
  · rw [if_neg h1]
    cases hc : I.complete lim with
    | false => exact Or.inl rfl
    | true =>
      obtain ⟨c1, c2⟩ := h.complete hc
      rw [if_neg (show ¬ pos + n ≤ I'.stop lim by omega), c1]; exact SRes.Settled.refl _

theorem takeN_stable (n : Nat) (w : List Byte → Val) : SParser.Stable (takeN n w) := by
  intro I I' lim pos h
  unfold takeN
  refine SRes.Settled.bind (h.has pos n) (fun b hb => ?_)
  cases b with
  | false => exact SRes.Settled.refl _
  | true =>
    have := has_true hb
    simp only [if_true]
    rw [h.rest, List.take_take, Nat.min_eq_left (by omega)]
    exact SRes.Settled.refl _

theorem toEnd_stable (w : List Byte → Val) : SParser.Stable (toEnd w) := by
  intro I I' lim pos h
  unfold toEnd
  cases hc : I.complete lim with
  | false => exact Or.inl rfl
  | true =>
    obtain ⟨c1, c2⟩ := h.complete hc
    rw [c1, c2, h.complete_rest hc]
    exact SRes.Settled.refl _

theorem atEnd_stable (pos : Nat) (h : Input.Le I I') : SRes.Settled (atEnd I lim pos) (atEnd I' lim pos) := by
  unfold atEnd
  exact SRes.Settled.bind (h.has pos 1) (fun b _ => SRes.Settled.refl _)

/-- Whether a literal comes next, once that is known. -/
theorem lit_stable (h : Input.Le I I') {pos : Nat} {l : List Byte} {b : Bool} (hb : I.has lim pos l.length = .ok b) :
    (l <+: I.rest lim pos ↔ l <+: I'.rest lim pos) := by
  cases b with
  | false => rw [h.complete_rest (has_false hb).2]
  | true =>
    have := has_true hb
    rw [h.rest]
    exact prefix_take (by omega)

theorem counter_stable {g : SParser} (k : SParser.Stable g) (stop : Val → Stop) (h : Input.Le I I') (n : Nat) :
    ∀ pos acc, SRes.Settled (counterSpec g stop I lim n pos acc) (counterSpec g stop I' lim n pos acc) := by
  induction n with
  | zero => intro pos acc; exact SRes.Settled.refl _
  | succ n ih =>
    intro pos acc
    unfold counterSpec
    refine SRes.Settled.bind (k I I' lim pos h) (fun r _ => ?_)
    cases stop r.1 with
    | go => exact ih _ _
    | drop => exact SRes.Settled.refl _
    | keep => exact SRes.Settled.refl _

theorem foreach_stable {g : SParser} (k : SParser.Stable g) (eodOk : Bool) (stop : Val → Stop) (h : Input.Le I I') (n : Nat) :
    ∀ pos acc, SRes.Settled (foreachSpec eodOk g stop I lim n pos acc) (foreachSpec eodOk g stop I' lim n pos acc) := by
  induction n with
  | zero => intro pos acc; exact SRes.Settled.refl _
  | succ n ih =>
    intro pos acc
    unfold foreachSpec
    refine SRes.Settled.bind ?_ (fun e _ => ?_)
    · cases eodOk with
      | false => exact SRes.Settled.refl _
      | true => exact atEnd_stable pos h
    · cases e with
      | true => exact SRes.Settled.refl _
      | false =>
        simp only [Bool.false_eq_true, if_false]
        refine SRes.Settled.bind (k I I' lim pos h) (fun r _ => ?_)
        cases stop r.1 with
        | go =>
          refine SRes.Settled.bind ?_ (fun bad _ => ?_)
          · by_cases hr : r.2 = pos
            · rw [if_pos hr, if_pos hr]
              exact SRes.Settled.bind (atEnd_stable pos h) (fun e _ => SRes.Settled.refl _)
            · rw [if_neg hr, if_neg hr]; exact SRes.Settled.refl _
          · cases bad with
            | true => exact SRes.Settled.refl _
            | false => exact ih _ _
        | drop => exact SRes.Settled.refl _
        | keep => exact SRes.Settled.refl _

theorem lahSpec_stable (h : Input.Le I I') (pos : Nat) (ls : List (List Byte)) :
    ∀ i best, SRes.Settled (lahSpec I lim pos ls i best) (lahSpec I' lim pos ls i best) := by
  induction ls with
  | nil => intro i best; exact SRes.Settled.refl _
  | cons l ls ih =>
    intro i best
    unfold lahSpec
    refine SRes.Settled.bind (h.has pos l.length) (fun b hb => ?_)
    have := lit_stable h hb
    by_cases hl : l <+: I.rest lim pos ∧ l ≠ []
    · rw [if_pos hl, if_pos ⟨this.1 hl.1, hl.2⟩]
      cases best with
      | none => exact ih _ _
      | some x =>
        obtain ⟨j, n⟩ := x
        dsimp only
        by_cases he : l.length = n
        · rw [if_pos he, if_pos he]; exact SRes.Settled.refl _
        · rw [if_neg he, if_neg he]; exact ih _ _
    · rw [if_neg hl, if_neg (fun hx => hl ⟨this.2 hx.1, hx.2⟩)]
      exact ih _ _

theorem regex_stable (A : Regex.Auto) : SParser.Stable (regexSpec A) := by
  intro I I' lim pos h
  by_cases hc : I.complete lim = true
  · have h1 := h.complete_rest hc pos
    have h2 := (h.complete hc).1
    unfold regexSpec
    rw [h1, hc, h2]
    exact SRes.Settled.refl _
  · have hc' : I.complete lim = false := by simpa using hc
    by_cases hd : I.rest lim pos = [] ∨ A.more (Regex.run A (I.rest lim pos)) = true
    · refine Or.inl ?_
      unfold regexSpec
      rw [if_pos ⟨hc', hd⟩]
    · have hne : I.rest lim pos ≠ [] := fun h => hd (Or.inl h)
      have hm : A.more (Regex.run A (I.rest lim pos)) = false := by
        cases hx : A.more (Regex.run A (I.rest lim pos)) with
        | true => exact absurd (Or.inr hx) hd
        | false => rfl
      have e1 := regexSpec_decided (I := I) (A := A) (lim := lim) (pos := pos) (W := I.rest lim pos) (x := []) (by simp)
        (Or.inr ⟨hne, hm⟩)
      have e2 := regexSpec_decided (I := I') (A := A) (lim := lim) (pos := pos) (W := I.rest lim pos)
        (x := (I'.rest lim pos).drop (I.stop lim - pos)) (by
          rw [h.rest pos, List.take_append_drop]) (Or.inr ⟨hne, hm⟩)
      exact Or.inr (e1.trans e2.symm)

theorem evalWith_stable {callee : Nat → SParser} (hc : ∀ i, SParser.Stable (callee i)) (f : Nat) (g : G) :
    SParser.Stable (evalWith callee f g) := by
  induction g with
  | ret | fail | offset => intro I I' lim pos h; exact SRes.Settled.refl _
  | unpack w n fn => exact takeN_stable n fn
  | bytesSize n => exact takeN_stable n _
  | bytesSizeEod n => exact takeN_stable n _
  | regexp A => exact regex_stable A
  | lit bs =>
    intro I I' lim pos h
    refine SRes.Settled.bind (h.has pos bs.length) (fun b hb => ?_)
    cases b with
    | false => exact SRes.Settled.refl _
    | true =>
      simp only [if_true]
      have := lit_stable h hb
      by_cases hl : bs <+: I.rest lim pos
      · rw [if_pos hl, if_pos (this.1 hl)]; exact SRes.Settled.refl _
      · rw [if_neg hl, if_neg (fun hx => hl (this.2 hx))]; exact SRes.Settled.refl _
  | «until» needle incl =>
    intro I I' lim pos h
    simp only [evalWith]
    rcases firstOcc_spec needle (I.rest lim pos) with ⟨p, e, h1, h2⟩ | ⟨e, h1⟩
    · have hl := h1.length_le
      rw [List.length_drop, rest_length] at hl
      have occ : ∀ q, q ≤ p → (OccursAt needle (I.rest lim pos) q ↔ OccursAt needle (I'.rest lim pos) q) := by
        intro q hq
        rw [h.rest]
        unfold OccursAt
        rw [List.drop_take]
        by_cases hz : needle = []
        · subst hz; simp
        · have : 0 < needle.length := List.length_pos_iff.2 hz
          exact prefix_take (by omega)
      have e' : firstOcc needle (I'.rest lim pos) = some p :=
        firstOcc_eq_some ((occ p (Nat.le_refl _)).1 h1) (fun q hq hx => h2 q hq ((occ q (by omega)).2 hx))
      rw [e, e']
      simp only
      have : ((I.rest lim pos).take (if incl then p + needle.length else p)) =
          ((I'.rest lim pos).take (if incl then p + needle.length else p)) := by
        rw [h.rest, List.take_take]
        by_cases hz : needle = []
        · subst hz
          have hp0 : p = 0 := Classical.byContradiction (fun hne => h2 0 (by omega) (by simp [OccursAt]))
          subst hp0; simp
        · have : 0 < needle.length := List.length_pos_iff.2 hz
          congr 1
          split <;> omega
      rw [this]
      exact SRes.Settled.refl _
    · rw [e]
      cases hcm : I.complete lim with
      | false => exact Or.inl rfl
      | true =>
        rw [h.complete_rest hcm, e, (h.complete hcm).1]
        exact SRes.Settled.refl _
  | eod => exact toEnd_stable _
  | chunkedEod => exact toEnd_stable _
  | skip n =>
    intro I I' lim pos h
    exact SRes.Settled.bind (h.has pos n) (fun b _ => SRes.Settled.refl _)
  | skipEod => exact toEnd_stable _
  | seq g k ih1 ih2 =>
    intro I I' lim pos h
    exact SRes.Settled.bind (ih1 I I' lim pos h) (fun r _ => ih2 r.1 I I' lim r.2 h)
  | limit n g ih =>
    intro I I' lim pos h
    exact SRes.Settled.bind (ih I I' _ pos h) (fun r _ => SRes.Settled.refl _)
  | maxSize n g ih =>
    intro I I' lim pos h
    exact SRes.Settled.bind (ih I I' _ pos h) (fun r _ => SRes.Settled.refl _)
  | try_ g ih =>
    intro I I' lim pos h
    simp only [evalWith]
    rcases ih I I' lim pos h with e | e
    · rw [e]; exact Or.inl rfl
    · rw [e]; exact SRes.Settled.refl _
  | counter n g stop ih => intro I I' lim pos h; exact counter_stable ih stop h n pos []
  | foreach eodOk g stop ih => intro I I' lim pos h; exact foreach_stable ih eodOk stop h f pos []
  | lah lits k ih =>
    intro I I' lim pos h
    rw [evalWith]
    refine SRes.Settled.bind (atEnd_stable pos h) (fun e _ => ?_)
    cases e with
    | true => exact ih _ I I' lim pos h
    | false =>
      simp only [Bool.false_eq_true, if_false]
      refine SRes.Settled.bind (lahSpec_stable h pos lits 0 none) (fun t _ => ?_)
      cases t with
      | none => exact ih _ I I' lim pos h
      | some x => exact ih _ I I' lim pos h
  | parseFrom bs g ih => intro I I' lim pos h; exact SRes.Settled.refl _
  | random k ih => intro I I' lim pos h; exact ih pos I I' lim pos h
  | parseAt p g ih =>
    intro I I' lim pos h
    exact SRes.Settled.bind (ih I I' lim p h) (fun r _ => SRes.Settled.refl _)
  | call i => exact hc i

theorem eval_stable (Γ : Nat → G) (f : Nat) : ∀ g, SParser.Stable (eval Γ f g) := by
  induction f with
  | zero => intro g I I' lim pos h; exact Or.inr rfl
  | succ f ih => intro g; exact evalWith_stable (fun i => ih (Γ i)) f g

end Verif.Parse
