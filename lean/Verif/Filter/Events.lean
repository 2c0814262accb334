import Verif.Filter.Spec
/-!
# Filters: what was forwarded, and the schedule this makes
-/

namespace Verif.Filter
open Verif.Stream Verif.Parse

/-- The bytes of a list of events. -/
def bytesOf : List Ev → List Byte
  | [] => []
  | (_, .data bs) :: r => bs ++ bytesOf r
  | (_, .eod) :: r => bytesOf r

/-- Is the end among the events? -/
def eodIn : List Ev → Bool
  | [] => false
  | (_, .data _) :: r => eodIn r
  | (_, .eod) :: _ => true

/-- No data after the end. -/
def Tidy : Bool → List Ev → Prop
  | _, [] => True
  | fz, (_, .data _) :: r => fz = false ∧ Tidy fz r
  | _, (_, .eod) :: r => Tidy true r

/-- The numbers of resumes to come are at most `hi`, at least `lo`, and go down. -/
def Tagged (lo : Nat) : Nat → List Ev → Prop
  | _, [] => True
  | hi, (m, _) :: r => m ≤ hi ∧ lo ≤ m ∧ Tagged lo m r

theorem bytesOf_append (a b : List Ev) : bytesOf (a ++ b) = bytesOf a ++ bytesOf b := by
  induction a with
  | nil => rfl
  | cons e r ih =>
    obtain ⟨m, e⟩ := e
    cases e with
    | data bs => simp only [List.cons_append, bytesOf, ih, List.append_assoc]
    | eod => simp only [List.cons_append, bytesOf, ih]

theorem eodIn_append (a b : List Ev) : eodIn (a ++ b) = (eodIn a || eodIn b) := by
  induction a with
  | nil => rfl
  | cons e r ih =>
    obtain ⟨m, e⟩ := e
    cases e with
    | data bs => simp only [List.cons_append, eodIn, ih]
    | eod => simp only [List.cons_append, eodIn, Bool.true_or]

theorem tidy_append {fz : Bool} {a b : List Ev} : Tidy fz (a ++ b) ↔ Tidy fz a ∧ Tidy (fz || eodIn a) b := by
  induction a generalizing fz with
  | nil => simp only [List.nil_append, Tidy, eodIn, Bool.or_false, true_and]
  | cons e r ih =>
    obtain ⟨m, e⟩ := e
    cases e with
    | data bs => simp only [List.cons_append, Tidy, eodIn, ih, and_assoc]
    | eod => simp only [List.cons_append, Tidy, eodIn, ih, Bool.or_true, Bool.true_or]

/-- Once the end was signalled, there is no more data. -/
theorem tidy_true {evs : List Ev} (h : Tidy true evs) : bytesOf evs = [] := by
  induction evs with
  | nil => rfl
  | cons e r ih =>
    obtain ⟨m, e⟩ := e
    cases e with
    | data bs => exact absurd h.1 (by simp)
    | eod => exact ih h

theorem Tagged.mono {lo hi hi' : Nat} {evs : List Ev} (h : Tagged lo hi evs) (hh : hi ≤ hi') : Tagged lo hi' evs := by
  cases evs with
  | nil => trivial
  | cons e r => exact ⟨Nat.le_trans h.1 hh, h.2⟩

theorem Tagged.lower {lo lo' hi : Nat} {evs : List Ev} (h : Tagged lo hi evs) (hl : lo' ≤ lo) : Tagged lo' hi evs := by
  induction evs generalizing hi with
  | nil => trivial
  | cons e r ih => exact ⟨h.1, Nat.le_trans hl h.2.1, ih h.2.2⟩

theorem Tagged.append {lo mid hi : Nat} {a b : List Ev} (ha : Tagged mid hi a) (hb : Tagged lo mid b) (hlm : lo ≤ mid) (hm : mid ≤ hi) :
    Tagged lo hi (a ++ b) := by
  induction a generalizing hi with
  | nil => exact hb.mono hm
  | cons e r ih => exact ⟨ha.1, Nat.le_trans hlm ha.2.1, ih ha.2.2 ha.2.1⟩

/-! ## Hooks -/

theorem emit_spec (m : Nat) (l : List Fwd) : ∀ (fz : Bool), bytesOf (emit m fz l).1 = (forwarded fz l).1 ∧
    (emit m fz l).2 = (forwarded fz l).2 ∧ Tidy fz (emit m fz l).1 ∧ Tagged m m (emit m fz l).1 ∧
    (∀ fz', (emit m fz l).2 = .ok fz' → fz' = (fz || eodIn (emit m fz l).1)) ∧
    (∀ e, (emit m fz l).2 = .error e → (fz || eodIn (emit m fz l).1) = true) := by
  induction l with
  | nil =>
    intro fz
    simp only [emit, forwarded, bytesOf, Tidy, Tagged, eodIn, Bool.or_false, true_and]
    exact ⟨fun _ h => by injection h with h; exact h.symm, fun _ h => by cases h⟩
  | cons x r ih =>
    intro fz
    cases x with
    | eod =>
      obtain ⟨h1, h2, h3, h4, h5, h6⟩ := ih true
      simp only [emit, forwarded, bytesOf, Tidy, Tagged, eodIn, Bool.or_true, Nat.le_refl, true_and]
      refine ⟨h1, h2, h3, h4, fun fz' h => ?_, fun _ _ => trivial⟩
      have := h5 fz' h; simpa using this
    | data bs =>
      obtain ⟨h1, h2, h3, h4, h5, h6⟩ := ih fz
      simp only [emit, forwarded]
      by_cases hb : bs = []
      · rw [if_pos hb, if_neg (show ¬ (bs ≠ [] ∧ fz = true) from fun h => h.1 hb)]
        subst hb
        exact ⟨h1, h2, h3, h4, h5, h6⟩
      · rw [if_neg hb]
        cases fz with
        | true =>
          rw [if_pos rfl, if_pos (show bs ≠ [] ∧ true = true from ⟨hb, rfl⟩)]
          exact ⟨rfl, rfl, trivial, trivial, fun _ h => (by cases h), fun _ _ => rfl⟩
        | false =>
          rw [if_neg (by simp), if_neg (by simp)]
          refine ⟨?_, h2, ⟨rfl, h3⟩, ⟨Nat.le_refl _, Nat.le_refl _, h4⟩, ?_, ?_⟩
          · simp only [bytesOf, h1]
          · simpa only [eodIn] using h5
          · simpa only [eodIn] using h6

/-! ## Schedules -/

theorem tag_split (m : Nat) (evs : List Ev) :
    evs.takeWhile (fun e => e.1 == m) ++ evs.dropWhile (fun e => e.1 == m) = evs := List.takeWhile_append_dropWhile

theorem tagged_drop {lo m : Nat} {evs : List Ev} (h : Tagged lo m evs) (hm : lo < m) :
    Tagged lo (m - 1) (evs.dropWhile (fun e => e.1 == m)) := by
  induction evs with
  | nil => trivial
  | cons e r ih =>
    by_cases he : e.1 = m
    · rw [List.dropWhile_cons_of_pos (by simp [he])]
      exact ih (h.2.2.mono (by omega))
    · rw [List.dropWhile_cons_of_neg (by simp [he])]
      obtain ⟨a, b, c⟩ := h
      exact ⟨by omega, b, c⟩

theorem tagged_drop_last {m : Nat} {evs : List Ev} (h : Tagged m m evs) : evs.dropWhile (fun e => e.1 == m) = [] := by
  induction evs with
  | nil => rfl
  | cons e r ih =>
    obtain ⟨a, b, c⟩ := h
    have he : e.1 = m := by omega
    rw [List.dropWhile_cons_of_pos (by simp [he])]
    rw [he] at c
    exact ih c

theorem tagged_take {lo m : Nat} {evs : List Ev} (h : Tagged lo m evs) : Tagged m m (evs.takeWhile (fun e => e.1 == m)) := by
  induction evs with
  | nil => trivial
  | cons e r ih =>
    by_cases he : e.1 = m
    · rw [List.takeWhile_cons_of_pos (by simp [he])]
      obtain ⟨a, b, c⟩ := h
      refine ⟨a, by omega, ?_⟩
      rw [he] at c
      have := ih c
      rw [he]; exact this
    · rw [List.takeWhile_cons_of_neg (by simp [he])]; trivial

theorem itemOf_bytes (evs : List Ev) : (itemOf evs).data.flatten = bytesOf evs := by
  unfold itemOf
  induction evs with
  | nil => rfl
  | cons e r ih =>
    obtain ⟨m, e⟩ := e
    cases e with
    | data bs => simp only [List.filterMap_cons, List.flatten_cons, bytesOf] at ih ⊢; rw [ih]
    | eod => simp only [List.filterMap_cons, bytesOf] at ih ⊢; rw [ih]

theorem itemOf_freeze (evs : List Ev) : (itemOf evs).freeze = eodIn evs := by
  unfold itemOf
  induction evs with
  | nil => rfl
  | cons e r ih =>
    obtain ⟨m, e⟩ := e
    cases e with
    | data bs =>
      simp only [List.any_cons, eodIn] at ih ⊢
      rw [ih]
      simp
    | eod => simp [eodIn]

/-- All that was forwarded down to the number `lo` is what the schedule delivers. -/
theorem cutAll_all (k : Nat) : ∀ {m lo : Nat} {evs : List Ev}, Tagged lo m evs → Tidy false evs → k = m + 1 - lo → lo ≤ m →
    total (cutAll k m evs) = bytesOf evs ∧ closes (cutAll k m evs) = eodIn evs := by
  induction k with
  | zero => intro m lo evs ht hd hk hl; omega
  | succ k ih =>
    intro m lo evs ht hd hk hl
    have hs := tag_split m evs
    simp only [cutAll, total, closes, List.any_cons, itemOf_bytes, itemOf_freeze]
    have hb : bytesOf evs = bytesOf (evs.takeWhile (fun e => e.1 == m)) ++ bytesOf (evs.dropWhile (fun e => e.1 == m)) := by
      rw [← bytesOf_append, hs]
    have he : eodIn evs = (eodIn (evs.takeWhile (fun e => e.1 == m)) || eodIn (evs.dropWhile (fun e => e.1 == m))) := by
      rw [← eodIn_append, hs]
    have hd' := hd
    rw [← hs, tidy_append] at hd'
    simp only [Bool.false_or] at hd'
    rw [hb, he]
    by_cases hlm : lo = m
    · have hk0 : k = 0 := by omega
      subst hlm
      rw [tagged_drop_last ht, hk0]
      simp [cutAll, bytesOf, eodIn, total]
    · cases hc : eodIn (evs.takeWhile (fun e => e.1 == m)) with
      | true =>
        rw [hc] at hd'
        rw [tidy_true hd'.2]
        simp
      | false =>
        rw [hc] at hd'
        obtain ⟨i1, i2⟩ := ih (tagged_drop ht (by omega)) hd'.2 (by omega) (by omega)
        simp only [Bool.false_eq_true, if_false, Bool.false_or]
        rw [i1]
        exact ⟨rfl, i2⟩

/-- The schedule that is left if the last of the resumes is not looked at. -/
theorem cutAll_some (k : Nat) : ∀ {m : Nat} {evs : List Ev}, Tidy false evs →
    Input.Le (input (cutAll k m evs)) ⟨bytesOf evs, eodIn evs⟩ := by
  induction k with
  | zero => intro m evs hd; exact Or.inr ⟨rfl, List.nil_prefix⟩
  | succ k ih =>
    intro m evs hd
    have hs := tag_split m evs
    have hb : bytesOf evs = bytesOf (evs.takeWhile (fun e => e.1 == m)) ++ bytesOf (evs.dropWhile (fun e => e.1 == m)) := by
      rw [← bytesOf_append, hs]
    have he : eodIn evs = (eodIn (evs.takeWhile (fun e => e.1 == m)) || eodIn (evs.dropWhile (fun e => e.1 == m))) := by
      rw [← eodIn_append, hs]
    have hd' := hd
    rw [← hs, tidy_append] at hd'
    simp only [Bool.false_or] at hd'
    unfold input
    simp only [cutAll, total, closes, List.any_cons, itemOf_bytes, itemOf_freeze]
    rw [hb, he]
    cases hc : eodIn (evs.takeWhile (fun e => e.1 == m)) with
    | true =>
      rw [hc] at hd'
      rw [tidy_true hd'.2]
      left
      simp
    | false =>
      rw [hc] at hd'
      rcases ih (m := m - 1) hd'.2 with h | ⟨h1, h2⟩
      · left
        unfold input closes at h
        injection h with h3 h4
        simp only [Bool.false_eq_true, if_false, Bool.false_or, h3, h4]
      · right
        refine ⟨by simpa [closes, input] using h1, ?_⟩
        simp only [Bool.false_eq_true, if_false]
        exact (List.prefix_append_right_inj _).mpr h2

theorem inputLe_trans {a b c : Input} (h : Input.Le a b) (h' : Input.Le b c) : Input.Le a c := by
  rcases h with rfl | ⟨h1, h2⟩
  · exact h'
  · rcases h' with rfl | ⟨_, h4⟩
    · exact Or.inr ⟨h1, h2⟩
    · exact Or.inr ⟨h1, h2.trans h4⟩

end Verif.Filter
