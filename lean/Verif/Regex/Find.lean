import Verif.Regex.Match
/-!
# Regular expressions: matching and searching in bytes (C62)
-/

namespace Verif.Regex
open Verif.Stream

theorem searchPattern_spec {A : Auto} (P : Plain A) {data : List Byte} (hd : data ≠ []) :
    ((searchPattern A data).1 = 0 ∧ NoMatch A data ∧ A.more (run A data) = false) ∨
    (∃ n, Longest A data n ∧ (searchPattern A data).1 = accepts A (data.take n) ∧ (searchPattern A data).2 = n) ∨
    ((searchPattern A data).1 = -1 ∧ NoMatch A data ∧ A.more (run A data) = true) := by
  have h := exec_spec P hd (w := []) (first := true) true true (tracks_init A) (fun _ => rfl)
  unfold searchPattern
  rw [if_neg hd]
  generalize exec A data true true true (MS.init A) = r at h
  obtain ⟨rc, m⟩ := r
  dsimp only at h ⊢
  rw [List.nil_append] at h
  rcases h with h | ⟨n, h1, h2, h3, -⟩ | ⟨h1, -, h3, h4⟩
  · exact Or.inl h
  · exact Or.inr (Or.inl ⟨n, h1, h2, by omega⟩)
  · exact Or.inr (Or.inr ⟨h1, h4 rfl, h3⟩)

/-- C62. `match` reports the longest match at the beginning of the data; it reports 0 only if there is no match and never
    will be, whatever is appended; it reports -1 only if there is none yet. -/
theorem C62_match_partial {A : Auto} (P : Plain A) {data : List Byte} (hd : data ≠ []) :
    (matchBytes A data > 0 ∧ ∃ n, Longest A data n ∧ matchBytes A data = accepts A (data.take n)) ∨
    (matchBytes A data = 0 ∧ ∀ x, NoMatch A (data ++ x)) ∨
    (matchBytes A data = -1 ∧ NoMatch A data) := by
  unfold matchBytes
  rcases searchPattern_spec P hd with ⟨h1, h2, h3⟩ | ⟨n, h1, h2, h3⟩ | ⟨h1, h2, h3⟩
  · exact Or.inr (Or.inl ⟨h1, noMatch_stuck h3 h2⟩)
  · have := h1.hit
    exact Or.inl ⟨by omega, n, h1, h2⟩
  · exact Or.inr (Or.inr ⟨h1, h2⟩)

/-- C62. Empty data is not looked at: the result is -1 also if the expression matches the empty string. -/
theorem C62_match_empty (A : Auto) : matchBytes A [] = -1 := rfl

/-! ## The longest match, computed -/

theorem longestUpTo_spec (A : Auto) (w : List Byte) (k : Nat) :
    match longestUpTo A w k with
    | some n => n ≤ k ∧ accepts A (w.take n) ≠ 0 ∧ ∀ m, n < m → m ≤ k → accepts A (w.take m) = 0
    | none => ∀ m, m ≤ k → accepts A (w.take m) = 0 := by
  induction k with
  | zero =>
    simp only [longestUpTo]
    by_cases h : accepts A [] ≠ 0
    · rw [if_pos h]; exact ⟨Nat.le_refl _, h, fun m h1 h2 => by omega⟩
    · rw [if_neg h]
      intro m hm
      obtain rfl : m = 0 := by omega
      exact Classical.byContradiction h
  | succ k ih =>
    simp only [longestUpTo]
    by_cases h : accepts A (w.take (k + 1)) ≠ 0
    · rw [if_pos h]; exact ⟨Nat.le_refl _, h, fun m h1 h2 => by omega⟩
    · rw [if_neg h]
      have h0 : accepts A (w.take (k + 1)) = 0 := Classical.byContradiction h
      revert ih
      cases longestUpTo A w k with
      | none =>
        intro ih m hm
        by_cases he : m = k + 1
        · rw [he]; exact h0
        · exact ih m (by omega)
      | some n =>
        rintro ⟨i1, i2, i3⟩
        refine ⟨by omega, i2, fun m h1 h2 => ?_⟩
        by_cases he : m = k + 1
        · rw [he]; exact h0
        · exact i3 m h1 (by omega)

theorem longest_eq_some {A : Auto} {w : List Byte} {n : Nat} (h : Longest A w n) : longest A w = some n := by
  have hs := longestUpTo_spec A w w.length
  unfold longest
  revert hs
  cases longestUpTo A w w.length with
  | none => intro hs; exact absurd (hs n h.le) h.hit
  | some m => rintro ⟨h1, h2, h3⟩; rw [longest_unique (m := m) ⟨h1, h2, h3⟩ h]

theorem longest_eq_none {A : Auto} {w : List Byte} (h : NoMatch A w) : longest A w = none := by
  have hs := longestUpTo_spec A w w.length
  unfold longest
  revert hs
  cases longestUpTo A w w.length with
  | none => intro _; rfl
  | some m => rintro ⟨h1, h2, -⟩; exact absurd (h m h1) h2

theorem longest_cases (A : Auto) (w : List Byte) : (∃ n, longest A w = some n ∧ Longest A w n) ∨ (longest A w = none ∧ NoMatch A w) := by
  have hs := longestUpTo_spec A w w.length
  unfold longest
  revert hs
  cases longestUpTo A w w.length with
  | none => intro h; exact Or.inr ⟨rfl, h⟩
  | some m => rintro ⟨h1, h2, h3⟩; exact Or.inl ⟨m, rfl, h1, h2, h3⟩

/-- More data does not change the longest match if there are no transitions. -/
theorem longest_append {A : Auto} {w : List Byte} (h : A.more (run A w) = false) (x : List Byte) :
    longest A (w ++ x) = longest A w ∧ ∀ n, longest A w = some n → (w ++ x).take n = w.take n := by
  rcases longest_cases A w with ⟨n, h1, h2⟩ | ⟨h1, h2⟩
  · obtain ⟨k1, k2⟩ := longest_stuck h h2 x
    refine ⟨by rw [longest_eq_some k1, h1], fun m hm => ?_⟩
    rw [h1] at hm; injection hm with hm; subst hm; exact k2
  · refine ⟨by rw [longest_eq_none (noMatch_stuck h h2 x), h1], fun m hm => ?_⟩
    rw [h1] at hm; cases hm

/-! ## Searching -/

/-- There is a match of `n` bytes at position `i`, the longest one there. -/
def Hit (A : Auto) (data : List Byte) (i n : Nat) : Prop := i < data.length ∧ Longest A (data.drop i) n

/-- The match to report: none is longer, and of the longest ones it is the first. -/
def Leftmost (A : Auto) (data : List Byte) (i n : Nat) : Prop :=
  Hit A data i n ∧ ∀ j m, Hit A data j m → m < n ∨ (m = n ∧ i ≤ j)

/-- What `findLoop` knows at position `pos`. -/
def Seen (A : Auto) (data : List Byte) (pos : Nat) (b : Best) : Prop :=
  (b.rc = 0 ∧ b.so = -1 ∧ b.eo = -1 ∧ ∀ j m, j < pos → ¬ Hit A data j m) ∨
  (∃ i n : Nat, i < pos ∧ Hit A data i n ∧ b.rc = accepts A ((data.drop i).take n) ∧ b.so = i ∧ b.eo = i + n ∧
    ∀ j m, j < pos → Hit A data j m → m < n ∨ (m = n ∧ i ≤ j))

theorem findLoop_spec {A : Auto} (P : Plain A) (data : List Byte) (r : List Byte) : ∀ (pos : Nat) (b : Best),
    data.drop pos = r → Seen A data pos b → Seen A data (pos + r.length) (findLoop A r pos b) := by
  induction r with
  | nil => intro pos b _ h; exact h
  | cons x r ih =>
    intro pos b hdrop hs
    have hlt : pos < data.length := by
      have := congrArg List.length hdrop
      rw [List.length_drop, List.length_cons] at this
      omega
    have hr : data.drop (pos + 1) = r := by
      have := congrArg List.tail hdrop
      rwa [List.tail_drop] at this
    have hsp := searchPattern_spec P (data := x :: r) (by simp)
    unfold findLoop
    generalize searchPattern A (x :: r) = sp at hsp
    obtain ⟨rc, eo⟩ := sp
    dsimp only at hsp ⊢
    have hlen : pos + (x :: r).length = pos + 1 + r.length := by simp; omega
    rw [hlen]
    refine ih _ _ hr ?_
    have none_here : NoMatch A (x :: r) → ∀ m, ¬ Hit A data pos m := by
      intro hn m hh
      have h := hh.2
      rw [hdrop] at h
      exact h.hit (hn m h.le)
    have skip : NoMatch A (x :: r) → Seen A data (pos + 1) b := by
      intro hn
      rcases hs with ⟨a1, a2, a3, a4⟩ | ⟨i, n, a1, a2, a3, a4, a5, a6⟩
      · refine Or.inl ⟨a1, a2, a3, fun j m hj hh => ?_⟩
        by_cases he : j = pos
        · exact none_here hn m (he ▸ hh)
        · exact a4 j m (by omega) hh
      · refine Or.inr ⟨i, n, by omega, a2, a3, a4, a5, fun j m hj hh => ?_⟩
        by_cases he : j = pos
        · exact absurd (he ▸ hh) (none_here hn m)
        · exact a6 j m (by omega) hh
    rcases hsp with ⟨h1, h2, -⟩ | ⟨n, h1, h2, h3⟩ | ⟨h1, h2, -⟩
    · rw [if_neg (by omega)]; exact skip h2
    · have hpos := h1.hit
      have hhit : Hit A data pos n := ⟨hlt, by rw [hdrop]; exact h1⟩
      have uniq : ∀ m, Hit A data pos m → m = n := fun m hh => longest_unique hh.2 hhit.2
      have fresh : (∀ j m, j < pos → Hit A data j m → m < n) → Seen A data (pos + 1) ⟨rc, pos, (eo : Int) + pos⟩ := by
        intro hall
        refine Or.inr ⟨pos, n, by omega, hhit, by rw [hdrop]; exact h2, rfl, by dsimp only; omega, fun j m hj hh => ?_⟩
        by_cases he : j = pos
        · subst he; exact Or.inr ⟨uniq m hh, Nat.le_refl _⟩
        · exact Or.inl (hall j m (by omega) hh)
      rcases hs with ⟨a1, a2, a3, a4⟩ | ⟨i, k, a1, a2, a3, a4, a5, a6⟩
      · rw [if_pos (by refine ⟨by omega, by omega, Or.inr (Or.inr (by omega))⟩)]
        exact fresh (fun j m hj hh => absurd hh (a4 j m hj))
      · by_cases hlong : k < n
        · rw [if_pos (by refine ⟨by omega, by omega, Or.inl (by omega)⟩)]
          exact fresh (fun j m hj hh => by rcases a6 j m hj hh with h | h <;> omega)
        · rw [if_neg (by omega)]
          refine Or.inr ⟨i, k, by omega, a2, a3, a4, a5, fun j m hj hh => ?_⟩
          by_cases he : j = pos
          · subst he
            have := uniq m hh
            omega
          · exact a6 j m (by omega) hh
    · rw [if_neg (by omega)]; exact skip h2

/-- C62. `find` reports the longest match in the data, and of several ones the first, with exactly its bytes; it reports -1 and
    no data exactly if there is no match at any position. (Every position counts as the beginning of the data for `^`; the
    position behind the last byte is not tried.) -/
theorem C62_find_partial {A : Auto} (P : Plain A) (data : List Byte) :
    (∃ i n, Leftmost A data i n ∧ find A data = ((accepts A ((data.drop i).take n) : Int), (data.drop i).take n)) ∨
    ((∀ i n, ¬ Hit A data i n) ∧ find A data = (-1, [])) := by
  have h := findLoop_spec P data data 0 {} rfl (Or.inl ⟨rfl, rfl, rfl, fun j m hj => by omega⟩)
  unfold find
  dsimp only
  generalize findLoop A data 0 {} = b at h
  rw [Nat.zero_add] at h
  rcases h with ⟨h1, h2, h3, h4⟩ | ⟨i, n, h1, h2, h3, h4, h5, h6⟩
  · rw [if_neg (by omega)]
    exact Or.inr ⟨fun i n hh => h4 i n hh.1 hh, rfl⟩
  · have := h2.2.hit
    rw [if_pos (by omega)]
    refine Or.inl ⟨i, n, ⟨h2, fun j m hh => h6 j m hh.1 hh⟩, ?_⟩
    have e1 : b.so.toNat = i := by omega
    have e2 : (b.eo - b.so).toNat = n := by omega
    rw [h3, e1, e2]

end Verif.Regex
