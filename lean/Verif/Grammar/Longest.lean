import Verif.Grammar.Build
/-
Which token `getLookAhead` finds: the longest one.
-/
namespace Verif.Grammar

/-- The best match so far, out of the tokens `done`. -/
def Best (tm : Nat → Tm) (st0 st : St) (done : List Nat) : Prop :=
  st.rest = st0.rest ∧ st.pos = st0.pos ∧
  ((st.lah = .none ∧ st.lend ≤ st.pos ∧
      ∀ j ∈ done, ∀ b s, tm j = .lit b s → b ≠ [] → b.isPrefixOf st0.rest = false) ∨
   (∃ i ∈ done, ∃ b s, tm i = .lit b s ∧ b ≠ [] ∧ b.isPrefixOf st0.rest = true ∧ st.lah = .tok b ∧
      st.lend = st0.pos + b.length ∧
      ∀ j ∈ done, ∀ b' s', tm j = .lit b' s' → b'.isPrefixOf st0.rest = true →
        b'.length ≤ b.length))

theorem prefix_same_length {a b r : List Byte} (ha : a.isPrefixOf r = true) (hb : b.isPrefixOf r = true)
    (hl : a.length = b.length) : a = b := by
  obtain ⟨x, hx⟩ := isPrefixOf_iff.mp ha
  obtain ⟨y, hy⟩ := isPrefixOf_iff.mp hb
  rw [hx] at hy
  exact List.append_inj_left hy hl

theorem best_token {tm : Nat → Tm} {st0 st : St} {done : List Nat} (first : Bool) (i : Nat)
    (hb : Best tm st0 st done) (hf : first = true → st.lah = .none)
    (hdis : ∀ j ∈ done, ∀ b s s', tm j = .lit b s → tm i ≠ .lit b s') :
    ∃ st' f, tryToken tm st first i = some (st', f) ∧ Best tm st0 st' (done ++ [i]) ∧
      (f = true → st'.lah = .none) := by
  obtain ⟨hr, hp, hb⟩ := hb
  have mem : ∀ j, j ∈ done ++ [i] → j ∈ done ∨ j = i := by
    intro j hj
    rcases List.mem_append.mp hj with h | h
    · exact .inl h
    · exact .inr (List.mem_singleton.mp h)
  cases htm : tm i with
  | var k =>
    refine ⟨st, first, by simp [tryToken, htm, Tm.lit?], ⟨hr, hp, ?_⟩, hf⟩
    rcases hb with ⟨h1, h2, h3⟩ | ⟨x, hx, b, s, h1, h2, h3, h4, h5, h6⟩
    · refine .inl ⟨h1, h2, fun j hj b s hjt => ?_⟩
      rcases mem j hj with h | rfl
      · exact h3 j h b s hjt
      · rw [htm] at hjt; cases hjt
    · refine .inr ⟨x, List.mem_append.mpr (.inl hx), b, s, h1, h2, h3, h4, h5, fun j hj b' s' hjt => ?_⟩
      rcases mem j hj with h | rfl
      · exact h6 j h b' s' hjt
      · rw [htm] at hjt; cases hjt
  | lit b s =>
    -- the token is not there, or empty
    have skip : (b.isPrefixOf st.rest = false ∨ b = []) →
        ∃ st' f, tryToken tm st first i = some (st', f) ∧ Best tm st0 st' (done ++ [i]) ∧
          (f = true → st'.lah = .none) := by
      intro hskip
      refine ⟨st, false, ?_, ⟨hr, hp, ?_⟩, fun h => by cases h⟩
      · have hm : (if b.isPrefixOf st.rest = true then st.pos + b.length else st.pos) = st.pos := by
          rcases hskip with h | h
          · rw [h]; simp
          · rw [h]; simp
        simp only [tryToken, htm, Tm.lit?]
        rw [hm]
        cases first <;> simp
      · rcases hb with ⟨h1, h2, h3⟩ | ⟨x, hx, b1, s1, h1, h2, h3, h4, h5, h6⟩
        · refine .inl ⟨h1, h2, fun j hj b2 s2 hjt hne => ?_⟩
          rcases mem j hj with h | rfl
          · exact h3 j h b2 s2 hjt hne
          · rw [htm] at hjt
            cases hjt
            rcases hskip with h | h
            · rw [← hr]; exact h
            · exact absurd h hne
        · refine .inr ⟨x, List.mem_append.mpr (.inl hx), b1, s1, h1, h2, h3, h4, h5,
            fun j hj b' s' hjt hpre => ?_⟩
          rcases mem j hj with h | rfl
          · exact h6 j h b' s' hjt hpre
          · rw [htm] at hjt
            cases hjt
            rcases hskip with h | h
            · rw [hr] at h; rw [h] at hpre; cases hpre
            · rw [h]; exact Nat.zero_le _
    by_cases hne : b = []
    · exact skip (.inr hne)
    cases hpre : b.isPrefixOf st.rest with
    | false => exact skip (.inl hpre)
    | true =>
      have hpre0 : b.isPrefixOf st0.rest = true := by rw [← hr]; exact hpre
      have hlen : 0 < b.length := List.length_pos_iff.mpr hne
      -- taking the token as the new best one
      have take : (∀ j ∈ done, ∀ b' s', tm j = .lit b' s' → b'.isPrefixOf st0.rest = true →
          b'.length ≤ b.length) →
          Best tm st0 { st with lah := .tok b, lend := st.pos + b.length } (done ++ [i]) := by
        intro hmax
        refine ⟨hr, hp, .inr ⟨i, by simp, b, s, htm, hne, hpre0, rfl, by rw [← hp], ?_⟩⟩
        intro j hj b' s' hjt hp'
        rcases mem j hj with h | rfl
        · exact hmax j h b' s' hjt hp'
        · rw [htm] at hjt
          cases hjt
          exact Nat.le_refl _
      rcases hb with ⟨h1, h2, h3⟩ | ⟨x, hx, b1, s1, h1, h2, h3, h4, h5, h6⟩
      · refine ⟨_, false, ?_, take ?_, fun h => by cases h⟩
        · simp only [tryToken, htm, Tm.lit?, hpre, if_true]
          cases first with
          | true =>
            simp only [if_true]
            rw [if_neg (by omega)]
          | false =>
            simp only [Bool.false_eq_true, if_false]
            rw [if_pos ⟨by omega, by omega⟩, if_neg (by simp [h1])]
        · intro j hj b' s' hjt hp'
          by_cases h0 : b' = []
          · rw [h0]; exact Nat.zero_le _
          · rw [h3 j hj b' s' hjt h0] at hp'; cases hp'
      · have hfirst : first = false := by
          cases first with
          | false => rfl
          | true => have := hf rfl; rw [h4] at this; cases this
        subst hfirst
        have hne1 : b.length ≠ b1.length := by
          intro hl
          have : b = b1 := prefix_same_length hpre0 h3 hl
          subst this
          exact hdis x hx b s1 s h1 htm
        by_cases hgt : b1.length < b.length
        · refine ⟨_, false, ?_, take ?_, fun h => by cases h⟩
          · simp only [tryToken, htm, Tm.lit?, hpre, if_true, Bool.false_eq_true, if_false]
            rw [if_pos ⟨by omega, by omega⟩, if_neg (by rintro ⟨_, h⟩; omega)]
          · intro j hj b' s' hjt hp'
            have := h6 j hj b' s' hjt hp'
            omega
        · refine ⟨st, false, ?_, ⟨hr, hp, .inr ⟨x, List.mem_append.mpr (.inl hx), b1, s1, h1, h2, h3, h4,
            h5, ?_⟩⟩, fun h => by cases h⟩
          · simp only [tryToken, htm, Tm.lit?, hpre, if_true, Bool.false_eq_true, if_false]
            rw [if_neg (by rintro ⟨_, h⟩; omega)]
          · intro j hj b' s' hjt hp'
            rcases mem j hj with h | rfl
            · exact h6 j h b' s' hjt hp'
            · rw [htm] at hjt
              cases hjt
              omega

theorem best_tokens {tm : Nat → Tm} {st0 : St} : ∀ (l : List Nat) (st : St) (done : List Nat)
    (first : Bool), Best tm st0 st done → (first = true → st.lah = .none) →
    (∀ i ∈ l, ∀ j ∈ done, ∀ b s s', tm j = .lit b s → tm i ≠ .lit b s') →
    l.Pairwise (fun j i => ∀ b s s', tm j = .lit b s → tm i ≠ .lit b s') →
    ∃ st', tryTokens tm st first l = some st' ∧ Best tm st0 st' (done ++ l)
  | [], st, done, _, hb, _, _, _ => ⟨st, rfl, by simpa using hb⟩
  | i :: l, st, done, first, hb, hf, hd, hpw => by
    obtain ⟨st1, f, h1, h2, h3⟩ := best_token first i hb hf (hd i (by simp))
    have hpw' := List.pairwise_cons.mp hpw
    obtain ⟨st', h4, h5⟩ := best_tokens l st1 (done ++ [i]) f h2 h3 (by
      intro x hx j hj
      rcases List.mem_append.mp hj with h | h
      · exact hd x (List.mem_cons_of_mem _ hx) j h
      · rw [List.mem_singleton.mp h]
        exact hpw'.1 x hx) hpw'.2
    refine ⟨st', ?_, by simpa using h5⟩
    simp only [tryTokens, h1]
    exact h4

/-- **C48** Longest match: out of tokens no two of which have the same literal, the
parser finds the longest one that is next in the input, and none only if there is
none.  Nothing is consumed. -/
theorem C48_longest_match (tm : Nat → Tm) (st : St) (l : List Nat) (hlah : st.lah = .none)
    (hlend : st.lend ≤ st.pos) (hrest : st.rest ≠ [])
    (hdis : l.Pairwise (fun j i => ∀ b s s', tm j = .lit b s → tm i ≠ .lit b s')) :
    ∃ st', getLookAhead tm st l = some st' ∧ st'.rest = st.rest ∧ st'.pos = st.pos ∧
      ((st'.lah = .none ∧
          ∀ j ∈ l, ∀ b s, tm j = .lit b s → b ≠ [] → b.isPrefixOf st.rest = false) ∨
       (∃ i ∈ l, ∃ b s, tm i = .lit b s ∧ b ≠ [] ∧ b.isPrefixOf st.rest = true ∧ st'.lah = .tok b ∧
          st'.lend = st.pos + b.length ∧
          ∀ j ∈ l, ∀ b' s', tm j = .lit b' s' → b'.isPrefixOf st.rest = true →
            b'.length ≤ b.length)) := by
  obtain ⟨st', h1, h2, h3, h4⟩ := best_tokens (tm := tm) (st0 := st) l st [] true
    ⟨rfl, rfl, .inl ⟨hlah, hlend, fun j hj => by cases hj⟩⟩ (fun _ => hlah)
    (fun i _ j hj => by cases hj) hdis
  refine ⟨st', ?_, h2, h3, ?_⟩
  · unfold getLookAhead
    rw [if_neg hrest, h1]
  · rcases h4 with ⟨h5, _, h6⟩ | h
    · exact .inl ⟨h5, by simpa using h6⟩
    · exact .inr (by simpa using h)

/-- Three tokens "a", "abc", "ab" at "abd": "ab" is found. -/
example : getLookAhead (fun | 0 => .lit [97] false | 1 => .lit [97, 98, 99] false | _ => .lit [97, 98] false)
    ⟨5, [97, 98, 100], .none, 5⟩ [0, 1, 2] = some ⟨5, [97, 98, 100], .tok [97, 98], 7⟩ := by decide

end Verif.Grammar
