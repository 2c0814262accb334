import Verif.Bytes.Spec
/-!
# Splitting, joining and replacing (C29)
-/

namespace Verif.Bytes

theorem find_none {s n : Str} (h : find s n = none) : ∀ q, ¬ n <+: s.drop q := by
  induction s with
  | nil =>
    intro q
    unfold find at h
    split at h
    · cases h
    · rename_i hp
      rw [List.drop_nil]
      intro hq; exact hp (List.isPrefixOf_iff_prefix.2 hq)
  | cons c s ih =>
    unfold find at h
    split at h
    · cases h
    · rename_i hp
      intro q
      cases q with
      | zero => intro hq; exact hp (List.isPrefixOf_iff_prefix.2 hq)
      | succ q =>
        rw [List.drop_succ_cons]
        refine ih ?_ q
        cases hf : find s n with
        | none => rfl
        | some i =>
          simp only [hf, Option.map_some] at h
          cases h

theorem find_some {s n : Str} {p : Nat} (h : find s n = some p) : p ≤ s.length ∧ n <+: s.drop p ∧ ∀ q, q < p → ¬ n <+: s.drop q := by
  induction s generalizing p with
  | nil =>
    unfold find at h
    split at h
    · rename_i hp
      injection h with h; subst h
      exact ⟨by simp, List.isPrefixOf_iff_prefix.1 hp, fun q hq => by omega⟩
    · cases h
  | cons c s ih =>
    unfold find at h
    split at h
    · rename_i hp
      injection h with h; subst h
      exact ⟨by simp, List.isPrefixOf_iff_prefix.1 hp, fun q hq => by omega⟩
    · rename_i hp
      cases hf : find s n with
      | none => simp only [hf, Option.map_none] at h; cases h
      | some i =>
        simp only [hf, Option.map_some] at h
        injection h with h; subst h
        obtain ⟨h1, h2, h3⟩ := ih hf
        refine ⟨by simp; omega, by rw [List.drop_succ_cons]; exact h2, ?_⟩
        intro q hq
        cases q with
        | zero => intro hq; exact hp (List.isPrefixOf_iff_prefix.2 hq)
        | succ q => rw [List.drop_succ_cons]; exact h3 q (by omega)

theorem infix_iff {n s : Str} : n <:+: s ↔ ∃ q, n <+: s.drop q := by
  constructor
  · rintro ⟨a, b, rfl⟩
    refine ⟨a.length, ?_⟩
    rw [List.append_assoc, List.drop_left]
    exact List.prefix_append n b
  · rintro ⟨q, b, hb⟩
    refine ⟨s.take q, b, ?_⟩
    rw [List.append_assoc, hb, List.take_append_drop]

theorem find_none_infix {s n : Str} (h : find s n = none) : ¬ n <:+: s := by
  rw [infix_iff]
  rintro ⟨q, hq⟩
  exact find_none h q hq

/-- The text around a found needle. -/
theorem find_split {s n : Str} {p : Nat} (h : find s n = some p) : s = s.take p ++ n ++ s.drop (p + n.length) ∧ (s.take p).length = p := by
  obtain ⟨h1, ⟨b, hb⟩, _⟩ := find_some h
  have : s.drop (p + n.length) = b := by
    rw [← List.drop_drop, ← hb, List.drop_left]
  refine ⟨?_, by rw [List.length_take]; omega⟩
  rw [this, List.append_assoc, hb, List.take_append_drop]

/-! ## The parts of a text -/

theorem join_cons {d p : Str} {ps : List Str} (h : ps ≠ []) : join d (p :: ps) = p ++ d ++ join d ps := by
  cases ps with
  | nil => exact absurd rfl h
  | cons q ps => rfl

theorem Parts.ne_nil {o s : Str} {ps : List Str} (h : Parts o s ps) : ps ≠ [] := by cases h <;> simp

theorem Parts.join {o s : Str} {ps : List Str} (h : Parts o s ps) : join o ps = s := by
  induction h with
  | last _ => rfl
  | cons _ hp ih => rw [join_cons hp.ne_nil, ih]

theorem Parts.free {o s : Str} {ps : List Str} (h : Parts o s ps) (ho : o ≠ []) : ∀ p ∈ ps, ¬ o <:+: p := by
  induction h with
  | last h => intro p hp; rw [List.mem_singleton] at hp; exact hp ▸ h
  | @cons p rest ps hq _ ih =>
    intro x hx
    rcases List.mem_cons.1 hx with rfl | hx
    · intro hin
      obtain ⟨q, hpre⟩ := infix_iff.1 hin
      have hlt : q < x.length := by
        rcases Nat.lt_or_ge q x.length with h | h
        · exact h
        · rw [List.drop_eq_nil_of_le h] at hpre
          exact absurd (List.prefix_nil.1 hpre) ho
      refine hq q hlt ?_
      rw [List.append_assoc, List.drop_append_of_le_length (by omega)]
      exact hpre.trans (List.prefix_append _ _)
    · exact ih x hx

theorem Parts.unique {o s : Str} {ps qs : List Str} (h : Parts o s ps) (g : Parts o s qs) : ps = qs := by
  induction h generalizing qs with
  | @last s h =>
    generalize hs : s = s' at g
    cases g with
    | last => rfl
    | @cons p rest ps hq _ => exact absurd ⟨p, rest, hs.symm⟩ h
  | @cons p rest ps hq hp ih =>
    generalize hs : p ++ o ++ rest = s' at g
    cases g with
    | last h => exact absurd ⟨p, rest, hs⟩ h
    | @cons p' rest' ps' hq' hp' =>
      have hlen : p.length = p'.length := by
        rcases Nat.lt_trichotomy p.length p'.length with h | h | h
        · exfalso
          refine hq' p.length h ?_
          rw [← hs, List.append_assoc, List.drop_left]; exact List.prefix_append _ _
        · exact h
        · exfalso
          refine hq p'.length h ?_
          rw [hs, List.append_assoc, List.drop_left]; exact List.prefix_append _ _
      rw [List.append_assoc, List.append_assoc] at hs
      obtain ⟨h1, h2⟩ := List.append_inj hs hlen
      have h3 := List.append_cancel_left h2
      subst h1 h3
      rw [ih hp']

/-! ## `split` -/

theorem join_snoc_nil {d : Str} {ps : List Str} (h : ps ≠ []) : join d (ps ++ [[]]) = join d ps ++ d := by
  induction ps with
  | nil => exact absurd rfl h
  | cons p ps ih =>
    cases ps with
    | nil => show p ++ d ++ [] = p ++ d; rw [List.append_nil]
    | cons q ps =>
      rw [List.cons_append, join_cons (by simp), ih (by simp), join_cons (p := p) (ps := q :: ps) (by simp), List.append_assoc]
      simp only [List.append_assoc]

theorem splitLoop_spec {d : Str} (hd : d ≠ []) (fuel : Nat) (s : Str) (hf : s.length < fuel) (hs : s ≠ []) :
    splitLoop d fuel s ≠ [] ∧ ((Parts d s (splitLoop d fuel s) ∧ (splitLoop d fuel s).getLast? ≠ some []) ∨ (Parts d s (splitLoop d fuel s ++ [[]]) ∧ d <:+ s)) := by
  induction fuel generalizing s with
  | zero => omega
  | succ n ih =>
    unfold splitLoop
    cases hfind : find s d with
    | none => exact ⟨by simp, .inl ⟨.last (find_none_infix hfind), by simpa using hs⟩⟩
    | some p =>
      dsimp only
      obtain ⟨h1, h2⟩ := find_split hfind
      obtain ⟨_, _, h3⟩ := find_some hfind
      have hdl : 0 < d.length := List.length_pos_iff.2 hd
      refine ⟨by simp, ?_⟩
      have hcons : ∀ ps, Parts d (s.drop (p + d.length)) ps → Parts d s (s.take p :: ps) := by
        intro ps hps
        have := Parts.cons (p := s.take p) (by rw [← h1, h2]; exact h3) hps
        rwa [← h1] at this
      by_cases hr : s.drop (p + d.length) = []
      · rw [if_pos hr]
        right
        refine ⟨hcons [[]] ?_, ?_⟩
        · rw [hr]
          exact .last (by intro h; exact hd (List.infix_nil.1 h))
        · rw [hr, List.append_nil] at h1
          rw [h1]; exact List.suffix_append _ _
      · rw [if_neg hr]
        have hlt : p + d.length < s.length := by
          rcases Nat.lt_or_ge (p + d.length) s.length with h | h
          · exact h
          · exact absurd (List.drop_eq_nil_of_le h) hr
        obtain ⟨g1, g2⟩ := ih (s.drop (p + d.length)) (by rw [List.length_drop]; omega) hr
        rcases g2 with ⟨g2, g4⟩ | ⟨g2, g3⟩
        · exact .inl ⟨hcons _ g2, by rw [List.getLast?_cons_of_ne_nil g1]; exact g4⟩
        · right
          refine ⟨hcons _ g2, ?_⟩
          exact g3.trans (List.drop_suffix _ _)

theorem ends_iff {s d : Str} (h : ¬ s.length < d.length) : s.drop (s.length - d.length) = d ↔ d <:+ s := by
  constructor
  · intro he; rw [← he]; exact List.drop_suffix _ _
  · rintro ⟨a, rfl⟩
    rw [List.length_append, Nat.add_sub_cancel, List.drop_left]

/-- A text that ends in the delimiter, but whose last part is not empty: the delimiter overlaps with itself. -/
theorem Parts.bordered {d s : Str} {ps : List Str} (h : Parts d s ps) (hd : d ≠ []) (hs : d <:+ s) (hl : ps.getLast? ≠ some []) : Bordered d := by
  induction h with
  | last h => exact absurd hs.isInfix h
  | @cons p rest ps hq hp ih =>
    have hl' : ps.getLast? ≠ some [] := by
      rw [List.getLast?_cons_of_ne_nil hp.ne_nil] at hl
      exact hl
    rcases Nat.lt_or_ge rest.length d.length with hlt | hge
    · have hrest : rest ≠ [] := by
        rintro rfl
        generalize hs : ([] : Str) = s' at hp
        cases hp with
        | last => subst hs; exact hl' rfl
        | @cons a b => have := congrArg List.length hs; simp at this; have : 0 < d.length := List.length_pos_iff.2 hd; omega
      -- the end of the text is the end of `d ++ rest`
      obtain ⟨a, ha⟩ := hs
      have e : d = d.drop rest.length ++ rest := by
        have h2 : (p ++ (d ++ rest)).drop (p.length + rest.length) = d := by
          rw [← List.append_assoc, ← ha, show p.length + rest.length = a.length by
            have := congrArg List.length ha; simp at this; omega, List.drop_left]
        rw [← List.drop_drop, List.drop_left, List.drop_append_of_le_length (by omega)] at h2
        exact h2.symm
      refine ⟨d.drop rest.length, ?_, ?_, ?_, List.drop_suffix _ _⟩
      · intro h; have := congrArg List.length h; simp at this; omega
      · intro h; have := congrArg List.length h; rw [List.length_drop] at this
        have : 0 < rest.length := List.length_pos_iff.2 hrest
        omega
      · refine ⟨rest, e.symm⟩
    · refine ih ?_ hl'
      have h2 : rest <:+ p ++ d ++ rest := List.suffix_append _ _
      exact List.suffix_of_suffix_length_le hs h2 hge

/-- C29: splitting gives the parts between the delimiters, unless the delimiter overlaps with itself and the text ends in it; then
    there may be an empty part too many. -/
theorem C29_split_partial (s d : Str) (hd : d ≠ []) :
    Parts d s (split s d) ∨ (∃ ps, Parts d s ps ∧ split s d = ps ++ [[]] ∧ Bordered d ∧ d <:+ s) := by
  unfold split
  rw [if_neg hd]
  split
  · rename_i hlt
    left
    refine .last ?_
    intro h
    have := h.length_le
    omega
  · rename_i hlt
    obtain ⟨h1, h2⟩ := splitLoop_spec hd (s.length + 1) s (by omega)
      (by rintro rfl; exact hlt (List.length_pos_iff.2 hd))
    generalize splitLoop d (s.length + 1) s = ps at *
    dsimp only
    by_cases he : s.drop (s.length - d.length) = d
    · have hsuf := (ends_iff hlt).1 he
      rw [if_pos (by simpa using he)]
      rcases h2 with ⟨h2, h4⟩ | ⟨h2, _⟩
      · exact .inr ⟨ps, h2, rfl, h2.bordered hd hsuf h4, hsuf⟩
      · exact .inl h2
    · rw [if_neg (by simpa using he), List.append_nil]
      rcases h2 with ⟨h2, _⟩ | ⟨_, h3⟩
      · exact .inl h2
      · exact absurd ((ends_iff hlt).2 h3) he

/-- C29: with a delimiter that does not overlap with itself, for instance a single byte, splitting gives the parts between the
    delimiters, joining them gives the text again and none contains the delimiter. -/
theorem C29_split_join (s d : Str) (hd : d ≠ []) (hb : ¬ Bordered d) :
    Parts d s (split s d) ∧ join d (split s d) = s ∧ ∀ p ∈ split s d, ¬ d <:+: p := by
  rcases C29_split_partial s d hd with h | ⟨_, _, _, h, _⟩
  · exact ⟨h, h.join, h.free hd⟩
  · exact absurd h hb

/-- No part contains the delimiter, whatever it is. -/
theorem C29_split_free (s d : Str) (hd : d ≠ []) : ∀ p ∈ split s d, ¬ d <:+: p := by
  rcases C29_split_partial s d hd with h | ⟨ps, h, he, _, _⟩
  · exact h.free hd
  · intro p hp
    rw [he] at hp
    rcases List.mem_append.1 hp with hp | hp
    · exact h.free hd p hp
    · rw [List.mem_singleton] at hp
      subst hp
      intro h; exact hd (List.infix_nil.1 h)

theorem single_not_bordered (c : Byte) : ¬ Bordered [c] := by
  rintro ⟨b, h1, h2, ⟨t, h3⟩, _⟩
  cases b with
  | nil => exact h1 rfl
  | cons x b =>
    simp at h3
    obtain ⟨rfl, rfl, _⟩ := h3
    exact h2 rfl

/-- C29 does not hold for a delimiter that overlaps with itself: "aaa" split at "aa" gives "", "a", "". -/
theorem C29_fails_overlap : split [97, 97, 97] [97, 97] = [[], [97], []] ∧ join [97, 97] (split [97, 97, 97] [97, 97]) ≠ [97, 97, 97] := by decide

/-- C29: splitting off the first part. -/
theorem C29_split1 (s d : Str) :
    (∃ a b, split1 s d = (a, b) ∧ s = a ++ d ++ b ∧ ∀ q, q < a.length → ¬ d <+: s.drop q) ∨ (split1 s d = (s, []) ∧ ¬ d <:+: s) := by
  unfold split1
  cases h : find s d with
  | none => exact .inr ⟨rfl, find_none_infix h⟩
  | some i =>
    obtain ⟨h1, h2⟩ := find_split h
    exact .inl ⟨_, _, rfl, h1, by rw [h2]; exact (find_some h).2.2⟩

theorem rfind_none {s n : Str} (h : rfind s n = none) : ∀ q, ¬ n <+: s.drop q := by
  induction s with
  | nil =>
    intro q
    unfold rfind at h
    dsimp only at h
    split at h
    · cases h
    · rename_i hp
      rw [List.drop_nil]
      intro hq; exact hp (List.isPrefixOf_iff_prefix.2 hq)
  | cons c s ih =>
    unfold rfind at h
    dsimp only at h
    split at h
    · cases h
    · rename_i hf
      split at h
      · cases h
      · rename_i hp
        intro q
        cases q with
        | zero => intro hq; exact hp (List.isPrefixOf_iff_prefix.2 hq)
        | succ q => rw [List.drop_succ_cons]; exact ih hf q

theorem rfind_some {s n : Str} {p : Nat} (h : rfind s n = some p) :
    p ≤ s.length ∧ n <+: s.drop p ∧ ∀ q, p < q → q ≤ s.length → ¬ n <+: s.drop q := by
  induction s generalizing p with
  | nil =>
    unfold rfind at h
    dsimp only at h
    split at h
    · rename_i hp
      injection h with h; subst h
      exact ⟨by simp, List.isPrefixOf_iff_prefix.1 hp, fun q hq h' => by simp at h'; omega⟩
    · cases h
  | cons c s ih =>
    unfold rfind at h
    dsimp only at h
    split at h
    · rename_i i hi
      injection h with h; subst h
      obtain ⟨h1, h2, h3⟩ := ih hi
      refine ⟨by simp; omega, by rw [List.drop_succ_cons]; exact h2, ?_⟩
      intro q hq hl
      cases q with
      | zero => omega
      | succ q => rw [List.drop_succ_cons]; exact h3 q (by omega) (by simpa using hl)
    · rename_i hf
      split at h
      · rename_i hp
        injection h with h; subst h
        refine ⟨by simp, List.isPrefixOf_iff_prefix.1 hp, ?_⟩
        intro q hq hl
        cases q with
        | zero => omega
        | succ q => rw [List.drop_succ_cons]; exact rfind_none hf q
      · cases h

/-- C29: splitting off the last part. -/
theorem C29_rsplit1 (s d : Str) :
    (∃ a b, rsplit1 s d = (a, b) ∧ s = a ++ d ++ b ∧ ∀ q, a.length < q → q ≤ s.length → ¬ d <+: s.drop q) ∨ (rsplit1 s d = ([], s) ∧ ¬ d <:+: s) := by
  unfold rsplit1
  cases h : rfind s d with
  | none =>
    refine .inr ⟨rfl, ?_⟩
    rw [infix_iff]
    rintro ⟨q, hq⟩
    exact rfind_none h q hq
  | some p =>
    obtain ⟨h1, ⟨b, hb⟩, h3⟩ := rfind_some h
    have e : s.drop (p + d.length) = b := by
      rw [← List.drop_drop, ← hb, List.drop_left]
    refine .inl ⟨_, _, rfl, ?_, ?_⟩
    · rw [e, List.append_assoc, hb, List.take_append_drop]
    · rw [List.length_take, Nat.min_eq_left h1]; exact h3

/-- C29: joining bytes gives the text again only if the parts are printable: bytes that are not are replaced with escapes. -/
theorem C29_fails_join_binary : bytesJoin [44] (split [1, 44, 2] [44]) = [92, 120, 48, 49, 44, 92, 120, 48, 50] := by decide

theorem escape_printable {s : Str} (h : ∀ c ∈ s, isPrint c = true) : escapeBytes { noEscapeBackslash := true } s = s := by
  induction s with
  | nil => rfl
  | cons c s ih =>
    show escapeByte _ c ++ escapeBytes _ s = c :: s
    rw [ih (fun c hc => h c (by simp [hc]))]
    have : escapeByte { noEscapeBackslash := true } c = [c] := by
      unfold escapeByte
      simp [h c (by simp)]
    rw [this]; rfl

theorem C29_bytes_join (d : Str) (parts : List Str) (h : ∀ p ∈ parts, ∀ c ∈ p, isPrint c = true) : bytesJoin d parts = join d parts := by
  unfold bytesJoin join
  induction parts with
  | nil => rfl
  | cons p ps ih =>
    have hp := escape_printable (h p (by simp))
    cases ps with
    | nil => exact hp
    | cons q ps =>
      show _ ++ d ++ _ = _ ++ d ++ _
      rw [ih (fun x hx => h x (by simp [hx])), hp]
      rfl

/-! ## `replace` -/

theorem replaceLoop_spec {o : Str} (n : Str) (ho : o ≠ []) (fuel : Nat) (pre cur : Str) (hf : cur.length < fuel) :
    ∃ ps, Parts o cur ps ∧ replaceLoop o n fuel (pre ++ cur) pre.length = pre ++ join n ps := by
  induction fuel generalizing pre cur with
  | zero => omega
  | succ k ih =>
    unfold replaceLoop
    rw [List.drop_left]
    cases hfind : find cur o with
    | none => exact ⟨[cur], .last (find_none_infix hfind), rfl⟩
    | some p =>
      dsimp only
      obtain ⟨h1, h2⟩ := find_split hfind
      obtain ⟨h0, _, h3⟩ := find_some hfind
      have hol : 0 < o.length := List.length_pos_iff.2 ho
      have e1 : (pre ++ cur).take (pre.length + p) = pre ++ cur.take p := by
        rw [List.take_length_add_append]
      have e2 : (pre ++ cur).drop (pre.length + p + o.length) = cur.drop (p + o.length) := by
        rw [Nat.add_assoc, List.drop_length_add_append]
      rw [e1, e2]
      have hlen : cur.length = p + o.length + (cur.drop (p + o.length)).length := by
        have := congrArg List.length h1
        rw [List.length_append, List.length_append, h2] at this
        omega
      obtain ⟨ps, g1, g2⟩ := ih (pre ++ cur.take p ++ n) (cur.drop (p + o.length)) (by omega)
      refine ⟨cur.take p :: ps, ?_, ?_⟩
      · have := Parts.cons (p := cur.take p) (by rw [← h1, h2]; exact h3) g1
        rwa [← h1] at this
      · have e3 : (pre ++ cur.take p ++ n).length = pre.length + p + n.length := by
          rw [List.length_append, List.length_append, h2]
        rw [e3] at g2
        rw [g2, join_cons g1.ne_nil]
        simp only [List.append_assoc]

/-- C29: replacing text exchanges the delimiters between the parts. -/
theorem C29_replace (s o n : Str) (ho : o ≠ []) : ∃ ps, Parts o s ps ∧ replace s o n = join n ps := by
  unfold replace
  rw [if_neg ho]
  obtain ⟨ps, h1, h2⟩ := replaceLoop_spec n ho (s.length + 1) [] s (by omega)
  exact ⟨ps, h1, h2⟩

example : split [97, 44, 98, 44] [44] = [[97], [98], []] := by decide
example : ¬ Bordered [44] := single_not_bordered 44
example : Bordered [97, 97] := ⟨[97], by decide, by decide, by decide, by decide⟩
example : replace [97, 98, 97, 98, 97] [97, 98] [120] = [120, 120, 97] := by decide

end Verif.Bytes
