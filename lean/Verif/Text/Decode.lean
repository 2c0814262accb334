import Verif.Text.Utf8
/-!
# Decoding and encoding UTF-8 and ASCII (C50)
-/

namespace Verif.Text
open Verif.Bytes (Str Byte)

theorem utf8_nil : utf8 [] = [] := rfl
theorem utf8_cons (c : Nat) (cs : List Nat) : utf8 (c :: cs) = enc8 c ++ utf8 cs := rfl
theorem utf8_append (cs ds : List Nat) : utf8 (cs ++ ds) = utf8 cs ++ utf8 ds := by simp [utf8]

/-- A text has one reading. -/
theorem utf8_injective {cs ds : List Nat} (hc : Scalars cs) (hd : Scalars ds) (h : utf8 cs = utf8 ds) : cs = ds := by
  induction cs generalizing ds with
  | nil =>
    cases ds with
    | nil => rfl
    | cons d ds =>
      rw [utf8_cons, utf8_nil] at h
      have := congrArg List.length h
      have := (enc8_length d).1
      simp at *; omega
  | cons c cs ih =>
    cases ds with
    | nil =>
      rw [utf8_cons, utf8_nil] at h
      exact absurd (List.append_eq_nil_iff.1 h).1 (enc8_ne_nil c)
    | cons d ds =>
      rw [utf8_cons, utf8_cons] at h
      have := enc8_prefix_free (hc c List.mem_cons_self) (hd d List.mem_cons_self) h
      rw [this.1, ih (fun x hx => hc x (List.mem_cons_of_mem _ hx)) (fun x hx => hd x (List.mem_cons_of_mem _ hx)) this.2]

theorem next8_cases (b : Byte) (s : Str) :
    (∃ c r, Scalar c ∧ b :: s = enc8 c ++ r ∧ next8 (b :: s) = .ok (c, r) ∧ r.length ≤ s.length) ∨
    (¬ Starts (b :: s) ∧ ∃ e, next8 (b :: s) = .error e ∧ (e.isInvalidUtf8 = true ↔ ¬ CutShort (b :: s) ∧ ¬ NotAScalar (b :: s))) := by
  cases h : next8 (b :: s) with
  | ok p =>
    obtain ⟨c, r⟩ := p
    have hs := next8_sound h
    refine Or.inl ⟨c, r, hs.1, hs.2, rfl, ?_⟩
    have := congrArg List.length hs.2
    have := (enc8_length c).1
    simp at *; omega
  | error e =>
    refine Or.inr ⟨?_, e, rfl, ?_⟩
    · rintro ⟨c, r, hc, hs⟩
      rw [hs, next8_complete hc r] at h; cases h
    · have h1 := next8_room (b := b) (s := s)
      have h2 := next8_code (b := b) (s := s)
      rw [h] at h1 h2
      rw [← h1, ← h2]
      cases e <;> simp [Err.isInvalidUtf8]

theorem lenient_scalars {sub : List Nat} (hsub : Scalars sub) {s : Str} {cs : List Nat} (h : Lenient sub s cs) : Scalars cs := by
  induction h with
  | nil => intro c hc; cases hc
  | char hc _ ih =>
    intro d hd
    cases List.mem_cons.1 hd with
    | inl h => rw [h]; exact hc
    | inr h => exact ih d h
  | bad _ _ _ _ ih =>
    intro d hd
    exact (List.mem_append.1 hd).elim (hsub d) (ih d)

theorem subst_scalars (st : Strategy) : Scalars st.subst := by
  intro c hc
  cases st <;> simp [Strategy.subst] at hc
  subst hc; decide

/-- There is at most one lenient reading. -/
theorem lenient_unique {sub : List Nat} {s : Str} {cs ds : List Nat} (h : Lenient sub s cs) (h' : Lenient sub s ds) : cs = ds := by
  induction h generalizing ds with
  | nil =>
    generalize hs : ([] : Str) = s at h'
    cases h' with
    | nil => rfl
    | char hc _ => exact absurd (List.append_eq_nil_iff.1 hs.symm).1 (enc8_ne_nil _)
    | bad => cases hs
  | @char c r cs hc _ ih =>
    generalize hs : enc8 c ++ r = s at h'
    cases h' with
    | nil => exact absurd (List.append_eq_nil_iff.1 hs).1 (enc8_ne_nil _)
    | char hd hr =>
      have := enc8_prefix_free hc hd hs
      rw [this.1]
      rw [← this.2] at hr
      rw [ih hr]
    | bad hn _ _ _ => exact absurd ⟨c, r, hc, hs.symm⟩ hn
  | @bad b r cs hn _ _ _ ih =>
    generalize hs : b :: r = s at h'
    cases h' with
    | nil => cases hs
    | char hd hr => exact absurd ⟨_, _, hd, hs⟩ hn
    | bad _ _ _ hr =>
      injection hs with h1 h2; subst h1; subst h2
      rw [ih hr]

/-- The loop under a forgiving strategy: it returns a text exactly if there is a lenient reading, and otherwise throws. -/
theorem decode8_lenient {st : Strategy} (hst : st ≠ .strict) : ∀ (fuel : Nat) (s : Str), s.length ≤ fuel →
    (∃ cs, Lenient st.subst s cs ∧ decode8 st fuel s = .ok (utf8 cs)) ∨
    ((¬ ∃ cs, Lenient st.subst s cs) ∧ decode8 st fuel s = .throw .runtimeError) := by
  intro fuel
  induction fuel with
  | zero =>
    intro s h
    cases s with
    | nil => exact Or.inl ⟨[], .nil, rfl⟩
    | cons => simp at h
  | succ fuel ih =>
    intro s h
    cases s with
    | nil => exact Or.inl ⟨[], .nil, rfl⟩
    | cons b s =>
      simp only [List.length_cons] at h
      simp only [decode8]
      rcases next8_cases b s with ⟨c, r, hc, hs, hn, hl⟩ | ⟨hns, e, hn, he⟩
      · rw [hn]
        simp only
        rcases ih r (by omega) with ⟨cs, h1, h2⟩ | ⟨h1, h2⟩
        · left
          refine ⟨c :: cs, ?_, ?_⟩
          · rw [hs]; exact .char hc h1
          · rw [h2]; rfl
        · right
          refine ⟨?_, by rw [h2]; rfl⟩
          rintro ⟨cs, hcs⟩
          rw [hs] at hcs
          generalize hg : enc8 c ++ r = g at hcs
          cases hcs with
          | nil => exact absurd (List.append_eq_nil_iff.1 hg).1 (enc8_ne_nil _)
          | char hd hr =>
            have := enc8_prefix_free hc hd hg
            rw [← this.2] at hr
            exact h1 ⟨_, hr⟩
          | bad hnn _ _ _ => exact absurd ⟨c, r, hc, hg.symm⟩ hnn
      · rw [hn]
        simp only
        by_cases hi : e.isInvalidUtf8 = true
        · rw [if_pos hi]
          have hcn := he.1 hi
          rcases ih s (by omega) with ⟨cs, h1, h2⟩ | ⟨h1, h2⟩
          · left
            refine ⟨st.subst ++ cs, .bad hns hcn.1 hcn.2 h1, ?_⟩
            cases st with
            | ignore => exact h2
            | replace => simp only; rw [h2]; rfl
            | strict => exact absurd rfl hst
          · right
            refine ⟨?_, ?_⟩
            · rintro ⟨cs, hcs⟩
              generalize hg : b :: s = g at hcs
              cases hcs with
              | nil => cases hg
              | char hd hr => exact hns ⟨_, _, hd, hg⟩
              | bad _ _ _ hr =>
                injection hg with g1 g2; subst g1; subst g2
                exact h1 ⟨_, hr⟩
            · cases st with
              | ignore => exact h2
              | replace => simp only; rw [h2]; rfl
              | strict => exact absurd rfl hst
        · right
          rw [if_neg hi]
          refine ⟨?_, rfl⟩
          rintro ⟨cs, hcs⟩
          generalize hg : b :: s = g at hcs
          cases hcs with
          | nil => cases hg
          | char hd hr => exact hns ⟨_, _, hd, hg⟩
          | bad _ hx hy hr =>
            rw [← hg] at hx hy
            exact hi (he.2 ⟨hx, hy⟩)

/-- The loop under the strict strategy. -/
theorem decode8_strict : ∀ (fuel : Nat) (s : Str), s.length ≤ fuel →
    (IsUtf8 s ∧ decode8 .strict fuel s = .ok s) ∨ (¬ IsUtf8 s ∧ decode8 .strict fuel s = .throw .runtimeError) := by
  intro fuel
  induction fuel with
  | zero =>
    intro s h
    cases s with
    | nil => exact Or.inl ⟨⟨[], (fun c hc => by cases hc), rfl⟩, rfl⟩
    | cons => simp at h
  | succ fuel ih =>
    intro s h
    cases s with
    | nil => exact Or.inl ⟨⟨[], (fun c hc => by cases hc), rfl⟩, rfl⟩
    | cons b s =>
      simp only [List.length_cons] at h
      simp only [decode8]
      have hinv : ∀ {cs : List Nat}, Scalars cs → b :: s = utf8 cs → ∃ c ds, Scalar c ∧ Scalars ds ∧ b :: s = enc8 c ++ utf8 ds := by
        intro cs hcs he
        cases cs with
        | nil => rw [utf8_nil] at he; cases he
        | cons c ds => exact ⟨c, ds, hcs c List.mem_cons_self, fun x hx => hcs x (List.mem_cons_of_mem _ hx), he⟩
      rcases next8_cases b s with ⟨c, r, hc, hs, hn, hl⟩ | ⟨hns, e, hn, he⟩
      · rw [hn]
        simp only
        rcases ih r (by omega) with ⟨⟨cs, h1, h1'⟩, h2⟩ | ⟨h1, h2⟩
        · left
          refine ⟨⟨c :: cs, ?_, ?_⟩, ?_⟩
          · intro d hd
            cases List.mem_cons.1 hd with
            | inl h => rw [h]; exact hc
            | inr h => exact h1 d h
          · rw [hs, h1']; rfl
          · rw [h2, hs]; rfl
        · right
          refine ⟨?_, by rw [h2]; rfl⟩
          rintro ⟨cs, hcs, he⟩
          obtain ⟨d, ds, hd, hds, he'⟩ := hinv hcs he
          have := enc8_prefix_free hc hd (hs.symm.trans he')
          exact h1 ⟨ds, hds, this.2⟩
      · right
        refine ⟨?_, ?_⟩
        · rintro ⟨cs, hcs, he⟩
          obtain ⟨d, ds, hd, hds, he'⟩ := hinv hcs he
          exact hns ⟨d, _, hd, he'⟩
        · rw [hn]
          simp only
          split <;> rfl

theorem decode_utf8 (lib : Lib16) (st : Strategy) (s : Str) : decode lib .utf8 st s = decode8 st s.length s := by
  unfold decode
  split
  · rename_i h; rw [h]; rfl
  · rfl

theorem encode_utf8 (st : Strategy) (s : Str) : encode .utf8 st s = decode8 st s.length s := by
  unfold encode
  split
  · rename_i h; rw [h]; rfl
  · rfl

/-- **C50**: strict decoding of UTF-8 accepts exactly the well-formed data, and gives it back unchanged. -/
theorem C50_strict (lib : Lib16) (s t : Str) : decode lib .utf8 .strict s = .ok t ↔ IsUtf8 s ∧ t = s := by
  rw [decode_utf8]
  rcases decode8_strict s.length s (Nat.le_refl _) with ⟨h1, h2⟩ | ⟨h1, h2⟩
  · rw [h2]
    exact ⟨fun h => ⟨h1, by injection h with h; exact h.symm⟩, fun h => by rw [h.2]⟩
  · rw [h2]
    exact ⟨fun h => (by cases h), fun h => absurd h.1 h1⟩

/-- **C50**: otherwise it throws a `RuntimeError`. -/
theorem C50_strict_throws (lib : Lib16) (s : Str) (h : ¬ IsUtf8 s) : decode lib .utf8 .strict s = .throw .runtimeError := by
  rw [decode_utf8]
  rcases decode8_strict s.length s (Nat.le_refl _) with ⟨h1, _⟩ | ⟨_, h2⟩
  · exact absurd h1 h
  · exact h2

/-- **C50**: the forgiving strategies return the lenient reading: code points stay, and every byte at which none begins is dropped or
    replaced. -/
theorem C50_lenient (lib : Lib16) {st : Strategy} (hst : st ≠ .strict) (s t : Str) :
    decode lib .utf8 st s = .ok t ↔ ∃ cs, Lenient st.subst s cs ∧ t = utf8 cs := by
  rw [decode_utf8]
  rcases decode8_lenient hst s.length s (Nat.le_refl _) with ⟨cs, h1, h2⟩ | ⟨h1, h2⟩
  · rw [h2]
    constructor
    · intro h; injection h with h; exact ⟨cs, h1, h.symm⟩
    · rintro ⟨ds, hd, he⟩
      rw [he, lenient_unique h1 hd]
  · rw [h2]
    exact ⟨fun h => (by cases h), fun ⟨cs, h, _⟩ => absurd ⟨cs, h⟩ h1⟩

/-- **C50**: where there is no lenient reading they throw a `RuntimeError`. -/
theorem C50_lenient_throws (lib : Lib16) {st : Strategy} (hst : st ≠ .strict) (s : Str) (h : ¬ ∃ cs, Lenient st.subst s cs) :
    decode lib .utf8 st s = .throw .runtimeError := by
  rw [decode_utf8]
  rcases decode8_lenient hst s.length s (Nat.le_refl _) with ⟨cs, h1, _⟩ | ⟨_, h2⟩
  · exact absurd ⟨cs, h1⟩ h
  · exact h2

/-- Encoding to UTF-8 is decoding from UTF-8. -/
theorem C50_encode (lib : Lib16) (st : Strategy) (s : Str) : encode .utf8 st s = decode lib .utf8 st s := by
  rw [encode_utf8, decode_utf8]

theorem lenient_utf8 {sub : List Nat} {cs : List Nat} (h : Scalars cs) : Lenient sub (utf8 cs) cs := by
  induction cs with
  | nil => exact .nil
  | cons c cs ih =>
    rw [utf8_cons]
    exact .char (h c List.mem_cons_self) (ih fun x hx => h x (List.mem_cons_of_mem _ hx))

/-- **C50**: well-formed data comes back unchanged under every strategy. -/
theorem C50_lossless (lib : Lib16) (st : Strategy) {s : Str} (h : IsUtf8 s) : decode lib .utf8 st s = .ok s := by
  by_cases hst : st = .strict
  · subst hst; exact (C50_strict lib s s).2 ⟨h, rfl⟩
  · obtain ⟨cs, hc, he⟩ := h
    exact (C50_lenient lib hst s s).2 ⟨cs, by rw [he]; exact lenient_utf8 hc, he⟩

theorem lenient_exists {sub : List Nat} : ∀ (n : Nat) (s : Str), s.length ≤ n → (∀ r, r <:+ s → ¬ NotAScalar r) →
    (∀ b, s.getLast? = some b → b.toNat < 0x80) → ∃ cs, Lenient sub s cs ∧ Forgiving id sub s cs := by
  intro n
  induction n with
  | zero =>
    intro s h _ _
    cases s with
    | nil => exact ⟨[], .nil, .nil⟩
    | cons => simp at h
  | succ n ih =>
    intro s h hd hl
    cases s with
    | nil => exact ⟨[], .nil, .nil⟩
    | cons b s =>
      simp only [List.length_cons] at h
      have tail : ∀ (pre r : Str), b :: s = pre ++ r → (∀ x, x <:+ r → ¬ NotAScalar x) ∧ (∀ x, r.getLast? = some x → x.toNat < 0x80) := by
        intro pre r he
        refine ⟨fun x hx => hd x (by rw [he]; exact hx.trans (List.suffix_append _ _)), fun x hx => hl x ?_⟩
        rw [he, List.getLast?_append, hx]; rfl
      rcases next8_cases b s with ⟨c, r, hc, hs, _, hle⟩ | ⟨hns, _⟩
      · obtain ⟨cs, h1, h2⟩ := ih r (by omega) (tail _ _ hs).1 (tail _ _ hs).2
        rw [hs]
        exact ⟨c :: cs, .char hc h1, .char hc h2⟩
      · obtain ⟨cs, h1, h2⟩ := ih s (by omega) (tail [b] s rfl).1 (tail [b] s rfl).2
        refine ⟨sub ++ cs, .bad hns ?_ ?_ h1, .bad hns h2⟩
        · rintro ⟨b', r, he, hlen, ht⟩
          injection he with e1 e2; subst e1; subst e2
          by_cases hs : s = []
          · have hb := hl b (by rw [hs]; rfl)
            unfold announced at hlen
            rw [if_pos hb] at hlen
            simp only [List.length_cons] at hlen; omega
          · obtain ⟨x, hx⟩ : ∃ x, s.getLast? = some x := ⟨s.getLast hs, List.getLast?_eq_some_getLast hs⟩
            have h1 := (tail [b] s rfl).2 x hx
            have h2 := ht x (List.mem_of_getLast? hx)
            unfold Trail at h2; omega
        · exact hd _ (List.suffix_refl _)

/-- **C50**: the forgiving strategies succeed on all data that ends in an ASCII character and nowhere holds the sequence of a surrogate or
    of a number above 0x10FFFF; what they return then replaces exactly the bytes at which no code point begins. -/
theorem C50_forgiving_partial (lib : Lib16) {st : Strategy} (hst : st ≠ .strict) {s : Str} (hd : ∀ r, r <:+ s → ¬ NotAScalar r)
    (hl : ∀ b, s.getLast? = some b → b.toNat < 0x80) :
    ∃ cs, Forgiving id st.subst s cs ∧ decode lib .utf8 st s = .ok (utf8 cs) := by
  obtain ⟨cs, h1, h2⟩ := lenient_exists (sub := st.subst) s.length s (Nat.le_refl _) hd hl
  exact ⟨cs, h2, (C50_lenient lib hst s _).2 ⟨cs, h1, rfl⟩⟩

/-- What is missing above: a forgiving strategy throws for data that ends within a sequence, and for surrogates (finding). -/
theorem C50_forgiving_fails (lib : Lib16) (st : Strategy) :
    decode lib .utf8 st [0x61, 0xC3] = .throw .runtimeError ∧ decode lib .utf8 st [0xED, 0xA0, 0x80] = .throw .runtimeError ∧
    decode lib .utf8 st [0xF4, 0x90, 0x80, 0x80] = .throw .runtimeError := by
  cases st <;> exact ⟨rfl, rfl, rfl⟩

/-- Bytes below ED and from F8 on do not begin such sequences. -/
theorem not_delicate {s : Str} (h : ∀ b ∈ s, b.toNat < 0xED ∨ 0xF8 ≤ b.toNat) : ∀ r, r <:+ s → ¬ NotAScalar r := by
  intro r hr hn
  have hm : ∀ b, b ∈ r → b.toNat < 0xED ∨ 0xF8 ≤ b.toNat := fun b hb => h b (hr.subset hb)
  rcases hn with ⟨a, b, t, he, _⟩ | ⟨l, a, b, c, t, he, _, _, _, h4, h5⟩
  · have := hm 0xED (by rw [he]; exact List.mem_cons_self)
    revert this; decide
  · have := hm l (by rw [he]; exact List.mem_cons_self)
    omega

/-- The hypotheses of `C50_forgiving_partial` hold for malformed data. -/
theorem C50_forgiving_reach : (∀ r, r <:+ [0x61, 0xFF, 0xC3, 0xA9, 0xC3, 0x28] → ¬ NotAScalar r) ∧
    (∀ b : Byte, [0x61, 0xFF, 0xC3, 0xA9, 0xC3, 0x28].getLast? = some b → b.toNat < 0x80) :=
  ⟨not_delicate (by decide), fun b h => by injection h with h; subst h; decide⟩

/-- Data in the reach of `C50_forgiving_partial` that is not well-formed: "a", a stray byte, "é", an incomplete sequence, "(". -/
theorem C50_forgiving_witness (lib : Lib16) :
    decode lib .utf8 .replace [0x61, 0xFF, 0xC3, 0xA9, 0xC3, 0x28] = .ok (utf8 [0x61, 0xFFFD, 0xE9, 0xFFFD, 0x28]) ∧
    decode lib .utf8 .ignore [0x61, 0xFF, 0xC3, 0xA9, 0xC3, 0x28] = .ok (utf8 [0x61, 0xE9, 0x28]) ∧
    decode lib .utf8 .strict [0x61, 0xFF, 0xC3, 0xA9, 0xC3, 0x28] = .throw .runtimeError :=
  ⟨rfl, rfl, rfl⟩

/-- Printable ASCII. -/
def Printable (b : Byte) : Prop := 32 ≤ b.toNat ∧ b.toNat < 127

instance (b : Byte) : Decidable (Printable b) := by unfold Printable; infer_instance

/-- What a strategy makes of a byte that is not printable ASCII. -/
def Strategy.asciiSubst : Strategy → Str
  | .replace => [63]
  | _ => []

theorem ascii_spec (st : Strategy) (s : Str) :
    ascii st s = if st = .strict ∧ ∃ b ∈ s, ¬ Printable b then .throw .runtimeError
      else .ok (s.flatMap fun b => if Printable b then [b] else st.asciiSubst) := by
  induction s with
  | nil => simp [ascii]
  | cons b s ih =>
    simp only [ascii]
    by_cases hp : Printable b
    · have hp' : 32 ≤ b.toNat ∧ b.toNat < 0x7F := hp
      rw [if_pos hp', ih]
      by_cases hx : st = .strict ∧ ∃ b ∈ s, ¬ Printable b
      · rw [if_pos hx, if_pos ⟨hx.1, hx.2.elim fun x hx => ⟨x, List.mem_cons_of_mem _ hx.1, hx.2⟩⟩]; rfl
      · rw [if_neg hx, if_neg (by
          rintro ⟨h1, x, h2, h3⟩
          cases List.mem_cons.1 h2 with
          | inl h => rw [h] at h3; exact h3 hp
          | inr h => exact hx ⟨h1, x, h, h3⟩)]
        simp [Res.bind, if_pos hp]
    · have hp' : ¬ (32 ≤ b.toNat ∧ b.toNat < 0x7F) := hp
      rw [if_neg hp']
      cases st with
      | strict =>
        simp only
        rw [if_pos ⟨by trivial, b, List.mem_cons_self, hp⟩]
      | ignore => simp [ih, hp, Strategy.asciiSubst]
      | replace => simp [ih, hp, Strategy.asciiSubst, Res.bind]

/-- **C50**: ASCII keeps the printable characters, in both directions; others are dropped, replaced by `?`, or an error. -/
theorem C50_ascii (lib : Lib16) (st : Strategy) (s : Str) :
    decode lib .ascii st s = (if st = .strict ∧ ∃ b ∈ s, ¬ Printable b then .throw .runtimeError
      else .ok (s.flatMap fun b => if Printable b then [b] else st.asciiSubst)) ∧
    encode .ascii st s = decode lib .ascii st s := by
  have h : decode lib .ascii st s = ascii st s := by
    unfold decode
    split
    · rename_i h; rw [h]; rfl
    · rfl
  refine ⟨by rw [h, ascii_spec], ?_⟩
  rw [h]
  unfold encode
  split
  · rename_i h; rw [h]; rfl
  · rfl

/-- Line ends and tabs are not "ASCII" (finding). -/
theorem C50_ascii_fails (lib : Lib16) : decode lib .ascii .strict [0x61, 10] = .throw .runtimeError ∧
    decode lib .ascii .replace [0x61, 9, 0x62, 13, 10] = .ok [0x61, 63, 0x62, 63, 63] := ⟨rfl, rfl⟩

end Verif.Text
