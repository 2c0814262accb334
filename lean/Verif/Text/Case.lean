import Verif.Text.Decode
/-!
# Length and case (C52)
-/

namespace Verif.Text
open Verif.Bytes (Str Byte)

theorem sizeLoop_lenient {st : Strategy} (hst : st ≠ .strict) : ∀ (fuel : Nat) (s : Str) (k : Nat), s.length ≤ fuel →
    (∃ cs, Lenient st.subst s cs ∧ sizeLoop st fuel k s = .ok (k + cs.length)) ∨
    ((¬ ∃ cs, Lenient st.subst s cs) ∧ sizeLoop st fuel k s = .foreign) := by
  intro fuel
  induction fuel with
  | zero =>
    intro s k h
    cases s with
    | nil => exact Or.inl ⟨[], .nil, rfl⟩
    | cons => simp at h
  | succ fuel ih =>
    intro s k h
    cases s with
    | nil => exact Or.inl ⟨[], .nil, rfl⟩
    | cons b s =>
      simp only [List.length_cons] at h
      simp only [sizeLoop]
      rcases next8_cases b s with ⟨c, r, hc, hs, hn, hl⟩ | ⟨hns, e, hn, he⟩
      · rw [hn]
        simp only
        rcases ih r (k + 1) (by omega) with ⟨cs, h1, h2⟩ | ⟨h1, h2⟩
        · left
          refine ⟨c :: cs, ?_, ?_⟩
          · rw [hs]; exact .char hc h1
          · rw [h2, List.length_cons]; congr 1; omega
        · right
          refine ⟨?_, h2⟩
          rintro ⟨cs, hcs⟩
          rw [hs] at hcs
          generalize hg : enc8 c ++ r = g at hcs
          cases hcs with
          | nil => exact absurd (List.append_eq_nil_iff.1 hg).1 (enc8_ne_nil _)
          | char hd hr =>
            have := enc8_prefix_free hc hd hg
            rw [← this.2] at hr
            exact h1 ⟨_, hr⟩
          | bad hnn _ _ _ => exact absurd ⟨c, r, hc, hg.symm⟩ hnn
      · rw [hn]
        simp only
        by_cases hi : e.isInvalidUtf8 = true
        · rw [if_pos hi]
          have hcn := he.1 hi
          have key : ∀ (P : Prop), ((∃ cs, Lenient st.subst s cs) → P) → (∃ cs, Lenient st.subst (b :: s) cs) → P := by
            rintro P hP ⟨cs, hcs⟩
            generalize hg : b :: s = g at hcs
            cases hcs with
            | nil => cases hg
            | char hd hr => exact absurd ⟨_, _, hd, hg⟩ hns
            | bad _ _ _ hr =>
              injection hg with g1 g2; subst g1; subst g2
              exact hP ⟨_, hr⟩
          cases st with
          | strict => exact absurd rfl hst
          | ignore =>
            rcases ih s k (by omega) with ⟨cs, h1, h2⟩ | ⟨h1, h2⟩
            · exact Or.inl ⟨[] ++ cs, .bad hns hcn.1 hcn.2 h1, h2⟩
            · exact Or.inr ⟨key _ h1, h2⟩
          | replace =>
            rcases ih s (k + 1) (by omega) with ⟨cs, h1, h2⟩ | ⟨h1, h2⟩
            · refine Or.inl ⟨[0xFFFD] ++ cs, .bad hns hcn.1 hcn.2 h1, ?_⟩
              simp only
              rw [h2]; simp; omega
            · exact Or.inr ⟨key _ h1, h2⟩
        · right
          rw [if_neg hi]
          refine ⟨?_, rfl⟩
          rintro ⟨cs, hcs⟩
          generalize hg : b :: s = g at hcs
          cases hcs with
          | nil => cases hg
          | char hd hr => exact hns ⟨_, _, hd, hg⟩
          | bad _ hx hy hr =>
            rw [← hg] at hx hy
            exact hi (he.2 ⟨hx, hy⟩)

theorem sizeLoop_strict : ∀ (cs : List Nat), Scalars cs → ∀ (fuel k : Nat), (utf8 cs).length ≤ fuel → ∀ st,
    sizeLoop st fuel k (utf8 cs) = .ok (k + cs.length) := by
  intro cs
  induction cs with
  | nil => intro _ fuel k _ st; cases fuel <;> rfl
  | cons c cs ih =>
    intro hc fuel k hf st
    rw [utf8_cons] at hf ⊢
    have hn := next8_complete (hc c List.mem_cons_self) (utf8 cs)
    have hl := (enc8_length c).1
    cases he : enc8 c ++ utf8 cs with
    | nil => exact absurd (List.append_eq_nil_iff.1 he).1 (enc8_ne_nil c)
    | cons b s =>
      rw [he] at hn hf
      cases fuel with
      | zero => simp at hf
      | succ fuel =>
        simp only [sizeLoop, hn]
        rw [ih (fun x hx => hc x (List.mem_cons_of_mem _ hx)) fuel _ (by
          have := congrArg List.length he
          simp only [List.length_append, List.length_cons] at this hf; omega)]
        rw [List.length_cons]; congr 1; omega

/-- **C52**: the length of a text is its number of code points, under every strategy. -/
theorem C52_size (st : Strategy) {cs : List Nat} (h : Scalars cs) : size st (utf8 cs) = .ok cs.length := by
  unfold size
  rw [sizeLoop_strict cs h _ 0 (Nat.le_refl _) st, Nat.zero_add]

/-- **C52**: under a forgiving strategy the length of any data is the length of its decoded text. -/
theorem C52_size_lenient {st : Strategy} (hst : st ≠ .strict) (s : Str) (n : Nat) :
    size st s = .ok n ↔ ∃ cs, Lenient st.subst s cs ∧ n = cs.length := by
  unfold size
  rcases sizeLoop_lenient hst s.length s 0 (Nat.le_refl _) with ⟨cs, h1, h2⟩ | ⟨h1, h2⟩
  · rw [h2, Nat.zero_add]
    constructor
    · intro h; injection h with h; exact ⟨cs, h1, h.symm⟩
    · rintro ⟨ds, hd, he⟩; rw [he, lenient_unique h1 hd]
  · rw [h2]
    exact ⟨fun h => (by cases h), fun ⟨cs, h, _⟩ => absurd ⟨cs, h⟩ h1⟩

theorem sizeLoop_strict_sound : ∀ (fuel : Nat) (s : Str) (k n : Nat), s.length ≤ fuel → sizeLoop .strict fuel k s = .ok n → IsUtf8 s := by
  intro fuel
  induction fuel with
  | zero =>
    intro s k n h _
    cases s with
    | nil => exact ⟨[], (fun c hc => by cases hc), rfl⟩
    | cons => simp at h
  | succ fuel ih =>
    intro s k n h hs
    cases s with
    | nil => exact ⟨[], (fun c hc => by cases hc), rfl⟩
    | cons b s =>
      simp only [List.length_cons] at h
      simp only [sizeLoop] at hs
      rcases next8_cases b s with ⟨c, r, hc, he, hn, hl⟩ | ⟨_, e, hn, _⟩
      · rw [hn] at hs
        obtain ⟨cs, h1, h2⟩ := ih r (k + 1) n (by omega) hs
        refine ⟨c :: cs, ?_, by rw [he, h2]; rfl⟩
        intro d hd
        cases List.mem_cons.1 hd with
        | inl h => rw [h]; exact hc
        | inr h => exact h1 d h
      · rw [hn] at hs
        simp only at hs
        split at hs <;> cases hs

/-- **C52**: under the strict strategy exactly the well-formed strings have a length. -/
theorem C52_size_strict (s : Str) (n : Nat) : size .strict s = .ok n ↔ ∃ cs, Scalars cs ∧ s = utf8 cs ∧ n = cs.length := by
  constructor
  · intro h
    obtain ⟨cs, h1, h2⟩ := sizeLoop_strict_sound s.length s 0 n (Nat.le_refl _) h
    rw [h2, C52_size .strict h1] at h
    injection h with h
    exact ⟨cs, h1, h2, h.symm⟩
  · rintro ⟨cs, h1, h2, h3⟩
    rw [h2, h3, C52_size .strict h1]

/-- Where decoding throws, the exception of the library leaves `string::size` (finding). -/
theorem C52_size_foreign (st : Strategy) : size st [0x61, 0xC3] = .foreign := by cases st <;> rfl

theorem iterate_cases (b : Byte) (s : Str) :
    (∃ c r, Scalar c ∧ b :: s = enc8 c ++ r ∧ iterate (b :: s) = some (c, r) ∧ r.length ≤ s.length) ∨
    (¬ Starts (b :: s) ∧ iterate (b :: s) = none) := by
  rcases next8_cases b s with ⟨c, r, hc, hs, hn, hl⟩ | ⟨hns, e, hn, _⟩
  · exact Or.inl ⟨c, r, hc, hs, by unfold iterate; rw [hn], hl⟩
  · exact Or.inr ⟨hns, by unfold iterate; rw [hn]⟩

theorem utf8Encode_eq {c : Nat} (hc : Scalar c) : Bytes.utf8Encode (c : Int) = some (enc8 c) := by
  unfold Scalar at hc
  unfold Bytes.utf8Encode enc8
  rw [if_neg (by omega)]
  simp only [Int.toNat_natCast]
  split
  · rfl
  · split
    · rfl
    · split
      · rfl
      · rw [if_pos (by omega)]

/-- The loop of `upper` and `lower`. -/
theorem convert_spec {conv : Nat → Nat} (hconv : ∀ c, Scalar c → Scalar (conv c)) {st : Strategy} (hst : st ≠ .strict) :
    ∀ (fuel : Nat) (s : Str), s.length ≤ fuel → ∃ cs, Forgiving conv st.subst s cs ∧ convert conv st fuel s = .ok (utf8 cs) := by
  intro fuel
  induction fuel with
  | zero =>
    intro s h
    cases s with
    | nil => exact ⟨[], .nil, rfl⟩
    | cons => simp at h
  | succ fuel ih =>
    intro s h
    cases s with
    | nil => exact ⟨[], .nil, rfl⟩
    | cons b s =>
      simp only [List.length_cons] at h
      simp only [convert]
      rcases iterate_cases b s with ⟨c, r, hc, hs, hn, hl⟩ | ⟨hns, hn⟩
      · obtain ⟨cs, h1, h2⟩ := ih r (by omega)
        refine ⟨conv c :: cs, by rw [hs]; exact .char hc h1, ?_⟩
        rw [hn]
        simp only [h2, Res.bind, utf8Encode_eq (hconv c hc)]
        rfl
      · obtain ⟨cs, h1, h2⟩ := ih s (by omega)
        refine ⟨st.subst ++ cs, .bad hns h1, ?_⟩
        rw [hn]
        cases st with
        | strict => exact absurd rfl hst
        | ignore => exact h2
        | replace => simp only [h2, Res.bind]; rfl

/-- **C52**: changing the case under a forgiving strategy never throws: it converts every code point, and drops or replaces every byte at
    which none begins. Here `conv` is the case mapping, of which only is assumed that it maps characters to characters. -/
theorem C52_case {conv : Nat → Nat} (hconv : ∀ c, Scalar c → Scalar (conv c)) {st : Strategy} (hst : st ≠ .strict) (s : Str) :
    ∃ cs, Forgiving conv st.subst s cs ∧ changeCase conv st s = .ok (utf8 cs) :=
  convert_spec hconv hst s.length s (Nat.le_refl _)

theorem convert_valid {conv : Nat → Nat} (hconv : ∀ c, Scalar c → Scalar (conv c)) (st : Strategy) : ∀ (cs : List Nat), Scalars cs →
    ∀ fuel, (utf8 cs).length ≤ fuel → convert conv st fuel (utf8 cs) = .ok (utf8 (cs.map conv)) := by
  intro cs
  induction cs with
  | nil => intro _ fuel _; cases fuel <;> rfl
  | cons c cs ih =>
    intro hc fuel hf
    rw [utf8_cons] at hf ⊢
    have hn := next8_complete (hc c List.mem_cons_self) (utf8 cs)
    cases he : enc8 c ++ utf8 cs with
    | nil => exact absurd (List.append_eq_nil_iff.1 he).1 (enc8_ne_nil c)
    | cons b s =>
      rw [he] at hn hf
      cases fuel with
      | zero => simp at hf
      | succ fuel =>
        have hi : iterate (b :: s) = some (c, utf8 cs) := by unfold iterate; rw [hn]
        have hl := (enc8_length c).1
        simp only [convert, hi]
        rw [ih (fun x hx => hc x (List.mem_cons_of_mem _ hx)) fuel (by
          have := congrArg List.length he
          simp only [List.length_append, List.length_cons] at this hf; omega)]
        simp only [Res.bind, utf8Encode_eq (hconv c (hc c List.mem_cons_self))]
        rfl

/-- **C52**: the case of a text changes character by character, under every strategy; so the number of characters stays. -/
theorem C52_case_text {conv : Nat → Nat} (hconv : ∀ c, Scalar c → Scalar (conv c)) (st : Strategy) {cs : List Nat} (h : Scalars cs) :
    changeCase conv st (utf8 cs) = .ok (utf8 (cs.map conv)) ∧ size st (utf8 (cs.map conv)) = size st (utf8 cs) := by
  refine ⟨convert_valid hconv st cs h _ (Nat.le_refl _), ?_⟩
  rw [C52_size st h, C52_size st, List.length_map]
  intro c hc
  obtain ⟨d, hd, he⟩ := List.mem_map.1 hc
  rw [← he]; exact hconv d (h d hd)

theorem convert_strict {conv : Nat → Nat} : ∀ (fuel : Nat) (s : Str), s.length ≤ fuel → ¬ IsUtf8 s →
    convert conv .strict fuel s = .throw .runtimeError := by
  intro fuel
  induction fuel with
  | zero =>
    intro s h hn
    cases s with
    | nil => exact absurd ⟨[], (fun c hc => by cases hc), rfl⟩ hn
    | cons => simp at h
  | succ fuel ih =>
    intro s h hnu
    cases s with
    | nil => exact absurd ⟨[], (fun c hc => by cases hc), rfl⟩ hnu
    | cons b s =>
      simp only [List.length_cons] at h
      simp only [convert]
      rcases iterate_cases b s with ⟨c, r, hc, hs, hn, hl⟩ | ⟨hns, hn⟩
      · rw [hn]
        simp only
        rw [ih r (by omega)]
        · rfl
        · rintro ⟨cs, h1, h2⟩
          refine hnu ⟨c :: cs, ?_, by rw [hs, h2]; rfl⟩
          intro d hd
          cases List.mem_cons.1 hd with
          | inl h => rw [h]; exact hc
          | inr h => exact h1 d h
      · rw [hn]

/-- **C52**: under the strict strategy malformed data is an error. -/
theorem C52_case_strict {conv : Nat → Nat} {s : Str} (h : ¬ IsUtf8 s) : changeCase conv .strict s = .throw .runtimeError :=
  convert_strict s.length s (Nat.le_refl _) h

/-- A case mapping: ASCII letters and "é". -/
def asciiUpper (c : Nat) : Nat := if 97 ≤ c ∧ c ≤ 122 then c - 32 else if c = 0xE9 then 0xC9 else c

theorem C52_witness : (∀ c, Scalar c → Scalar (asciiUpper c)) ∧
    changeCase asciiUpper .strict (utf8 [0x61, 0xE9, 0x6771]) = .ok (utf8 [0x41, 0xC9, 0x6771]) ∧
    changeCase asciiUpper .replace [0x61, 0xC3] = .ok (utf8 [0x41, 0xFFFD]) ∧ size .strict (utf8 [0x61, 0xE9, 0x6771]) = .ok 3 := by
  refine ⟨?_, rfl, rfl, rfl⟩
  intro c hc
  unfold Scalar at *
  unfold asciiUpper
  split
  · omega
  · split
    · omega
    · exact hc

end Verif.Text
