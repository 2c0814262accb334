import Verif.Text.Decode
/-!
# UTF-16 (C51)
-/

namespace Verif.Text
open Verif.Bytes (Str Byte)

theorem utf16_nil (o : Order) : utf16 o [] = [] := rfl
theorem utf16_cons (o : Order) (c : Nat) (cs : List Nat) : utf16 o (c :: cs) = (enc16 c).flatMap (unit o) ++ utf16 o cs := by
  simp [utf16]

theorem append16_eq {c : Nat} (hc : Scalar c) : append16 c = enc16 c := by
  unfold Scalar at hc
  unfold append16 enc16
  by_cases h : c < 0x10000
  · rw [if_pos (by omega), if_pos h]
  · rw [if_neg (by omega), if_neg h]
    have h1 : 0xD7C0 + c / 1024 = 0xD800 + (c - 0x10000) / 1024 := by omega
    have h2 : 0xDC00 + c % 1024 = 0xDC00 + (c - 0x10000) % 1024 := by omega
    rw [h1, h2]

/-- Units are 16 bits wide. -/
theorem enc16_lt {c : Nat} (hc : Scalar c) : ∀ u ∈ enc16 c, u < 0x10000 := by
  unfold Scalar at hc
  intro u hu
  unfold enc16 at hu
  split at hu
  · simp at hu; omega
  · simp at hu; omega

theorem next16_complete {c : Nat} (hc : Scalar c) (r : List Nat) : next16 (enc16 c ++ r) = .ok (c, r) := by
  unfold Scalar at hc
  unfold enc16
  by_cases h : c < 0x10000
  · rw [if_pos h]
    simp only [List.cons_append, List.nil_append, next16]
    rw [if_pos (by omega)]
  · rw [if_neg h]
    simp only [List.cons_append, List.nil_append, next16]
    rw [if_neg (by omega), if_pos (by omega), if_pos (by omega)]
    have e : 0x10000 + (0xD800 + (c - 0x10000) / 1024 - 0xD800) * 1024 + (0xDC00 + (c - 0x10000) % 1024 - 0xDC00) = c := by omega
    rw [e]

theorem next16_sound {s : List Nat} {c : Nat} {r : List Nat} (hs : ∀ u ∈ s, u < 0x10000) (h : next16 s = .ok (c, r)) :
    Scalar c ∧ s = enc16 c ++ r := by
  cases s with
  | nil => cases h
  | cons u s =>
    have hu := hs u List.mem_cons_self
    simp only [next16] at h
    split at h
    · injection h with h; injection h with h1 h2
      subst h1; subst h2
      refine ⟨by unfold Scalar; omega, ?_⟩
      unfold enc16; rw [if_pos hu]; rfl
    · cases s with
      | nil => cases h
      | cons v s =>
        simp only at h
        split at h
        · split at h
          · injection h with h; injection h with h1 h2
            subst h2
            refine ⟨by unfold Scalar; omega, ?_⟩
            unfold enc16; rw [if_neg (by omega)]
            have e1 : 0xD800 + (c - 0x10000) / 1024 = u := by omega
            have e2 : 0xDC00 + (c - 0x10000) % 1024 = v := by omega
            rw [e1, e2]; rfl
          · cases h
        · cases h

theorem enc16_length (c : Nat) : 1 ≤ (enc16 c).length := by
  unfold enc16; split <;> simp

/-- The loop over units: well-formed texts are read. -/
theorem decode16_complete (lib : Lib16) (st : Strategy) {cs : List Nat} (hc : Scalars cs) (fuel : Nat)
    (hf : (cs.flatMap enc16).length ≤ fuel) : decode16 lib st fuel (cs.flatMap enc16) = .ok (utf8 cs) := by
  induction cs generalizing fuel with
  | nil => cases fuel <;> rfl
  | cons c cs ih =>
    rw [List.flatMap_cons] at hf ⊢
    have hn := next16_complete (hc c List.mem_cons_self) (cs.flatMap enc16)
    have hl := enc16_length c
    cases he : enc16 c ++ cs.flatMap enc16 with
    | nil => have := congrArg List.length he; simp at this hl; rw [this.1] at hl; simp at hl
    | cons u s =>
      rw [he] at hn hf
      cases fuel with
      | zero => simp at hf
      | succ fuel =>
        simp only [decode16, hn]
        rw [ih (fun x hx => hc x (List.mem_cons_of_mem _ hx)) fuel (by
          have := congrArg List.length he
          simp only [List.length_append, List.length_cons] at this hf; omega)]
        rfl

/-- The loop over units, whatever the strategy: a text that comes out is well-formed; under the strict strategy it is the text that was
    there. -/
theorem decode16_sound (lib : Lib16) (st : Strategy) (fuel : Nat) (s : List Nat) (hs : ∀ u ∈ s, u < 0x10000) (hf : s.length ≤ fuel)
    {t : Str} (h : decode16 lib st fuel s = .ok t) :
    ∃ cs, Scalars cs ∧ t = utf8 cs ∧ (st = .strict → s = cs.flatMap enc16) := by
  induction fuel generalizing s t with
  | zero =>
    cases s with
    | nil => injection h with h; exact ⟨[], (fun c hc => by cases hc), h.symm, fun _ => rfl⟩
    | cons => simp at hf
  | succ fuel ih =>
    cases s with
    | nil => injection h with h; exact ⟨[], (fun c hc => by cases hc), h.symm, fun _ => rfl⟩
    | cons u s =>
      simp only [List.length_cons] at hf
      have htl : ∀ u ∈ s, u < 0x10000 := fun x hx => hs x (List.mem_cons_of_mem _ hx)
      simp only [decode16] at h
      split at h
      · rename_i cp r hn
        obtain ⟨hc, he⟩ := next16_sound hs hn
        have hl := enc16_length cp
        have hlen := congrArg List.length he
        simp only [List.length_append, List.length_cons] at hlen
        have hr : ∀ u ∈ r, u < 0x10000 := fun x hx => hs x (by rw [he]; exact List.mem_append_right _ hx)
        cases hd : decode16 lib st fuel r with
        | ok t' =>
          rw [hd] at h
          injection h with h
          obtain ⟨cs, h1, h2, h3⟩ := ih r hr (by omega) hd
          refine ⟨cp :: cs, ?_, ?_, ?_⟩
          · intro d hd
            cases List.mem_cons.1 hd with
            | inl h => rw [h]; exact hc
            | inr h => exact h1 d h
          · rw [← h, h2]; rfl
          · intro hst; rw [he, h3 hst]; rfl
        | throw e => rw [hd] at h; cases h
        | ub => rw [hd] at h; cases h
      · cases h
      · cases lib with
        | stalls => cases h
        | throws =>
          cases st with
          | ignore =>
            obtain ⟨cs, h1, h2, _⟩ := ih s htl (by omega) h
            exact ⟨cs, h1, h2, fun h => by cases h⟩
          | replace =>
            simp only at h
            cases hd : decode16 .throws .replace fuel s with
            | ok t' =>
              rw [hd] at h
              injection h with h
              obtain ⟨cs, h1, h2, _⟩ := ih s htl (by omega) hd
              refine ⟨0xFFFD :: cs, ?_, ?_, fun h => by cases h⟩
              · intro d hd
                cases List.mem_cons.1 hd with
                | inl h => rw [h]; decide
                | inr h => exact h1 d h
              · rw [← h, h2]; rfl
            | throw e => rw [hd] at h; cases h
            | ub => rw [hd] at h; cases h
          | strict => cases h

theorem units_lt (w : Bool) : ∀ (s : Str), ∀ u ∈ units w s, u < 0x10000
  | [], u, hu => by simp [units] at hu
  | [_], u, hu => by simp [units] at hu
  | a :: b :: s, u, hu => by
    have ha := byte_lt a; have hb := byte_lt b
    simp only [units, List.mem_cons] at hu
    rcases hu with hu | hu
    · split at hu <;> omega
    · exact units_lt w s u hu

theorem units_length (w : Bool) : ∀ (s : Str), (units w s).length ≤ s.length
  | [] => by simp [units]
  | [_] => by simp [units]
  | a :: b :: s => by
    have := units_length w s
    simp only [units, List.length_cons]; omega

/-- Which order the charset stands for. -/
def orderOf (w : Bool) : Order := if w then .be else .le

/-- Reading units is the inverse of writing them. -/
theorem units_utf16 (w : Bool) (us : List Nat) (h : ∀ u ∈ us, u < 0x10000) : units w (us.flatMap (unit (orderOf w))) = us := by
  induction us with
  | nil => rfl
  | cons u us ih =>
    have hu := h u List.mem_cons_self
    have e1 : (UInt8.ofNat (u % 256)).toNat = u % 256 := ofNat_toNat (by omega)
    have e2 : (UInt8.ofNat (u / 256)).toNat = u / 256 := ofNat_toNat (by omega)
    have ih' := ih fun x hx => h x (List.mem_cons_of_mem _ hx)
    rw [List.flatMap_cons]
    cases w
    · simp only [orderOf, unit, Bool.false_eq_true, if_false, List.cons_append, List.nil_append, units, e1, e2] at ih' ⊢
      rw [ih']; congr 1; omega
    · simp only [orderOf, unit, if_true, List.cons_append, List.nil_append, units, e1, e2] at ih' ⊢
      rw [ih']; congr 1; omega

/-- Writing units is the inverse of reading them, for an even number of bytes. -/
theorem utf16_units (w : Bool) : ∀ (s : Str), s.length % 2 = 0 → (units w s).flatMap (unit (orderOf w)) = s
  | [], _ => rfl
  | [_], h => by simp at h
  | a :: b :: s, h => by
    have ha := byte_lt a; have hb := byte_lt b
    have ih := utf16_units w s (by simp only [List.length_cons] at h; omega)
    simp only [units, List.flatMap_cons]
    rw [ih]
    cases w
    · have e1 : (b.toNat * 256 + a.toNat) % 256 = a.toNat := by omega
      have e2 : (b.toNat * 256 + a.toNat) / 256 = b.toNat := by omega
      simp [orderOf, unit, e1, e2]
    · have e1 : (a.toNat * 256 + b.toNat) % 256 = b.toNat := by omega
      have e2 : (a.toNat * 256 + b.toNat) / 256 = a.toNat := by omega
      simp [orderOf, unit, e1, e2]

theorem units_of_text (w : Bool) {cs : List Nat} (hc : Scalars cs) : units w (utf16 (orderOf w) cs) = cs.flatMap enc16 := by
  refine units_utf16 w _ ?_
  intro u hu
  obtain ⟨c, hc', hu'⟩ := List.mem_flatMap.1 hu
  exact enc16_lt (hc c hc') u hu'

theorem utf16_even (o : Order) (cs : List Nat) : (utf16 o cs).length % 2 = 0 := by
  unfold utf16
  generalize cs.flatMap enc16 = us
  induction us with
  | nil => rfl
  | cons u us ih => 
    rw [List.flatMap_cons, List.length_append]
    have : (unit o u).length = 2 := by cases o <;> rfl
    omega

theorem take2_iff {a b : Byte} {s : Str} : s.take 2 = [a, b] ↔ [a, b] <+: s := by
  constructor
  · intro h; rw [← h]; exact List.take_prefix 2 s
  · rintro ⟨t, ht⟩; rw [← ht]; rfl

theorem swapped_eq (cs : Charset) (s : Str) :
    swapped cs s = if Bom s then false else decide (cs ≠ .utf16le) := by
  unfold swapped
  by_cases h : Bom s
  · rw [if_pos h, if_neg]
    unfold Bom at h
    rw [take2_iff, take2_iff]
    rintro ⟨h1, h2⟩
    exact h.elim h1 h2
  · rw [if_neg h, if_pos]
    unfold Bom at h
    rw [take2_iff, take2_iff]
    exact ⟨fun x => h (Or.inl x), fun x => h (Or.inr x)⟩

theorem decode_utf16 (lib : Lib16) {cs : Charset} (hcs : cs = .utf16le ∨ cs = .utf16be) (st : Strategy) {s : Str} (he : s.length % 2 = 0) :
    decode lib cs st s = decode16 lib st s.length (units (swapped cs s) s) := by
  unfold decode
  by_cases hs : s = []
  · rw [if_pos hs, hs]; rfl
  · rw [if_neg hs]
    rcases hcs with hcs | hcs <;> subst hcs <;> simp only [decodeUtf16] <;> rw [if_neg (by omega), if_neg hs]

/-- The order in which data is read. -/
def readOrder (cs : Charset) (s : Str) : Order := orderOf (swapped cs s)

theorem readOrder_eq {cs : Charset} (hcs : cs = .utf16le ∨ cs = .utf16be) (s : Str) :
    readOrder cs s = if ¬ Bom s ∧ cs = .utf16be then .be else .le := by
  unfold readOrder
  rw [swapped_eq]
  by_cases hb : Bom s
  · rw [if_pos hb, if_neg (fun h => h.1 hb)]; rfl
  · rw [if_neg hb]
    rcases hcs with h | h <;> subst h
    · rw [if_neg (fun h => by cases h.2)]; rfl
    · rw [if_pos ⟨hb, rfl⟩]; rfl

/-- **C51**: strict decoding of UTF-16 accepts exactly the well-formed data of the order in which it reads, and gives the text as
    UTF-8. -/
theorem C51_strict (lib : Lib16) {cs : Charset} (hcs : cs = .utf16le ∨ cs = .utf16be) (s t : Str) :
    decode lib cs .strict s = .ok t ↔ ∃ ps, Scalars ps ∧ s = utf16 (if ¬ Bom s ∧ cs = .utf16be then .be else .le) ps ∧ t = utf8 ps := by
  rw [← readOrder_eq hcs s]
  unfold readOrder
  by_cases he : s.length % 2 = 0
  · rw [decode_utf16 lib hcs .strict he]
    constructor
    · intro h
      obtain ⟨ps, h1, h2, h3⟩ := decode16_sound lib .strict _ _ (units_lt _ s) (units_length _ s) h
      refine ⟨ps, h1, ?_, h2⟩
      have h4 := h3 rfl
      unfold utf16
      rw [← h4, utf16_units _ s he]
    · rintro ⟨ps, h1, h2, h3⟩
      have h4 : units (swapped cs s) s = ps.flatMap enc16 := by
        have := units_of_text (swapped cs s) h1
        rw [← h2] at this; exact this
      have hl := units_length (swapped cs s) s
      rw [h4] at hl ⊢
      rw [decode16_complete lib .strict h1 s.length hl, h3]
  · constructor
    · intro h
      unfold decode at h
      rw [if_neg (fun h => by rw [h] at he; exact he rfl)] at h
      rcases hcs with hcs | hcs <;> subst hcs <;> simp only [decodeUtf16] at h <;> rw [if_pos he] at h <;> cases h
    · rintro ⟨ps, h1, h2, _⟩
      exact absurd (by rw [h2]; exact utf16_even _ ps) he

/-- **C51**: well-formed data is read the same under every strategy. -/
theorem C51_lossless (lib : Lib16) {cs : Charset} (hcs : cs = .utf16le ∨ cs = .utf16be) (st : Strategy) {s t : Str}
    (h : decode lib cs .strict s = .ok t) : decode lib cs st s = .ok t := by
  obtain ⟨ps, h1, h2, h3⟩ := (C51_strict lib hcs s t).1 h
  have he : s.length % 2 = 0 := by rw [h2]; exact utf16_even _ ps
  rw [decode_utf16 lib hcs st he]
  have h2' : s = utf16 (orderOf (swapped cs s)) ps := by
    have := readOrder_eq hcs s
    unfold readOrder at this
    rw [this]; exact h2
  have h4 : units (swapped cs s) s = ps.flatMap enc16 := by
    have := units_of_text (swapped cs s) h1
    rw [← h2'] at this; exact this
  have hl := units_length (swapped cs s) s
  rw [h4] at hl ⊢
  rw [decode16_complete lib st h1 s.length hl, h3]

theorem utf8to16_complete {cs : List Nat} (hc : Scalars cs) (fuel : Nat) (hf : (utf8 cs).length ≤ fuel) :
    utf8to16 fuel (utf8 cs) = .ok (cs.flatMap enc16) := by
  induction cs generalizing fuel with
  | nil => cases fuel <;> rfl
  | cons c cs ih =>
    rw [utf8_cons] at hf ⊢
    have hn := next8_complete (hc c List.mem_cons_self) (utf8 cs)
    have hl := (enc8_length c).1
    cases he : enc8 c ++ utf8 cs with
    | nil => exact absurd (List.append_eq_nil_iff.1 he).1 (enc8_ne_nil c)
    | cons b s =>
      rw [he] at hn hf
      cases fuel with
      | zero => simp at hf
      | succ fuel =>
        simp only [utf8to16, hn]
        rw [ih (fun x hx => hc x (List.mem_cons_of_mem _ hx)) fuel (by
          have := congrArg List.length he
          simp only [List.length_append, List.length_cons] at this hf; omega)]
        simp only
        rw [append16_eq (hc c List.mem_cons_self)]
        rfl

/-- **C51**: encoding a text gives its UTF-16 form in the order of the charset, without byte order mark, under every strategy. -/
theorem C51_encode {cs : Charset} (hcs : cs = .utf16le ∨ cs = .utf16be) (st : Strategy) {ps : List Nat} (hp : Scalars ps) :
    encode cs st (utf8 ps) = .ok (utf16 (if cs = .utf16be then .be else .le) ps) := by
  have h8 : decode8 st (utf8 ps).length (utf8 ps) = .ok (utf8 ps) := by
    have := C50_lossless .throws st (s := utf8 ps) ⟨ps, hp, rfl⟩
    rwa [decode_utf8] at this
  unfold encode
  by_cases hs : utf8 ps = []
  · rw [if_pos hs]
    have : ps = [] := utf8_injective hp (fun c hc => by cases hc) hs
    subst this; rfl
  · rw [if_neg hs]
    rcases hcs with h | h <;> subst h <;> simp only [h8, Res.bind, utf8to16_complete hp _ (Nat.le_refl _)] <;> rfl

/-- The first unit of a text decides whether its form begins with what looks like a byte order mark. -/
theorem bom_be {ps : List Nat} (hp : Scalars ps) : Bom (utf16 .be ps) ↔ ps.head? = some 0xFEFF ∨ ps.head? = some 0xFFFE := by
  cases ps with
  | nil => simp [utf16_nil, Bom]
  | cons c cs =>
    have hc := hp c List.mem_cons_self
    rw [utf16_cons]
    unfold Scalar at hc
    have key : ∃ u us, enc16 c = u :: us ∧ u < 0x10000 ∧ ((u = 0xFEFF ↔ c = 0xFEFF) ∧ (u = 0xFFFE ↔ c = 0xFFFE)) := by
      unfold enc16
      split
      · exact ⟨c, [], rfl, by omega, Iff.rfl, Iff.rfl⟩
      · exact ⟨_, _, rfl, by omega, by omega, by omega⟩
    obtain ⟨u, us, he, hu, h1, h2⟩ := key
    rw [he, List.flatMap_cons]
    simp only [unit, List.cons_append, List.nil_append, List.head?_cons, Option.some.injEq, Bom]
    rw [← h1, ← h2]
    have hlo : (UInt8.ofNat (u % 256)).toNat = u % 256 := ofNat_toNat (by omega)
    have hhi : (UInt8.ofNat (u / 256)).toNat = u / 256 := ofNat_toNat (by omega)
    have key2 : ∀ (a b : Byte) (r : Str), [a, b] <+: UInt8.ofNat (u / 256) :: UInt8.ofNat (u % 256) :: r ↔ u / 256 = a.toNat ∧ u % 256 = b.toNat := by
      intro a b r
      rw [List.cons_prefix_cons, List.cons_prefix_cons]
      constructor
      · rintro ⟨x, y, _⟩; rw [x, y, hlo, hhi]; exact ⟨rfl, rfl⟩
      · rintro ⟨x, y⟩
        refine ⟨?_, ?_, List.nil_prefix⟩
        · rw [x, UInt8.ofNat_toNat]
        · rw [y, UInt8.ofNat_toNat]
    rw [key2, key2]
    have f1 : (0xFF : Byte).toNat = 255 := rfl
    have f2 : (0xFE : Byte).toNat = 254 := rfl
    rw [f1, f2]
    omega

/-- **C51**: what is encoded as little-endian UTF-16 decodes to the same text. -/
theorem C51_round_trip_le (lib : Lib16) (st st' : Strategy) {ps : List Nat} (hp : Scalars ps) :
    (encode .utf16le st (utf8 ps)).bind (decode lib .utf16le st') = .ok (utf8 ps) := by
  rw [C51_encode (Or.inl rfl) st hp]
  refine C51_lossless lib (Or.inl rfl) st' ((C51_strict lib (Or.inl rfl) _ _).2 ⟨ps, hp, ?_, rfl⟩)
  rw [if_neg (fun h => by cases h), if_neg (fun h => by cases h.2)]

/-- **C51**: so does big-endian, except for texts that begin with U+FEFF or U+FFFE. -/
theorem C51_round_trip_be_partial (lib : Lib16) (st st' : Strategy) {ps : List Nat} (hp : Scalars ps)
    (hb : ps.head? ≠ some 0xFEFF ∧ ps.head? ≠ some 0xFFFE) :
    (encode .utf16be st (utf8 ps)).bind (decode lib .utf16be st') = .ok (utf8 ps) := by
  rw [C51_encode (Or.inr rfl) st hp]
  refine C51_lossless lib (Or.inr rfl) st' ((C51_strict lib (Or.inr rfl) _ _).2 ⟨ps, hp, ?_, rfl⟩)
  rw [if_pos rfl, if_pos]
  refine ⟨?_, rfl⟩
  rw [bom_be hp]
  exact fun h => h.elim hb.1 hb.2

/-- What is missing above (finding): data with a big-endian byte order mark is read as little-endian, under either charset. "a" with mark
    becomes U+FFFE U+6100. -/
theorem C51_bom_fails (lib : Lib16) (st : Strategy) :
    decode lib .utf16be st [0xFE, 0xFF, 0x00, 0x61] = .ok (utf8 [0xFFFE, 0x6100]) ∧
    decode lib .utf16le st [0xFE, 0xFF, 0x00, 0x61] = .ok (utf8 [0xFFFE, 0x6100]) := by
  cases lib <;> cases st <;> exact ⟨rfl, rfl⟩

/-- **C51**: a little-endian byte order mark overrides the charset; the mark stays in the text. -/
theorem C51_bom_le (lib : Lib16) {cs : Charset} (hcs : cs = .utf16le ∨ cs = .utf16be) (st : Strategy) {ps : List Nat} (hp : Scalars ps) :
    decode lib cs st ([0xFF, 0xFE] ++ utf16 .le ps) = .ok (utf8 (0xFEFF :: ps)) := by
  refine C51_lossless lib hcs st ((C51_strict lib hcs _ _).2 ⟨0xFEFF :: ps, ?_, ?_, rfl⟩)
  · intro d hd
    cases List.mem_cons.1 hd with
    | inl h => rw [h]; decide
    | inr h => exact hp d h
  · rw [if_neg (fun h => h.1 (Or.inl (List.prefix_append _ _))), utf16_cons]
    rfl

/-- **C51**: data with an odd byte at its end: strict decoding fails, the other strategies treat the byte as one offending character. -/
theorem C51_odd (lib : Lib16) {cs : Charset} (hcs : cs = .utf16le ∨ cs = .utf16be) {s : Str} (he : s.length % 2 = 0) (b : Byte) :
    decode lib cs .strict (s ++ [b]) = .throw .runtimeError ∧
    decode lib cs .ignore (s ++ [b]) = decode lib cs .ignore s ∧
    decode lib cs .replace (s ++ [b]) = (decode lib cs .replace s).bind fun t => .ok (t ++ enc8 0xFFFD) := by
  have hne : s ++ [b] ≠ [] := by simp
  have hodd : (s ++ [b]).length % 2 ≠ 0 := by simp; omega
  have htake : (s ++ [b]).take ((s ++ [b]).length / 2 * 2) = s := by
    have : (s ++ [b]).length / 2 * 2 = s.length := by simp; omega
    rw [this]; simp
  refine ⟨?_, ?_, ?_⟩
  · unfold decode; rw [if_neg hne]
    rcases hcs with h | h <;> subst h <;> simp only [decodeUtf16] <;> rw [if_pos hodd]
  · rw [decode_utf16 lib hcs .ignore he]
    unfold decode; rw [if_neg hne]
    rcases hcs with h | h <;> subst h <;> simp only [decodeUtf16] <;> rw [if_pos hodd, htake] <;>
      (split
       · rename_i h; rw [h]; rfl
       · rfl)
  · rw [decode_utf16 lib hcs .replace he]
    unfold decode; rw [if_neg hne]
    rcases hcs with h | h <;> subst h <;> simp only [decodeUtf16] <;> rw [if_pos hodd, htake] <;>
      (split
       · rename_i h; rw [h]; rfl
       · rfl)

theorem bind_ok {α β : Type} {x : Res α} {f : α → Res β} {b : β} (h : x.bind f = .ok b) : ∃ a, x = .ok a ∧ f a = .ok b := by
  cases x with
  | ok a => exact ⟨a, rfl, h⟩
  | throw e => cases h
  | ub => cases h

theorem isUtf8_append {s t : Str} (h : IsUtf8 s) (h' : IsUtf8 t) : IsUtf8 (s ++ t) := by
  obtain ⟨a, ha, ea⟩ := h
  obtain ⟨b, hb, eb⟩ := h'
  exact ⟨a ++ b, fun c hc => (List.mem_append.1 hc).elim (ha c) (hb c), by rw [ea, eb, utf8_append]⟩

theorem decode8_isUtf8 (st : Strategy) {s t : Str} (h : decode8 st s.length s = .ok t) : IsUtf8 t := by
  by_cases hst : st = .strict
  · subst hst
    rcases decode8_strict s.length s (Nat.le_refl _) with ⟨h1, h2⟩ | ⟨_, h2⟩
    · rw [h2] at h; injection h with h; rw [← h]; exact h1
    · rw [h2] at h; cases h
  · rcases decode8_lenient hst s.length s (Nat.le_refl _) with ⟨cs, h1, h2⟩ | ⟨_, h2⟩
    · rw [h2] at h; injection h with h
      exact ⟨cs, lenient_scalars (subst_scalars st) h1, h.symm⟩
    · rw [h2] at h; cases h

theorem decode16_isUtf8 (lib : Lib16) (st : Strategy) (w : Bool) {s t : Str} (h : decode16 lib st s.length (units w s) = .ok t) : IsUtf8 t := by
  obtain ⟨cs, h1, h2, _⟩ := decode16_sound lib st _ _ (units_lt w s) (units_length w s) h
  exact ⟨cs, h1, h2⟩

theorem nil_isUtf8 : IsUtf8 [] := ⟨[], (fun c hc => by cases hc), rfl⟩

theorem ascii_isUtf8 (st : Strategy) {s t : Str} (h : ascii st s = .ok t) : IsUtf8 t := by
  rw [ascii_spec] at h
  split at h
  · cases h
  · injection h with h
    subst h
    induction s with
    | nil => exact nil_isUtf8
    | cons b s ih =>
      rename_i hx
      rw [List.flatMap_cons]
      refine isUtf8_append ?_ (ih ?_)
      · split
        · rename_i hp
          unfold Printable at hp
          refine ⟨[b.toNat], ?_, ?_⟩
          · intro c hc
            simp at hc; subst hc; unfold Scalar; omega
          · simp [utf8, enc8]; omega
        · cases st
          · exact nil_isUtf8
          · refine ⟨[63], ?_, rfl⟩
            intro c hc
            simp at hc; subst hc; decide
          · exact nil_isUtf8
      · rintro ⟨h1, x, h2, h3⟩
        exact hx ⟨h1, x, List.mem_cons_of_mem _ h2, h3⟩

/-- **C50**, **C51**: what decoding returns is well-formed, for all charsets, strategies and data. -/
theorem C51_output (lib : Lib16) (cs : Charset) (st : Strategy) {s t : Str} (h : decode lib cs st s = .ok t) : IsUtf8 t := by
  have heven : ∀ (w : Str → Bool) (s t : Str), (if s = [] then .ok [] else decode16 lib st s.length (units (w s) s)) = Res.ok t → IsUtf8 t := by
    intro w s t h
    split at h
    · injection h with h; rw [← h]; exact nil_isUtf8
    · exact decode16_isUtf8 lib st _ h
  have h16 : ∀ cs, decodeUtf16 lib cs st s = .ok t → IsUtf8 t := by
    intro cs h
    simp only [decodeUtf16] at h
    split at h
    · cases st with
      | strict => cases h
      | ignore => exact heven (swapped cs) _ _ h
      | replace =>
        obtain ⟨a, h1, h2⟩ := bind_ok h
        injection h2 with h2
        rw [← h2]
        refine isUtf8_append (heven (swapped cs) _ _ h1) ⟨[0xFFFD], ?_, rfl⟩
        intro c hc
        simp at hc; subst hc; decide
    · exact heven (swapped cs) _ _ h
  unfold decode at h
  split at h
  · injection h with h; rw [← h]; exact nil_isUtf8
  · cases cs with
    | undef => cases h
    | utf8 => exact decode8_isUtf8 st h
    | utf16le => exact h16 _ h
    | utf16be => exact h16 _ h
    | ascii => exact ascii_isUtf8 st h

/-- A text with code points of all lengths meets the hypotheses: "aé", "東", U+1F600. -/
theorem C51_witness : Scalars [0x61, 0xE9, 0x6771, 0x1F600] ∧
    utf16 .be [0x61, 0xE9, 0x6771, 0x1F600] = [0, 0x61, 0, 0xE9, 0x67, 0x71, 0xD8, 0x3D, 0xDE, 0x00] ∧
    utf8 [0x61, 0xE9, 0x6771, 0x1F600] = [0x61, 0xC3, 0xA9, 0xE6, 0x9D, 0xB1, 0xF0, 0x9F, 0x98, 0x80] :=
  ⟨by decide, rfl, rfl⟩

/-- A surrogate without partner: with a library that throws, the strategies work; with one that stands still the call does not return; at
    the end of the data every strategy throws. -/
theorem C51_surrogate : decode .throws .utf16le .replace [0x00, 0xD8, 0x61, 0x00] = .ok (utf8 [0xFFFD, 0x61]) ∧
    decode .stalls .utf16le .replace [0x00, 0xD8, 0x61, 0x00] = .ub ∧
    decode .throws .utf16le .replace [0x61, 0x00, 0x00, 0xD8] = .throw .runtimeError := ⟨rfl, rfl, rfl⟩

end Verif.Text
