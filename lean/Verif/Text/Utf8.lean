import Verif.Text.Model
/-!
# UTF-8
-/

namespace Verif.Text
open Verif.Bytes (Str Byte)

theorem byte_eq {b : Byte} {n : Nat} (h : b.toNat = n) : b = UInt8.ofNat n := by
  subst h; exact (UInt8.ofNat_toNat).symm

theorem ofNat_toNat {n : Nat} (h : n < 256) : (UInt8.ofNat n).toNat = n := by
  simp [UInt8.toNat_ofNat', Nat.mod_eq_of_lt h]

theorem byte_lt (b : Byte) : b.toNat < 256 := by
  have := UInt8.toNat_lt b; omega

theorem enc8_ne_nil (c : Nat) : enc8 c ≠ [] := by
  unfold enc8; split
  · simp
  · split
    · simp
    · split <;> simp

theorem enc8_length (c : Nat) : 1 ≤ (enc8 c).length ∧ (enc8 c).length ≤ 4 := by
  unfold enc8; split
  · simp
  · split
    · simp
    · split <;> simp

theorem seqLen_eq (b : Byte) : seqLen b = announced b := by
  have := byte_lt b
  unfold seqLen announced
  split
  · rfl
  · split
    · rw [if_neg (by omega), if_pos (by omega)]
    · split
      · rw [if_neg (by omega), if_neg (by omega), if_pos (by omega)]
      · split
        · rw [if_neg (by omega), if_neg (by omega), if_neg (by omega), if_pos (by omega)]
        · by_cases h : b.toNat < 0xC0
          · rw [if_pos h]
          · rw [if_neg h, if_neg (by omega), if_neg (by omega), if_neg (by omega)]

/-- What `next8` returns is what is there. -/
theorem next8_sound {s : Str} {c : Nat} {r : Str} (h : next8 s = .ok (c, r)) : Scalar c ∧ s = enc8 c ++ r := by
  cases s with
  | nil => cases h
  | cons b s =>
    have hb := byte_lt b
    simp only [next8] at h
    by_cases h0 : seqLen b = 0
    · rw [if_pos h0] at h; cases h
    · rw [if_neg h0] at h
      have hn := seqLen_eq b
      unfold announced at hn
      by_cases h1 : b.toNat < 0x80
      · rw [if_pos h1] at hn
        rw [hn] at h
        simp only [show (1 : Nat) - 1 = 0 from rfl, trails] at h
        have hc : ¬ (b.toNat > 0x10FFFF ∨ 0xD800 ≤ b.toNat ∧ b.toNat ≤ 0xDFFF) := by omega
        simp only [if_pos, if_neg hc] at h
        rw [if_neg (by omega)] at h
        injection h with h; injection h with h1' h2
        subst h1'; subst h2
        refine ⟨Or.inl (by omega), ?_⟩
        unfold enc8; rw [if_pos h1]
        simp
      · rw [if_neg h1] at hn
        by_cases h2 : b.toNat < 0xC0
        · rw [if_pos h2] at hn; omega
        · rw [if_neg h2] at hn
          by_cases h3 : b.toNat < 0xE0
          · rw [if_pos h3] at hn
            rw [hn] at h
            cases s with
            | nil => simp [trails] at h
            | cons a s =>
              have ha := byte_lt a
              by_cases ht : a.toNat / 64 = 2
              · simp [trails, ht] at h
                split at h
                · cases h
                · split at h
                  · cases h
                  · injection h with h; injection h with h1' h2'
                    subst h2'
                    refine ⟨by unfold Scalar; omega, ?_⟩
                    unfold enc8
                    rw [if_neg (by omega), if_pos (by omega)]
                    rw [byte_eq (b := b) (n := 0xC0 + c / 64) (by omega), byte_eq (b := a) (n := 0x80 + c % 64) (by omega)]
                    rfl
              · simp [trails, ht] at h
          · rw [if_neg h3] at hn
            by_cases h4 : b.toNat < 0xF0
            · rw [if_pos h4] at hn
              rw [hn] at h
              cases s with
              | nil => simp [trails] at h
              | cons a s =>
                have ha := byte_lt a
                by_cases ht : a.toNat / 64 = 2
                · cases s with
                  | nil => simp [trails, ht] at h
                  | cons a2 s =>
                    have ha2 := byte_lt a2
                    by_cases ht2 : a2.toNat / 64 = 2
                    · simp [trails, ht, ht2] at h
                      split at h
                      · cases h
                      · split at h
                        · cases h
                        · injection h with h; injection h with h1' h2'
                          subst h2'
                          refine ⟨by unfold Scalar; omega, ?_⟩
                          unfold enc8
                          rw [if_neg (by omega), if_neg (by omega), if_pos (by omega)]
                          rw [byte_eq (b := b) (n := 0xE0 + c / 4096) (by omega), byte_eq (b := a) (n := 0x80 + c / 64 % 64) (by omega),
                            byte_eq (b := a2) (n := 0x80 + c % 64) (by omega)]
                          rfl
                    · simp [trails, ht, ht2] at h
                · simp [trails, ht] at h
            · rw [if_neg h4] at hn
              by_cases h5 : b.toNat < 0xF8
              · rw [if_pos h5] at hn
                rw [hn] at h
                cases s with
                | nil => simp [trails] at h
                | cons a s =>
                  have ha := byte_lt a
                  by_cases ht : a.toNat / 64 = 2
                  · cases s with
                    | nil => simp [trails, ht] at h
                    | cons a2 s =>
                      have ha2 := byte_lt a2
                      by_cases ht2 : a2.toNat / 64 = 2
                      · cases s with
                        | nil => simp [trails, ht, ht2] at h
                        | cons a3 s =>
                          have ha3 := byte_lt a3
                          by_cases ht3 : a3.toNat / 64 = 2
                          · simp [trails, ht, ht2, ht3] at h
                            split at h
                            · cases h
                            · split at h
                              · cases h
                              · injection h with h; injection h with h1' h2'
                                subst h2'
                                refine ⟨by unfold Scalar; omega, ?_⟩
                                unfold enc8
                                rw [if_neg (by omega), if_neg (by omega), if_neg (by omega)]
                                rw [byte_eq (b := b) (n := 0xF0 + c / 262144) (by omega), byte_eq (b := a) (n := 0x80 + c / 4096 % 64) (by omega),
                                  byte_eq (b := a2) (n := 0x80 + c / 64 % 64) (by omega), byte_eq (b := a3) (n := 0x80 + c % 64) (by omega)]
                                rfl
                          · simp [trails, ht, ht2, ht3] at h
                      · simp [trails, ht, ht2] at h
                  · simp [trails, ht] at h
              · rw [if_neg h5] at hn; omega

theorem next8_of {b : Byte} {s : Str} {n cp : Nat} {r : Str} (hn : seqLen b = n) (h0 : n ≠ 0)
    (ht : trails (n - 1) (if n = 1 then b.toNat else if n = 2 then b.toNat % 32 else if n = 3 then b.toNat % 16 else b.toNat % 8) s
      = .ok (cp, r)) :
    next8 (b :: s) = if cp > 0x10FFFF ∨ (0xD800 ≤ cp ∧ cp ≤ 0xDFFF) then .error .invalidCodePoint
      else if (cp < 0x80 ∧ n ≠ 1) ∨ (0x80 ≤ cp ∧ cp < 0x800 ∧ n ≠ 2) ∨ (0x800 ≤ cp ∧ cp < 0x10000 ∧ n ≠ 3) then .error .overlong
      else .ok (cp, r) := by
  subst hn
  simp only [next8]
  rw [if_neg h0, ht]

theorem trails_step {n acc : Nat} {b : Byte} {s : Str} (h : b.toNat / 64 = 2) :
    trails (n + 1) acc (b :: s) = trails n (acc * 64 + b.toNat % 64) s := by
  simp only [trails]; rw [if_pos h]

/-- A well-formed code point is found. -/
theorem next8_complete {c : Nat} (hc : Scalar c) (r : Str) : next8 (enc8 c ++ r) = .ok (c, r) := by
  unfold Scalar at hc
  unfold enc8
  by_cases h1 : c < 0x80
  · rw [if_pos h1]
    have hb : (UInt8.ofNat c).toNat = c := ofNat_toNat (by omega)
    have hn : seqLen (UInt8.ofNat c) = 1 := by rw [seqLen_eq]; unfold announced; rw [hb, if_pos h1]
    rw [List.cons_append, List.nil_append]
    rw [next8_of (n := 1) (cp := c) (r := r) hn (by decide) (by rw [if_pos rfl, hb]; rfl)]
    rw [if_neg (by omega), if_neg (by omega)]
  · rw [if_neg h1]
    by_cases h2 : c < 0x800
    · rw [if_pos h2]
      have hb : (UInt8.ofNat (0xC0 + c / 64)).toNat = 0xC0 + c / 64 := ofNat_toNat (by omega)
      have hb2 : (UInt8.ofNat (0x80 + c % 64)).toNat = 0x80 + c % 64 := ofNat_toNat (by omega)
      have hn : seqLen (UInt8.ofNat (0xC0 + c / 64)) = 2 := by
        rw [seqLen_eq]; unfold announced; rw [hb, if_neg (by omega), if_neg (by omega), if_pos (by omega)]
      have e : (0xC0 + c / 64) % 32 * 64 + (0x80 + c % 64) % 64 = c := by omega
      rw [List.cons_append, List.cons_append, List.nil_append]
      rw [next8_of (n := 2) (cp := c) (r := r) hn (by decide) (by
        rw [if_neg (by decide), if_pos rfl, hb]
        rw [show 2 - 1 = 0 + 1 from rfl, trails_step (by rw [hb2]; omega), hb2, e]; rfl)]
      rw [if_neg (by omega), if_neg (by omega)]
    · rw [if_neg h2]
      by_cases h3 : c < 0x10000
      · rw [if_pos h3]
        have hb : (UInt8.ofNat (0xE0 + c / 4096)).toNat = 0xE0 + c / 4096 := ofNat_toNat (by omega)
        have hb2 : (UInt8.ofNat (0x80 + c / 64 % 64)).toNat = 0x80 + c / 64 % 64 := ofNat_toNat (by omega)
        have hb3 : (UInt8.ofNat (0x80 + c % 64)).toNat = 0x80 + c % 64 := ofNat_toNat (by omega)
        have hn : seqLen (UInt8.ofNat (0xE0 + c / 4096)) = 3 := by
          rw [seqLen_eq]; unfold announced; rw [hb, if_neg (by omega), if_neg (by omega), if_neg (by omega), if_pos (by omega)]
        have e : ((0xE0 + c / 4096) % 16 * 64 + (0x80 + c / 64 % 64) % 64) * 64 + (0x80 + c % 64) % 64 = c := by omega
        rw [List.cons_append, List.cons_append, List.cons_append, List.nil_append]
        rw [next8_of (n := 3) (cp := c) (r := r) hn (by decide) (by
          rw [if_neg (by decide), if_neg (by decide), if_pos rfl, hb]
          rw [show 3 - 1 = 0 + 1 + 1 from rfl, trails_step (by rw [hb2]; omega), trails_step (by rw [hb3]; omega), hb2, hb3, e]; rfl)]
        rw [if_neg (by omega), if_neg (by omega)]
      · rw [if_neg h3]
        have hb : (UInt8.ofNat (0xF0 + c / 262144)).toNat = 0xF0 + c / 262144 := ofNat_toNat (by omega)
        have hb2 : (UInt8.ofNat (0x80 + c / 4096 % 64)).toNat = 0x80 + c / 4096 % 64 := ofNat_toNat (by omega)
        have hb3 : (UInt8.ofNat (0x80 + c / 64 % 64)).toNat = 0x80 + c / 64 % 64 := ofNat_toNat (by omega)
        have hb4 : (UInt8.ofNat (0x80 + c % 64)).toNat = 0x80 + c % 64 := ofNat_toNat (by omega)
        have hn : seqLen (UInt8.ofNat (0xF0 + c / 262144)) = 4 := by
          rw [seqLen_eq]; unfold announced
          rw [hb, if_neg (by omega), if_neg (by omega), if_neg (by omega), if_neg (by omega), if_pos (by omega)]
        have e : (((0xF0 + c / 262144) % 8 * 64 + (0x80 + c / 4096 % 64) % 64) * 64 + (0x80 + c / 64 % 64) % 64) * 64 + (0x80 + c % 64) % 64 = c := by
          omega
        rw [List.cons_append, List.cons_append, List.cons_append, List.cons_append, List.nil_append]
        rw [next8_of (n := 4) (cp := c) (r := r) hn (by decide) (by
          rw [if_neg (by decide), if_neg (by decide), if_neg (by decide), hb]
          rw [show 4 - 1 = 0 + 1 + 1 + 1 from rfl, trails_step (by rw [hb2]; omega), trails_step (by rw [hb3]; omega),
            trails_step (by rw [hb4]; omega), hb2, hb3, hb4, e]; rfl)]
        rw [if_neg (by omega), if_neg (by omega)]

theorem next8_ok {s : Str} {c : Nat} {r : Str} : next8 s = .ok (c, r) ↔ Scalar c ∧ s = enc8 c ++ r :=
  ⟨next8_sound, fun ⟨h, e⟩ => by rw [e]; exact next8_complete h r⟩

/-- UTF-8 is uniquely decodable: no code point's form is the beginning of another's. -/
theorem enc8_prefix_free {c d : Nat} {r t : Str} (hc : Scalar c) (hd : Scalar d) (h : enc8 c ++ r = enc8 d ++ t) : c = d ∧ r = t := by
  have h1 := next8_complete hc r
  rw [h, next8_complete hd t] at h1
  injection h1 with h1; injection h1 with h1 h2
  exact ⟨h1.symm, h2.symm⟩

theorem trail_iff (b : Byte) : Trail b ↔ b.toNat / 64 = 2 := by unfold Trail; omega

theorem trails_room {n acc : Nat} {s : Str} : trails n acc s = .error .notEnoughRoom ↔ s.length < n ∧ ∀ t ∈ s, Trail t := by
  induction n generalizing acc s with
  | zero => simp [trails]
  | succ n ih =>
    cases s with
    | nil => simp [trails]
    | cons b s =>
      simp only [trails]
      by_cases h : b.toNat / 64 = 2
      · rw [if_pos h, ih]
        simp only [List.length_cons, List.mem_cons]
        constructor
        · rintro ⟨h1, h2⟩
          exact ⟨by omega, fun t ht => ht.elim (fun e => by rw [e]; exact (trail_iff b).2 h) (h2 t)⟩
        · rintro ⟨h1, h2⟩
          exact ⟨by omega, fun t ht => h2 t (Or.inr ht)⟩
      · rw [if_neg h]
        constructor
        · intro h; cases h
        · rintro ⟨_, h2⟩
          exact absurd ((trail_iff b).1 (h2 b List.mem_cons_self)) h

theorem trails_err {n acc : Nat} {s : Str} {e : Err} (h : trails n acc s = .error e) : e = .notEnoughRoom ∨ e = .incomplete := by
  induction n generalizing acc s with
  | zero => simp [trails] at h
  | succ n ih =>
    cases s with
    | nil => simp [trails] at h; exact Or.inl h.symm
    | cons b s =>
      simp only [trails] at h
      split at h
      · exact ih h
      · injection h with h; exact Or.inr h.symm

theorem next8_room {b : Byte} {s : Str} : next8 (b :: s) = .error .notEnoughRoom ↔ CutShort (b :: s) := by
  simp only [next8]
  rw [seqLen_eq]
  unfold CutShort
  constructor
  · intro h
    split at h
    · cases h
    · rename_i h0
      split at h
      · rename_i e he
        injection h with h; subst h
        have := trails_room.1 he
        exact ⟨b, s, rfl, by simp only [List.length_cons]; omega, this.2⟩
      · split at h
        · cases h
        · split at h <;> cases h
  · rintro ⟨b', s', he, hl, ht⟩
    injection he with h1 h2; subst h1; subst h2
    simp only [List.length_cons] at hl
    rw [if_neg (by omega)]
    rw [trails_room.2 ⟨by omega, ht⟩]

theorem next8_code {b : Byte} {s : Str} : next8 (b :: s) = .error .invalidCodePoint ↔ NotAScalar (b :: s) := by
  have hb := byte_lt b
  have hED : ∀ b : Byte, b.toNat = 0xED ↔ b = 0xED := by
    intro b; constructor
    · intro h; exact byte_eq h
    · intro h; rw [h]; rfl
  have hn := seqLen_eq b
  unfold announced at hn
  constructor
  · intro h
    have key : ∃ n cp r, seqLen b = n ∧ n ≠ 0 ∧ (cp > 0x10FFFF ∨ (0xD800 ≤ cp ∧ cp ≤ 0xDFFF)) ∧
        trails (n - 1) (if n = 1 then b.toNat else if n = 2 then b.toNat % 32 else if n = 3 then b.toNat % 16 else b.toNat % 8) s
          = .ok (cp, r) := by
      simp only [next8] at h
      by_cases h0 : seqLen b = 0
      · rw [if_pos h0] at h; cases h
      · rw [if_neg h0] at h
        refine ⟨seqLen b, ?_⟩
        split at h
        · rename_i e he
          injection h with h; subst h
          cases trails_err he with
          | inl h => cases h
          | inr h => cases h
        · rename_i cp r he
          split at h
          · rename_i hbad
            exact ⟨cp, r, rfl, h0, hbad, he⟩
          · split at h <;> cases h
    obtain ⟨n, cp, r, e, h0, hbad, he⟩ := key
    rw [e] at hn
    by_cases h1 : b.toNat < 0x80
    · rw [if_pos h1] at hn
      subst hn
      rw [if_pos rfl, show 1 - 1 = 0 from rfl] at he
      simp only [trails] at he
      injection he with he; injection he with he1 he2
      omega
    · rw [if_neg h1] at hn
      by_cases h2 : b.toNat < 0xC0
      · rw [if_pos h2] at hn; omega
      · rw [if_neg h2] at hn
        by_cases h3 : b.toNat < 0xE0
        · rw [if_pos h3] at hn
          subst hn
          cases s with
          | nil => simp [trails] at he
          | cons a s =>
            by_cases ht : a.toNat / 64 = 2
            · simp [trails, ht] at he
              omega
            · simp [trails, ht] at he
        · rw [if_neg h3] at hn
          by_cases h4 : b.toNat < 0xF0
          · rw [if_pos h4] at hn
            subst hn
            cases s with
            | nil => simp [trails] at he
            | cons a s =>
              by_cases ht : a.toNat / 64 = 2
              · cases s with
                | nil => simp [trails, ht] at he
                | cons a2 s =>
                  by_cases ht2 : a2.toNat / 64 = 2
                  · simp [trails, ht, ht2] at he
                    left
                    refine ⟨a, a2, s, ?_, by omega, by omega, (trail_iff a2).2 ht2⟩
                    rw [(hED b).1 (by omega)]
                  · simp [trails, ht, ht2] at he
              · simp [trails, ht] at he
          · rw [if_neg h4] at hn
            by_cases h5 : b.toNat < 0xF8
            · rw [if_pos h5] at hn
              subst hn
              cases s with
              | nil => simp [trails] at he
              | cons a s =>
                by_cases ht : a.toNat / 64 = 2
                · cases s with
                  | nil => simp [trails, ht] at he
                  | cons a2 s =>
                    by_cases ht2 : a2.toNat / 64 = 2
                    · cases s with
                      | nil => simp [trails, ht, ht2] at he
                      | cons a3 s =>
                        by_cases ht3 : a3.toNat / 64 = 2
                        · simp [trails, ht, ht2, ht3] at he
                          right
                          exact ⟨b, a, a2, a3, s, rfl, (trail_iff a).2 ht, (trail_iff a2).2 ht2, (trail_iff a3).2 ht3, h5, by omega⟩
                        · simp [trails, ht, ht2, ht3] at he
                    · simp [trails, ht, ht2] at he
                · simp [trails, ht] at he
            · rw [if_neg h5] at hn; omega
  · intro h
    rcases h with ⟨a, b2, r, he, h1, h2, h3⟩ | ⟨l, a, b2, c, r, he, h1, h2, h3, h4, h5⟩
    · injection he with e1 e2; subst e2
      have e1' := (hED b).2 e1
      rw [if_neg (by omega), if_neg (by omega), if_neg (by omega), if_pos (by omega)] at hn
      rw [next8_of (n := 3) hn (by decide) (by
        rw [show 3 - 1 = 0 + 1 + 1 from rfl, trails_step (by omega), trails_step ((trail_iff b2).1 h3)]; rfl)]
      have hi : (if 3 = 1 then b.toNat else if 3 = 2 then b.toNat % 32 else if 3 = 3 then b.toNat % 16 else b.toNat % 8) = b.toNat % 16 := rfl
      rw [hi, if_pos (by have := (trail_iff b2).1 h3; omega)]
    · injection he with e1 e2; subst e1; subst e2
      rw [if_neg (by omega), if_neg (by omega), if_neg (by omega), if_neg (by omega), if_pos h4] at hn
      have t1 := (trail_iff a).1 h1
      rw [next8_of (n := 4) hn (by decide) (by
        rw [show 4 - 1 = 0 + 1 + 1 + 1 from rfl, trails_step t1, trails_step ((trail_iff b2).1 h2),
          trails_step ((trail_iff c).1 h3)]; rfl)]
      have hi : (if 4 = 1 then b.toNat else if 4 = 2 then b.toNat % 32 else if 4 = 3 then b.toNat % 16 else b.toNat % 8) = b.toNat % 8 := rfl
      rw [hi, if_pos (by have := (trail_iff b2).1 h2; have := (trail_iff c).1 h3; omega)]

end Verif.Text
