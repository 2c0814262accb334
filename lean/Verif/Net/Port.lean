import Verif.Net.Spec
/-!
# C35: ports as text
-/

namespace Verif.Net

open Verif.Ints

theorem lower_iff {c d : Byte} (h1 : 97 ≤ d.toNat) (h2 : d.toNat ≤ 122) : lower c = lower d ↔ SameLetter c d := by
  have hd : lower d = d := by unfold lower; rw [if_neg (by omega)]
  rw [hd]
  unfold lower SameLetter
  split
  · next h =>
    have e : (c + 32).toNat = c.toNat + 32 := by
      rw [UInt8.toNat_add]
      show (c.toNat + 32) % 256 = _
      omega
    constructor
    · intro h; right; rw [← h, e]; rw [← h, e] at h1 h2; exact ⟨h1, h2, rfl⟩
    · rintro (rfl | ⟨_, _, h⟩)
      · omega
      · exact UInt8.toNat_inj.mp (by rw [e, h])
  · next h =>
    constructor
    · exact Or.inl
    · rintro (h' | ⟨_, _, h'⟩)
      · exact h'
      · omega

theorem caseEq_iff : ∀ (lit name : List Byte), (∀ d ∈ lit, 97 ≤ d.toNat ∧ d.toNat ≤ 122) →
    (caseEq (47 :: name) (47 :: lit) = true ↔ name.length = lit.length ∧ ∀ cd ∈ name.zip lit, SameLetter cd.1 cd.2) := by
  intro lit name hl
  have e : caseEq (47 :: name) (47 :: lit) = true ↔ name.map lower = lit.map lower := by
    unfold caseEq
    rw [beq_iff_eq, List.map_cons, List.map_cons, List.cons.injEq]
    simp
  rw [e]
  clear e
  induction name generalizing lit with
  | nil => cases lit with
    | nil => simp
    | cons d lit => simp
  | cons c name ih => cases lit with
    | nil => simp
    | cons d lit =>
      have hd := hl d (List.mem_cons_self ..)
      have ih' : List.map lower name = List.map lower lit ↔ (name.length = lit.length ∧ ∀ cd ∈ name.zip lit, SameLetter cd.1 cd.2) := ih lit (fun x hx => hl x (List.mem_cons_of_mem _ hx))
      rw [List.map_cons, List.map_cons, List.cons.injEq, ih', lower_iff hd.1 hd.2]
      simp only [List.length_cons, Nat.add_right_cancel_iff, List.zip_cons_cons, List.mem_cons]
      constructor
      · rintro ⟨h1, h2, h3⟩
        refine ⟨h2, ?_⟩
        rintro cd (rfl | h)
        · exact h1
        · exact h3 cd h
      · rintro ⟨h1, h2⟩
        exact ⟨h2 (c, d) (Or.inl rfl), h1, fun cd h => h2 cd (Or.inr h)⟩

/-- The value of a string of digits, as `std::stoi` computes it. -/
theorem foldl_digits (ds : List Nat) (h : ∀ d ∈ ds, d < 10) (n : Nat) :
    (ds.map (fun d => UInt8.ofNat (48 + d))).foldl (fun n c => n * 10 + (c.toNat - 48)) n = ds.foldl (fun n d => n * 10 + d) n := by
  induction ds generalizing n with
  | nil => rfl
  | cons d ds ih =>
    have hd := h d (List.mem_cons_self ..)
    rw [List.map_cons, List.foldl_cons, List.foldl_cons, ih (fun x hx => h x (List.mem_cons_of_mem _ hx))]
    congr 1
    rw [UInt8.toNat_ofNat']
    omega

theorem isDigit_of {d : Nat} (h : d < 10) : isDigit (UInt8.ofNat (48 + d)) = true := by
  unfold isDigit
  rw [UInt8.toNat_ofNat']
  simp only [Bool.and_eq_true, decide_eq_true_eq]
  omega

theorem digits_of {s : List Byte} (h : ∀ c ∈ s, isDigit c = true) :
    ∃ ds : List Nat, s = ds.map (fun d => UInt8.ofNat (48 + d)) ∧ ∀ d ∈ ds, d < 10 := by
  induction s with
  | nil => exact ⟨[], rfl, by simp⟩
  | cons c s ih =>
    obtain ⟨ds, h1, h2⟩ := ih (fun x hx => h x (List.mem_cons_of_mem _ hx))
    have hc := h c (List.mem_cons_self ..)
    unfold isDigit at hc
    simp only [Bool.and_eq_true, decide_eq_true_eq] at hc
    refine ⟨(c.toNat - 48) :: ds, ?_, ?_⟩
    · rw [List.map_cons, ← h1]
      congr 1
      apply UInt8.toNat_inj.mp
      rw [UInt8.toNat_ofNat']
      omega
    · intro d hd
      rcases List.mem_cons.mp hd with rfl | hd
      · omega
      · exact h2 d hd

/-- Text up to a null character. -/
theorem takeWhile_self {s : List Byte} (h : 0 ∉ s) : s.takeWhile (· != 0) = s := by
  induction s with
  | nil => rfl
  | cons c s ih =>
    have hc : c ≠ 0 := fun e => h (e ▸ List.mem_cons_self ..)
    rw [List.takeWhile_cons, if_pos (by simpa using hc), ih (fun e => h (List.mem_cons_of_mem _ e))]

theorem takeWhile_nul {s : List Byte} (h : 0 ∉ s) (t : List Byte) : (s ++ 0 :: t).takeWhile (· != 0) = s := by
  induction s with
  | nil => rfl
  | cons c s ih =>
    have hc : c ≠ 0 := fun e => h (e ▸ List.mem_cons_self ..)
    rw [List.cons_append, List.takeWhile_cons, if_pos (by simpa using hc), ih (fun e => h (List.mem_cons_of_mem _ e))]

theorem span_digits (ds : List Byte) (h : ∀ c ∈ ds, isDigit c = true) (name : List Byte) :
    (ds ++ 47 :: name).takeWhile isDigit = ds ∧ (ds ++ 47 :: name).dropWhile isDigit = 47 :: name := by
  induction ds with
  | nil => exact ⟨rfl, rfl⟩
  | cons c ds ih =>
    have hc := h c (List.mem_cons_self ..)
    obtain ⟨h1, h2⟩ := ih (fun x hx => h x (List.mem_cons_of_mem _ hx))
    rw [List.cons_append, List.takeWhile_cons, List.dropWhile_cons, if_pos hc, if_pos hc, h1, h2]
    exact ⟨rfl, rfl⟩

theorem tcp_letters : ∀ d ∈ Proto.tcp.name, 97 ≤ d.toNat ∧ d.toNat ≤ 122 := by decide
theorem udp_letters : ∀ d ∈ Proto.udp.name, 97 ≤ d.toNat ∧ d.toNat ≤ 122 := by decide
theorem icmp_letters : ∀ d ∈ Proto.icmp.name, 97 ≤ d.toNat ∧ d.toNat ≤ 122 := by decide

/-- The names are different from each other in all spellings. -/
theorem caseEq_unique {t : List Byte} :
    (caseEq t sTcp = true → caseEq t sUdp = false ∧ caseEq t sIcmp = false) ∧ (caseEq t sUdp = true → caseEq t sTcp = false ∧ caseEq t sIcmp = false) ∧
    (caseEq t sIcmp = true → caseEq t sTcp = false ∧ caseEq t sUdp = false) := by
  unfold caseEq
  refine ⟨?_, ?_, ?_⟩ <;> (intro h; rw [beq_iff_eq] at h; rw [h]; decide)

/-- Which protocol a text stands for. -/
def protoOf (t : List Byte) : Option Proto := if caseEq t sTcp then some Proto.tcp else if caseEq t sUdp then some Proto.udp
      else if caseEq t sIcmp then some Proto.icmp else none

theorem protoOf_iff (name : List Byte) (p : Proto) : protoOf (47 :: name) = some p ↔
    p ≠ .undef ∧ name.length = p.name.length ∧ ∀ cd ∈ name.zip p.name, SameLetter cd.1 cd.2 := by
  have u := caseEq_unique (t := 47 :: name)
  have t1 := caseEq_iff Proto.tcp.name name tcp_letters
  have t2 := caseEq_iff Proto.udp.name name udp_letters
  have t3 := caseEq_iff Proto.icmp.name name icmp_letters
  change caseEq (47 :: name) sTcp = true ↔ _ at t1
  change caseEq (47 :: name) sUdp = true ↔ _ at t2
  change caseEq (47 :: name) sIcmp = true ↔ _ at t3
  unfold protoOf
  cases p with
  | undef =>
    constructor
    · intro h
      split at h
      · cases h
      · split at h
        · cases h
        · split at h <;> cases h
    · intro h; exact absurd rfl h.1
  | tcp =>
    rw [← t1]
    constructor
    · intro h
      split at h
      · next h' => exact ⟨by decide, h'⟩
      · split at h
        · cases h
        · split at h <;> cases h
    · intro h; rw [if_pos h.2]
  | udp =>
    rw [← t2]
    constructor
    · intro h
      split at h
      · cases h
      · split at h
        · next h' => exact ⟨by decide, h'⟩
        · split at h <;> cases h
    · intro h
      rw [(u.2.1 h.2).1, if_neg (by decide), if_pos h.2]
  | icmp =>
    rw [← t3]
    constructor
    · intro h
      split at h
      · cases h
      · split at h
        · cases h
        · split at h
          · next h' => exact ⟨by decide, h'⟩
          · cases h
    · intro h
      rw [(u.2.2 h.2).1, (u.2.2 h.2).2, if_neg (by decide), if_neg (by decide), if_pos h.2]

theorem protoOf_slash {t : List Byte} {p : Proto} (h : protoOf t = some p) : t.length ≥ 4 := by
  have len : ∀ lit : List Byte, caseEq t lit = true → t.length = lit.length := by
    intro lit h
    unfold caseEq at h
    rw [beq_iff_eq] at h
    have := congrArg List.length h
    simpa using this
  unfold protoOf at h
  split at h
  · next h' => rw [len _ h']; decide
  · split at h
    · next h' => rw [len _ h']; decide
    · split at h
      · next h' => rw [len _ h']; decide
      · cases h

/-- C35: exactly the texts of ports with a number up to 65535 are accepted (in any case of letters and with any number of leading
    zeros), and they give that port. -/
theorem C35_parse {s : List Byte} (h0 : 0 ∉ s) (p : Port) :
    Port.parse s = .ok p ↔ ∃ n, PortText s n p.proto ∧ n ≤ 65535 ∧ p.port.toNat = n := by
  constructor
  · intro h
    unfold Port.parse at h
    rw [takeWhile_self h0] at h
    dsimp only at h
    split at h
    · cases h
    · next hc =>
      simp only [not_or, Decidable.not_not] at hc
      obtain ⟨c1, c2, c3, c4⟩ := hc
      have hs : s = s.takeWhile isDigit ++ s.dropWhile isDigit := (List.takeWhile_append_dropWhile).symm
      have hall : ∀ c ∈ s.takeWhile isDigit, isDigit c = true := by
        intro c hc
        have := List.all_takeWhile (p := isDigit) (l := s)
        rw [List.all_eq_true] at this
        exact this c hc
      change (match protoOf (s.dropWhile isDigit) with
        | none => Res.throw .runtimeError
        | some p => match stoi s with
          | none => Res.throw .runtimeError
          | some n => if n > 65535 then Res.throw .runtimeError else Res.ok (⟨BitVec.ofNat 16 n, p⟩ : Port)) = _ at h
      generalize hr : s.dropWhile isDigit = r at *
      generalize hd : s.takeWhile isDigit = d at *
      obtain ⟨name, rfl⟩ : ∃ name, r = 47 :: name := by
        cases r with
        | nil => exact absurd rfl c2
        | cons x r => cases c4; exact ⟨r, rfl⟩
      split at h
      · cases h
      · next q hq =>
        unfold stoi at h
        rw [hd] at h
        dsimp only at h
        split at h
        · cases h
        · next n hn =>
          split at hn
          · cases hn
            split at h
            · cases h
            · next hle =>
              cases h
              obtain ⟨ds, e1, e2⟩ := digits_of hall
              refine ⟨_, ⟨((protoOf_iff name q).mp hq).1, d, name, ⟨ds, ?_, e1, e2, rfl⟩, hs, ((protoOf_iff name q).mp hq).2⟩, ?_, ?_⟩
              · intro e
                rw [e] at hs
                rw [hs] at c1
                exact c1 rfl
              · rw [e1, foldl_digits ds e2] at hle
                unfold digitsValue
                omega
              · have hle : ¬ d.foldl (fun n c => n * 10 + (c.toNat - 48)) 0 > 65535 := hle
                show (BitVec.ofNat 16 _).toNat = _
                rw [BitVec.toNat_ofNat, Nat.mod_eq_of_lt (by omega), e1, foldl_digits ds e2]
                rfl
          · cases hn
  · rintro ⟨n, ⟨hp, d, name, ⟨ds, hne, e1, e2, e3⟩, rfl, hl, hz⟩, hn, hpn⟩
    have hall : ∀ c ∈ d, isDigit c = true := by
      rw [e1]
      intro c hc
      obtain ⟨x, hx, rfl⟩ := List.mem_map.mp hc
      exact isDigit_of (e2 x hx)
    obtain ⟨s1, s2⟩ := span_digits d hall name
    have hq := (protoOf_iff name p.proto).mpr ⟨hp, hl, hz⟩
    have h4 := protoOf_slash hq
    unfold Port.parse
    rw [takeWhile_self h0]
    dsimp only
    rw [s2]
    rw [if_neg (by
      rintro (h | h | h | h)
      · rw [List.length_append] at h
        cases d with
        | nil => exact hne rfl
        | cons => simp at h
      · cases h
      · omega
      · exact h rfl)]
    show (match protoOf (47 :: name) with
        | none => Res.throw .runtimeError
        | some p => match stoi (d ++ 47 :: name) with
          | none => Res.throw .runtimeError
          | some n => if n > 65535 then Res.throw .runtimeError else Res.ok (⟨BitVec.ofNat 16 n, p⟩ : Port)) = _
    rw [hq]
    dsimp only
    have hst : stoi (d ++ 47 :: name) = some n := by
      unfold stoi
      rw [s1, e1, foldl_digits ds e2]
      show (if digitsValue 10 ds < 2 ^ 31 then some (digitsValue 10 ds) else none) = _
      rw [← e3, if_pos (by omega)]
    rw [hst]
    dsimp only
    rw [if_neg (by omega)]
    congr 1
    rcases p with ⟨pp, pr⟩
    congr 1
    apply BitVec.eq_of_toNat_eq
    rw [BitVec.toNat_ofNat, Nat.mod_eq_of_lt (by omega)]
    exact hpn.symm

/-- C35: everything else is rejected with an error. -/
theorem C35_reject (s : List Byte) : (∃ p, Port.parse s = .ok p) ∨ Port.parse s = .throw .runtimeError := by
  unfold Port.parse
  dsimp only
  split
  · exact Or.inr rfl
  · split
    · exact Or.inr rfl
    · split
      · exact Or.inr rfl
      · split
        · exact Or.inr rfl
        · exact Or.inl ⟨_, rfl⟩

theorem decimal_spec (n : Nat) : Decimal (decimal n) n := by
  induction n using Nat.strongRecOn with
  | ind n ih =>
    unfold decimal
    split
    · next h => exact ⟨[n], by simp, rfl, by simpa using h, by simp [digitsValue]⟩
    · next h =>
      obtain ⟨ds, h1, h2, h3, h4⟩ := ih (n / 10) (by omega)
      refine ⟨ds ++ [n % 10], by simp, by rw [List.map_append, ← h2]; rfl, ?_, ?_⟩
      · intro d hd
        rcases List.mem_append.mp hd with hd | hd
        · exact h3 d hd
        · rw [List.mem_singleton] at hd; omega
      · unfold digitsValue at *
        rw [List.foldl_append, ← h4]
        show n = n / 10 * 10 + n % 10
        omega

theorem sameLetter_refl (l : List Byte) : ∀ cd ∈ l.zip l, SameLetter cd.1 cd.2 := by
  induction l with
  | nil => simp
  | cons c l ih =>
    intro cd h
    rw [List.zip_cons_cons] at h
    rcases List.mem_cons.mp h with rfl | h
    · exact Or.inl rfl
    · exact ih cd h

/-- C35: the text of a port gives that port again. -/
theorem C35_round_trip {p : Port} (hp : p.proto ≠ .undef) : Port.parse p.print = .ok p := by
  have hprint : p.print = decimal p.port.toNat ++ 47 :: p.proto.name := by
    unfold Port.print
    cases hc : p.proto with
    | undef => exact absurd hc hp
    | tcp => rfl
    | udp => rfl
    | icmp => rfl
  have hd := decimal_spec p.port.toNat
  have h0 : 0 ∉ p.print := by
    rw [hprint]
    obtain ⟨ds, _, h2, h3, _⟩ := hd
    intro h
    rcases List.mem_append.mp h with h | h
    · rw [h2] at h
      obtain ⟨x, hx, e⟩ := List.mem_map.mp h
      have h10 := h3 x hx
      have := congrArg UInt8.toNat e
      rw [UInt8.toNat_ofNat'] at this
      have : (48 + x) % 2 ^ 8 = 0 := this
      omega
    · revert h
      cases p.proto <;> decide
  rw [C35_parse h0]
  have := p.port.isLt
  exact ⟨_, ⟨hp, _, _, hd, hprint, rfl, sameLetter_refl _⟩, by omega, rfl⟩

/-- C35: different ports have different texts. -/
theorem C35_injective {p q : Port} (hp : p.proto ≠ .undef) (hq : q.proto ≠ .undef) (h : p.print = q.print) : p = q := by
  have h1 := C35_round_trip hp
  rw [h, C35_round_trip hq] at h1
  cases h1
  rfl

/-- C35: text after a null character is ignored. -/
theorem C35_nul {s : List Byte} (h0 : 0 ∉ s) (t : List Byte) : Port.parse (s ++ 0 :: t) = Port.parse s := by
  unfold Port.parse
  rw [takeWhile_nul h0, takeWhile_self h0]

/-- C35: the claim does not hold for text with a null character: "80/tcp\0x" is accepted. -/
theorem C35_fails_nul : ∃ p, Port.parse [56, 48, 47, 116, 99, 112, 0, 120] = .ok p ∧ p = ⟨80, .tcp⟩ := ⟨_, rfl, rfl⟩

/-- C35 does not hold for ports without a protocol: their text is not the text of a port. -/
theorem C35_fails_undef : Port.parse (Port.print ⟨80, .undef⟩) = .throw .runtimeError := by
  have : Port.print ⟨80, .undef⟩ = [56, 48, 47, 60, 117, 110, 107, 110, 111, 119, 110, 62] := by
    simp [Port.print, decimal, sUnknown]
  rw [this]
  decide

/-- C35: `==` and `<` on ports are a total order by number and then protocol. -/
theorem C35_order (p q : Port) : (p.eq q = true ↔ p = q) ∧
    (p.lt q = true ↔ p.port.toNat < q.port.toNat ∨ (p.port = q.port ∧ p.proto.value < q.proto.value)) := by
  constructor
  · unfold Port.eq
    rw [Bool.and_eq_true, beq_iff_eq, beq_iff_eq]
    constructor
    · rintro ⟨h1, h2⟩
      rcases p with ⟨a, b⟩
      rcases q with ⟨c, d⟩
      have : b = d := by cases b <;> cases d <;> first | rfl | cases h2
      cases h1; cases this; rfl
    · rintro rfl; exact ⟨rfl, rfl⟩
  · unfold Port.lt
    simp only [Bool.or_eq_true, Bool.and_eq_true, Bool.not_eq_true', decide_eq_true_eq, decide_eq_false_iff_not, BitVec.lt_def]
    constructor
    · rintro (h | ⟨h, g⟩)
      · exact Or.inl h
      · by_cases e : p.port.toNat < q.port.toNat
        · exact Or.inl e
        · exact Or.inr ⟨BitVec.eq_of_toNat_eq (by omega), g⟩
    · rintro (h | ⟨h, g⟩)
      · exact Or.inl h
      · exact Or.inr ⟨by rw [h]; omega, g⟩

example : Port.parse [48, 52, 52, 51, 47, 85, 100, 80] = .ok ⟨443, .udp⟩ := by decide
example : (0 : Byte) ∉ ([48, 52, 52, 51, 47, 85, 100, 80] : List Byte) := by decide

end Verif.Net
