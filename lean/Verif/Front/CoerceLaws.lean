import Verif.Front.CoerceMain
/-!
# What conversions do, and which there are
-/

namespace Verif.Front.Coerce

/-! ## An expression has one value -/

mutual
theorem Ev.det : ∀ {e : E} {v w : V}, Ev e v → Ev e w → v = w
  | _, _, _, .dyn, .dyn => rfl
  | _, _, _, .ctor a, .ctor b => a.det b
  | _, _, _, .name a, .name b => a.det b
  | _, _, _, .coerced a ga, .coerced b gb => by
    have := a.det b
    subst this
    rw [ga] at gb; injection gb
theorem EvC.det : ∀ {c : C} {v w : V}, EvC c v → EvC c w → v = w
  | _, _, _, .bool, .bool => rfl
  | _, _, _, .real, .real => rfl
  | _, _, _, .str, .str => rfl
  | _, _, _, .err, .err => rfl
  | _, _, _, .null, .null => rfl
  | _, _, _, .int, .int => rfl
  | _, _, _, .enum, .enum => rfl
  | _, _, _, .unset, .unset => rfl
  | _, _, _, .tnil, .tnil => rfl
  | _, _, _, .tcons a b, .tcons a' b' => by rw [a.det a', b.det b']
  | _, _, _, .list a, .list b => by rw [a.det b]
  | _, _, _, .vector a, .vector b => by rw [a.det b]
  | _, _, _, .set a, .set b => by rw [a.det b]
  | _, _, _, .map a, .map b => by rw [a.det b]
  | _, _, _, .coerced a, .coerced b => a.det b
theorem EvL.det : ∀ {c : List E} {v w : List V}, EvL c v → EvL c w → v = w
  | _, _, _, .nil, .nil => rfl
  | _, _, _, .cons a b, .cons a' b' => by rw [a.det a', b.det b']
theorem EvM.det : ∀ {c : List (E × E)} {v w : List (V × V)}, EvM c v → EvM c w → v = w
  | _, _, _, .nil, .nil => rfl
  | _, _, _, .cons a b c, .cons a' b' c' => by rw [a.det a', b.det b', c.det c']
end

/-- **Implicit conversions keep values.** Where an expression is converted to a type, both the expression and what replaces it have
exactly one value, and the new one is a value of the type that agrees with the old one. This holds for types whose optionals and results do not
directly contain others, and if casting a `double` of 2^63 to `int64_t` does not give a number that itself rounds to 2^63. -/
theorem conversions_keep_values (wild : Int) (hw : toDouble wild < 2 ^ 63) (n : Nat) (st : Style) (e e' : E) (dst : Ty)
    (hr : st.Real) (hp : Plain dst) (ht : Wt e) (h : coerceExpr wild n st e dst = some e') :
    ∃ v v', (∀ x, Ev e x ↔ x = v) ∧ (∀ x, Ev e' x ↔ x = v') ∧ HasType e.ty v ∧ HasType dst v' ∧ Agree st.contextual e.ty dst v v' := by
  obtain ⟨⟨v, hv⟩, h2⟩ := ht.value
  obtain ⟨v', a, b, c⟩ := ((coerce_good wild hw n).1 st e e' dst hr hp ht h).2 v hv
  exact ⟨v, v', fun x => ⟨fun hx => hx.det hv, fun hx => hx ▸ hv⟩, fun x => ⟨fun hx => hx.det a, fun hx => hx ▸ a⟩, h2 v hv, b, c⟩

/-- The converted expression is of the type, up to the widths of integers (of a constant converted to 64 bits, which keeps its own). -/
theorem converted_type_partial (wild : Int) (hw : toDouble wild < 2 ^ 63) (n : Nat) (st : Style) (e e' : E) (dst : Ty)
    (hr : st.Real) (hp : Plain dst) (ht : Wt e) (h : coerceExpr wild n st e dst = some e') : Near e'.ty dst :=
  ((coerce_good wild hw n).1 st e e' dst hr hp ht h).1

/-- Nothing but a boolean becomes a boolean, except in conditions. -/
theorem only_bool_outside_conditions (wild : Int) (hw : toDouble wild < 2 ^ 63) (n : Nat) (st : Style) (e e' : E)
    (hc : st.contextual = false) (ht : Wt e) (h : coerceExpr wild n st e .bool = some e') : e.ty = .bool := by
  obtain ⟨v, v', _, _, _, _, a⟩ := conversions_keep_values wild hw n st e e' .bool (by intro h'; rw [hc] at h'; cases h') trivial ht h
  rcases a with ⟨a, _⟩ | ⟨a, _⟩
  · exact a
  · rw [hc] at a; cases a

/-! ## Which conversions there are -/

/-- An integer type is converted to another one exactly if it can hold all the values. -/
theorem int_types_iff (st : Style) (s s' : Bool) (w w' : Nat) (hw : 1 ≤ w) (hw' : 1 ≤ w') :
    typeOk st (.int s w) (.int s' w') = true ↔ ∀ i, fits s w i = true → fits s' w' i = true := by
  constructor
  · intro h i hf
    obtain ⟨v', g, ⟨j, hj, t⟩, a⟩ := (gen_ok (.int s' w')).1 ⟨false, false, false, false, false⟩ (.int s w) (.num i) (by intro h; cases h) trivial
      (by unfold typeOk at h ⊢; exact h) ⟨i, rfl, hf⟩
    rcases a with ⟨_, a⟩ | ⟨a, _⟩
    · rw [← a] at hj; injection hj with hj; subst hj; exact t
    · cases a
  · intro h
    unfold typeOk
    split
    · rfl
    · dsimp only
      have e1 : (2 : Int) ^ w = 2 ^ (w - 1) + 2 ^ (w - 1) := by
        conv => lhs; rw [show w = (w - 1) + 1 by omega, Int.pow_succ]
        omega
      have p := pow_pos' (w - 1)
      have p' := pow_pos' (w' - 1)
      have q' := pow_pos' w'
      cases s <;> cases s' <;> simp only [Bool.false_eq_true, if_false, if_true, Bool.true_and, Bool.false_and, decide_eq_true_eq]
      · have := h (2 ^ w - 1) (by rw [fits_false]; omega)
        rw [fits_false] at this
        apply Classical.byContradiction
        intro hn
        have := pow_le_pow (w' + 1) w (by omega)
        rw [Int.pow_succ] at this
        omega
      · have := h (2 ^ w - 1) (by rw [fits_false]; omega)
        rw [fits_true] at this
        apply Classical.byContradiction
        intro hn
        have := pow_le_pow (w' - 1) (w - 1) (by omega)
        omega
      · have := h (-1) (by rw [fits_true]; omega)
        rw [fits_false] at this
        omega
      · have := h (-2 ^ (w - 1)) (by rw [fits_true]; omega)
        rw [fits_true] at this
        apply Classical.byContradiction
        intro hn
        have := pow_le_pow ((w' - 1) + 1) (w - 1) (by omega)
        rw [Int.pow_succ] at this
        omega

/-- An integer expression is accepted for an integer type exactly if the type can hold all the values. -/
theorem int_expression_iff (wild : Int) (n : Nat) (s s' : Bool) (w w' : Nat) (v : V) (hw : 1 ≤ w) (hw' : 1 ≤ w') :
    (∃ e', coerceExpr wild (n + 1) forAssignment (.dyn (.int s w) v) (.int s' w') = some e') ↔
      ∀ i, fits s w i = true → fits s' w' i = true := by
  rw [← int_types_iff forAssignment s s' w w' hw hw']
  have e1 : coerceExpr wild (n + 1) forAssignment (.dyn (.int s w) v) (.int s' w') =
      if (Ty.int s w) = .int s' w' then some (.dyn (.int s w) v)
      else if typeOk forAssignment (.int s w) (.int s' w') then some (.coerced (.dyn (.int s w) v) (.int s' w')) else none := by
    unfold coerceExpr
    by_cases hc : (Ty.int s w) = .int s' w'
    · rw [if_pos (by simp [forAssignment, E.ty, hc]), if_pos hc]
    · rw [if_neg (by simp only [E.ty, hc]; simp), if_neg hc]; rfl
  rw [e1]
  constructor
  · rintro ⟨e', h⟩
    split at h
    · rename_i hc; rw [hc]; exact typeOk_eq _ _
    · split at h
      · assumption
      · cases h
  · intro h
    split
    · exact ⟨_, rfl⟩
    · exact ⟨_, rfl⟩

/-- An integer constant is accepted for an integer type exactly if the type can hold it. -/
theorem int_constant_iff (wild : Int) (hwild : toDouble wild < 2 ^ 63) (n : Nat) (s s' : Bool) (w w' : Nat) (i : Int) (hw : w ≤ 64) (hw' : w' ≤ 64)
    (hf : fits s w i = true) :
    (∃ e', coerceExpr wild (n + 2) forAssignment (.ctor (.int s w i)) (.int s' w') = some e') ↔ fits s' w' i = true := by
  constructor
  · rintro ⟨e', h⟩
    obtain ⟨v, v', a, b, c, ⟨j, hj, t⟩, ag⟩ := conversions_keep_values wild hwild (n + 2) forAssignment _ e' (.int s' w') (by intro h; cases h) trivial
      (.ctor (.int hw hf)) h
    have := (a (.num i)).1 (.ctor .int)
    subst this
    rcases ag with ⟨_, ag⟩ | ⟨ag, _⟩
    · rw [← ag] at hj; injection hj with hj; subst hj; exact t
    · cases ag
  · intro hf'
    have key : (∃ c', coerceCtor wild (n + 1) forAssignment (.int s w i) (.int s' w') = some c') := by
      unfold coerceCtor
      split
      · exact ⟨_, rfl⟩
      · cases s <;> cases s' <;> dsimp only
        · split
          · exact ⟨_, rfl⟩
          · exact ⟨_, rfl⟩
        · rw [if_pos]
          · exact ⟨_, rfl⟩
          · refine ⟨?_, hf'⟩
            rw [fits_true] at hf'
            have := pow_le_pow (w' - 1) 63 (by omega)
            omega
        · rw [if_pos]
          · exact ⟨_, rfl⟩
          · exact ⟨by rw [fits_false] at hf'; exact hf'.1, hf'⟩
        · split
          · exact ⟨_, rfl⟩
          · exact ⟨_, rfl⟩
    obtain ⟨c', hc⟩ := key
    unfold coerceExpr
    split
    · exact ⟨_, rfl⟩
    · dsimp only [forAssignment, E.const?]
      dsimp only [forAssignment] at hc
      rw [hc]
      exact ⟨_, rfl⟩

/-- A real constant is accepted for an integer type exactly if it is a whole number that the type can hold. -/
theorem real_constant_iff (wild : Int) (hwild : toDouble wild < 2 ^ 63) (n : Nat) (s' : Bool) (w' : Nat) (d : Dbl) (hw' : w' ≤ 64) :
    (∃ e', coerceExpr wild (n + 2) forAssignment (.ctor (.real d)) (.int s' w') = some e') ↔
      ∃ i m k, d = .fin m k ∧ m = i * 2 ^ k ∧ fits s' w' i = true := by
  constructor
  · rintro ⟨e', h⟩
    obtain ⟨v, v', a, b, c, ⟨j, hj, t⟩, ag⟩ := conversions_keep_values wild hwild (n + 2) forAssignment _ e' (.int s' w') (by intro h; cases h) trivial
      (.ctor .real) h
    have := (a (.real d)).1 (.ctor .real)
    subst this
    rcases ag with ⟨ag, _⟩ | ⟨_, i, m, k, h1, h2, h3⟩
    · cases ag
    · injection h1 with h1
      rw [hj] at h2; injection h2 with h2; subst h2
      exact ⟨j, m, k, h1, h3, t⟩
  · rintro ⟨i, m, k, rfl, rfl, hf⟩
    have e1 : i * 2 ^ k % 2 ^ k = 0 := Int.mul_emod_left i (2 ^ k)
    have e2 : i * 2 ^ k / 2 ^ k = i := Int.mul_ediv_cancel i (by have := pow_pos' k; omega)
    have r : ∀ w, fits s' w i = true → isRepresentable s' w (.fin (i * 2 ^ k) k) = true := by
      intro w hf
      show (decide (i * 2 ^ k % 2 ^ k = 0) && fits s' w (i * 2 ^ k / 2 ^ k)) = true
      rw [e1, e2, hf]; simp
    have hc : coerceCtor wild (n + 1) forAssignment (.real (.fin (i * 2 ^ k) k)) (.int s' w') = some (.int s' w' i) := by
      unfold coerceCtor
      rw [if_neg (by simp [C.ty])]
      dsimp only
      rw [r _ hf, r 64 (fits_mono _ _ _ _ hw' hf), e2]
      rfl
    unfold coerceExpr
    rw [if_neg (by simp [E.ty, C.ty])]
    dsimp only [forAssignment, E.const?]
    dsimp only [forAssignment] at hc
    rw [hc]
    exact ⟨_, rfl⟩

/-! ## Numbers a `double` can hold -/

theorem log2_bounds (n : Nat) (h : n ≠ 0) : 2 ^ Nat.log2 n ≤ n ∧ n < 2 ^ (Nat.log2 n + 1) :=
  ⟨Nat.log2_self_le h, Nat.lt_log2_self⟩

/-- Rounding keeps exactly the numbers with 53 significant bits. -/
theorem toDouble_exact (i : Int) : toDouble i = i ↔ ∃ (m : Int) (k : Nat), m.natAbs < 2 ^ 53 ∧ i = m * 2 ^ k := by
  unfold toDouble
  dsimp only
  split
  · rename_i h
    exact ⟨fun _ => ⟨i, 0, h, by simp⟩, fun _ => rfl⟩
  · rename_i h
    generalize hn : i.natAbs = n at *
    generalize hs : n.log2 - 52 = s
    have hn0 : n ≠ 0 := by omega
    obtain ⟨l1, l2⟩ := log2_bounds n hn0
    have hl : 53 ≤ n.log2 := by
      apply Classical.byContradiction
      intro hc
      have : 2 ^ (n.log2 + 1) ≤ 2 ^ 53 := Nat.pow_le_pow_right (by omega) (by omega)
      omega
    have hlog : n.log2 = s + 52 := by omega
    have hsp : 0 < 2 ^ s := Nat.pow_pos (by omega)
    have hdiv := Nat.div_add_mod n (2 ^ s)
    have hmod := Nat.mod_lt n hsp
    have hi : i = n ∨ i = -(n : Int) := by omega
    have A : (∃ (m : Int) (k : Nat), m.natAbs < 2 ^ 53 ∧ i = m * 2 ^ k) ↔ n % 2 ^ s = 0 := by
      constructor
      · rintro ⟨m, k, hm, hmk⟩
        have hnm : n = m.natAbs * 2 ^ k := by rw [← hn, hmk, Int.natAbs_mul, Int.natAbs_pow]; rfl
        have hks : s ≤ k := by
          apply Classical.byContradiction
          intro hc
          have h1 : 2 ^ (53 + k) ≤ 2 ^ (s + 52) := Nat.pow_le_pow_right (by omega) (by omega)
          have h2 : m.natAbs * 2 ^ k < 2 ^ 53 * 2 ^ k := Nat.mul_lt_mul_of_pos_right hm (Nat.pow_pos (by omega))
          rw [← Nat.pow_add] at h2
          rw [hlog] at l1
          omega
        apply Nat.mod_eq_zero_of_dvd
        rw [hnm]
        exact Nat.dvd_trans (Nat.pow_dvd_pow 2 hks) (Nat.dvd_mul_left _ _)
      · intro h0
        have hq : n = n / 2 ^ s * 2 ^ s := by rw [Nat.mul_comm]; omega
        have hq53 : n / 2 ^ s < 2 ^ 53 := by
          rw [Nat.div_lt_iff_lt_mul hsp, ← Nat.pow_add]
          rw [hlog] at l2
          rwa [show 53 + s = s + 52 + 1 by omega]
        rcases hi with hi | hi
        · refine ⟨((n / 2 ^ s : Nat) : Int), s, by rw [Int.natAbs_natCast]; exact hq53, ?_⟩
          rw [hi]; exact_mod_cast hq
        · refine ⟨-((n / 2 ^ s : Nat) : Int), s, by rw [Int.natAbs_neg, Int.natAbs_natCast]; exact hq53, ?_⟩
          rw [hi, Int.neg_mul]
          congr 1
          exact_mod_cast hq
    rw [A]
    have key : ∀ q', (q' = n / 2 ^ s ∨ q' = n / 2 ^ s + 1) → (q' * 2 ^ s = n → n % 2 ^ s = 0) := by
      rintro q' (rfl | rfl) h1
      · rw [Nat.mul_comm] at h1; omega
      · rw [Nat.add_mul, Nat.mul_comm (n / 2 ^ s)] at h1; omega
    have hval : ∀ q' : Nat, (if i < 0 then -((q' * 2 ^ s : Nat) : Int) else ((q' * 2 ^ s : Nat) : Int)) = i ↔ q' * 2 ^ s = n := by
      intro q'
      generalize q' * 2 ^ s = z
      clear A key hdiv hmod
      split <;> omega
    rw [hval]
    constructor
    · apply key
      split
      · exact .inr rfl
      · exact .inl rfl
    · intro h0
      rw [h0, if_neg (by omega), Nat.mul_comm]
      omega

/-- An integer constant is accepted for a real exactly if a `double` holds it, except that -2^63 is not. -/
theorem int_to_real_iff (wild : Int) (hwild : toDouble wild < 2 ^ 63) (n : Nat) (s : Bool) (w : Nat) (i : Int) (hw : w ≤ 64)
    (hf : fits s w i = true) :
    (∃ e', coerceExpr wild (n + 2) forAssignment (.ctor (.int s w i)) .real = some e') ↔
      (∃ (m : Int) (k : Nat), m.natAbs < 2 ^ 53 ∧ i = m * 2 ^ k) ∧ i ≠ -2 ^ 63 := by
  rw [← toDouble_exact]
  have e1 : coerceExpr wild (n + 2) forAssignment (.ctor (.int s w i)) .real =
      (coerceCtor wild (n + 1) forAssignment (.int s w i) .real).map fun nc => .ctor (.coerced (.int s w i) nc) := by
    conv => lhs; unfold coerceExpr
    rw [if_neg (by simp [E.ty, C.ty])]
    dsimp only [forAssignment, E.const?]
    cases h : coerceCtor wild (n + 1) ⟨true, false, true, true, false⟩ (.int s w i) .real with
    | none => simp [E.ty, C.ty, typeOk]
    | some x => rfl
  rw [e1]
  have b : fits s 64 i = true := fits_mono _ _ _ _ hw hf
  cases s with
  | true =>
    rw [fits_true] at b
    have e2 : coerceCtor wild (n + 1) forAssignment (.int true w i) .real = (signedAsReal wild i).map .real := by
      unfold coerceCtor; rw [if_neg (by simp [C.ty])]
    rw [e2]
    constructor
    · rintro ⟨e', h⟩
      cases hs : signedAsReal wild i with
      | none => rw [hs] at h; cases h
      | some d =>
        have := signed_real wild i hwild d hs
        unfold signedAsReal at hs
        dsimp only at hs
        split at hs
        · rename_i hc
          injection hs with hs
          rw [this] at hs
          injection hs with hs
          exact ⟨hs, by omega⟩
        · cases hs
    · rintro ⟨h1, h2⟩
      have : signedAsReal wild i = some (.fin i 0) := by
        unfold signedAsReal castSigned
        dsimp only
        rw [h1, if_pos (by omega : i < 2 ^ 63), if_pos ⟨by omega, by omega, rfl⟩]
      rw [this]; exact ⟨_, rfl⟩
  | false =>
    rw [fits_false] at b
    have e2 : coerceCtor wild (n + 1) forAssignment (.int false w i) .real = (unsignedAsReal i).map .real := by
      unfold coerceCtor; rw [if_neg (by simp [C.ty])]
    rw [e2]
    constructor
    · rintro ⟨e', h⟩
      cases hs : unsignedAsReal i with
      | none => rw [hs] at h; cases h
      | some d =>
        unfold unsignedAsReal at hs
        dsimp only at hs
        split at hs
        · rename_i hc
          exact ⟨hc.2, by omega⟩
        · cases hs
    · rintro ⟨h1, h2⟩
      have : unsignedAsReal i = some (.fin i 0) := by
        unfold unsignedAsReal
        dsimp only
        rw [h1, if_pos ⟨by omega, rfl⟩]
      rw [this]; exact ⟨_, rfl⟩

/-! ## The bound on the depth does not matter -/

theorem allOf_congr {α β : Type} {f g : α → Option β} : ∀ (xs : List α), (∀ x ∈ xs, f x = g x) → allOf f xs = allOf g xs
  | [], _ => rfl
  | x :: xs, h => by
    unfold allOf
    rw [h x (List.mem_cons_self ..), allOf_congr xs (fun y hy => h y (List.mem_cons_of_mem _ hy))]

/-- With a larger bound than the sizes of the expression and the type nothing changes. -/
theorem coerce_enough (wild : Int) (n : Nat) :
    (∀ (m : Nat) (st : Style) (e : E) (dst : Ty), sizeOf e + sizeOf dst ≤ n → n ≤ m → coerceExpr wild n st e dst = coerceExpr wild m st e dst) ∧
    (∀ (m : Nat) (st : Style) (c : C) (dst : Ty), sizeOf c + sizeOf dst ≤ n → n ≤ m → coerceCtor wild n st c dst = coerceCtor wild m st c dst) ∧
    (∀ (m : Nat) (c : C) (dst : Ty), sizeOf c + sizeOf dst ≤ n → n ≤ m → coerceTail wild n c dst = coerceTail wild m c dst) := by
  induction n with
  | zero =>
    refine ⟨?_, ?_, ?_⟩
    · intro m st e dst h
      cases dst <;> simp at h
    · intro m st e dst h
      cases dst <;> simp at h
    · intro m e dst h
      cases dst <;> simp at h
  | succ n ih =>
    obtain ⟨ihE, ihC, ihT⟩ := ih
    refine ⟨?_, ?_, ?_⟩
    · intro m st e dst h hm
      obtain ⟨m, rfl⟩ : ∃ k, m = k + 1 := ⟨m - 1, by omega⟩
      have h1 : ∀ d, dst = .optional d ∨ dst = .result d → coerceExpr wild n st e d = coerceExpr wild m st e d := by
        intro d hd
        refine ihE m st e d ?_ (by omega)
        rcases hd with rfl | rfl <;> simp at h <;> omega
      have h2 : ∀ c, e.const? = some c → coerceCtor wild n st c dst = coerceCtor wild m st c dst := by
        intro c hc
        refine ihC m st c dst ?_ (by omega)
        cases e with
        | ctor c' => injection hc with hc; subst hc; simp at h; omega
        | name c' => injection hc with hc; subst hc; simp at h; omega
        | _ => cases hc
      unfold coerceExpr
      cases hc : e.const? with
      | none =>
        cases dst with
        | optional d => dsimp only; rw [h1 d (.inl rfl)]
        | result d => dsimp only; rw [h1 d (.inr rfl)]
        | _ => rfl
      | some c =>
        dsimp only
        rw [h2 c hc]
        cases dst with
        | optional d => dsimp only; rw [h1 d (.inl rfl)]
        | result d => dsimp only; rw [h1 d (.inr rfl)]
        | _ => rfl
    · intro m st c dst h hm
      obtain ⟨m, rfl⟩ : ∃ k, m = k + 1 := ⟨m - 1, by omega⟩
      have hl : ∀ (st : Style) (es : List E) (t : Ty), sizeOf es + sizeOf t ≤ n →
          allOf (fun e => coerceExpr wild n st e t) es = allOf (fun e => coerceExpr wild m st e t) es := by
        intro st es t h
        refine allOf_congr es fun e he => ihE m st e t ?_ (by omega)
        have := List.sizeOf_lt_of_mem he
        omega
      unfold coerceCtor
      cases c with
      | list t es =>
        cases dst <;> try rfl
        all_goals dsimp only; rw [hl]; simp at h; omega
      | vector t es =>
        cases dst <;> try rfl
        all_goals dsimp only; rw [hl]; simp at h; omega
      | set t es =>
        cases dst <;> try rfl
        all_goals dsimp only; rw [hl]; simp at h; omega
      | map k0 v0 es =>
        cases dst with
        | map k v =>
          dsimp only
          have : ∀ x ∈ es, coerceExpr wild n st x.1 k = coerceExpr wild m st x.1 k ∧ coerceExpr wild n st x.2 v = coerceExpr wild m st x.2 v := by
            intro x hx
            have h1 := List.sizeOf_lt_of_mem hx
            obtain ⟨a, b⟩ := x
            simp at h h1
            exact ⟨ihE m st _ k (by dsimp only; omega) (by omega), ihE m st _ v (by dsimp only; omega) (by omega)⟩
          rw [allOf_congr es (fun x hx => by rw [(this x hx).1, (this x hx).2])]
        | _ => rfl
      | tcons e c =>
        cases dst with
        | tcons t ts =>
          dsimp only
          simp at h
          rw [ihE m _ e t (by omega) (by omega), ihT m c ts (by omega) (by omega)]
        | _ => rfl
      | int s w i =>
        cases dst with
        | int s' w' => cases s <;> cases s' <;> rfl
        | _ => cases s <;> rfl
      | _ => cases dst <;> rfl
    · intro m c dst h hm
      obtain ⟨m, rfl⟩ : ∃ k, m = k + 1 := ⟨m - 1, by omega⟩
      unfold coerceTail
      cases c with
      | tcons e c =>
        cases dst with
        | tcons t ts =>
          dsimp only
          simp at h
          rw [ihE m _ e t (by omega) (by omega), ihT m c ts (by omega) (by omega)]
        | _ => rfl
      | _ => cases dst <;> rfl

end Verif.Front.Coerce
