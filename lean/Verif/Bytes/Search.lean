import Verif.Bytes.Split
/-!
# Words (C29), searching and stripping (C30), sub-ranges (C31)
-/

namespace Verif.Bytes

/-! ## Stripping -/

theorem ltrim_eq (f : Byte → Bool) (s : Str) : ltrim f s = s.dropWhile f := by
  unfold ltrim
  induction s with
  | nil => rfl
  | cons c s ih =>
    rw [List.findIdx?_cons, List.dropWhile_cons]
    cases hc : f c
    · simp
    · simp only [Bool.not_true, Bool.false_eq_true, if_false, if_true]
      rw [← ih]
      cases s.findIdx? (fun c => !f c) with
      | none => simp
      | some i => simp

theorem rtrim_nil (f : Byte → Bool) : rtrim f [] = [] := rfl

theorem rtrim_cons (f : Byte → Bool) (c : Byte) (s : Str) :
    rtrim f (c :: s) = if rtrim f s = [] ∧ f c = true then [] else c :: rtrim f s := by
  have e : findLast (fun c => !f c) (c :: s) = match findLast (fun c => !f c) s with
      | some i => some (i + 1)
      | none => if (!f c) = true then some 0 else none := rfl
  unfold rtrim
  rw [e]
  cases h : findLast (fun c => !f c) s with
  | some i =>
    have hs : s ≠ [] := by rintro rfl; cases h
    simp only [List.take_succ_cons]
    rw [if_neg]
    rintro ⟨h', _⟩
    obtain ⟨x, s, rfl⟩ := List.exists_cons_of_ne_nil hs
    simp at h'
  | none =>
    cases hc : f c <;> simp [hc]

/-- What is cut off on the right. -/
theorem rtrim_spec (f : Byte → Bool) (s : Str) :
    ∃ b, s = rtrim f s ++ b ∧ (∀ c ∈ b, f c = true) ∧ ∀ c, (rtrim f s).getLast? = some c → f c = false := by
  induction s with
  | nil => exact ⟨[], rfl, by simp, by simp [rtrim_nil]⟩
  | cons c s ih =>
    obtain ⟨b, h1, h2, h3⟩ := ih
    rw [rtrim_cons]
    split
    · rename_i h
      refine ⟨c :: s, rfl, ?_, by simp⟩
      intro x hx
      rcases List.mem_cons.1 hx with rfl | hx
      · exact h.2
      · rw [h.1, List.nil_append] at h1
        exact h2 x (h1 ▸ hx)
    · rename_i h
      refine ⟨b, by rw [List.cons_append, ← h1], h2, ?_⟩
      intro x hx
      by_cases hr : rtrim f s = []
      · rw [hr] at hx
        simp at hx
        subst hx
        cases hf : f c
        · rfl
        · exact absurd ⟨hr, hf⟩ h
      · rw [List.getLast?_cons_of_ne_nil hr] at hx
        exact h3 x hx

theorem ltrim_spec (f : Byte → Bool) (s : Str) :
    ∃ a, s = a ++ ltrim f s ∧ (∀ c ∈ a, f c = true) ∧ ∀ c, (ltrim f s).head? = some c → f c = false := by
  rw [ltrim_eq]
  refine ⟨s.takeWhile f, (List.takeWhile_append_dropWhile).symm, ?_, ?_⟩
  · intro c hc
    induction s with
    | nil => cases hc
    | cons x s ih =>
      rw [List.takeWhile_cons] at hc
      split at hc
      · rename_i hx
        rcases List.mem_cons.1 hc with rfl | hc
        · exact hx
        · exact ih hc
      · cases hc
  · intro c hc
    induction s with
    | nil => cases hc
    | cons x s ih =>
      rw [List.dropWhile_cons] at hc
      split at hc
      · exact ih hc
      · rename_i hx
        simp at hc
        subst hc
        simpa using hx

/-- C30: stripping removes exactly the leading and/or trailing characters of the set. -/
theorem C30_strip (f : Byte → Bool) (side : Side) (s : Str) :
    ∃ a b, s = a ++ strip f side s ++ b ∧ (∀ c ∈ a ++ b, f c = true) ∧
      (side ≠ .right → ∀ c, (strip f side s).head? = some c → f c = false) ∧
      (side ≠ .left → ∀ c, (strip f side s).getLast? = some c → f c = false) ∧
      (side = .right → a = []) ∧ (side = .left → b = []) := by
  cases side with
  | left =>
    obtain ⟨a, h1, h2, h3⟩ := ltrim_spec f s
    exact ⟨a, [], by rw [List.append_nil]; exact h1, by simpa using h2, fun _ => h3, fun h => absurd rfl h, (by intro h; cases h), fun _ => rfl⟩
  | right =>
    obtain ⟨b, h1, h2, h3⟩ := rtrim_spec f s
    exact ⟨[], b, h1, by simpa using h2, fun h => absurd rfl h, fun _ => h3, fun _ => rfl, (by intro h; cases h)⟩
  | both =>
    obtain ⟨b, h1, h2, h3⟩ := rtrim_spec f s
    obtain ⟨a, g1, g2, g3⟩ := ltrim_spec f (rtrim f s)
    refine ⟨a, b, ?_, ?_, fun _ => g3, fun _ => ?_, (by intro h; cases h), (by intro h; cases h)⟩
    · show s = a ++ ltrim f (rtrim f s) ++ b
      rw [← g1, ← h1]
    · intro c hc
      rcases List.mem_append.1 hc with hc | hc
      · exact g2 c hc
      · exact h2 c hc
    · intro c hc
      apply h3
      rw [g1]
      show (a ++ ltrim f (rtrim f s)).getLast? = some c
      have hne : ltrim f (rtrim f s) ≠ [] := by
        intro h
        have hc : (ltrim f (rtrim f s)).getLast? = some c := hc
        rw [h] at hc; cases hc
      rw [List.getLast?_append, show (ltrim f (rtrim f s)).getLast? = some c from hc]
      rfl

/-! ## Words -/

theorem findIdx_some {f : Byte → Bool} {s : Str} {p : Nat} (h : s.findIdx? f = some p) :
    ∃ c, s = s.take p ++ c :: s.drop (p + 1) ∧ f c = true ∧ ∀ x ∈ s.take p, f x = false := by
  induction s generalizing p with
  | nil => cases h
  | cons c s ih =>
    rw [List.findIdx?_cons] at h
    split at h
    · rename_i hc
      injection h with h; subst h
      exact ⟨c, rfl, hc, by simp⟩
    · rename_i hc
      cases hs : s.findIdx? f with
      | none => rw [hs] at h; cases h
      | some i =>
        rw [hs] at h
        simp at h
        subst h
        obtain ⟨x, h1, h2, h3⟩ := ih hs
        refine ⟨x, ?_, h2, ?_⟩
        · rw [List.take_succ_cons, List.drop_succ_cons, List.cons_append, ← h1]
        · intro y hy
          rw [List.take_succ_cons] at hy
          rcases List.mem_cons.1 hy with rfl | hy
          · simpa using hc
          · exact h3 y hy

theorem findIdx_none {f : Byte → Bool} {s : Str} (h : s.findIdx? f = none) : ∀ x ∈ s, f x = false := by
  intro x hx
  have := List.findIdx?_eq_none_iff.1 h x hx
  exact this

theorem Words.prefix_ws {f : Byte → Bool} {a s : Str} {ps : List Str} (ha : ∀ c ∈ a, f c = true) (h : Words f s ps) : Words f (a ++ s) ps := by
  cases h with
  | nil h =>
    refine .nil ?_
    intro c hc
    rcases List.mem_append.1 hc with hc | hc
    · exact ha c hc
    · exact h c hc
  | @cons a' w rest ps h1 h2 h3 h4 h5 =>
    have := Words.cons (a := a ++ a') (by
      intro c hc
      rcases List.mem_append.1 hc with hc | hc
      · exact ha c hc
      · exact h1 c hc) h2 h3 h4 h5
    simpa only [List.append_assoc] using this

theorem Words.suffix_ws {f : Byte → Bool} {b s : Str} {ps : List Str} (hb : ∀ c ∈ b, f c = true) (h : Words f s ps) : Words f (s ++ b) ps := by
  induction h with
  | nil h =>
    refine .nil ?_
    intro c hc
    rcases List.mem_append.1 hc with hc | hc
    · exact h c hc
    · exact hb c hc
  | @cons a' w rest ps h1 h2 h3 h4 h5 ih =>
    have := Words.cons h1 h2 h3 (rest := rest ++ b) (by
      intro c hc
      cases rest with
      | nil =>
        cases b with
        | nil => cases hc
        | cons x b => simp at hc; subst hc; exact hb _ (by simp)
      | cons x r => exact h4 c (by simpa using hc)) ih
    simpa only [List.append_assoc] using this

theorem splitWsLoop_spec (fuel : Nat) (s : Str) (hf : s.length ≤ fuel) (hh : ∀ c, s.head? = some c → isWs c = false) :
    Words isWs s (splitWsLoop fuel s) := by
  induction fuel generalizing s with
  | zero =>
    have : s = [] := List.length_eq_zero_iff.1 (by omega)
    subst this
    exact .nil (by simp)
  | succ n ih =>
    unfold splitWsLoop
    by_cases hs : s = []
    · rw [if_pos hs]; subst hs; exact .nil (by simp)
    · rw [if_neg hs]
      cases hi : s.findIdx? isWs with
      | none =>
        have := Words.cons (ws := isWs) (a := []) (w := s) (rest := []) (by simp) hs (findIdx_none hi) (by simp) (.nil (by simp))
        simpa using this
      | some p =>
        dsimp only
        obtain ⟨c, h1, h2, h3⟩ := findIdx_some hi
        obtain ⟨a, g1, g2, g3⟩ := ltrim_spec isWs (s.drop (p + 1))
        have hp : p ≠ 0 := by
          rintro rfl
          rw [List.take_zero, List.nil_append] at h1
          have := hh c (by rw [h1]; rfl)
          rw [h2] at this; cases this
        have hlen : (ltrim isWs (s.drop (p + 1))).length ≤ n := by
          have e1 := congrArg List.length g1
          rw [List.length_append, List.length_drop] at e1
          omega
        have hw := ih _ hlen g3
        have hw2 : Words isWs (c :: s.drop (p + 1)) (splitWsLoop n (ltrim isWs (s.drop (p + 1)))) := by
          have := hw.prefix_ws (a := c :: a) (by
            intro x hx
            rcases List.mem_cons.1 hx with rfl | hx
            · exact h2
            · exact g2 x hx)
          rw [List.cons_append, ← g1] at this
          exact this
        have hne : s.take p ≠ [] := by
          intro h
          have hlt : p < s.length := by
            have e := congrArg List.length h1
            rw [List.length_append, List.length_cons, List.length_take] at e
            omega
          have := congrArg List.length h
          rw [List.length_take, List.length_nil] at this
          omega
        have := Words.cons (ws := isWs) (a := []) (w := s.take p) (rest := c :: s.drop (p + 1)) (by simp) hne h3 (by simpa using h2) hw2
        rw [List.nil_append, ← h1] at this
        exact this

/-- C29: splitting at white space gives the words. -/
theorem C29_words (s : Str) : Words isWs s (splitWs s) := by
  obtain ⟨a, b, h1, h2, h3, _, _, _⟩ := C30_strip isWs .both s
  have := splitWsLoop_spec (trim isWs s).length (trim isWs s) (Nat.le_refl _) (h3 (by decide))
  have := (this.prefix_ws (a := a) (fun c hc => h2 c (by simp [hc]))).suffix_ws (b := b) (fun c hc => h2 c (by simp [hc]))
  have e : a ++ trim isWs s ++ b = s := h1.symm
  rw [e] at this
  exact this

theorem split_unique {f : Byte → Bool} {v : Bool} {a b x y : Str} (ha : ∀ c ∈ a, f c = v) (hx : ∀ c ∈ x, f c = v)
    (hb : ∀ c, b.head? = some c → f c ≠ v) (hy : ∀ c, y.head? = some c → f c ≠ v) (h : a ++ b = x ++ y) : a = x ∧ b = y := by
  induction a generalizing x with
  | nil =>
    cases x with
    | nil => exact ⟨rfl, h⟩
    | cons c x =>
      rw [List.nil_append] at h
      exact absurd (hx c (by simp)) (hb c (by rw [h]; rfl))
  | cons c a ih =>
    cases x with
    | nil =>
      rw [List.nil_append] at h
      exact absurd (ha c (by simp)) (hy c (by rw [← h]; rfl))
    | cons d x =>
      rw [List.cons_append, List.cons_append] at h
      injection h with h1 h2
      obtain ⟨g1, g2⟩ := ih (fun c hc => ha c (by simp [hc])) (fun c hc => hx c (by simp [hc])) h2
      exact ⟨by rw [h1, g1], g2⟩

/-- The words of a text are unique. -/
theorem Words.unique {f : Byte → Bool} {s : Str} {ps qs : List Str} (h : Words f s ps) (g : Words f s qs) : ps = qs := by
  induction h generalizing qs with
  | @nil s h =>
    generalize hs : s = s' at g
    cases g with
    | nil => rfl
    | @cons a w rest ps h1 h2 h3 _ _ =>
      obtain ⟨c, w', rfl⟩ := List.exists_cons_of_ne_nil h2
      have := h c (by rw [hs]; simp)
      rw [h3 c (by simp)] at this; cases this
  | @cons a w rest ps h1 h2 h3 h4 h5 ih =>
    generalize hs : a ++ w ++ rest = s' at g
    have hd : ∀ {w rest : Str}, w ≠ [] → (∀ c ∈ w, f c = false) → ∀ c, (w ++ rest).head? = some c → f c ≠ true := by
      intro w rest h2 h3 c hc
      obtain ⟨x, w', rfl⟩ := List.exists_cons_of_ne_nil h2
      simp at hc; subst hc
      rw [h3 x (by simp)]; simp
    cases g with
    | nil h =>
      obtain ⟨c, w', rfl⟩ := List.exists_cons_of_ne_nil h2
      have := h c (by rw [← hs]; simp)
      rw [h3 c (by simp)] at this; cases this
    | @cons a' w' rest' ps' g1 g2 g3 g4 g5 =>
      rw [List.append_assoc, List.append_assoc] at hs
      obtain ⟨e1, e2⟩ := split_unique h1 g1 (hd h2 h3) (hd g2 g3) hs
      obtain ⟨e3, e4⟩ := split_unique h3 g3 (fun c hc => by rw [h4 c hc]; simp) (fun c hc => by rw [g4 c hc]; simp) e2
      subst e3 e4
      rw [ih g5]

/-- C29: splitting at the first white space. -/
theorem C29_split1_ws (s : Str) :
    (∃ a c b, split1Ws s = (a, ltrim isWs b) ∧ s = a ++ c :: b ∧ isWs c = true ∧ ∀ x ∈ a, isWs x = false) ∨
    (split1Ws s = (s, []) ∧ ∀ x ∈ s, isWs x = false) := by
  unfold split1Ws
  cases h : s.findIdx? isWs with
  | none => exact .inr ⟨rfl, findIdx_none h⟩
  | some i =>
    obtain ⟨c, h1, h2, h3⟩ := findIdx_some h
    exact .inl ⟨_, c, _, rfl, h1, h2, h3⟩

/-! ## Searching -/

theorem findInner_spec (s : Str) (x : Nat) (n : Str) :
    match findInner s x n with
    | some true => n <+: s.drop x
    | some false => ¬ n <+: s.drop x ∧ ¬ s.drop x <+: n
    | none => s.drop x <+: n ∧ s.drop x ≠ n := by
  induction n generalizing x with
  | nil => exact List.nil_prefix
  | cons y ys ih =>
    unfold findInner
    cases hx : s[x]? with
    | none =>
      have : s.drop x = [] := List.drop_eq_nil_of_le (List.getElem?_eq_none_iff.1 hx)
      dsimp only
      rw [this]
      exact ⟨List.nil_prefix, by simp⟩
    | some c =>
      have hd : s.drop x = c :: s.drop (x + 1) := by
        obtain ⟨hlt, he⟩ := List.getElem?_eq_some_iff.1 hx
        rw [List.drop_eq_getElem_cons hlt, he]
      dsimp only
      rw [hd]
      by_cases hc : c ≠ y
      · rw [if_pos hc]
        constructor
        · intro h; rw [List.cons_prefix_cons] at h; exact hc h.1.symm
        · intro h; rw [List.cons_prefix_cons] at h; exact hc h.1
      · have hc : c = y := by simpa using hc
        subst hc
        rw [if_neg (by simp)]
        cases ys with
        | nil => exact ⟨s.drop (x + 1), rfl⟩
        | cons z zs =>
          dsimp only
          have := ih (x + 1)
          revert this
          cases findInner s (x + 1) (z :: zs) with
          | none =>
            intro this
            exact ⟨List.cons_prefix_cons.2 ⟨rfl, this.1⟩, by intro h; injection h with _ h; exact this.2 h⟩
          | some b =>
            cases b with
            | true => intro this; exact List.cons_prefix_cons.2 ⟨rfl, this⟩
            | false =>
              intro this
              exact ⟨fun h => this.1 (List.cons_prefix_cons.1 h).2, fun h => this.2 (List.cons_prefix_cons.1 h).2⟩

/-- Result of a search from `start`: the first position at which the needle is, or else the first position from which on all of the
    remaining data is the beginning of the needle. -/
def Found (s n : Str) (start : Nat) (r : Bool × Nat) : Prop :=
  start ≤ r.2 ∧ r.2 ≤ s.length ∧ (∀ q, start ≤ q → q < r.2 → ¬ n <+: s.drop q ∧ ¬ s.drop q <+: n) ∧
    (r.1 = true → n <+: s.drop r.2) ∧ (r.1 = false → s.drop r.2 <+: n ∧ ∀ q, start ≤ q → ¬ n <+: s.drop q)

theorem findLoop_spec (s : Str) (first : Byte) (n : Str) (fuel i : Nat) (hi : i ≤ s.length) (hf : s.length < i + fuel) :
    ∃ r, findLoop s (first :: n) first fuel i = .ok r ∧ Found s (first :: n) i r := by
  induction fuel generalizing i with
  | zero => omega
  | succ k ih =>
    unfold findLoop
    by_cases he : i = s.length
    · rw [if_pos he]
      have hd : s.drop i = [] := List.drop_eq_nil_of_le (by omega)
      refine ⟨_, rfl, Nat.le_refl _, hi, fun q h1 h2 => ?_, (by intro h; cases h), fun _ => ⟨?_, ?_⟩⟩
      · exact absurd h2 (Nat.not_lt.2 h1)
      · show s.drop i <+: _; rw [hd]; exact List.nil_prefix
      · intro q hq h
        rw [List.drop_eq_nil_of_le (by omega)] at h
        cases List.prefix_nil.1 h
    · rw [if_neg he]
      have hlt : i < s.length := by omega
      have hg : s[i]? = some s[i] := List.getElem?_eq_getElem hlt
      have hd : s.drop i = s[i] :: s.drop (i + 1) := List.drop_eq_getElem_cons hlt
      have hstep : (¬ first :: n <+: s.drop i ∧ ¬ s.drop i <+: first :: n) → ∃ r, findLoop s (first :: n) first k (i + 1) = .ok r ∧ Found s (first :: n) i r := by
        intro hno
        obtain ⟨r, h1, h2, h3, h4, h5, h6⟩ := ih (i + 1) (by omega) (by omega)
        refine ⟨r, h1, by omega, h3, ?_, h5, fun h => ⟨(h6 h).1, ?_⟩⟩
        · intro q hq hr
          rcases Nat.eq_or_lt_of_le hq with rfl | hq
          · exact hno
          · exact h4 q hq hr
        · intro q hq
          rcases Nat.eq_or_lt_of_le hq with rfl | hq
          · exact hno.1
          · exact (h6 h).2 q hq
      rw [hg]
      dsimp only
      by_cases hc : s[i] ≠ first
      · rw [if_pos hc]
        refine hstep ?_
        rw [hd]
        exact ⟨fun h => hc (List.cons_prefix_cons.1 h).1.symm, fun h => hc (List.cons_prefix_cons.1 h).1⟩
      · rw [if_neg hc]
        have hin := findInner_spec s i (first :: n)
        revert hin
        cases findInner s i (first :: n) with
        | none =>
          intro hin
          refine ⟨_, rfl, Nat.le_refl _, hi, fun q h1 h2 => absurd h2 (Nat.not_lt.2 h1), (by intro h; cases h), fun _ => ⟨hin.1, ?_⟩⟩
          intro q hq h
          have h1 := h.length_le
          have h2 := hin.1.length_le
          have h3 : (s.drop i).length ≠ (first :: n).length := fun h => hin.2 (hin.1.eq_of_length h)
          rw [List.length_drop] at h1 h2 h3
          omega
        | some b =>
          cases b with
          | true =>
            intro hin
            exact ⟨_, rfl, Nat.le_refl _, hi, fun q h1 h2 => absurd h2 (Nat.not_lt.2 h1), fun _ => hin, (by intro h; cases h)⟩
          | false => intro hin; exact hstep hin

/-- C30: searching bytes. -/
theorem C30_find (s n : Str) (start : Nat) (hs : start ≤ s.length) (hn : n ≠ []) :
    ∃ r, bytesFind s n start = .ok r ∧ Found s n start r := by
  obtain ⟨c, n, rfl⟩ := List.exists_cons_of_ne_nil hn
  exact findLoop_spec s c n _ start hs (by omega)

/-- C30: from a position beyond the end the search throws. -/
theorem C30_find_beyond (s n : Str) (start : Nat) (hs : s.length < start) (hn : n ≠ []) : bytesFind s n start = .throw .indexError := by
  obtain ⟨c, n, rfl⟩ := List.exists_cons_of_ne_nil hn
  show findLoop s (c :: n) c (s.length + 1 - start + 1) start = _
  unfold findLoop
  rw [if_neg (by omega), List.getElem?_eq_none (by omega)]

/-- C30: searching for a byte. -/
theorem C30_find_byte (s : Str) (c : Byte) (start : Nat) (hs : start ≤ s.length) :
    start ≤ bytesFindByte s c start ∧ (∀ q, start ≤ q → q < bytesFindByte s c start → s[q]? ≠ some c) ∧
    (bytesFindByte s c start = s.length ∨ s[bytesFindByte s c start]? = some c) := by
  unfold bytesFindByte
  cases h : (s.drop start).findIdx? (· == c) with
  | none =>
    refine ⟨hs, ?_, .inl rfl⟩
    intro q h1 _ hc
    have hm : c ∈ s.drop start := by
      refine List.mem_of_getElem? (i := q - start) ?_
      rw [List.getElem?_drop, show start + (q - start) = q by omega]; exact hc
    have := findIdx_none h c hm
    simp at this
  | some i =>
    dsimp only
    obtain ⟨x, h1, h2, h3⟩ := findIdx_some h
    have hx : x = c := by simpa using h2
    have hlen : ((s.drop start).take i).length = i := by
      have := congrArg List.length h1
      simp at this ⊢
      omega
    refine ⟨by omega, ?_, .inr ?_⟩
    · intro q g1 g2 hc
      have hm : c ∈ (s.drop start).take i := by
        refine List.mem_of_getElem? (i := q - start) ?_
        rw [List.getElem?_take, if_pos (by omega), List.getElem?_drop, show start + (q - start) = q by omega]; exact hc
      have := h3 c hm
      simp at this
    · rw [← List.getElem?_drop, h1, List.getElem?_append_right (by omega), hlen, Nat.sub_self, hx]
      rfl

/-- C30: prefix and suffix tests. -/
theorem C30_starts_with (s p : Str) : startsWith s p = true ↔ p <+: s := List.isPrefixOf_iff_prefix

theorem C30_ends_with (s p : Str) : endsWith s p = true ↔ p <:+ s := by
  unfold endsWith
  split
  · rename_i h
    constructor
    · intro h; cases h
    · intro h'; have := h'.length_le; omega
  · rename_i h
    rw [decide_eq_true_iff]
    exact ends_iff h

/-! ## Sub-ranges -/

/-- C31: for positions in order. -/
theorem C31_sub_partial (s : Str) {i j : Nat} (hij : i ≤ j) (hj : j < 2 ^ 64) :
    sub s i j = if i ≤ s.length then .ok ((s.drop i).take (j - i)) else .throw .outOfRange := by
  unfold sub
  by_cases h : i > s.length
  · rw [if_pos h, if_neg (by omega)]
  · rw [if_neg h, if_pos (by omega), show j + 2 ^ 64 - i = (j - i) + 2 ^ 64 by omega, Nat.add_mod_right, Nat.mod_eq_of_lt (by omega)]

/-- C31, positions not in order: everything from the first position on is returned, neither nothing nor an error. -/
theorem C31_fails_inverted (s : Str) {i j : Nat} (hij : j < i) (hi : i ≤ s.length) (hs : s.length < 2 ^ 63) : sub s i j = .ok (s.drop i) := by
  unfold sub
  rw [if_neg (by omega), Nat.mod_eq_of_lt (by omega), List.take_of_length_le]
  rw [List.length_drop]; omega

example : sub [1, 2, 3, 4] 3 1 = .ok [4] := by decide
example : bytesFind [1, 2, 1, 3, 1] [1, 3] 0 = .ok (true, 2) := by decide
example : bytesFind [1, 2, 1, 3, 1] [1, 4] 1 = .ok (false, 4) := by decide
example : splitWs [32, 97, 98, 9, 32, 99, 10] = [[97, 98], [99]] := by decide

end Verif.Bytes
