import Verif.Front.Names
import Mathlib.Data.List.Nodup
import Mathlib.Data.List.Perm.Subperm
/-!
# Names in generated code: the theorems
-/

namespace Verif.Front.Names

/-! ## C++ identifiers -/

theorem userId_iff (id : Text) : UserId id ↔ (match id with | [] => false | c :: cs => !isDigit c && (c :: cs).all isIdent) = true := by
  unfold UserId
  cases id with
  | nil => simp
  | cons c cs =>
    constructor
    · rintro ⟨c', cs', e, h1, h2⟩
      injection e with e1 e2
      subst e1; subst e2
      show (!isDigit c && (c :: cs).all isIdent) = true
      rw [h1, h2]; rfl
    · intro h
      simp only [Bool.and_eq_true, Bool.not_eq_true'] at h
      exact ⟨c, cs, rfl, h.1, h.2⟩

instance (id : Text) : Decidable (UserId id) := decidable_of_iff _ (userId_iff id).symm

/-- What can be said about the keywords, one by one. -/
theorem reserved_facts : ∀ k ∈ reserved, UserId (k ++ ['_']) ∧ (k ++ ['_']) ∉ cxxKeywords ∧ cxxReserved (k ++ ['_']) = false ∧
    (k ++ ['_']) ∉ reserved ∧ k.head? ≠ some '_' ∧ (k ++ ['_']) ≠ "__linker__".toList := by decide +kernel

theorem keywords_reserved : ∀ k ∈ cxxKeywords, k ∈ reserved ∨ k = "throw".toList ∨ k = "try".toList := by decide +kernel

theorem keywords_head : ∀ k ∈ cxxKeywords, k.head? ≠ some '_' := by decide +kernel

/-- The cases of `normalizeID` for an identifier. -/
theorem normalize_cases (id : Text) (h : UserId id) :
    (id ∈ reserved ∧ normalize id = id ++ ['_']) ∨
    (id ∉ reserved ∧ id = "__linker__".toList ∧ normalize id = id) ∨
    (id ∉ reserved ∧ id ≠ "__linker__".toList ∧ ∃ b r, id = '_' :: b :: r ∧ cxxReserved id = true ∧
      normalize id = '_' :: 'r' :: '_' :: b :: r) ∨
    (id ∉ reserved ∧ cxxReserved id = false ∧ normalize id = id) := by
  obtain ⟨c, cs, e, h1, h2⟩ := h
  have hne : id ≠ [] := by rw [e]; simp
  have hall : id.all isIdent = true := by rw [e]; exact h2
  unfold normalize
  rw [if_neg hne]
  by_cases k : id ∈ reserved
  · left
    refine ⟨k, ?_⟩
    rw [if_pos (List.contains_iff_mem.2 k)]
  · right
    rw [if_neg (fun h => k (List.contains_iff_mem.1 h))]
    by_cases l : id = "__linker__".toList
    · left
      refine ⟨k, l, ?_⟩
      rw [if_pos l]
    · right
      rw [if_neg l]
      by_cases r : cxxReserved id = true
      · left
        refine ⟨k, l, ?_⟩
        rw [if_pos r]
        match id, r with
        | a :: b :: rest, r =>
          have : a = '_' := by
            simp only [cxxReserved, Bool.and_eq_true, beq_iff_eq] at r
            exact r.1
          subst this
          exact ⟨b, rest, rfl, r, rfl⟩
      · right
        rw [if_neg r, if_pos hall]
        exact ⟨k, by simpa using r, rfl⟩

theorem cxxReserved_iff (id : Text) : cxxReserved id = true ↔ Implementations id := by
  constructor
  · intro h
    match id, h with
    | a :: b :: r, h =>
      simp only [cxxReserved, Bool.and_eq_true, Bool.or_eq_true, beq_iff_eq] at h
      exact ⟨b, r, by rw [h.1], h.2⟩
  · rintro ⟨c, r, rfl, h⟩
    simp only [cxxReserved, Bool.and_eq_true, Bool.or_eq_true, beq_iff_eq]
    exact ⟨trivial, h⟩

/-- **Names are valid in C++.** What the compiler makes of an identifier is one in C++, not a keyword, and not one of those that
C++ keeps for itself. `throw` and `try` are keywords of HILTI and Spicy and no identifiers there; `__linker__` is kept. -/
theorem normalize_valid (id : Text) (h : UserId id) (h1 : id ≠ "throw".toList) (h2 : id ≠ "try".toList)
    (h3 : id ≠ "__linker__".toList) : CxxName (normalize id) := by
  rcases normalize_cases id h with ⟨k, e⟩ | ⟨_, l, _⟩ | ⟨k, l, b, r, e, c, en⟩ | ⟨k, c, e⟩
  · rw [e]
    obtain ⟨a1, a2, a3, -, -⟩ := reserved_facts id k
    exact ⟨a1, a2, fun h' => by rw [← cxxReserved_iff, a3] at h'; cases h'⟩
  · exact absurd l h3
  · rw [en]
    refine ⟨⟨'_', 'r' :: '_' :: b :: r, rfl, rfl, ?_⟩, ?_, fun h' => by rw [← cxxReserved_iff] at h'; cases h'⟩
    · obtain ⟨c', cs', e', -, h'⟩ := h
      rw [e] at e'
      injection e' with e1 e2
      subst e1; subst e2
      simp only [List.all_cons, Bool.and_eq_true] at h' ⊢
      exact ⟨rfl, rfl, rfl, h'.2⟩
    · intro hk
      exact keywords_head _ hk rfl
  · rw [e]
    refine ⟨h, ?_, fun h' => by rw [← cxxReserved_iff, c] at h'; cases h'⟩
    intro hk
    rcases keywords_reserved id hk with h' | h' | h'
    · exact k h'
    · exact h1 h'
    · exact h2 h'

/-- Two identifiers of which the second is what the compiler makes of the first: a keyword, and the same with an underscore at its end;
a name that C++ keeps for itself, and the same with `_r` in front. -/
def Clash (a b : Text) : Prop :=
  (a ∈ reserved ∧ b = a ++ ['_']) ∨
  (∃ r, a = '_' :: r ∧ Implementations a ∧ a ≠ "__linker__".toList ∧ b = '_' :: 'r' :: '_' :: r)

/-- **Different identifiers stay different**, with the exception of such pairs. -/
theorem normalize_eq_iff (a b : Text) (ha : UserId a) (hb : UserId b) :
    normalize a = normalize b ↔ a = b ∨ Clash a b ∨ Clash b a := by
  have hd : ∀ k ∈ reserved, ∀ t, k ++ ['_'] ≠ '_' :: t := by
    intro k hk t e
    have h1 := (reserved_facts k hk).2.2.2.2.1
    have h2 := (reserved_facts k hk).2.2.1
    cases k with
    | nil => exact absurd hk (by decide +kernel)
    | cons c k => injection e with e1 e2; subst e1; exact h1 rfl
  have clash : ∀ a b, UserId a → UserId b → Clash a b → normalize a = normalize b := by
    intro a b ha hb h
    rcases h with ⟨k, rfl⟩ | ⟨r, rfl, c, l, rfl⟩
    · obtain ⟨-, -, c1, c2, -, c3⟩ := reserved_facts a k
      rcases normalize_cases a ha with ⟨_, e⟩ | ⟨k', _⟩ | ⟨k', _⟩ | ⟨k', _⟩
      · rw [e]
        rcases normalize_cases _ hb with ⟨k'', _⟩ | ⟨_, l', e'⟩ | ⟨_, _, b', r', _, c', _⟩ | ⟨_, _, e'⟩
        · exact absurd k'' c2
        · exact absurd l' c3
        · rw [c1] at c'; cases c'
        · rw [e']
      · exact absurd k k'
      · exact absurd k k'
      · exact absurd k k'
    · rcases normalize_cases _ ha with ⟨k', _⟩ | ⟨_, l', _⟩ | ⟨_, _, b', r', e', _, en⟩ | ⟨_, c', _⟩
      · exact absurd rfl (reserved_facts _ k').2.2.2.2.1
      · exact absurd l' l
      · injection e' with _ e'
        subst e'
        rw [en]
        rcases normalize_cases _ hb with ⟨k'', _⟩ | ⟨_, l', e''⟩ | ⟨_, _, b'', r'', _, c'', _⟩ | ⟨_, _, e''⟩
        · exact absurd rfl (reserved_facts _ k'').2.2.2.2.1
        · rw [e'']
        · have : cxxReserved ('_' :: 'r' :: '_' :: b' :: r') = false := rfl
          rw [this] at c''; cases c''
        · rw [e'']
      · rw [(cxxReserved_iff _).2 c] at c'; cases c'
  constructor
  · intro h
    rcases normalize_cases a ha with ⟨k1, e1⟩ | ⟨k1, l1, e1⟩ | ⟨k1, l1, b1, r1, i1, c1, e1⟩ | ⟨k1, c1, e1⟩ <;>
      rcases normalize_cases b hb with ⟨k2, e2⟩ | ⟨k2, l2, e2⟩ | ⟨k2, l2, b2, r2, i2, c2, e2⟩ | ⟨k2, c2, e2⟩ <;>
      rw [e1, e2] at h
    · exact .inl (List.append_cancel_right h)
    · rw [l2] at h; exact absurd h (reserved_facts a k1).2.2.2.2.2
    · exact absurd h (hd a k1 _)
    · exact .inr (.inl (.inl ⟨k1, h.symm⟩))
    · rw [l1] at h; exact absurd h.symm (reserved_facts b k2).2.2.2.2.2
    · exact .inl h
    · rw [l1] at h; injection h with _ h; injection h with h _; cases h
    · exact .inl h
    · exact absurd h.symm (hd b k2 _)
    · rw [l2] at h; injection h with _ h; injection h with h _; cases h
    · injection h with _ h; injection h with _ h; injection h with _ h
      left; rw [i1, i2, h]
    · right; left; right
      exact ⟨b1 :: r1, i1, (cxxReserved_iff _).1 c1, l1, h.symm⟩
    · exact .inr (.inr (.inl ⟨k2, h⟩))
    · exact .inl h
    · right; right; right
      exact ⟨b2 :: r2, i2, (cxxReserved_iff _).1 c2, l2, h⟩
    · exact .inl h
  · intro h
    rcases h with rfl | h | h
    · rfl
    · exact clash a b ha hb h
    · exact (clash b a hb ha h).symm

theorem normalize_ident (id : Text) (h : UserId id) : UserId (normalize id) := by
  rcases normalize_cases id h with ⟨k, e⟩ | ⟨_, l, e⟩ | ⟨k, l, b, r, e, c, en⟩ | ⟨k, c, e⟩
  · rw [e]; exact (reserved_facts id k).1
  · rw [e]; exact h
  · rw [en]
    refine ⟨'_', 'r' :: '_' :: b :: r, rfl, rfl, ?_⟩
    obtain ⟨c', cs', e', -, h'⟩ := h
    rw [e] at e'
    injection e' with e1 e2
    subst e1; subst e2
    simp only [List.all_cons, Bool.and_eq_true] at h' ⊢
    exact ⟨rfl, rfl, rfl, h'.2⟩
  · rw [e]; exact h

theorem userId_colon (id : Text) (h : UserId id) : ':' ∉ id := by
  obtain ⟨c, cs, e, -, h⟩ := h
  rw [e]
  intro hm
  have := List.all_eq_true.1 h ':' hm
  cases this

theorem split_colon (a b s t : Text) (ha : ':' ∉ a) (hb : ':' ∉ b) (h : a ++ ':' :: s = b ++ ':' :: t) : a = b ∧ s = t := by
  induction a generalizing b with
  | nil =>
    cases b with
    | nil => injection h with _ h; exact ⟨rfl, h⟩
    | cons c b => injection h with h _; subst h; exact absurd (by simp) hb
  | cons c a ih =>
    cases b with
    | nil => injection h with h _; subst h; exact absurd (by simp) ha
    | cons d b =>
      injection h with h1 h2
      obtain ⟨e1, e2⟩ := ih b (fun h => ha (by simp [h])) (fun h => hb (by simp [h])) h2
      exact ⟨by rw [h1, e1], e2⟩

/-- IDs with namespaces: two of them become the same in C++ only if their components do, one by one. -/
theorem cxxID_eq_iff (xs ys : List Text) (hx : ∀ x ∈ xs, UserId x) (hy : ∀ y ∈ ys, UserId y) :
    cxxID xs = cxxID ys ↔ xs.map normalize = ys.map normalize := by
  have nc : ∀ x, UserId x → ':' ∉ normalize x := fun x h => userId_colon _ (normalize_ident x h)
  have ne : ∀ x, UserId x → normalize x ≠ [] := by
    intro x h e
    obtain ⟨c, cs, e', -⟩ := normalize_ident x h
    rw [e] at e'; cases e'
  have cons2 : ∀ (c d : Text) (cs : List Text), cxxID (c :: d :: cs) = normalize c ++ ':' :: ':' :: cxxID (d :: cs) := fun _ _ _ => rfl
  constructor
  · induction xs generalizing ys with
    | nil =>
      intro h
      match ys, hy, h with
      | [], _, _ => rfl
      | [y], hy, h => exact absurd h.symm (ne y (hy y (by simp)))
      | y :: z :: ys, hy, h =>
        rw [cons2] at h
        have h' : ([] : Text) = normalize y ++ ':' :: ':' :: cxxID (z :: ys) := h
        have := congrArg List.length h'
        simp at this
    | cons x xs ih =>
      intro h
      match xs, ys, hx, hy, ih, h with
      | [], [], hx, hy, ih, h => exact absurd h (ne x (hx x (by simp)))
      | [], [y], hx, hy, ih, h =>
        have h' : normalize x = normalize y := h
        simp only [List.map_cons, List.map_nil, h']
      | [], y :: z :: ys, hx, hy, ih, h =>
        rw [cons2] at h
        have h' : normalize x = normalize y ++ ':' :: ':' :: cxxID (z :: ys) := h
        exact absurd (by rw [h']; simp) (nc x (hx x (by simp)))
      | x' :: xs, [], hx, hy, ih, h =>
        rw [cons2] at h
        have h' : normalize x ++ ':' :: ':' :: cxxID (x' :: xs) = [] := h
        have := congrArg List.length h'
        simp at this
      | x' :: xs, [y], hx, hy, ih, h =>
        rw [cons2] at h
        have h' : normalize x ++ ':' :: ':' :: cxxID (x' :: xs) = normalize y := h
        exact absurd (by rw [← h']; simp) (nc y (hy y (by simp)))
      | x' :: xs, y :: z :: ys, hx, hy, ih, h =>
        rw [cons2, cons2] at h
        obtain ⟨e1, e2⟩ := split_colon _ _ _ _ (nc x (hx x (by simp))) (nc y (hy y (by simp))) h
        injection e2 with _ e2
        have := ih (z :: ys) (fun x hx' => hx x (by simp only [List.mem_cons] at hx' ⊢; exact .inr hx'))
          (fun y hy' => hy y (by simp only [List.mem_cons] at hy' ⊢; exact .inr hy')) e2
        rw [List.map_cons, this, e1, ← List.map_cons]
  · intro h
    have gen : ∀ (xs ys : List Text), xs.map normalize = ys.map normalize → cxxID xs = cxxID ys := by
      intro xs
      induction xs with
      | nil =>
        intro ys h
        cases ys with
        | nil => rfl
        | cons y ys => simp at h
      | cons x xs ih =>
        intro ys h
        cases ys with
        | nil => simp at h
        | cons y ys =>
          simp only [List.map_cons, List.cons.injEq] at h
          have e := ih ys h.2
          cases xs with
          | nil =>
            cases ys with
            | nil => exact h.1
            | cons z ys => simp at h
          | cons x' xs =>
            cases ys with
            | nil => simp at h
            | cons z ys => rw [cons2, cons2, h.1, e]
    exact gen xs ys h

/-! ## Names made from any text -/

theorem hexDigit_ident (n : Nat) (h : n < 16) : isIdent (hexDigit n) = true := by
  have : ∀ n : Fin 16, isIdent (hexDigit n.val) = true := by decide +kernel
  exact this ⟨n, h⟩

theorem identChar_ok (c : Char) (h : c.toNat < 128) : ∃ d ds, identChar c = .ok (d :: ds) ∧ (d :: ds).all isIdent = true ∧
    (isDigit c = false → isDigit d = false) := by
  unfold identChar
  split
  · exact ⟨'_', [], rfl, rfl, fun _ => rfl⟩
  · split
    · next hc => exact ⟨c, [], rfl, by simp [hc], id⟩
    · refine ⟨'x', _, rfl, ?_, fun _ => rfl⟩
      simp only [List.all_cons, List.all_nil, Bool.and_true, Bool.and_eq_true]
      exact ⟨rfl, hexDigit_ident _ (by omega), hexDigit_ident _ (by omega)⟩

theorem identChars_ok (s : Text) (h : ∀ c ∈ s, c.toNat < 128) : ∃ r, identChars s = .ok r ∧ r.all isIdent = true := by
  induction s with
  | nil => exact ⟨[], rfl, rfl⟩
  | cons c s ih =>
    obtain ⟨d, ds, e, h1, -⟩ := identChar_ok c (h c (by simp))
    obtain ⟨r, e', h'⟩ := ih (fun c hc => h c (by simp [hc]))
    refine ⟨d :: ds ++ r, ?_, ?_⟩
    · unfold identChars
      rw [e, e']
      rfl
    · rw [List.all_append, h1, h']
      rfl

/-- `toIdentifier` makes an identifier of any text of ASCII characters. -/
theorem toIdentifier_valid (s : Text) (h : ∀ c ∈ s, c.toNat < 128) (hne : s ≠ []) : ∃ r, toIdentifier s = .ok r ∧ UserId r := by
  cases s with
  | nil => exact absurd rfl hne
  | cons c cs =>
    show ∃ r, (if !isDigit c && (c :: cs).all isIdent then Res.ok (c :: cs)
      else (identChars (c :: cs)).bind fun x => .ok (if isDigit c then '_' :: x else x)) = .ok r ∧ UserId r
    split
    · next hc =>
      simp only [Bool.and_eq_true, Bool.not_eq_true'] at hc
      exact ⟨_, rfl, c, cs, rfl, hc.1, hc.2⟩
    · obtain ⟨d, ds, e, h1, h2⟩ := identChar_ok c (h c (by simp))
      obtain ⟨r, e', h'⟩ := identChars_ok cs (fun c hc => h c (by simp [hc]))
      have e2 : identChars (c :: cs) = .ok (d :: ds ++ r) := by
        unfold identChars
        rw [e, e']
        rfl
      have hall : (d :: ds ++ r).all isIdent = true := by rw [List.all_append, h1, h']; rfl
      rw [e2]
      refine ⟨_, rfl, ?_⟩
      split
      · refine ⟨'_', d :: ds ++ r, rfl, rfl, ?_⟩
        rw [List.all_cons, hall]; rfl
      · next hd =>
        exact ⟨d, ds ++ r, rfl, h2 (by simpa using hd), hall⟩

/-- It leaves identifiers as they are. -/
theorem toIdentifier_id (s : Text) (h : UserId s) : toIdentifier s = .ok s := by
  obtain ⟨c, cs, rfl, h1, h2⟩ := h
  show (if !isDigit c && (c :: cs).all isIdent then Res.ok (c :: cs) else
    (identChars (c :: cs)).bind fun x => .ok (if isDigit c then '_' :: x else x)) = _
  rw [if_pos (by rw [h1, h2]; rfl)]

theorem isIdent_ascii (c : Char) (h : isIdent c = true) : c.toNat < 128 := by
  unfold isIdent isAlnum isDigit isUpper isLower at h
  simp only [Bool.or_eq_true, Bool.and_eq_true, decide_eq_true_eq, beq_iff_eq] at h
  rcases h with ((h | h) | h) | h
  · omega
  · omega
  · omega
  · subst h; decide

theorem identChars_ub (s : Text) (c : Char) (hm : c ∈ s) (h : 128 ≤ c.toNat) : identChars s = .ub := by
  induction s with
  | nil => cases hm
  | cons d s ih =>
    unfold identChars
    by_cases hd : d.toNat < 128
    · obtain ⟨x, xs, e, -⟩ := identChar_ok d hd
      have : c ∈ s := by
        rcases List.mem_cons.1 hm with rfl | h'
        · omega
        · exact h'
      rw [e, ih this]
      rfl
    · have : identChar d = .ub := by
        unfold identChar
        have hn : ¬ d ∈ [':', '<', '>', ',', '.', ' ', '-', '\'', '"', '%'] := by
          intro hm'
          have : ∀ d ∈ [':', '<', '>', ',', '.', ' ', '-', '\'', '"', '%'], d.toNat < 128 := by decide
          exact hd (this d hm')
        rw [if_neg hn, if_neg (fun h' => hd (isIdent_ascii d h')), if_neg hd]
      rw [this]
      rfl

/-- With any other character it reads in front of its table of digits. -/
theorem toIdentifier_ub (s : Text) (c : Char) (hm : c ∈ s) (h : 128 ≤ c.toNat) : toIdentifier s = .ub := by
  cases s with
  | nil => cases hm
  | cons d s =>
    show (if !isDigit d && (d :: s).all isIdent then Res.ok (d :: s) else
      (identChars (d :: s)).bind fun x => .ok (if isDigit d then '_' :: x else x)) = _
    rw [if_neg, identChars_ub _ c hm h]
    · rfl
    · intro h'
      simp only [Bool.and_eq_true] at h'
      have := isIdent_ascii c (List.all_eq_true.1 h'.2 c hm)
      omega

/-! ## Unique names -/

/-- The value of a number. -/
def value (s : Text) : Nat := s.foldl (fun a c => 10 * a + (c.toNat - 48)) 0

theorem value_decimal (n : Nat) : value (decimal n) = n := by
  have digit : ∀ d, d < 10 → (Char.ofNat (48 + d)).toNat - 48 = d := by
    intro d h
    have : ∀ d : Fin 10, (Char.ofNat (48 + d.val)).toNat - 48 = d.val := by decide
    exact this ⟨d, h⟩
  induction n using Nat.strongRecOn with
  | ind n ih =>
    unfold decimal
    split
    · next h =>
      show 10 * 0 + ((Char.ofNat (48 + n)).toNat - 48) = n
      rw [digit n h]; omega
    · next h =>
      unfold value
      rw [List.foldl_append]
      have := ih (n / 10) (by omega)
      unfold value at this
      rw [this]
      show 10 * (n / 10) + ((Char.ofNat (48 + n % 10)).toNat - 48) = n
      rw [digit _ (by omega)]; omega

theorem candidate_inj (name : Text) (j k : Nat) (h : candidate name j = candidate name k) : j = k := by
  cases j with
  | zero =>
    cases k with
    | zero => rfl
    | succ k =>
      have := congrArg List.length h
      simp [candidate] at this
  | succ j =>
    cases k with
    | zero =>
      have := congrArg List.length h
      simp [candidate] at this
    | succ k =>
      have h' : name ++ '_' :: decimal (j + 2) = name ++ '_' :: decimal (k + 2) := h
      have h'' := List.append_cancel_left h'
      injection h'' with _ h''
      have := congrArg value h''
      rw [value_decimal, value_decimal] at this
      omega

theorem search_spec (used : List Text) (name : Text) (n : Nat) : ∀ k,
    (search used name n k ∉ used ∧ ∃ j, search used name n k = candidate name j ∧ k ≤ j ∧ ∀ i, k ≤ i → i < j → candidate name i ∈ used) ∨
    (∀ j, k ≤ j → j ≤ k + n → candidate name j ∈ used) := by
  induction n with
  | zero =>
    intro k
    show (candidate name k ∉ used ∧ _) ∨ _
    by_cases h : candidate name k ∈ used
    · right
      intro j h1 h2
      rw [show j = k by omega]; exact h
    · exact .inl ⟨h, k, rfl, Nat.le_refl _, fun i h1 h2 => by omega⟩
  | succ n ih =>
    intro k
    unfold search
    by_cases h : candidate name k ∈ used
    · rw [if_pos (List.contains_iff_mem.2 h)]
      rcases ih (k + 1) with ⟨h1, j, h2, h3, h4⟩ | h'
      · refine .inl ⟨h1, j, h2, by omega, ?_⟩
        intro i hi hj
        by_cases e : i = k
        · rw [e]; exact h
        · exact h4 i (by omega) hj
      · right
        intro j h1 h2
        by_cases e : j = k
        · rw [e]; exact h
        · exact h' j (by omega) (by omega)
    · rw [if_neg (fun h' => h (List.contains_iff_mem.1 h'))]
      exact .inl ⟨h, k, rfl, Nat.le_refl _, fun i h1 h2 => by omega⟩

/-- **A name nobody uses.** `get` returns a name that is not in use, and from then on it is; the name asked for if that is free,
otherwise the first that is when numbers are put behind it in turn. -/
theorem uniquer_fresh (used : List Text) (name : Text) :
    (uniquerGet used name).1 ∉ used ∧ (uniquerGet used name).2 = (uniquerGet used name).1 :: used ∧
    (name ∉ used → (uniquerGet used name).1 = name) ∧
    (name ∈ used → ∃ i, 2 ≤ i ∧ (uniquerGet used name).1 = name ++ '_' :: decimal i ∧
      ∀ i', 2 ≤ i' → i' < i → name ++ '_' :: decimal i' ∈ used) := by
  have full : ¬ ∀ j, 0 ≤ j → j ≤ 0 + used.length → candidate name j ∈ used := by
    intro h
    have nd : ((List.range (used.length + 1)).map (candidate name)).Nodup :=
      List.nodup_range.map (fun a b e => candidate_inj name a b e)
    have sub : (List.range (used.length + 1)).map (candidate name) ⊆ used := by
      intro x hx
      obtain ⟨j, hj, rfl⟩ := List.mem_map.1 hx
      exact h j (by omega) (by have := List.mem_range.1 hj; omega)
    have := (nd.subperm sub).length_le
    rw [List.length_map, List.length_range] at this
    omega
  rcases search_spec used name used.length 0 with ⟨h1, j, h2, h3, h4⟩ | h
  · refine ⟨h1, rfl, ?_, ?_⟩
    · intro hn
      show search used name used.length 0 = name
      rw [h2]
      cases j with
      | zero => rfl
      | succ j => exact absurd (h4 0 (by omega) (by omega)) hn
    · intro hn
      cases j with
      | zero => rw [h2] at h1; exact absurd hn h1
      | succ j =>
        refine ⟨j + 2, by omega, h2, ?_⟩
        intro i' h5 h6
        have := h4 (i' - 1) (by omega) (by omega)
        rw [show i' - 1 = (i' - 2) + 1 by omega] at this
        have e : candidate name (i' - 2 + 1) = name ++ '_' :: decimal (i' - 2 + 2) := rfl
        rw [e, show i' - 2 + 2 = i' by omega] at this
        exact this
  · exact absurd h full

/-- The names in use after a sequence of calls, as a caller counts them: those returned and not removed since. -/
def live : List Call → List Text → Text → Prop
  | [], _, _ => False
  | .get _ :: cs, x :: out, y => y = x ∨ live cs out y
  | .get _ :: _, [], _ => False
  | .remove n :: cs, out, y => y ≠ n ∧ live cs out y

theorem run_used (cs : List Call) : ∀ y, y ∈ (run cs).2 ↔ live cs (run cs).1 y := by
  induction cs with
  | nil => intro y; simp [run, live]
  | cons c cs ih =>
    intro y
    cases c with
    | get n =>
      show y ∈ (uniquerGet (run cs).2 n).1 :: (run cs).2 ↔ (y = (uniquerGet (run cs).2 n).1 ∨ live cs (run cs).1 y)
      rw [List.mem_cons, ih]
    | remove n =>
      show y ∈ uniquerRemove (run cs).2 n ↔ (y ≠ n ∧ live cs (run cs).1 y)
      unfold uniquerRemove
      rw [List.mem_filter, ih]
      simp only [bne_iff_ne]
      exact ⟨fun h => ⟨h.2, h.1⟩, fun h => ⟨h.2, h.1⟩⟩

/-- **Unique names.** After any sequence of calls, the next name returned is not one that has been returned before and not been removed
since. -/
theorem uniquer_unique (cs : List Call) (n : Text) : ∃ x, (run (.get n :: cs)).1 = x :: (run cs).1 ∧ ¬ live cs (run cs).1 x := by
  refine ⟨(uniquerGet (run cs).2 n).1, rfl, ?_⟩
  rw [← run_used]
  exact (uniquer_fresh _ n).1

/-- Without removals, no name is returned twice. -/
theorem uniquer_nodup (ns : List Text) : (run (ns.map .get)).1.Nodup ∧ ∀ y, y ∈ (run (ns.map .get)).1 ↔ y ∈ (run (ns.map .get)).2 := by
  induction ns with
  | nil => exact ⟨List.nodup_nil, fun y => Iff.rfl⟩
  | cons n ns ih =>
    obtain ⟨h1, h2⟩ := ih
    constructor
    · show ((uniquerGet (run (ns.map .get)).2 n).1 :: (run (ns.map .get)).1).Nodup
      rw [List.nodup_cons, h2]
      exact ⟨(uniquer_fresh _ n).1, h1⟩
    · intro y
      show y ∈ (uniquerGet (run (ns.map .get)).2 n).1 :: (run (ns.map .get)).1 ↔
        y ∈ (uniquerGet (run (ns.map .get)).2 n).1 :: (run (ns.map .get)).2
      rw [List.mem_cons, List.mem_cons, h2]

end Verif.Front.Names
