import Verif.Front.TypesSpec
/-!
# Reading a unification back

A unification determines its type, up to what does not matter: `dec` reads it back.
-/

namespace Verif.Front.Types

/-- Remove a prefix. -/
def pre? : Text → Text → Option Text
  | [], s => some s
  | _ :: _, [] => none
  | a :: p, c :: s => if a = c then pre? p s else none

theorem pre?_append (p r : Text) : pre? p (p ++ r) = some r := by
  induction p with
  | nil => rfl
  | cons a p ih => simp only [List.cons_append, pre?, if_true]; exact ih

/-- Characters of words. -/
def isWord (c : Char) : Bool :=
  !(c == '(' || c == ')' || c == ',' || c == '-' || c == '<' || c == '>' || c == ' ')

/-- What may follow a type: nothing, or a delimiter. -/
def RestOk (r : Text) : Prop := r = [] ∨ ∃ c r', r = c :: r' ∧ (c = ')' ∨ c = ',' ∨ c = '-')

theorem takeWhile_word (w r : Text) (hw : ∀ c ∈ w, isWord c = true) (hr : r = [] ∨ ∃ c r', r = c :: r' ∧ isWord c = false) :
    (w ++ r).takeWhile isWord = w ∧ (w ++ r).dropWhile isWord = r := by
  induction w with
  | nil =>
    rcases hr with rfl | ⟨c, r', rfl, hc⟩
    · exact ⟨rfl, rfl⟩
    · simp [hc]
  | cons a w ih =>
    have ha := hw a (by simp)
    have := ih (fun c hc => hw c (by simp [hc]))
    simp only [List.cons_append, List.takeWhile_cons, List.dropWhile_cons, ha, if_true, this.1, this.2, and_self]

theorem RestOk.word {r : Text} (h : RestOk r) : r = [] ∨ ∃ c r', r = c :: r' ∧ isWord c = false := by
  rcases h with h | ⟨c, r', e, h⟩
  · exact .inl h
  · exact .inr ⟨c, r', e, by rcases h with rfl | rfl | rfl <;> rfl⟩

/-- What a word stands for. -/
inductive Tag where
  | atom (a : Atom)
  | con (c : Con) (w : Wild)
  | only (w : Wild)
  | library | member | name | map | tuple | func | bitfield | int | uint | iter | exc
  deriving DecidableEq

/-- The words. -/
def table : List (Text × Tag) := [
  ("address".toList, .atom .address), ("bool".toList, .atom .bool), ("bytes".toList, .atom .bytes), ("error".toList, .atom .error),
  ("exception".toList, .exc), ("interval".toList, .atom .interval), ("network".toList, .atom .network), ("null".toList, .atom .null),
  ("port".toList, .atom .port), ("real".toList, .atom .real), ("regexp".toList, .atom .regexp), ("sink".toList, .atom .sink),
  ("stream".toList, .atom .stream), ("view::stream".toList, .atom .streamView), ("string".toList, .atom .string),
  ("time".toList, .atom .time), ("void".toList, .atom .void),
  ("list".toList, .con .list .list), ("set".toList, .con .set .set), ("vector".toList, .con .vector .vector),
  ("optional".toList, .con .optional .optional), ("result".toList, .con .result .result),
  ("strong_ref".toList, .con .strongRef .strongRef), ("weak_ref".toList, .con .weakRef .weakRef),
  ("value_ref".toList, .con .valueRef .valueRef), ("type".toList, .con .typeOf .typeOf),
  ("enum".toList, .only .enum), ("struct".toList, .only .struct), ("union".toList, .only .union), ("unit".toList, .only .unit),
  ("library".toList, .library), ("member".toList, .member), ("name".toList, .name), ("map".toList, .map), ("tuple".toList, .tuple),
  ("function".toList, .func), ("bitfield".toList, .bitfield), ("int".toList, .int), ("uint".toList, .uint), ("iterator".toList, .iter)]

/-- Look up a word. -/
def lookup (w : Text) : List (Text × Tag) → Option Tag
  | [] => none
  | (k, t) :: l => if k = w then some t else lookup w l

/-- The value of a number. -/
def value (s : Text) : Nat := s.foldl (fun a c => 10 * a + (c.toNat - 48)) 0

theorem digit_toNat (d : Nat) (h : d < 10) : (Char.ofNat (48 + d)).toNat - 48 = d := by
  have : ∀ d : Fin 10, (Char.ofNat (48 + d.val)).toNat - 48 = d.val := by decide
  exact this ⟨d, h⟩

theorem value_decimal (n : Nat) : value (decimal n) = n := by
  induction n using Nat.strongRecOn with
  | ind n ih =>
    unfold decimal
    split
    · next h =>
      show 10 * 0 + ((Char.ofNat (48 + n)).toNat - 48) = n
      rw [digit_toNat n h]; omega
    · next h =>
      unfold value
      rw [List.foldl_append]
      have := ih (n / 10) (by omega)
      unfold value at this
      rw [this]
      show 10 * (n / 10) + ((Char.ofNat (48 + n % 10)).toNat - 48) = n
      rw [digit_toNat _ (by omega)]; omega

/-- Digits. -/
def isDig (c : Char) : Bool := 48 ≤ c.toNat && c.toNat ≤ 57

theorem isDig_ofNat (d : Nat) (h : d < 10) : isDig (Char.ofNat (48 + d)) = true := by
  have : ∀ d : Fin 10, isDig (Char.ofNat (48 + d.val)) = true := by decide
  exact this ⟨d, h⟩

theorem decimal_digits (n : Nat) : ∀ c ∈ decimal n, isDig c = true := by
  induction n using Nat.strongRecOn with
  | ind n ih =>
    unfold decimal
    split
    · next h => intro c hc; simp only [List.mem_singleton] at hc; rw [hc]; exact isDig_ofNat n h
    · next h =>
      intro c hc
      rcases List.mem_append.1 hc with h' | h'
      · exact ih (n / 10) (by omega) c h'
      · simp only [List.mem_singleton] at h'; rw [h']; exact isDig_ofNat _ (by omega)

theorem decimal_last (n : Nat) : ∃ ds c, decimal n = ds ++ [c] ∧ isDig c = true := by
  unfold decimal
  split
  · next h => exact ⟨[], _, rfl, isDig_ofNat n h⟩
  · exact ⟨_, _, rfl, isDig_ofNat _ (by omega)⟩

theorem decimal_first (n : Nat) : ∃ c ds, decimal n = c :: ds ∧ isDig c = true := by
  cases e : decimal n with
  | nil => obtain ⟨ds, c, h, -⟩ := decimal_last n; rw [e] at h; simp at h
  | cons c ds => exact ⟨c, ds, rfl, decimal_digits n c (by rw [e]; simp)⟩

theorem isDig_word {c : Char} (h : isDig c = true) : isWord c = true := by
  unfold isDig at h
  unfold isWord
  simp only [Bool.and_eq_true, decide_eq_true_eq] at h
  have k : ∀ d : Char, (d.toNat < 48 ∨ 57 < d.toNat) → (c == d) = false := by
    intro d hd
    apply Bool.eq_false_iff.2
    intro e
    have := eq_of_beq e
    subst this
    omega
  rw [k '(' (by decide), k ')' (by decide), k ',' (by decide), k '-' (by decide), k '<' (by decide), k '>' (by decide),
    k ' ' (by decide)]
  rfl

theorem isDig_ne {c d : Char} (h : isDig c = true) (hd : isDig d = false) : c ≠ d := by
  intro e; subst e; rw [h] at hd; cases hd

/-- No word ends in a digit. -/
theorem lookup_digit (w : Text) (c : Char) (h : isDig c = true) : lookup (w ++ [c]) table = none := by
  have key : ∀ l : List (Text × Tag), (∀ e ∈ l, ∃ d, e.1.getLast? = some d ∧ isDig d = false) → lookup (w ++ [c]) l = none := by
    intro l
    induction l with
    | nil => intro _; rfl
    | cons e l ih =>
      intro hl
      obtain ⟨k, t⟩ := e
      unfold lookup
      obtain ⟨d, hd, hd'⟩ := hl (k, t) (by simp)
      rw [if_neg]
      · exact ih (fun e he => hl e (by simp [he]))
      · intro e
        dsimp only at hd
        rw [e] at hd
        simp only [List.getLast?_append, List.getLast?_singleton, Option.some_or, Option.some.injEq] at hd
        subst hd
        rw [h] at hd'; cases hd'
  refine key table ?_
  have : table.all (fun e => match e.1.getLast? with | some d => !isDig d | none => false) = true := by decide +kernel
  intro e he
  have := List.all_eq_true.1 this e he
  cases hl : e.1.getLast? with
  | none => rw [hl] at this; cases this
  | some d => rw [hl] at this; exact ⟨d, rfl, by simpa using this⟩

/-- Up to a character, and behind it. -/
def upTo (c : Char) (s : Text) : Option (Text × Text) :=
  match s.dropWhile (· != c) with
  | [] => none
  | _ :: r => some (s.takeWhile (· != c), r)

theorem upTo_append (c : Char) (w r : Text) (h : c ∉ w) : upTo c (w ++ c :: r) = some (w, r) := by
  have h1 : ∀ w : Text, c ∉ w → (w ++ c :: r).dropWhile (· != c) = c :: r ∧ (w ++ c :: r).takeWhile (· != c) = w := by
    intro w
    induction w with
    | nil => intro _; simp
    | cons a w ih =>
      intro h
      have ha : (a != c) = true := by
        simp only [bne_iff_ne]; intro e; exact h (by simp [e])
      have := ih (fun e => h (by simp [e]))
      simp only [List.cons_append, List.dropWhile_cons, List.takeWhile_cons, ha, if_true, this.1, this.2, and_self]
  obtain ⟨e1, e2⟩ := h1 w h
  unfold upTo
  rw [e1, e2]

/-- The ranges of a bitfield. -/
def decBits : Nat → Text → Option (List Bit × Text)
  | 0, _ => none
  | n + 1, s => match pre? [')'] s with
    | some r => some ([], r)
    | none => match upTo ':' s with
      | none => none
      | some (nm, s1) => match upTo ':' s1 with
        | none => none
        | some (lo, s2) => match upTo ',' s2 with
          | none => none
          | some (hi, s3) => match decBits n s3 with
            | none => none
            | some (bs, r) => some (⟨nm, value lo, value hi, 0⟩ :: bs, r)

mutual
/-- Read a type. -/
def dec : Nat → Text → Option (Ty × Text)
  | 0, _ => none
  | n + 1, s => match pre? "<never-match>".toList s with
    | some r => some (.never, r)
    | none =>
      match lookup (s.takeWhile isWord) table with
      | none => match pre? "int".toList (s.takeWhile isWord) with
        | some d => some (.int true (value d), s.dropWhile isWord)
        | none => match pre? "uint".toList (s.takeWhile isWord) with
          | some d => some (.int false (value d), s.dropWhile isWord)
          | none => none
      | some tag => decTag n tag (s.dropWhile isWord)
/-- What follows a word. -/
def decTag : Nat → Tag → Text → Option (Ty × Text)
  | _, .atom a, r => some (.atom a, r)
  | _, .exc, r => match pre? "(*)".toList r with
    | some r' => some (.wild .exception, r')
    | none => some (.atom .exception, r)
  | _, .only w, r => match pre? "(*)".toList r with
    | some r' => some (.wild w, r')
    | none => none
  | _, .int, r => match pre? "<*>".toList r with
    | some r' => some (.wild .int, r')
    | none => none
  | _, .uint, r => match pre? "<*>".toList r with
    | some r' => some (.wild .uint, r')
    | none => none
  | _, .library, r => match pre? "(".toList r with
    | none => none
    | some s => match upTo ')' s with
      | none => none
      | some (m, r') => some (.library m, r')
  | _, .name, r => match pre? "(".toList r with
    | none => none
    | some s => match upTo ')' s with
      | none => none
      | some (m, r') => some (.decl (some m), r')
  | _, .member, r => match pre? "(*)".toList r with
    | some r' => some (.wild .member, r')
    | none => match pre? "(".toList r with
      | none => none
      | some s => match upTo ')' s with
        | none => none
        | some (m, r') => some (.member m, r')
  | n, .bitfield, r => match pre? "(*)".toList r with
    | some r' => some (.wild .bitfield, r')
    | none => match pre? "(".toList r with
      | none => none
      | some s => match upTo ',' s with
        | none => none
        | some (w, r') => match decBits n r' with
          | none => none
          | some (bs, r'') => some (.bitfield (value w) bs 0, r'')
  | n + 1, .con c w, r => match pre? "(*)".toList r with
    | some r' => some (.wild w, r')
    | none => match pre? "(".toList r with
      | none => none
      | some s => match dec n s with
        | none => none
        | some (t, s') => match pre? ")".toList s' with
          | none => none
          | some r' => some (.con c false t, r')
  | n + 1, .map, r => match pre? "(*)".toList r with
    | some r' => some (.wild .map, r')
    | none => match pre? "(".toList r with
      | none => none
      | some s => match dec n s with
        | none => none
        | some (t, s') => match pre? "->".toList s' with
          | none => none
          | some s'' => match dec n s'' with
            | none => none
            | some (u, r1) => match pre? ")".toList r1 with
              | none => none
              | some r' => some (.map false false t false u, r')
  | n + 1, .tuple, r => match pre? "(*)".toList r with
    | some r' => some (.wild .tuple, r')
    | none => match pre? "(".toList r with
      | none => none
      | some s => match decTuple n s with
        | none => none
        | some (es, r') => some (.tuple es, r')
  | n + 1, .func, r => match pre? "(*)".toList r with
    | some r' => some (.wild .function, r')
    | none => match pre? "(result:".toList r with
      | none => none
      | some s => match dec n s with
        | none => none
        | some (t, s') => match decParams n s' with
          | none => none
          | some (es, r') => some (.func false t es, r')
  | n + 1, .iter, r => match pre? "(bytes)".toList r with
    | some r' => some (.atom .bytesIter, r')
    | none => match pre? "(stream)".toList r with
      | some r' => some (.atom .streamIter, r')
      | none => match pre? "(".toList r with
        | none => none
        | some s => match lookup (s.takeWhile isWord) table with
          | some tag => decIter n tag (s.dropWhile isWord)
          | none => none
  | 0, _, _ => none
/-- What follows `iterator(` and a word. -/
def decIter : Nat → Tag → Text → Option (Ty × Text)
  | n + 1, tag, r => match decTag n tag r with
    | some (t, r') => match pre? ")".toList r' with
      | none => none
      | some r'' => match t with
        | .con .list k u => some (.con .listIter k u, r'')
        | .con .set k u => some (.con .setIter k u, r'')
        | .con .vector k u => some (.con .vectorIter k u, r'')
        | .map _ k u k' u' => some (.map true k u k' u', r'')
        | .wild .list => some (.wild .listIter, r'')
        | .wild .set => some (.wild .setIter, r'')
        | .wild .vector => some (.wild .vectorIter, r'')
        | .wild .map => some (.wild .mapIter, r'')
        | _ => none
    | none => none
  | 0, _, _ => none
/-- The elements of a tuple. -/
def decTuple : Nat → Text → Option (Els × Text)
  | 0, _ => none
  | n + 1, s => match pre? [')'] s with
    | some r => some (.nil, r)
    | none => match dec n s with
      | none => none
      | some (t, s') => match pre? [','] s' with
        | none => none
        | some s'' => match decTuple n s'' with
          | none => none
          | some (es, r) => some (.cons ⟨[], 0⟩ false t es, r)
/-- The parameters of a function. -/
def decParams : Nat → Text → Option (Els × Text)
  | 0, _ => none
  | n + 1, s => match pre? [')'] s with
    | some r => some (.nil, r)
    | none => match pre? ", ".toList s with
      | none => none
      | some s' => match dec n s' with
        | none => none
        | some (t, s'') => match decParams n s'' with
          | none => none
          | some (es, r) => some (.cons ⟨[], 0⟩ false t es, r)
end

end Verif.Front.Types
