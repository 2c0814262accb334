import Verif.Front.EmitSpec

/-!
# The grammar of C++ expressions is unambiguous

A recursive-descent parser that is complete for the grammar of `EmitSpec.lean`: hence no sequence of tokens
has two trees.  The parser is a tool for that proof only; no statement about the code generator mentions it.
-/

namespace Verif.Front.Emit

/-- the prefix operator of a token -/
def unPre : Tok → Option PreOp
  | .op .sub => some .neg
  | .op .add => some .plus
  | .op .mul => some .deref
  | .op .band => some .addr
  | .tilde => some .compl
  | .bang => some .not
  | .incr => some .inc
  | .decr => some .dec
  | _ => none

theorem unPre_tok (o : PreOp) : unPre o.tok = some o := by cases o <;> rfl

mutual
/-- parses an expression of level `l` -/
def parseL : Nat → Nat → List Tok → Option (Tree × List Tok)
  | 0, _, _ => none
  | n + 1, l, ts =>
    if l = 1 then
      match parseL n 2 ts with
      | some (a, .asg o :: r) =>
        match parseL n 1 r with
        | some (b, r') => some (.asg o a b, r')
        | none => none
      | some (c, .quest :: r) =>
        match parseL n 0 r with
        | some (a, .colon :: r') =>
          match parseL n 1 r' with
          | some (b, r'') => some (.cond c a b, r'')
          | none => none
        | _ => none
      | x => x
    else if l = 12 then
      match ts with
      | [] => none
      | t :: r =>
        match unPre t with
        | some o =>
          match parseL n 12 r with
          | some (a, r') => some (.pre o a, r')
          | none => none
        | none => parseL n 13 (t :: r)
    else if l = 14 then
      match ts with
      | .name x :: r => some (.name x, r)
      | .lpar :: r =>
        match parseL n 0 r with
        | some (a, .rpar :: r') => some (a, r')
        | _ => none
      | _ => none
    else
      match parseL n (l + 1) ts with
      | some (a, r) => loopL n l a r
      | none => none

/-- continues an expression of level `l` whose first part is `t` -/
def loopL : Nat → Nat → Tree → List Tok → Option (Tree × List Tok)
  | 0, _, _, _ => none
  | n + 1, l, t, ts =>
    if l = 13 then
      match ts with
      | .incr :: r => loopL n 13 (.post true t) r
      | .decr :: r => loopL n 13 (.post false t) r
      | .dot :: .name f :: r => loopL n 13 (.field t f) r
      | .lbrack :: r =>
        match parseL n 0 r with
        | some (i, .rbrack :: r') => loopL n 13 (.sub t i) r'
        | _ => none
      | .lpar :: .rpar :: r => loopL n 13 (.call0 t) r
      | .lpar :: r =>
        match parseL n 0 r with
        | some (a, .rpar :: r') => loopL n 13 (.call t a) r'
        | _ => none
      | _ => some (t, ts)
    else
      match ts with
      | .op o :: r =>
        if o.level = l then
          match parseL n (l + 1) r with
          | some (b, r') => loopL n l (.bin o t b) r'
          | none => none
        else some (t, ts)
      | _ => some (t, ts)
end

/-- the parser yields `res`, given enough fuel -/
def Pr (l : Nat) (ts : List Tok) (res : Tree × List Tok) : Prop :=
  ∃ n0, ∀ n, n0 ≤ n → parseL n l ts = some res

/-- the loop yields `res`, given enough fuel; at the levels without a loop nothing is left to do -/
def Lp (l : Nat) (t : Tree) (ts : List Tok) (res : Tree × List Tok) : Prop :=
  if l = 1 ∨ l = 12 ∨ l = 14 then res = (t, ts) else ∃ n0, ∀ n, n0 ≤ n → loopL n l t ts = some res

/-- the level from which on a token continues an expression -/
def reach : Tok → Nat
  | .op o => o.level
  | .asg _ | .quest => 2
  | .dot | .lbrack | .lpar | .incr | .decr => 13
  | _ => 0

/-- `rest` does not continue an expression of a level above `l` -/
def Ends (l : Nat) : List Tok → Prop
  | [] => True
  | t :: _ => reach t ≤ l

theorem Ends.mono {l l' : Nat} (h : l ≤ l') {ts : List Tok} (he : Ends l ts) : Ends l' ts := by
  cases ts with
  | nil => trivial
  | cons t r => exact Nat.le_trans he h

theorem level_le (o : BOp) : o.level ≤ 11 := by cases o <;> decide

theorem level_ne (o : BOp) : o.level ≠ 1 ∧ o.level ≠ 12 ∧ o.level ≠ 14 := by
  cases o <;> decide

/-- The loop stops at a token of a lower level. -/
theorem Lp.stop {l : Nat} {t : Tree} {ts : List Tok} (h : Ends l ts) : Lp (l + 1) t ts (t, ts) := by
  unfold Lp
  split
  · rfl
  · rename_i hl
    refine ⟨1, fun n hn => ?_⟩
    obtain ⟨m, rfl⟩ : ∃ m, n = m + 1 := ⟨n - 1, by omega⟩
    unfold loopL
    split
    · rename_i h13
      have h12 : l = 12 := by omega
      subst h12
      cases ts with
      | nil => rfl
      | cons x r =>
        cases x <;> first | rfl | (exfalso; simp [Ends, reach] at h)
    · cases ts with
      | nil => rfl
      | cons x r =>
        cases x <;> try rfl
        rename_i o
        simp only [Ends, reach] at h
        simp only []
        rw [if_neg (by omega)]

/-- From the next level and the loop. -/
theorem Pr.step {l : Nat} {ts rest : List Tok} {t : Tree} {res : Tree × List Tok}
    (hl : l ≠ 1 ∧ l ≠ 12 ∧ l ≠ 14) (h : Pr (l + 1) ts (t, rest)) (hp : Lp l t rest res) : Pr l ts res := by
  obtain ⟨n0, h0⟩ := h
  unfold Lp at hp
  rw [if_neg (by omega)] at hp
  obtain ⟨m0, h1⟩ := hp
  refine ⟨n0 + m0 + 1, fun n hn => ?_⟩
  obtain ⟨m, rfl⟩ : ∃ m, n = m + 1 := ⟨n - 1, by omega⟩
  unfold parseL
  rw [if_neg hl.1, if_neg hl.2.1, if_neg hl.2.2, h0 m (by omega)]
  exact h1 m (by omega)

theorem cxx_le {l : Nat} {ts : List Tok} {t : Tree} (h : Cxx l ts t) : l ≤ 14 := by
  cases h <;> first | omega | (have := level_le ‹_›; omega)

/-- Postfix and primary expressions begin with a name or a parenthesis. -/
theorem head_postfix {l : Nat} {ts : List Tok} {t : Tree} (h : Cxx l ts t) (hl : 13 ≤ l) :
    ∃ x r, ts = x :: r ∧ unPre x = none ∧ x ≠ .rpar := by
  induction h with
  | up _ _ ih => exact ih (by omega)
  | bin o => have := level_le o; omega
  | asg => omega
  | cond => omega
  | pre => omega
  | post i _ ih =>
    obtain ⟨x, r, rfl, hx⟩ := ih hl
    exact ⟨x, _, rfl, hx⟩
  | field f _ ih =>
    obtain ⟨x, r, rfl, hx⟩ := ih hl
    exact ⟨x, _, rfl, hx⟩
  | sub _ _ ih _ =>
    obtain ⟨x, r, rfl, hx⟩ := ih hl
    exact ⟨x, _, rfl, hx⟩
  | call0 _ ih =>
    obtain ⟨x, r, rfl, hx⟩ := ih hl
    exact ⟨x, _, rfl, hx⟩
  | call _ _ ih _ =>
    obtain ⟨x, r, rfl, hx⟩ := ih hl
    exact ⟨x, _, rfl, hx⟩
  | par => exact ⟨_, _, rfl, rfl, by simp⟩
  | name => exact ⟨_, _, rfl, rfl, by simp⟩

/-- No expression begins with a closing parenthesis. -/
theorem head_any {l : Nat} {ts : List Tok} {t : Tree} (h : Cxx l ts t) : ∃ x r, ts = x :: r ∧ x ≠ .rpar := by
  induction h with
  | up _ _ ih => exact ih
  | bin o _ _ ih _ => obtain ⟨x, r, rfl, hx⟩ := ih; exact ⟨x, _, rfl, hx⟩
  | asg o _ _ ih _ => obtain ⟨x, r, rfl, hx⟩ := ih; exact ⟨x, _, rfl, hx⟩
  | cond _ _ _ ih _ _ => obtain ⟨x, r, rfl, hx⟩ := ih; exact ⟨x, _, rfl, hx⟩
  | pre o => exact ⟨_, _, rfl, by cases o <;> simp [PreOp.tok]⟩
  | post i _ ih => obtain ⟨x, r, rfl, hx⟩ := ih; exact ⟨x, _, rfl, hx⟩
  | field f _ ih => obtain ⟨x, r, rfl, hx⟩ := ih; exact ⟨x, _, rfl, hx⟩
  | sub _ _ ih _ => obtain ⟨x, r, rfl, hx⟩ := ih; exact ⟨x, _, rfl, hx⟩
  | call0 _ ih => obtain ⟨x, r, rfl, hx⟩ := ih; exact ⟨x, _, rfl, hx⟩
  | call _ _ ih _ => obtain ⟨x, r, rfl, hx⟩ := ih; exact ⟨x, _, rfl, hx⟩
  | par => exact ⟨_, _, rfl, by simp⟩
  | name => exact ⟨_, _, rfl, by simp⟩

/-- the loop at level 13, one step -/
theorem Lp.mk13 {t : Tree} {ts : List Tok} {res : Tree × List Tok}
    (h : ∃ n0, ∀ n, n0 ≤ n → loopL (n + 1) 13 t ts = some res) : Lp 13 t ts res := by
  unfold Lp
  rw [if_neg (by omega)]
  obtain ⟨n0, h⟩ := h
  refine ⟨n0 + 1, fun n hn => ?_⟩
  obtain ⟨m, rfl⟩ : ∃ m, n = m + 1 := ⟨n - 1, by omega⟩
  exact h m (by omega)

theorem Lp.get13 {t : Tree} {ts : List Tok} {res : Tree × List Tok} (h : Lp 13 t ts res) :
    ∃ n0, ∀ n, n0 ≤ n → loopL n 13 t ts = some res := by
  unfold Lp at h
  rwa [if_neg (by omega)] at h

/-- The parser is complete. -/
theorem complete {l : Nat} {ts : List Tok} {t : Tree} (h : Cxx l ts t) :
    ∀ (rest : List Tok) (res : Tree × List Tok), Ends l rest → Lp l t rest res → Pr l (ts ++ rest) res := by
  induction h with
  | @up l ts t hl h ih =>
    intro rest res he hp
    have hsub : Pr (l + 1) (ts ++ rest) (t, rest) := ih rest (t, rest) (he.mono (by omega)) (Lp.stop he)
    by_cases h1 : l = 1
    · subst h1
      have hres : res = (t, rest) := by simpa [Lp] using hp
      subst hres
      obtain ⟨n0, h0⟩ := hsub
      refine ⟨n0 + 1, fun n hn => ?_⟩
      obtain ⟨m, rfl⟩ : ∃ m, n = m + 1 := ⟨n - 1, by omega⟩
      unfold parseL
      rw [if_pos rfl, h0 m (by omega)]
      cases rest with
      | nil => rfl
      | cons x r =>
        cases x <;> first | rfl | (exfalso; simp [Ends, reach] at he)
    · by_cases h12 : l = 12
      · subst h12
        have hres : res = (t, rest) := by simpa [Lp] using hp
        subst hres
        obtain ⟨n0, h0⟩ := hsub
        obtain ⟨x, r, rfl, hx, _⟩ := head_postfix h (by omega)
        refine ⟨n0 + 1, fun n hn => ?_⟩
        obtain ⟨m, rfl⟩ : ∃ m, n = m + 1 := ⟨n - 1, by omega⟩
        unfold parseL
        rw [if_neg (by omega), if_pos rfl]
        simp only [List.cons_append, hx]
        exact h0 m (by omega)
      · exact Pr.step ⟨h1, h12, by omega⟩ hsub hp
  | @bin o as bs a b ha hb iha ihb =>
    intro rest res he hp
    have hne := level_ne o
    rw [List.append_assoc, List.cons_append]
    refine iha _ _ (by simp [Ends, reach]) ?_
    have hsub : Pr (o.level + 1) (bs ++ rest) (b, rest) := ihb rest (b, rest) (he.mono (by omega)) (Lp.stop he)
    unfold Lp at hp ⊢
    rw [if_neg (by omega)] at hp ⊢
    obtain ⟨n0, h0⟩ := hsub
    obtain ⟨m0, h1⟩ := hp
    refine ⟨n0 + m0 + 1, fun n hn => ?_⟩
    obtain ⟨m, rfl⟩ : ∃ m, n = m + 1 := ⟨n - 1, by omega⟩
    unfold loopL
    have h11 := level_le o
    rw [if_neg (by omega)]
    simp only [if_true]
    rw [h0 m (by omega)]
    exact h1 m (by omega)
  | @asg o as bs a b ha hb iha ihb =>
    intro rest res he hp
    have hres : res = (.asg o a b, rest) := by simpa [Lp] using hp
    subst hres
    obtain ⟨n0, h0⟩ := iha (.asg o :: (bs ++ rest)) (a, .asg o :: (bs ++ rest)) (by simp [Ends, reach])
      (by
        unfold Lp
        rw [if_neg (by omega)]
        refine ⟨1, fun n hn => ?_⟩
        obtain ⟨m, rfl⟩ : ∃ m, n = m + 1 := ⟨n - 1, by omega⟩
        unfold loopL
        rfl)
    obtain ⟨m0, h1⟩ := ihb rest (b, rest) he (by simp [Lp])
    refine ⟨n0 + m0 + 1, fun n hn => ?_⟩
    obtain ⟨m, rfl⟩ : ∃ m, n = m + 1 := ⟨n - 1, by omega⟩
    unfold parseL
    rw [if_pos rfl, List.append_assoc, List.cons_append, h0 m (by omega)]
    simp only []
    rw [h1 m (by omega)]
  | @cond cs as bs c a b hc ha hb ihc iha ihb =>
    intro rest res he hp
    have hres : res = (.cond c a b, rest) := by simpa [Lp] using hp
    subst hres
    obtain ⟨n0, h0⟩ := ihc (.quest :: (as ++ .colon :: (bs ++ rest))) (c, .quest :: (as ++ .colon :: (bs ++ rest)))
      (by simp [Ends, reach])
      (by
        unfold Lp
        rw [if_neg (by omega)]
        refine ⟨1, fun n hn => ?_⟩
        obtain ⟨m, rfl⟩ : ∃ m, n = m + 1 := ⟨n - 1, by omega⟩
        unfold loopL
        rfl)
    obtain ⟨k0, h2⟩ := iha (.colon :: (bs ++ rest)) (a, .colon :: (bs ++ rest)) (by simp [Ends, reach])
      (by
        unfold Lp
        rw [if_neg (by omega)]
        refine ⟨1, fun n hn => ?_⟩
        obtain ⟨m, rfl⟩ : ∃ m, n = m + 1 := ⟨n - 1, by omega⟩
        unfold loopL
        rfl)
    obtain ⟨m0, h1⟩ := ihb rest (b, rest) he (by simp [Lp])
    refine ⟨n0 + m0 + k0 + 1, fun n hn => ?_⟩
    obtain ⟨m, rfl⟩ : ∃ m, n = m + 1 := ⟨n - 1, by omega⟩
    unfold parseL
    rw [if_pos rfl, List.append_assoc, List.cons_append, List.append_assoc, List.cons_append, h0 m (by omega)]
    simp only []
    rw [h2 m (by omega)]
    simp only []
    rw [h1 m (by omega)]
  | @pre o ts t h ih =>
    intro rest res he hp
    have hres : res = (.pre o t, rest) := by simpa [Lp] using hp
    subst hres
    obtain ⟨n0, h0⟩ := ih rest (t, rest) he (by simp [Lp])
    refine ⟨n0 + 1, fun n hn => ?_⟩
    obtain ⟨m, rfl⟩ : ∃ m, n = m + 1 := ⟨n - 1, by omega⟩
    unfold parseL
    rw [if_neg (by omega), if_pos rfl]
    simp only [List.cons_append, unPre_tok]
    rw [h0 m (by omega)]
  | @post i ts t h ih =>
    intro rest res he hp
    rw [List.append_assoc]
    refine ih _ _ (by cases i <;> simp [Ends, reach, postTok]) (Lp.mk13 ?_)
    obtain ⟨n0, h0⟩ := hp.get13
    refine ⟨n0, fun n hn => ?_⟩
    unfold loopL
    rw [if_pos rfl]
    cases i <;> exact h0 n hn
  | @field ts t f h ih =>
    intro rest res he hp
    rw [List.append_assoc]
    refine ih _ _ (by simp [Ends, reach]) (Lp.mk13 ?_)
    obtain ⟨n0, h0⟩ := hp.get13
    refine ⟨n0, fun n hn => ?_⟩
    unfold loopL
    rw [if_pos rfl]
    exact h0 n hn
  | @sub ts t is i h hi ih ihi =>
    intro rest res he hp
    rw [List.append_assoc, List.cons_append, List.append_assoc]
    refine ih _ _ (by simp [Ends, reach]) (Lp.mk13 ?_)
    obtain ⟨n0, h0⟩ := hp.get13
    obtain ⟨m0, h1⟩ := ihi (.rbrack :: rest) (i, .rbrack :: rest) (by simp [Ends, reach])
      (by
        unfold Lp
        rw [if_neg (by omega)]
        refine ⟨1, fun n hn => ?_⟩
        obtain ⟨m, rfl⟩ : ∃ m, n = m + 1 := ⟨n - 1, by omega⟩
        unfold loopL
        rfl)
    refine ⟨n0 + m0, fun n hn => ?_⟩
    unfold loopL
    rw [if_pos rfl]
    simp only [List.singleton_append]
    rw [h1 n (by omega)]
    exact h0 n (by omega)
  | @call0 ts t h ih =>
    intro rest res he hp
    rw [List.append_assoc]
    refine ih _ _ (by simp [Ends, reach]) (Lp.mk13 ?_)
    obtain ⟨n0, h0⟩ := hp.get13
    refine ⟨n0, fun n hn => ?_⟩
    unfold loopL
    rw [if_pos rfl]
    exact h0 n hn
  | @call ts t as a h ha ih iha =>
    intro rest res he hp
    rw [List.append_assoc, List.cons_append, List.append_assoc]
    refine ih _ _ (by simp [Ends, reach]) (Lp.mk13 ?_)
    obtain ⟨n0, h0⟩ := hp.get13
    obtain ⟨m0, h1⟩ := iha (.rpar :: rest) (a, .rpar :: rest) (by simp [Ends, reach])
      (by
        unfold Lp
        rw [if_neg (by omega)]
        refine ⟨1, fun n hn => ?_⟩
        obtain ⟨m, rfl⟩ : ∃ m, n = m + 1 := ⟨n - 1, by omega⟩
        unfold loopL
        rfl)
    obtain ⟨x, r, rfl, hx⟩ := head_any ha
    refine ⟨n0 + m0, fun n hn => ?_⟩
    have h1' := h1 n (by omega)
    unfold loopL
    rw [if_pos rfl]
    simp only [List.cons_append, List.nil_append] at h1' ⊢
    cases x <;> first | (exact absurd rfl hx) | (simp only []; rw [h1']; exact h0 n (by omega))
  | @par ts t h ih =>
    intro rest res he hp
    have hres : res = (t, rest) := by simpa [Lp] using hp
    subst hres
    obtain ⟨m0, h1⟩ := ih (.rpar :: rest) (t, .rpar :: rest) (by simp [Ends, reach])
      (by
        unfold Lp
        rw [if_neg (by omega)]
        refine ⟨1, fun n hn => ?_⟩
        obtain ⟨m, rfl⟩ : ∃ m, n = m + 1 := ⟨n - 1, by omega⟩
        unfold loopL
        rfl)
    refine ⟨m0 + 1, fun n hn => ?_⟩
    obtain ⟨m, rfl⟩ : ∃ m, n = m + 1 := ⟨n - 1, by omega⟩
    unfold parseL
    rw [if_neg (by omega), if_neg (by omega), if_pos rfl]
    simp only [List.cons_append, List.append_assoc, List.nil_append]
    rw [h1 m (by omega)]
  | name x =>
    intro rest res he hp
    have hres : res = (.name x, rest) := by simpa [Lp] using hp
    subst hres
    refine ⟨1, fun n hn => ?_⟩
    obtain ⟨m, rfl⟩ : ∃ m, n = m + 1 := ⟨n - 1, by omega⟩
    unfold parseL
    rw [if_neg (by omega), if_neg (by omega), if_pos rfl]
    rfl

/-- **C++ groups a sequence of tokens in at most one way.** -/
theorem cxx_unique {ts : List Tok} {t t' : Tree} (h : Cxx 0 ts t) (h' : Cxx 0 ts t') : t = t' := by
  have key : ∀ u, Cxx 0 ts u → Pr 0 ts (u, []) := by
    intro u hu
    have := complete hu [] (u, []) trivial (by
      unfold Lp
      rw [if_neg (by omega)]
      refine ⟨1, fun n hn => ?_⟩
      obtain ⟨m, rfl⟩ : ∃ m, n = m + 1 := ⟨n - 1, by omega⟩
      unfold loopL
      rfl)
    simpa using this
  obtain ⟨n0, h0⟩ := key t h
  obtain ⟨m0, h1⟩ := key t' h'
  have e0 := h0 (n0 + m0) (by omega)
  have e1 := h1 (n0 + m0) (by omega)
  rw [e0] at e1
  injection e1 with e1
  exact (Prod.mk.inj e1).1

end Verif.Front.Emit
