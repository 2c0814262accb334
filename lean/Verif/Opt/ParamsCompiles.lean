import Verif.Opt.ParamsMain

/-!
# When the generated code compiles after parameters have been optimized (C84)
-/

namespace Verif.Opt.Whole

variable {M : Sem}

/-! ## Arguments without calls -/

section
variable {r : Fn → Nat → Bool} {pr : Fn → Bool} {rank : Fn → Nat} {K : Fn → List Kind} {x : Nat} {c' : Fn × Exprs}

mutual
theorem plain_prune (out : List Fn) : (e : Expr) → e.plain = true → pruneE r pr rank out e = e
  | .lit _, _ => by simp only [pruneE]
  | .name _, _ => by simp only [pruneE]
  | .op _ as, h => by simp only [Expr.plain] at h; simp only [pruneE, plain_prune' out as h]
  | .mod _ _, h => by simp [Expr.plain] at h
  | .assign _ _, h => by simp [Expr.plain] at h
  | .tern q a b, h => by
    simp only [Expr.plain, Bool.and_eq_true] at h
    simp only [pruneE, plain_prune out q h.1.1, plain_prune out a h.1.2, plain_prune out b h.2]
  | .call _ _, h => by simp [Expr.plain] at h
theorem plain_prune' (out : List Fn) : (as : Exprs) → as.plain = true → pruneEs r pr rank out as = as
  | .nil, _ => by simp only [pruneEs]
  | .cons e l, h => by
    simp only [Exprs.plain, Bool.and_eq_true] at h
    simp only [pruneEs, plain_prune out e h.1, plain_prune' out l h.2]
end

mutual
theorem plain_invocations : (e : Expr) → e.plain = true → e.invocations = []
  | .lit _, _ => by simp only [Expr.invocations]
  | .name _, _ => by simp only [Expr.invocations]
  | .op _ as, h => by simp only [Expr.plain] at h; simp only [Expr.invocations, plain_invocations' as h]
  | .mod _ _, h => by simp [Expr.plain] at h
  | .assign _ _, h => by simp [Expr.plain] at h
  | .tern q a b, h => by
    simp only [Expr.plain, Bool.and_eq_true] at h
    simp only [Expr.invocations, plain_invocations q h.1.1, plain_invocations a h.1.2, plain_invocations b h.2, List.append_nil]
  | .call _ _, h => by simp [Expr.plain] at h
theorem plain_invocations' : (as : Exprs) → as.plain = true → as.invocations = []
  | .nil, _ => by simp only [Exprs.invocations]
  | .cons e l, h => by
    simp only [Exprs.plain, Bool.and_eq_true] at h
    simp only [Exprs.invocations, plain_invocations e h.1, plain_invocations' l h.2, List.append_nil]
end

theorem plain_drop : ∀ (as : Exprs) (t : Nat → Bool), as.plain = true → (as.dropAt t).plain = true
  | .nil, _, h => h
  | .cons e l, t, h => by
    simp only [Exprs.plain, Bool.and_eq_true] at h
    rw [dropAtE_cons]
    split
    · exact plain_drop l _ h.2
    · simp only [Exprs.plain, h.1, plain_drop l _ h.2, Bool.and_self]

theorem drop_length {α : Type} : ∀ (as : Exprs) (l : List α) (t : Nat → Bool), as.toList.length = l.length → (as.dropAt t).toList.length = (dropAt t l).length
  | .nil, [], _, _ => rfl
  | .nil, _ :: _, _, h => by simp [Exprs.toList] at h
  | .cons _ _, [], _, h => by simp [Exprs.toList] at h
  | .cons e as, a :: l, t, h => by
    simp only [Exprs.toList, List.length_cons, Nat.add_right_cancel_iff] at h
    rw [dropAtE_cons, dropAt_cons]
    split
    · exact drop_length as l _ h
    · simp [Exprs.toList, drop_length as l _ h]

theorem inouts_drop : ∀ (ks : List Kind) (as : Exprs) (t : Nat → Bool), x ∈ Exprs.inouts (dropAt t ks) (as.dropAt t) → x ∈ Exprs.inouts ks as
  | [], as, t, h => by generalize as.dropAt t = as' at h; cases as' <;> simp [dropAt, Exprs.inouts] at h
  | k :: ks, .nil, t, h => by
    simp only [Exprs.dropAt] at h
    generalize dropAt t (k :: ks) = ks' at h
    cases ks' with
    | nil => simp [Exprs.inouts] at h
    | cons k' _ => cases k' <;> simp [Exprs.inouts] at h
  | k :: ks, .cons e l, t, h => by
    have up : x ∈ Exprs.inouts ks l → x ∈ Exprs.inouts (k :: ks) (.cons e l) := by
      intro h'; cases k <;> simp only [Exprs.inouts, List.mem_append] <;> first | exact h' | exact Or.inr h'
    rw [dropAtE_cons, dropAt_cons] at h
    split at h
    · exact up (inouts_drop ks l _ h)
    · cases k with
      | inout =>
        simp only [Exprs.inouts, List.mem_append] at h ⊢
        exact h.imp id (inouts_drop ks l _)
      | copy => simp only [Exprs.inouts] at h ⊢; exact inouts_drop ks l _ h
      | in_ => simp only [Exprs.inouts] at h ⊢; exact inouts_drop ks l _ h

theorem writes_drop {K : Fn → List Kind} : ∀ (as : Exprs) (t : Nat → Bool), x ∈ (as.dropAt t).writes K → x ∈ as.writes K
  | .nil, _, h => h
  | .cons e l, t, h => by
    rw [dropAtE_cons] at h
    simp only [Exprs.writes, List.mem_append]
    split at h
    · exact .inr (writes_drop l _ h)
    · simp only [Exprs.writes, List.mem_append] at h; exact h.imp id (writes_drop l _)

mutual
theorem plain_writes {K : Fn → List Kind} : (e : Expr) → e.plain = true → e.writes K = []
  | .lit _, _ => by simp only [Expr.writes]
  | .name _, _ => by simp only [Expr.writes]
  | .op _ as, h => by simp only [Expr.plain] at h; simp only [Expr.writes, plain_writes' as h]
  | .mod _ _, h => by simp [Expr.plain] at h
  | .assign _ _, h => by simp [Expr.plain] at h
  | .tern q a b, h => by
    simp only [Expr.plain, Bool.and_eq_true] at h
    simp only [Expr.writes, plain_writes q h.1.1, plain_writes a h.1.2, plain_writes b h.2, List.append_nil]
  | .call _ _, h => by simp [Expr.plain] at h
theorem plain_writes' {K : Fn → List Kind} : (as : Exprs) → as.plain = true → as.writes K = []
  | .nil, _ => by simp only [Exprs.writes]
  | .cons e l, h => by
    simp only [Exprs.plain, Bool.and_eq_true] at h
    simp only [Exprs.writes, plain_writes e h.1, plain_writes' l h.2, List.append_nil]
end

/-- A call without calls in its arguments. -/
def Simple (K : Fn → List Kind) (c : Fn × Exprs) : Prop := c.2.plain = true ∧ c.2.toList.length = (K c.1).length

variable (hpr : ∀ f, pr f = false → ∀ j, j < (K f).length → r f j = false)
include hpr

theorem prune_simple {f : Fn} {as : Exprs} (h : Simple K (f, as)) : pruneE r pr rank [] (.call f as) = .call f (as.dropAt (r f)) := by
  simp only [pruneE, List.any_nil, Bool.false_eq_true, if_false]
  cases hp : pr f with
  | true => simp only [if_true, plain_prune' _ as h.1]
  | false =>
    simp only [Bool.false_eq_true, if_false, plain_prune' _ as h.1]
    rw [dropAtE_id]
    intro j hj
    exact hpr f hp j (by have h2 := h.2; dsimp only at h2; omega)

mutual
theorem invocations_prune : (e : Expr) → (∀ c ∈ e.invocations, Simple K c) → c' ∈ (pruneE r pr rank [] e).invocations →
    ∃ c ∈ e.invocations, c' = (c.1, c.2.dropAt (r c.1))
  | .lit _ => by intro _ h; simp [pruneE, Expr.invocations] at h
  | .name _ => by intro _ h; simp [pruneE, Expr.invocations] at h
  | .op _ as => by
    have ih := invocations_prune' as
    intro hs h
    simp only [pruneE, Expr.invocations] at h ⊢
    exact ih hs h
  | .mod _ _ => by intro _ h; simp [pruneE, Expr.invocations] at h
  | .assign _ e => by
    have ih := invocations_prune e
    intro hs h
    simp only [pruneE, Expr.invocations] at h ⊢
    exact ih hs h
  | .tern q a b => by
    have ihq := invocations_prune q
    have iha := invocations_prune a
    have ihb := invocations_prune b
    intro hs h
    simp only [pruneE, Expr.invocations, List.mem_append] at hs h ⊢
    rcases h with h | h | h
    · obtain ⟨c, h1, h2⟩ := ihq (fun c h => hs c (.inl h)) h; exact ⟨c, .inl h1, h2⟩
    · obtain ⟨c, h1, h2⟩ := iha (fun c h => hs c (.inr (.inl h))) h; exact ⟨c, .inr (.inl h1), h2⟩
    · obtain ⟨c, h1, h2⟩ := ihb (fun c h => hs c (.inr (.inr h))) h; exact ⟨c, .inr (.inr h1), h2⟩
  | .call f as => by
    intro hs h
    have h0 := hs (f, as) (by simp [Expr.invocations])
    rw [prune_simple hpr h0] at h
    simp only [Expr.invocations, plain_invocations' _ (plain_drop as (r f) h0.1), List.mem_singleton] at h
    exact ⟨(f, as), by simp [Expr.invocations], h⟩
theorem invocations_prune' : (as : Exprs) → (∀ c ∈ as.invocations, Simple K c) → c' ∈ (pruneEs r pr rank [] as).invocations →
    ∃ c ∈ as.invocations, c' = (c.1, c.2.dropAt (r c.1))
  | .nil => by intro _ h; simp [pruneEs, Exprs.invocations] at h
  | .cons e l => by
    have ihe := invocations_prune e
    have ihl := invocations_prune' l
    intro hs h
    simp only [pruneEs, Exprs.invocations, List.mem_append] at hs h ⊢
    rcases h with h | h
    · obtain ⟨c, h1, h2⟩ := ihe (fun c h => hs c (.inl h)) h; exact ⟨c, .inl h1, h2⟩
    · obtain ⟨c, h1, h2⟩ := ihl (fun c h => hs c (.inr h)) h; exact ⟨c, .inr h1, h2⟩
end

theorem invocations_init (i : Option (Nat × Expr)) (hs : ∀ c ∈ initInvocations i, Simple K c) (h : c' ∈ initInvocations (pruneI r pr rank i)) :
    ∃ c ∈ initInvocations i, c' = (c.1, c.2.dropAt (r c.1)) := by
  cases i with
  | none => simp [pruneI, initInvocations] at h
  | some p => exact invocations_prune hpr p.2 hs h

mutual
theorem invocations_prune_s : (a : Stmt) → (∀ c ∈ a.invocations, Simple K c) → c' ∈ (prune r pr rank a).invocations →
    ∃ c ∈ a.invocations, c' = (c.1, c.2.dropAt (r c.1))
  | .expr e => by intro hs h; simp only [prune, Stmt.invocations] at h hs ⊢; exact invocations_prune hpr e hs h
  | .decl _ e => by intro hs h; simp only [prune, Stmt.invocations] at h hs ⊢; exact invocations_prune hpr e hs h
  | .ret none => by intro hs h; simp [prune, pruneO, Stmt.invocations, optInvocations] at h
  | .ret (some e) => by intro hs h; simp only [prune, pruneO, Stmt.invocations, optInvocations] at h hs ⊢; exact invocations_prune hpr e hs h
  | .throw_ e => by intro hs h; simp only [prune, Stmt.invocations] at h hs ⊢; exact invocations_prune hpr e hs h
  | .brk => by intro hs h; simp [prune, Stmt.invocations] at h
  | .cont => by intro hs h; simp [prune, Stmt.invocations] at h
  | .block b => by
    have ih := invocations_prune_b b
    intro hs h; simp only [prune, Stmt.invocations] at h hs ⊢; exact ih hs h
  | .ite i q t e => by
    have iht := invocations_prune_b t
    have ihe := invocations_prune_b e
    intro hs h
    simp only [prune, Stmt.invocations, List.mem_append] at h hs ⊢
    rcases h with h | h | h | h
    · obtain ⟨c, h1, h2⟩ := invocations_init hpr i (fun c h => hs c (.inl h)) h; exact ⟨c, .inl h1, h2⟩
    · obtain ⟨c, h1, h2⟩ := invocations_prune hpr q (fun c h => hs c (.inr (.inl h))) h; exact ⟨c, .inr (.inl h1), h2⟩
    · obtain ⟨c, h1, h2⟩ := iht (fun c h => hs c (.inr (.inr (.inl h)))) h; exact ⟨c, .inr (.inr (.inl h1)), h2⟩
    · obtain ⟨c, h1, h2⟩ := ihe (fun c h => hs c (.inr (.inr (.inr h)))) h; exact ⟨c, .inr (.inr (.inr h1)), h2⟩
  | .while_ i q t e => by
    have iht := invocations_prune_b t
    have ihe := invocations_prune_b e
    intro hs h
    simp only [prune, Stmt.invocations, List.mem_append] at h hs ⊢
    rcases h with h | h | h | h
    · obtain ⟨c, h1, h2⟩ := invocations_init hpr i (fun c h => hs c (.inl h)) h; exact ⟨c, .inl h1, h2⟩
    · obtain ⟨c, h1, h2⟩ := invocations_prune hpr q (fun c h => hs c (.inr (.inl h))) h; exact ⟨c, .inr (.inl h1), h2⟩
    · obtain ⟨c, h1, h2⟩ := iht (fun c h => hs c (.inr (.inr (.inl h)))) h; exact ⟨c, .inr (.inr (.inl h1)), h2⟩
    · obtain ⟨c, h1, h2⟩ := ihe (fun c h => hs c (.inr (.inr (.inr h)))) h; exact ⟨c, .inr (.inr (.inr h1)), h2⟩
  | .try_ b g => by
    have ihb := invocations_prune_b b
    have ihg := invocations_prune_b g
    intro hs h
    simp only [prune, Stmt.invocations, List.mem_append] at h hs ⊢
    rcases h with h | h
    · obtain ⟨c, h1, h2⟩ := ihb (fun c h => hs c (.inl h)) h; exact ⟨c, .inl h1, h2⟩
    · obtain ⟨c, h1, h2⟩ := ihg (fun c h => hs c (.inr h)) h; exact ⟨c, .inr h1, h2⟩
theorem invocations_prune_b : (b : Stmts) → (∀ c ∈ b.invocations, Simple K c) → c' ∈ (prunes' r pr rank b).invocations →
    ∃ c ∈ b.invocations, c' = (c.1, c.2.dropAt (r c.1))
  | .nil => by intro hs h; simp [prunes', Stmts.invocations] at h
  | .cons a l => by
    have iha := invocations_prune_s a
    have ihl := invocations_prune_b l
    intro hs h
    simp only [prunes', Stmts.invocations, List.mem_append] at h hs ⊢
    rcases h with h | h
    · obtain ⟨c, h1, h2⟩ := iha (fun c h => hs c (.inl h)) h; exact ⟨c, .inl h1, h2⟩
    · obtain ⟨c, h1, h2⟩ := ihl (fun c h => hs c (.inr h)) h; exact ⟨c, .inr h1, h2⟩
end

variable {K' : Fn → List Kind} (hK : ∀ f, K' f = dropAt (r f) (K f))
include hK

mutual
theorem prune_writes : (e : Expr) → (∀ c ∈ e.invocations, Simple K c) → x ∈ (pruneE r pr rank [] e).writes K' → x ∈ e.writes K
  | .lit _ => by intro _ h; simp [pruneE, Expr.writes] at h
  | .name _ => by intro _ h; simp [pruneE, Expr.writes] at h
  | .op _ as => by
    have ih := prune_writes' as
    intro hs h
    simp only [pruneE, Expr.writes] at h ⊢
    exact ih hs h
  | .mod _ (.loc y) => by intro _ h; simpa [pruneE, Expr.writes] using h
  | .mod _ (.glob y) => by intro _ h; simp [pruneE, Expr.writes] at h
  | .assign (.loc y) e => by
    have ih := prune_writes e
    intro hs h
    simp only [pruneE, Expr.writes, List.mem_cons] at h ⊢
    exact h.imp id (ih hs)
  | .assign (.glob y) e => by
    have ih := prune_writes e
    intro hs h
    simp only [pruneE, Expr.writes] at h ⊢
    exact ih hs h
  | .tern q a b => by
    have ihq := prune_writes q
    have iha := prune_writes a
    have ihb := prune_writes b
    intro hs h
    simp only [pruneE, Expr.writes, Expr.invocations, List.mem_append] at hs h ⊢
    exact h.imp (ihq fun c h => hs c (.inl h)) fun h => h.imp (iha fun c h => hs c (.inr (.inl h))) (ihb fun c h => hs c (.inr (.inr h)))
  | .call f as => by
    intro hs h
    have h0 := hs (f, as) (by simp [Expr.invocations])
    rw [prune_simple hpr h0] at h
    simp only [Expr.writes, List.mem_append, hK] at h ⊢
    refine h.imp (inouts_drop _ as (r f)) fun h => ?_
    rw [plain_writes' _ (plain_drop as (r f) h0.1)] at h
    simp at h
theorem prune_writes' : (as : Exprs) → (∀ c ∈ as.invocations, Simple K c) → x ∈ (pruneEs r pr rank [] as).writes K' → x ∈ as.writes K
  | .nil => by intro _ h; simp [pruneEs, Exprs.writes] at h
  | .cons e l => by
    have ihe := prune_writes e
    have ihl := prune_writes' l
    intro hs h
    simp only [pruneEs, Exprs.writes, Exprs.invocations, List.mem_append] at hs h ⊢
    exact h.imp (ihe fun c h => hs c (.inl h)) (ihl fun c h => hs c (.inr h))
end

theorem prune_writes_i (i : Option (Nat × Expr)) (hs : ∀ c ∈ initInvocations i, Simple K c) (h : x ∈ initWrites K' (pruneI r pr rank i)) : x ∈ initWrites K i := by
  cases i with
  | none => simp [pruneI, initWrites] at h
  | some p => simp only [pruneI, initWrites, List.mem_cons] at h ⊢; exact h.imp id (prune_writes hpr hK p.2 hs)

mutual
theorem prune_writes_s : (a : Stmt) → (∀ c ∈ a.invocations, Simple K c) → x ∈ (prune r pr rank a).writes K' → x ∈ a.writes K
  | .expr e => by intro hs h; simp only [prune, Stmt.writes] at h ⊢; exact prune_writes hpr hK e hs h
  | .decl _ e => by intro hs h; simp only [prune, Stmt.writes, List.mem_cons] at h ⊢; exact h.imp id (prune_writes hpr hK e hs)
  | .ret none => by intro hs h; simp [prune, pruneO, Stmt.writes, optWrites] at h
  | .ret (some e) => by intro hs h; simp only [prune, pruneO, Stmt.writes, optWrites] at h ⊢; exact prune_writes hpr hK e hs h
  | .throw_ e => by intro hs h; simp only [prune, Stmt.writes] at h ⊢; exact prune_writes hpr hK e hs h
  | .brk => by intro hs h; simp [prune, Stmt.writes] at h
  | .cont => by intro hs h; simp [prune, Stmt.writes] at h
  | .block b => by
    have ih := prune_writes_b b
    intro hs h; simp only [prune, Stmt.writes] at h ⊢; exact ih hs h
  | .ite i q t e => by
    have iht := prune_writes_b t
    have ihe := prune_writes_b e
    intro hs h
    simp only [prune, Stmt.writes, Stmt.invocations, List.mem_append] at h hs ⊢
    exact h.imp (prune_writes_i hpr hK i fun c h => hs c (.inl h)) fun h => h.imp (prune_writes hpr hK q fun c h => hs c (.inr (.inl h))) fun h =>
      h.imp (iht fun c h => hs c (.inr (.inr (.inl h)))) (ihe fun c h => hs c (.inr (.inr (.inr h))))
  | .while_ i q t e => by
    have iht := prune_writes_b t
    have ihe := prune_writes_b e
    intro hs h
    simp only [prune, Stmt.writes, Stmt.invocations, List.mem_append] at h hs ⊢
    exact h.imp (prune_writes_i hpr hK i fun c h => hs c (.inl h)) fun h => h.imp (prune_writes hpr hK q fun c h => hs c (.inr (.inl h))) fun h =>
      h.imp (iht fun c h => hs c (.inr (.inr (.inl h)))) (ihe fun c h => hs c (.inr (.inr (.inr h))))
  | .try_ b g => by
    have ihb := prune_writes_b b
    have ihg := prune_writes_b g
    intro hs h
    simp only [prune, Stmt.writes, Stmt.invocations, List.mem_append] at h hs ⊢
    exact h.imp (ihb fun c h => hs c (.inl h)) (ihg fun c h => hs c (.inr h))
theorem prune_writes_b : (b : Stmts) → (∀ c ∈ b.invocations, Simple K c) → x ∈ (prunes' r pr rank b).writes K' → x ∈ b.writes K
  | .nil => by intro hs h; simp [prunes', Stmts.writes] at h
  | .cons a l => by
    have iha := prune_writes_s a
    have ihl := prune_writes_b l
    intro hs h
    simp only [prunes', Stmts.writes, Stmts.invocations, List.mem_append] at h hs ⊢
    exact h.imp (iha fun c h => hs c (.inl h)) (ihl fun c h => hs c (.inr h))
end
end

/-! ## Programs -/

theorem dropAt_sublist {α : Type} : ∀ (l : List α) (t : Nat → Bool), (dropAt t l).Sublist l
  | [], _ => List.Sublist.slnil
  | a :: l, t => by
    rw [dropAt_cons]
    split
    · exact (dropAt_sublist l _).cons a
    · exact (dropAt_sublist l _).cons_cons a

theorem dropAt_len {α β : Type} : ∀ (a : List α) (b : List β) (t : Nat → Bool), a.length = b.length → (dropAt t a).length = (dropAt t b).length
  | [], [], _, _ => rfl
  | [], _ :: _, _, h => by simp at h
  | _ :: _, [], _, h => by simp at h
  | x :: a, y :: b, t, h => by
    simp only [List.length_cons, Nat.add_right_cancel_iff] at h
    rw [dropAt_cons, dropAt_cons]
    split
    · exact dropAt_len a b _ h
    · simp [dropAt_len a b _ h]

theorem zip_dropAt {x : Nat} {k : Kind} : ∀ (ps : List Nat) (ks : List Kind) (t : Nat → Bool), (x, k) ∈ (dropAt t ps).zip (dropAt t ks) → (x, k) ∈ ps.zip ks
  | [], ks, t, h => by simp [dropAt] at h
  | _ :: _, [], t, h => by simp [dropAt] at h
  | p :: ps, k0 :: ks, t, h => by
    rw [dropAt_cons, dropAt_cons] at h
    simp only [List.zip_cons_cons, List.mem_cons]
    split at h
    · exact .inr (zip_dropAt ps ks _ h)
    · simp only [List.zip_cons_cons, List.mem_cons] at h
      exact h.imp id (zip_dropAt ps ks _)

/-- With one implementation, the prototype gets the kinds of the implementation. -/
theorem proto_self (m : List Nat) : ∀ (ps : List Nat) (ks : List Kind), promoteProto ks ks (promoteKinds m ps ks) ks = promoteKinds m ps ks
  | [], ks => by
    simp only [promoteKinds]
    induction ks with
    | nil => rfl
    | cons k ks ih =>
      simp only [promoteProto, ih]
      by_cases h : k = .in_
      · simp [h]
      · simp [h]
  | _ :: _, [] => rfl
  | p :: ps, k :: ks => by
    simp only [promoteKinds, promoteProto, proto_self m ps ks]
    by_cases h : m.contains p = true
    · simp only [if_pos h]
      by_cases hk : k = .in_ <;> simp [hk]
    · simp only [if_neg h]
      simp

theorem single_cases {F : Fun} (h : F.impls.length ≤ 1) {i : Impl} (hm : i ∈ F.impls) : F.impls = [i] := by
  cases hl : F.impls with
  | nil => rw [hl] at hm; simp at hm
  | cons a l =>
    rw [hl] at hm h
    cases l with
    | nil => simp at hm; rw [hm]
    | cons b l => simp at h

/-- **The generated code compiles after the pass** if it does before, operators like `x++` are not used in declarations, `return` statements and sources of
    assignments, functions have at most one implementation, and arguments of calls do not have calls. -/
theorem optimize_compiles {P : Prog} (hP : Compiles P) (hh : NothingHidden P) (h1 : Single P) (hp : PlainArgs P) : Compiles (optimizeParams P) := by
  have hpr : ∀ f, P.prunes f = false → ∀ j, j < ((promote P).kinds f).length → P.unused f j = false := by
    intro f h j hj
    rw [(kinds_promote P f).length] at hj
    unfold Prog.prunes at h
    rw [List.any_eq_false] at h
    simpa using h j (List.mem_range.mpr hj)
  have hK : ∀ f, (optimizeParams P).kinds f = dropAt (P.unused f) ((promote P).kinds f) := by
    intro f
    unfold optimizeParams
    simp only [Prog.kinds, get_prune]
    cases (promote P).get f with
    | none => rfl
    | some F => rfl
  have hS : ∀ f F, P.get f = some F → ∀ i ∈ F.impls, ∀ c ∈ i.body.invocations, Simple (promote P).kinds c := fun f F hF i hm c hc =>
    ⟨hp f F hF i hm c hc, by rw [(kinds_promote P c.1).length]; exact hP.arity f F hF i hm c hc⟩
  -- the parts of the program after the pass
  have parts : ∀ f G, (optimizeParams P).get f = some G → ∃ F, P.get f = some F ∧ G = (F.promote P.kinds).prune P.unused P.prunes P.rank f := by
    intro f G hG
    cases hF : P.get f with
    | none => unfold optimizeParams at hG; rw [get_prune, get_promote, hF] at hG; simp at hG
    | some F => rw [get_opt hF] at hG; injection hG with hG; exact ⟨F, rfl, hG.symm⟩
  have impls : ∀ f F, P.get f = some F → ∀ i' ∈ ((F.promote P.kinds).prune P.unused P.prunes P.rank f).impls, ∃ i ∈ F.impls, ∃ ks,
      i' = Impl.mk (dropAt (P.unused f) i.params) (dropAt (P.unused f) ks) (prunes' P.unused P.prunes P.rank i.body) ∧ ks = (F.promote P.kinds).kinds ∧
      (F.fixed = true ∧ ks = i.kinds ∨ F.fixed = false ∧ ks = (i.promote P.kinds).kinds) := by
    intro f F hF i' hm'
    simp only [Fun.prune, List.mem_map] at hm'
    obtain ⟨i1, hm1, rfl⟩ := hm'
    have hc := hP.consistent f F hF
    cases hx : F.fixed with
    | true =>
      rw [Fun.promote_fixed hx] at hm1 ⊢
      exact ⟨i1, hm1, i1.kinds, rfl, (hc.2 i1 hm1).1, .inl ⟨rfl, rfl⟩⟩
    | false =>
      rw [Fun.promote_impls hx] at hm1
      obtain ⟨i, hm, rfl⟩ := List.mem_map.mp hm1
      refine ⟨i, hm, (i.promote P.kinds).kinds, rfl, ?_, .inr ⟨rfl, rfl⟩⟩
      rw [Fun.promote_kinds hx, single_cases (h1 f F hF) hm]
      simp only [fold, List.foldl_cons, List.foldl_nil]
      have hik := (hc.2 i hm).1
      simp only [Impl.promote]
      rw [← hik, proto_self]
  refine ⟨?_, ?_, ?_⟩
  · intro f G hG
    obtain ⟨F, hF, rfl⟩ := parts f G hG
    have hc := hP.consistent f F hF
    refine ⟨fun h => ?_, fun i' hm' => ?_⟩
    · have h' : F.ext = true := by rw [← Fun.promote_ext P.kinds F]; exact h
      have e : (F.promote P.kinds).impls = [] := by
        cases hx : F.fixed with
        | true => rw [Fun.promote_fixed hx]; exact hc.1 h'
        | false => rw [Fun.promote_impls hx, hc.1 h']; rfl
      simp only [Fun.prune, e, List.map_nil]
    · obtain ⟨i, hm, ks, rfl, hks, _⟩ := impls f F hF i' hm'
      refine ⟨by rw [hks]; rfl, ?_, (dropAt_sublist _ _).nodup (hc.2 i hm).2.2⟩
      exact dropAt_len _ _ _ (by rw [(promote_rel P.kinds F).length]; exact (hc.2 i hm).2.1)
  · intro f G hG i' hm' x hx hw
    obtain ⟨F, hF, rfl⟩ := parts f G hG
    obtain ⟨i, hm, ks, rfl, hks, hcase⟩ := impls f F hF i' hm'
    have hw' : x ∈ i.body.writes (promote P).kinds := prune_writes_b hpr hK i.body (hS f F hF i hm) hw
    have hz := zip_dropAt _ _ _ hx
    have hc := hP.consistent f F hF
    have orig : (x, Kind.in_) ∈ i.params.zip i.kinds → False := fun hz =>
      hP.const f F hF i hm x hz (writes_mono_b (kinds_promote P) _ hw')
    rcases hcase with ⟨_, e⟩ | ⟨_, e⟩
    · rw [e] at hz; exact orig hz
    · rw [e] at hz
      obtain ⟨j, hj, hkj⟩ := zip_get hz
      obtain ⟨k, hk0⟩ := some_of_length (l := i.kinds) (n := i.params.length) (by rw [(hc.2 i hm).1, (hc.2 i hm).2.1]) (lt_of_some hj)
      have hkj' := promoteKinds_get (i.body.changed P.kinds) i.params i.kinds j hj hk0
      have e2 : (promoteKinds (i.body.changed P.kinds) i.params i.kinds)[j]? = some Kind.in_ := hkj
      rw [e2] at hkj'
      injection hkj' with hkj'
      rcases writes_changed_b (kinds_promote P) i.body hw' with h | h
      · rw [if_pos (by simpa [List.contains_eq_mem] using h)] at hkj'
        subst hkj'
        exact orig (zip_mem hj hk0)
      · rw [hh f F hF i hm] at h; simp at h
  · intro f G hG i' hm' c hc
    obtain ⟨F, hF, rfl⟩ := parts f G hG
    obtain ⟨i, hm, ks, rfl, _, _⟩ := impls f F hF i' hm'
    obtain ⟨c0, h0, rfl⟩ := invocations_prune_b hpr i.body (hS f F hF i hm) hc
    rw [hK]
    exact drop_length _ _ _ (hS f F hF i hm c0 h0).2

/-- **Optimizing parameters keeps what programs do**, with all conditions on the program before the pass. -/
theorem optimize_parameters_plain {P : Prog} (hP : Compiles P) (he : ExternalFixed P) (hh : NothingHidden P) (h1 : Single P) (hp : PlainArgs P)
    (hi : IdleArgs M P) (hs : SafeCopies P) {f : Fn} {F : Fun} (hf : P.get f = some F) (hx : F.fixed = true) {args : List Arg} {d : Nat}
    (ha : Fits d F.kinds args) (s : St M) (r : Ev M) : Does M P f args d s r ↔ Does M (optimizeParams P) f args d s r :=
  optimize_parameters_partial hP (optimize_compiles hP hh h1 hp) he hi hs hf hx ha s r

end Verif.Opt.Whole
