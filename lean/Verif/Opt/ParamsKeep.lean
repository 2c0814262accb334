import Verif.Opt.ParamsMods

/-!
# Optimizing parameters: what is left of a body (C84)
-/

namespace Verif.Opt.Whole

section
variable {K K' : Fn → List Kind} {x : Nat}

/-! ## Noted variables are names of the body -/

mutual
theorem noted_locs : (e : Expr) → x ∈ e.noted K → x ∈ e.locs
  | .lit _, h => by simp [Expr.noted] at h
  | .name _, h => by simp [Expr.noted] at h
  | .op _ as, h => by simp only [Expr.noted] at h; simp only [Expr.locs]; exact noted_locs' as h
  | .mod _ _, h => by simp [Expr.noted] at h
  | .assign (.loc y) e, h => by
    simp only [Expr.noted, List.mem_cons] at h; simp only [Expr.locs, List.mem_cons]; exact h.imp id (noted_locs e)
  | .assign (.glob y) e, h => by simp only [Expr.noted] at h; simp only [Expr.locs]; exact noted_locs e h
  | .tern q a b, h => by
    simp only [Expr.noted, List.mem_append] at h
    simp only [Expr.locs, List.mem_append]
    exact h.imp (noted_locs q) fun h => h.imp (noted_locs a) (noted_locs b)
  | .call _ as, h => by
    simp only [Expr.noted, List.mem_append] at h; simp only [Expr.locs]
    exact h.elim (inouts_locs as) (noted_locs' as)
theorem noted_locs' : (as : Exprs) → x ∈ as.noted K → x ∈ as.locs
  | .nil, h => by simp [Exprs.noted] at h
  | .cons e r, h => by
    simp only [Exprs.noted, List.mem_append] at h
    simp only [Exprs.locs, List.mem_append]
    exact h.imp (noted_locs e) (noted_locs' r)
end

theorem inner_locs : (as : Exprs) → x ∈ as.inner → x ∈ as.locs
  | .nil, h => by simp [Exprs.inner] at h
  | .cons e r, h => by
    have ih : x ∈ r.inner → x ∈ r.locs := inner_locs r
    simp only [Exprs.locs, List.mem_append]
    cases e with
    | name n => simp only [Exprs.inner] at h; exact .inr (ih h)
    | _ => simp only [Exprs.inner, List.mem_append] at h; exact h.imp id ih

theorem changed_locs (e : Expr) (h : x ∈ e.changed K) : x ∈ e.locs := by
  cases e with
  | lit => simp [Expr.changed] at h
  | name => simp [Expr.changed] at h
  | op o as =>
    simp only [Expr.changed, List.mem_append] at h
    exact h.elim (noted_locs' as) (inner_locs as)
  | mod o n => cases n with
    | loc y => simpa [Expr.changed, Expr.locs] using h
    | glob y => simp [Expr.changed] at h
  | assign n e =>
    cases n with
    | loc y => simp only [Expr.changed, List.mem_cons] at h; simp only [Expr.locs, List.mem_cons]; exact h.imp id (noted_locs e)
    | glob y => simp only [Expr.changed] at h; simp only [Expr.locs]; exact noted_locs e h
  | tern q a b => simpa only [Expr.changed, Expr.locs] using h
  | call f as =>
    simp only [Expr.changed, List.mem_append] at h
    exact h.elim (inouts_locs as) fun h => h.elim (noted_locs' as) (inner_locs as)

theorem initChanged_locs (i : Option (Nat × Expr)) (h : x ∈ initChanged K i) : x ∈ initLocs i := by
  cases i with
  | none => simp [initChanged] at h
  | some p => simp only [initChanged, List.mem_cons] at h; simp only [initLocs, List.mem_cons]; exact h.imp id (noted_locs _)

mutual
theorem changed_locs_s : (a : Stmt) → x ∈ a.changed K → x ∈ a.locs
  | .expr e, h => changed_locs e h
  | .decl y e, h => by simp only [Stmt.changed, List.mem_cons] at h; simp only [Stmt.locs, List.mem_cons]; exact h.imp id (noted_locs e)
  | .ret none, h => by simp [Stmt.changed, optChanged] at h
  | .ret (some e), h => noted_locs e h
  | .throw_ e, h => h
  | .brk, h => by simp [Stmt.changed] at h
  | .cont, h => by simp [Stmt.changed] at h
  | .block b, h => by simp only [Stmt.changed] at h; simp only [Stmt.locs]; exact changed_locs_b b h
  | .ite i q t e, h => by
    simp only [Stmt.changed, List.mem_append] at h; simp only [Stmt.locs, List.mem_append]
    exact h.imp (initChanged_locs i) fun h => h.imp (changed_locs q) fun h => h.imp (changed_locs_b t) (changed_locs_b e)
  | .while_ i q t e, h => by
    simp only [Stmt.changed, List.mem_append] at h; simp only [Stmt.locs, List.mem_append]
    exact h.imp (initChanged_locs i) fun h => h.imp (changed_locs q) fun h => h.imp (changed_locs_b t) (changed_locs_b e)
  | .try_ b g, h => by
    simp only [Stmt.changed, List.mem_append] at h; simp only [Stmt.locs, List.mem_append]
    exact h.imp (changed_locs_b b) (changed_locs_b g)
theorem changed_locs_b : (b : Stmts) → x ∈ b.changed K → x ∈ b.locs
  | .nil, h => by simp [Stmts.changed] at h
  | .cons a r, h => by
    simp only [Stmts.changed, List.mem_append] at h; simp only [Stmts.locs, List.mem_append]
    exact h.imp (changed_locs_s a) (changed_locs_b r)
end

theorem hidden_locs_e (e : Expr) (h : x ∈ e.hidden) : x ∈ e.locs := by
  cases e with
  | assign n e =>
    have := mods_locs e (by simpa only [Expr.hidden] using h)
    cases n with
    | loc y => simp only [Expr.locs, List.mem_cons]; exact .inr this
    | glob y => simpa only [Expr.locs] using this
  | _ => simp [Expr.hidden] at h

theorem hidden_locs_i (i : Option (Nat × Expr)) (h : x ∈ initMods i) : x ∈ initLocs i := by
  cases i with
  | none => simp [initMods] at h
  | some p => simp only [initLocs, List.mem_cons]; exact .inr (mods_locs p.2 h)

mutual
theorem hidden_locs_s : (a : Stmt) → x ∈ a.hidden → x ∈ a.locs
  | .expr e, h => hidden_locs_e e h
  | .decl y e, h => by simp only [Stmt.locs, List.mem_cons]; exact .inr (mods_locs e h)
  | .ret none, h => by simp [Stmt.hidden, optMods] at h
  | .ret (some e), h => mods_locs e h
  | .throw_ e, h => by simp [Stmt.hidden] at h
  | .brk, h => by simp [Stmt.hidden] at h
  | .cont, h => by simp [Stmt.hidden] at h
  | .block b, h => by simp only [Stmt.hidden] at h; simp only [Stmt.locs]; exact hidden_locs b h
  | .ite i q t e, h => by
    simp only [Stmt.hidden, List.mem_append] at h; simp only [Stmt.locs, List.mem_append]
    exact h.imp (hidden_locs_i i) fun h => h.imp (hidden_locs_e q) fun h => h.imp (hidden_locs t) (hidden_locs e)
  | .while_ i q t e, h => by
    simp only [Stmt.hidden, List.mem_append] at h; simp only [Stmt.locs, List.mem_append]
    exact h.imp (hidden_locs_i i) fun h => h.imp (hidden_locs_e q) fun h => h.imp (hidden_locs t) (hidden_locs e)
  | .try_ b g, h => by
    simp only [Stmt.hidden, List.mem_append] at h; simp only [Stmt.locs, List.mem_append]
    exact h.imp (hidden_locs b) (hidden_locs g)
theorem hidden_locs : (b : Stmts) → x ∈ b.hidden → x ∈ b.locs
  | .nil, h => by simp [Stmts.hidden] at h
  | .cons a r, h => by
    simp only [Stmts.hidden, List.mem_append] at h; simp only [Stmts.locs, List.mem_append]
    exact h.imp (hidden_locs_s a) (hidden_locs r)
end

/-! ## Fewer `inout` parameters, fewer changes -/

section
variable (hk : ∀ f, KindsR (K f) (K' f))
include hk

mutual
theorem writes_mono : (e : Expr) → x ∈ e.writes K' → x ∈ e.writes K
  | .lit _, h => by simp [Expr.writes] at h
  | .name _, h => by simp [Expr.writes] at h
  | .op _ as, h => by simp only [Expr.writes] at h ⊢; exact writes_mono' as h
  | .mod _ (.loc y), h => by simpa [Expr.writes] using h
  | .mod _ (.glob _), h => by simp [Expr.writes] at h
  | .assign (.loc y) e, h => by
    simp only [Expr.writes, List.mem_cons] at h ⊢; exact h.imp id (writes_mono e)
  | .assign (.glob y) e, h => by simp only [Expr.writes] at h ⊢; exact writes_mono e h
  | .tern q a b, h => by
    simp only [Expr.writes, List.mem_append] at h ⊢
    exact h.imp (writes_mono q) fun h => h.imp (writes_mono a) (writes_mono b)
  | .call f as, h => by
    simp only [Expr.writes, List.mem_append] at h ⊢
    exact h.imp (inouts_mono as (hk f)) (writes_mono' as)
theorem writes_mono' : (as : Exprs) → x ∈ as.writes K' → x ∈ as.writes K
  | .nil, h => by simp [Exprs.writes] at h
  | .cons e r, h => by
    simp only [Exprs.writes, List.mem_append] at h ⊢
    exact h.imp (writes_mono e) (writes_mono' r)
end

theorem initWrites_mono (i : Option (Nat × Expr)) (h : x ∈ initWrites K' i) : x ∈ initWrites K i := by
  cases i with
  | none => simp [initWrites] at h
  | some p => simp only [initWrites, List.mem_cons] at h ⊢; exact h.imp id (writes_mono hk _)

mutual
theorem writes_mono_s : (a : Stmt) → x ∈ a.writes K' → x ∈ a.writes K
  | .expr e, h => writes_mono hk e h
  | .decl y e, h => by simp only [Stmt.writes, List.mem_cons] at h ⊢; exact h.imp id (writes_mono hk e)
  | .ret none, h => by simp [Stmt.writes, optWrites] at h
  | .ret (some e), h => writes_mono hk e h
  | .throw_ e, h => writes_mono hk e h
  | .brk, h => by simp [Stmt.writes] at h
  | .cont, h => by simp [Stmt.writes] at h
  | .block b, h => by simp only [Stmt.writes] at h ⊢; exact writes_mono_b b h
  | .ite i q t e, h => by
    simp only [Stmt.writes, List.mem_append] at h ⊢
    exact h.imp (initWrites_mono hk i) fun h => h.imp (writes_mono hk q) fun h => h.imp (writes_mono_b t) (writes_mono_b e)
  | .while_ i q t e, h => by
    simp only [Stmt.writes, List.mem_append] at h ⊢
    exact h.imp (initWrites_mono hk i) fun h => h.imp (writes_mono hk q) fun h => h.imp (writes_mono_b t) (writes_mono_b e)
  | .try_ b g, h => by
    simp only [Stmt.writes, List.mem_append] at h ⊢
    exact h.imp (writes_mono_b b) (writes_mono_b g)
theorem writes_mono_b : (b : Stmts) → x ∈ b.writes K' → x ∈ b.writes K
  | .nil, h => by simp [Stmts.writes] at h
  | .cons a r, h => by
    simp only [Stmts.writes, List.mem_append] at h ⊢
    exact h.imp (writes_mono_s a) (writes_mono_b r)
end
end

/-! ## Operators that change their operand stay -/

mutual
theorem plain_mods : (e : Expr) → e.plain = true → e.mods = []
  | .lit _, _ => rfl
  | .name _, _ => rfl
  | .op _ as, h => by simp only [Expr.plain] at h; simp only [Expr.mods]; exact plain_mods' as h
  | .mod _ _, h => by simp [Expr.plain] at h
  | .assign _ _, h => by simp [Expr.plain] at h
  | .tern q a b, h => by
    simp only [Expr.plain, Bool.and_eq_true] at h
    simp only [Expr.mods, plain_mods q h.1.1, plain_mods a h.1.2, plain_mods b h.2, List.append_nil]
  | .call _ _, h => by simp [Expr.plain] at h
theorem plain_mods' : (as : Exprs) → as.plain = true → as.mods = []
  | .nil, _ => rfl
  | .cons e r, h => by
    simp only [Exprs.plain, Bool.and_eq_true] at h
    simp only [Exprs.mods, plain_mods e h.1, plain_mods' r h.2, List.append_nil]
end

/-- The arguments that are dropped are made of constants, variables and operators. -/
def DropPlain (r : Fn → Nat → Bool) (c : Fn × Exprs) : Prop := ∀ (j : Nat) e, c.2.toList[j]? = some e → r c.1 j = true → e.plain = true

variable {r : Fn → Nat → Bool} {pr : Fn → Bool} {rank : Fn → Nat}

mutual
theorem mods_prune : (e : Expr) → ∀ (out : List Fn), (∀ c ∈ e.invocations, DropPlain r c) → x ∈ e.mods → x ∈ (pruneE r pr rank out e).writes K
  | .lit _ => by intro out hd h; simp [Expr.mods] at h
  | .name _ => by intro out hd h; simp [Expr.mods] at h
  | .op _ as => by
    have ih := mods_prune' as
    intro out hd h
    simp only [Expr.mods] at h
    simp only [pruneE, Expr.writes]
    have h := ih out (fun _ => false) hd (fun j e _ h => by simp at h) h
    rwa [dropAtE_id _ fun _ _ => rfl] at h
  | .mod _ (.loc y) => by intro out hd h; simpa [Expr.mods, pruneE, Expr.writes] using h
  | .mod _ (.glob _) => by intro out hd h; simp [Expr.mods] at h
  | .assign (.loc y) e => by
    have ih := mods_prune e
    intro out hd h
    simp only [Expr.mods] at h
    simp only [pruneE, Expr.writes, List.mem_cons]
    exact .inr (ih out hd h)
  | .assign (.glob y) e => by
    have ih := mods_prune e
    intro out hd h
    simp only [Expr.mods] at h
    simp only [pruneE, Expr.writes]
    exact ih out hd h
  | .tern q a b => by
    have ihq := mods_prune q
    have iha := mods_prune a
    have ihb := mods_prune b
    intro out hd h
    simp only [Expr.invocations, List.mem_append] at hd
    simp only [Expr.mods, List.mem_append] at h
    simp only [pruneE, Expr.writes, List.mem_append]
    exact h.imp (ihq out fun c h => hd c (.inl h)) fun h =>
      h.imp (iha out fun c h => hd c (.inr (.inl h))) (ihb out fun c h => hd c (.inr (.inr h)))
  | .call f as => by
    have ih := mods_prune' as
    intro out hd h
    simp only [Expr.invocations, List.mem_cons] at hd
    simp only [Expr.mods] at h
    have keep : ∀ o, x ∈ (Expr.call f (pruneEs r pr rank o as)).writes K := by
      intro o
      have h := ih o (fun _ => false) (fun c h => hd c (.inr h)) (fun j e _ h => by simp at h) h
      rw [dropAtE_id _ fun _ _ => rfl] at h
      simp only [Expr.writes, List.mem_append]
      exact .inr h
    simp only [pruneE]
    split
    · exact keep _
    · split
      · simp only [Expr.writes, List.mem_append]
        exact .inr (ih _ (r f) (fun c h => hd c (.inr h)) (hd (f, as) (.inl rfl)) h)
      · exact keep _
theorem mods_prune' : (as : Exprs) → ∀ (out : List Fn) (t : Nat → Bool), (∀ c ∈ as.invocations, DropPlain r c) →
    (∀ (j : Nat) e, as.toList[j]? = some e → t j = true → e.plain = true) → x ∈ as.mods → x ∈ ((pruneEs r pr rank out as).dropAt t).writes K
  | .nil => by intro out t hd ht h; simp [Exprs.mods] at h
  | .cons e l => by
    have ihe := mods_prune e
    have ihl := mods_prune' l
    intro out t hd ht h
    simp only [Exprs.invocations, List.mem_append] at hd
    simp only [Exprs.mods, List.mem_append] at h
    have hl : x ∈ l.mods → x ∈ ((pruneEs r pr rank out l).dropAt (shift t)).writes K :=
      ihl out (shift t) (fun c h => hd c (.inr h)) fun j e he => ht (j + 1) e (by simpa [Exprs.toList] using he)
    simp only [pruneEs, dropAtE_cons]
    cases h0 : t 0 with
    | true =>
      simp only [if_true]
      rw [plain_mods e (ht 0 e (by simp [Exprs.toList]) h0)] at h
      simp only [List.not_mem_nil, false_or] at h
      exact hl h
    | false =>
      simp only [Bool.false_eq_true, if_false, Exprs.writes, List.mem_append]
      exact h.imp (ihe out fun c h => hd c (.inl h)) hl
end

theorem hidden_prune_e (e : Expr) (hd : ∀ c ∈ e.invocations, DropPlain r c) (h : x ∈ e.hidden) : x ∈ (pruneE r pr rank [] e).writes K := by
  cases e with
  | assign n e =>
    simp only [Expr.hidden] at h
    have := mods_prune (K := K) (pr := pr) (rank := rank) e [] hd h
    cases n with
    | loc y => simp only [pruneE, Expr.writes, List.mem_cons]; exact .inr this
    | glob y => simp only [pruneE, Expr.writes]; exact this
  | _ => simp [Expr.hidden] at h

theorem hidden_prune_i (i : Option (Nat × Expr)) (hd : ∀ c ∈ initInvocations i, DropPlain r c) (h : x ∈ initMods i) : x ∈ initWrites K (pruneI r pr rank i) := by
  cases i with
  | none => simp [initMods] at h
  | some p => simp only [pruneI, initWrites, List.mem_cons]; exact .inr (mods_prune p.2 [] hd h)

mutual
theorem hidden_prune_s : (a : Stmt) → (∀ c ∈ a.invocations, DropPlain r c) → x ∈ a.hidden → x ∈ (prune r pr rank a).writes K
  | .expr e, hd, h => by simp only [prune, Stmt.writes]; exact hidden_prune_e e hd h
  | .decl y e, hd, h => by simp only [prune, Stmt.writes, List.mem_cons]; exact .inr (mods_prune e [] hd h)
  | .ret none, hd, h => by simp [Stmt.hidden, optMods] at h
  | .ret (some e), hd, h => by simp only [prune, pruneO, Stmt.writes, optWrites]; exact mods_prune e [] hd h
  | .throw_ e, hd, h => by simp [Stmt.hidden] at h
  | .brk, hd, h => by simp [Stmt.hidden] at h
  | .cont, hd, h => by simp [Stmt.hidden] at h
  | .block b, hd, h => by simp only [Stmt.hidden] at h; simp only [prune, Stmt.writes]; exact hidden_prune_b b hd h
  | .ite i q t e, hd, h => by
    simp only [Stmt.invocations, List.mem_append] at hd
    simp only [Stmt.hidden, List.mem_append] at h; simp only [prune, Stmt.writes, List.mem_append]
    exact h.imp (hidden_prune_i i fun c h => hd c (.inl h)) fun h => h.imp (hidden_prune_e q fun c h => hd c (.inr (.inl h))) fun h =>
      h.imp (hidden_prune_b t fun c h => hd c (.inr (.inr (.inl h)))) (hidden_prune_b e fun c h => hd c (.inr (.inr (.inr h))))
  | .while_ i q t e, hd, h => by
    simp only [Stmt.invocations, List.mem_append] at hd
    simp only [Stmt.hidden, List.mem_append] at h; simp only [prune, Stmt.writes, List.mem_append]
    exact h.imp (hidden_prune_i i fun c h => hd c (.inl h)) fun h => h.imp (hidden_prune_e q fun c h => hd c (.inr (.inl h))) fun h =>
      h.imp (hidden_prune_b t fun c h => hd c (.inr (.inr (.inl h)))) (hidden_prune_b e fun c h => hd c (.inr (.inr (.inr h))))
  | .try_ b g, hd, h => by
    simp only [Stmt.invocations, List.mem_append] at hd
    simp only [Stmt.hidden, List.mem_append] at h; simp only [prune, Stmt.writes, List.mem_append]
    exact h.imp (hidden_prune_b b fun c h => hd c (.inl h)) (hidden_prune_b g fun c h => hd c (.inr h))
theorem hidden_prune_b : (b : Stmts) → (∀ c ∈ b.invocations, DropPlain r c) → x ∈ b.hidden → x ∈ (prunes' r pr rank b).writes K
  | .nil, hd, h => by simp [Stmts.hidden] at h
  | .cons a l, hd, h => by
    simp only [Stmts.invocations, List.mem_append] at hd
    simp only [Stmts.hidden, List.mem_append] at h; simp only [prunes', Stmts.writes, List.mem_append]
    exact h.imp (hidden_prune_s a fun c h => hd c (.inl h)) (hidden_prune_b l fun c h => hd c (.inr h))
end
end

end Verif.Opt.Whole
