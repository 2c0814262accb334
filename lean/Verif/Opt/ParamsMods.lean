import Verif.Opt.ParamsPruneMain

/-!
# Optimizing parameters: what the analysis misses (C84)

The analysis of what a body changes misses operators like `x++` in declarations, in `return` statements and in the source of an assignment; nothing else.
-/

namespace Verif.Opt.Whole

/-! ## Names -/

mutual
theorem mods_locs {x : Nat} : (e : Expr) → x ∈ e.mods → x ∈ e.locs
  | .lit _, h => by simp [Expr.mods] at h
  | .name _, h => by simp [Expr.mods] at h
  | .op _ as, h => by simp only [Expr.mods] at h; simp only [Expr.locs]; exact mods_locs' as h
  | .mod _ (.loc y), h => by simpa [Expr.mods, Expr.locs] using h
  | .mod _ (.glob _), h => by simp [Expr.mods] at h
  | .assign (.loc y) e, h => by simp only [Expr.mods] at h; simp only [Expr.locs, List.mem_cons]; exact .inr (mods_locs e h)
  | .assign (.glob y) e, h => by simp only [Expr.mods] at h; simp only [Expr.locs]; exact mods_locs e h
  | .tern q a b, h => by
    simp only [Expr.mods, List.mem_append] at h
    simp only [Expr.locs, List.mem_append]
    exact h.imp (mods_locs q) fun h => h.imp (mods_locs a) (mods_locs b)
  | .call _ as, h => by simp only [Expr.mods] at h; simp only [Expr.locs]; exact mods_locs' as h
theorem mods_locs' {x : Nat} : (as : Exprs) → x ∈ as.mods → x ∈ as.locs
  | .nil, h => by simp [Exprs.mods] at h
  | .cons e r, h => by
    simp only [Exprs.mods, List.mem_append] at h
    simp only [Exprs.locs, List.mem_append]
    exact h.imp (mods_locs e) (mods_locs' r)
end

theorem inouts_locs {x : Nat} : ∀ {ks : List Kind} (as : Exprs), x ∈ Exprs.inouts ks as → x ∈ as.locs
  | [], as, h => by cases as <;> simp [Exprs.inouts] at h
  | k :: ks, .nil, h => by cases k <;> simp [Exprs.inouts] at h
  | k :: ks, .cons e r, h => by
    simp only [Exprs.locs, List.mem_append]
    have one : x ∈ e.loc?.toList → x ∈ e.locs := by
      intro h
      cases e with
      | name n => cases n with
        | loc y => simpa [Expr.loc?, Expr.locs] using h
        | glob y => simp [Expr.loc?] at h
      | _ => simp [Expr.loc?] at h
    cases k with
    | inout =>
      simp only [Exprs.inouts, List.mem_append] at h
      exact h.imp one (inouts_locs r)
    | copy => simp only [Exprs.inouts] at h; exact .inr (inouts_locs r h)
    | in_ => simp only [Exprs.inouts] at h; exact .inr (inouts_locs r h)

theorem inouts_mono {x : Nat} : ∀ {ks ks' : List Kind} (as : Exprs), KindsR ks ks' → x ∈ Exprs.inouts ks' as → x ∈ Exprs.inouts ks as
  | [], [], as, _, h => by cases as <;> simp [Exprs.inouts] at h
  | [], _ :: _, as, hk, h => by simp [KindsR] at hk
  | _ :: _, [], as, hk, h => by simp [KindsR] at hk
  | k :: ks, k' :: ks', .nil, hk, h => by cases k' <;> simp [Exprs.inouts] at h
  | k :: ks, k' :: ks', .cons e r, hk, h => by
    have up : x ∈ Exprs.inouts ks r → x ∈ Exprs.inouts (k :: ks) (.cons e r) := by
      intro h; cases k <;> simp only [Exprs.inouts, List.mem_append] <;> first | exact h | exact .inr h
    rcases hk.1 with h1 | h1
    · subst h1
      cases k' with
      | inout =>
        simp only [Exprs.inouts, List.mem_append] at h ⊢
        exact h.imp id (inouts_mono r hk.2)
      | copy => simp only [Exprs.inouts] at h ⊢; exact inouts_mono r hk.2 h
      | in_ => simp only [Exprs.inouts] at h ⊢; exact inouts_mono r hk.2 h
    · subst h1
      simp only [Exprs.inouts] at h
      exact up (inouts_mono r hk.2 h)

section
variable {K K' : Fn → List Kind} {x : Nat}

mutual
theorem writes_locs : (e : Expr) → x ∈ e.writes K → x ∈ e.locs
  | .lit _, h => by simp [Expr.writes] at h
  | .name _, h => by simp [Expr.writes] at h
  | .op _ as, h => by simp only [Expr.writes] at h; simp only [Expr.locs]; exact writes_locs' as h
  | .mod _ (.loc y), h => by simpa [Expr.writes, Expr.locs] using h
  | .mod _ (.glob _), h => by simp [Expr.writes] at h
  | .assign (.loc y) e, h => by
    simp only [Expr.writes, List.mem_cons] at h; simp only [Expr.locs, List.mem_cons]; exact h.imp id (writes_locs e)
  | .assign (.glob y) e, h => by simp only [Expr.writes] at h; simp only [Expr.locs]; exact writes_locs e h
  | .tern q a b, h => by
    simp only [Expr.writes, List.mem_append] at h
    simp only [Expr.locs, List.mem_append]
    exact h.imp (writes_locs q) fun h => h.imp (writes_locs a) (writes_locs b)
  | .call _ as, h => by
    simp only [Expr.writes, List.mem_append] at h; simp only [Expr.locs]
    exact h.elim (inouts_locs as) (writes_locs' as)
theorem writes_locs' : (as : Exprs) → x ∈ as.writes K → x ∈ as.locs
  | .nil, h => by simp [Exprs.writes] at h
  | .cons e r, h => by
    simp only [Exprs.writes, List.mem_append] at h
    simp only [Exprs.locs, List.mem_append]
    exact h.imp (writes_locs e) (writes_locs' r)
end

theorem initWrites_locs (i : Option (Nat × Expr)) (h : x ∈ initWrites K i) : x ∈ initLocs i := by
  cases i with
  | none => simp [initWrites] at h
  | some p => simp only [initWrites, List.mem_cons] at h; simp only [initLocs, List.mem_cons]; exact h.imp id (writes_locs _)

mutual
theorem writes_locs_s : (a : Stmt) → x ∈ a.writes K → x ∈ a.locs
  | .expr e, h => writes_locs e h
  | .decl y e, h => by simp only [Stmt.writes, List.mem_cons] at h; simp only [Stmt.locs, List.mem_cons]; exact h.imp id (writes_locs e)
  | .ret none, h => by simp [Stmt.writes, optWrites] at h
  | .ret (some e), h => writes_locs e h
  | .throw_ e, h => writes_locs e h
  | .brk, h => by simp [Stmt.writes] at h
  | .cont, h => by simp [Stmt.writes] at h
  | .block b, h => by simp only [Stmt.writes] at h; simp only [Stmt.locs]; exact writes_locs_b b h
  | .ite i q t e, h => by
    simp only [Stmt.writes, List.mem_append] at h; simp only [Stmt.locs, List.mem_append]
    exact h.imp (initWrites_locs i) fun h => h.imp (writes_locs q) fun h => h.imp (writes_locs_b t) (writes_locs_b e)
  | .while_ i q t e, h => by
    simp only [Stmt.writes, List.mem_append] at h; simp only [Stmt.locs, List.mem_append]
    exact h.imp (initWrites_locs i) fun h => h.imp (writes_locs q) fun h => h.imp (writes_locs_b t) (writes_locs_b e)
  | .try_ b g, h => by
    simp only [Stmt.writes, List.mem_append] at h; simp only [Stmt.locs, List.mem_append]
    exact h.imp (writes_locs_b b) (writes_locs_b g)
theorem writes_locs_b : (b : Stmts) → x ∈ b.writes K → x ∈ b.locs
  | .nil, h => by simp [Stmts.writes] at h
  | .cons a r, h => by
    simp only [Stmts.writes, List.mem_append] at h; simp only [Stmts.locs, List.mem_append]
    exact h.imp (writes_locs_s a) (writes_locs_b r)
end

/-! ## The analysis covers all else -/

theorem mods_inner : (as : Exprs) → x ∈ as.mods → x ∈ as.inner
  | .nil, h => by simp [Exprs.mods] at h
  | .cons e r, h => by
    simp only [Exprs.mods, List.mem_append] at h
    have ih : x ∈ r.mods → x ∈ r.inner := mods_inner r
    cases e with
    | name n => simp only [Expr.mods, List.not_mem_nil, false_or] at h; simp only [Exprs.inner]; exact ih h
    | _ => simp only [Exprs.inner, List.mem_append]; exact h.imp (mods_locs _) ih

variable (hk : ∀ f, KindsR (K f) (K' f))
include hk

mutual
theorem writes_noted : (e : Expr) → x ∈ e.writes K' → x ∈ e.noted K ∨ x ∈ e.mods
  | .lit _, h => by simp [Expr.writes] at h
  | .name _, h => by simp [Expr.writes] at h
  | .op _ as, h => by simp only [Expr.writes] at h; simp only [Expr.noted, Expr.mods]; exact writes_noted' as h
  | .mod _ (.loc y), h => .inr (by simpa [Expr.writes, Expr.mods] using h)
  | .mod _ (.glob _), h => by simp [Expr.writes] at h
  | .assign (.loc y) e, h => by
    simp only [Expr.writes, List.mem_cons] at h; simp only [Expr.noted, Expr.mods, List.mem_cons]
    rcases h with h | h
    · exact .inl (.inl h)
    · exact (writes_noted e h).imp .inr id
  | .assign (.glob y) e, h => by simp only [Expr.writes] at h; simp only [Expr.noted, Expr.mods]; exact writes_noted e h
  | .tern q a b, h => by
    simp only [Expr.writes, List.mem_append] at h
    simp only [Expr.noted, Expr.mods, List.mem_append]
    rcases h with h | h | h
    · exact (writes_noted q h).imp .inl .inl
    · exact (writes_noted a h).imp (fun h => .inr (.inl h)) fun h => .inr (.inl h)
    · exact (writes_noted b h).imp (fun h => .inr (.inr h)) fun h => .inr (.inr h)
  | .call f as, h => by
    simp only [Expr.writes, List.mem_append] at h
    simp only [Expr.noted, Expr.mods, List.mem_append]
    rcases h with h | h
    · exact .inl (.inl (inouts_mono as (hk f) h))
    · exact (writes_noted' as h).imp .inr id
theorem writes_noted' : (as : Exprs) → x ∈ as.writes K' → x ∈ as.noted K ∨ x ∈ as.mods
  | .nil, h => by simp [Exprs.writes] at h
  | .cons e r, h => by
    simp only [Exprs.writes, List.mem_append] at h
    simp only [Exprs.noted, Exprs.mods, List.mem_append]
    rcases h with h | h
    · exact (writes_noted e h).imp .inl .inl
    · exact (writes_noted' r h).imp .inr .inr
end

theorem writes_changed (e : Expr) (h : x ∈ e.writes K') : x ∈ e.changed K ∨ x ∈ e.hidden := by
  cases e with
  | lit => simp [Expr.writes] at h
  | name => simp [Expr.writes] at h
  | op o as =>
    simp only [Expr.writes] at h
    simp only [Expr.changed, List.mem_append]
    exact .inl ((writes_noted' hk as h).imp id (mods_inner as))
  | mod o n => cases n with
    | loc y => exact .inl (by simpa [Expr.writes, Expr.changed] using h)
    | glob y => simp [Expr.writes] at h
  | assign n e =>
    cases n with
    | loc y =>
      simp only [Expr.writes, List.mem_cons] at h
      simp only [Expr.changed, Expr.hidden, List.mem_cons]
      rcases h with h | h
      · exact .inl (.inl h)
      · exact (writes_noted hk e h).imp .inr id
    | glob y => simp only [Expr.writes] at h; exact writes_noted hk e h
  | tern q a b =>
    left
    simp only [Expr.writes, List.mem_append] at h
    simp only [Expr.changed, List.mem_append]
    exact h.imp (writes_locs q) fun h => h.imp (writes_locs a) (writes_locs b)
  | call f as =>
    left
    simp only [Expr.writes, List.mem_append] at h
    simp only [Expr.changed, List.mem_append]
    rcases h with h | h
    · exact .inl (inouts_mono as (hk f) h)
    · exact .inr ((writes_noted' hk as h).imp id (mods_inner as))

theorem writes_init (i : Option (Nat × Expr)) (h : x ∈ initWrites K' i) : x ∈ initChanged K i ∨ x ∈ initMods i := by
  cases i with
  | none => simp [initWrites] at h
  | some p =>
    simp only [initWrites, List.mem_cons] at h
    simp only [initChanged, initMods, List.mem_cons]
    rcases h with h | h
    · exact .inl (.inl h)
    · exact (writes_noted hk p.2 h).imp .inr id

mutual
theorem writes_changed_s : (a : Stmt) → x ∈ a.writes K' → x ∈ a.changed K ∨ x ∈ a.hidden
  | .expr e, h => writes_changed hk e h
  | .decl y e, h => by
    simp only [Stmt.writes, List.mem_cons] at h
    simp only [Stmt.changed, Stmt.hidden, List.mem_cons]
    rcases h with h | h
    · exact .inl (.inl h)
    · exact (writes_noted hk e h).imp .inr id
  | .ret none, h => by simp [Stmt.writes, optWrites] at h
  | .ret (some e), h => writes_noted hk e h
  | .throw_ e, h => .inl (writes_locs e h)
  | .brk, h => by simp [Stmt.writes] at h
  | .cont, h => by simp [Stmt.writes] at h
  | .block b, h => by simp only [Stmt.writes] at h; simp only [Stmt.changed, Stmt.hidden]; exact writes_changed_b b h
  | .ite i q t e, h => by
    simp only [Stmt.writes, List.mem_append] at h; simp only [Stmt.changed, Stmt.hidden, List.mem_append]
    rcases h with h | h | h | h
    · exact (writes_init hk i h).imp .inl .inl
    · exact (writes_changed hk q h).imp (fun h => .inr (.inl h)) fun h => .inr (.inl h)
    · exact (writes_changed_b t h).imp (fun h => .inr (.inr (.inl h))) fun h => .inr (.inr (.inl h))
    · exact (writes_changed_b e h).imp (fun h => .inr (.inr (.inr h))) fun h => .inr (.inr (.inr h))
  | .while_ i q t e, h => by
    simp only [Stmt.writes, List.mem_append] at h; simp only [Stmt.changed, Stmt.hidden, List.mem_append]
    rcases h with h | h | h | h
    · exact (writes_init hk i h).imp .inl .inl
    · exact (writes_changed hk q h).imp (fun h => .inr (.inl h)) fun h => .inr (.inl h)
    · exact (writes_changed_b t h).imp (fun h => .inr (.inr (.inl h))) fun h => .inr (.inr (.inl h))
    · exact (writes_changed_b e h).imp (fun h => .inr (.inr (.inr h))) fun h => .inr (.inr (.inr h))
  | .try_ b g, h => by
    simp only [Stmt.writes, List.mem_append] at h; simp only [Stmt.changed, Stmt.hidden, List.mem_append]
    rcases h with h | h
    · exact (writes_changed_b b h).imp .inl .inl
    · exact (writes_changed_b g h).imp .inr .inr
/-- **What the analysis misses**: only the operators it does not look at. -/
theorem writes_changed_b : (b : Stmts) → x ∈ b.writes K' → x ∈ b.changed K ∨ x ∈ b.hidden
  | .nil, h => by simp [Stmts.writes] at h
  | .cons a r, h => by
    simp only [Stmts.writes, List.mem_append] at h; simp only [Stmts.changed, Stmts.hidden, List.mem_append]
    rcases h with h | h
    · exact (writes_changed_s a h).imp .inl .inl
    · exact (writes_changed_b r h).imp .inr .inr
end
end

end Verif.Opt.Whole
