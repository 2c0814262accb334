import Verif.Opt.ReturnsPass
import Verif.Opt.ReturnsSpec

/-!
# What placements mean
-/

namespace Verif.Opt.Ret

open Whole (Fn Kind)

set_option linter.unusedSectionVars false

theorem get_mem {P : Prog} {f : Fn} {F : Fun} (h : Prog.get P f = some F) : (f, F) ∈ P := by
  induction P with
  | nil => cases h
  | cons x P ih =>
    obtain ⟨g, G⟩ := x
    simp only [Prog.get] at h
    split at h
    · rename_i hc; injection h with h; subst hc; subst h; simp
    · exact List.mem_cons_of_mem _ (ih h)

/-! ## Uses -/

mutual
theorem expr_uses {f : Fn} {u : Use} : (e : Expr) → u ∈ e.uses f → u = .other
  | .lit _, h => by simp [Expr.uses] at h
  | .name _, h => by simp [Expr.uses] at h
  | .fld _, h => by simp [Expr.uses] at h
  | .op _ as, h => by rw [Expr.uses] at h; exact exprs_uses as h
  | .tup as, h => by rw [Expr.uses] at h; exact exprs_uses as h
  | .call g as, h => by
    rw [Expr.uses] at h
    rcases List.mem_append.mp h with h | h
    · split at h
      · simpa using h
      · cases h
    · exact exprs_uses as h
theorem exprs_uses {f : Fn} {u : Use} : (as : Exprs) → u ∈ as.uses f → u = .other
  | .nil, h => by simp [Exprs.uses] at h
  | .cons e r, h => by
    rw [Exprs.uses] at h
    rcases List.mem_append.mp h with h | h
    · exact expr_uses e h
    · exact exprs_uses r h
end

theorem asgUses_tail {f g : Fn} {ts : List Lhs} {e : Expr} (h : Use.tail g ∈ asgUses f ts e) : False := by
  cases e with
  | call k as =>
    simp only [asgUses] at h
    rcases List.mem_append.mp h with h | h
    · split at h
      · simp at h
      · cases h
    · exact absurd (exprs_uses as h) (fun h => by cases h)
  | lit v => exact absurd (expr_uses (f := f) (.lit v) h) (fun h => by cases h)
  | name v => exact absurd (expr_uses (f := f) (.name v) h) (fun h => by cases h)
  | fld v => exact absurd (expr_uses (f := f) (.fld v) h) (fun h => by cases h)
  | op o v => exact absurd (expr_uses (f := f) (.op o v) h) (fun h => by cases h)
  | tup v => exact absurd (expr_uses (f := f) (.tup v) h) (fun h => by cases h)

theorem retUses_tail {f g g' : Fn} {e : Option Expr} (h : Use.tail g' ∈ retUses f g e) : ∃ as, e = some (.call f as) := by
  cases e with
  | none => simp [retUses] at h
  | some e =>
    cases e with
    | call k as =>
      simp only [retUses] at h
      rcases List.mem_append.mp h with h | h
      · split at h
        · rename_i hk; subst hk; exact ⟨as, rfl⟩
        · cases h
      · exact absurd (exprs_uses as h) (fun h => by cases h)
    | lit v => exact absurd (expr_uses (f := f) (.lit v) h) (fun h => by cases h)
    | name v => exact absurd (expr_uses (f := f) (.name v) h) (fun h => by cases h)
    | fld v => exact absurd (expr_uses (f := f) (.fld v) h) (fun h => by cases h)
    | op o v => exact absurd (expr_uses (f := f) (.op o v) h) (fun h => by cases h)
    | tup v => exact absurd (expr_uses (f := f) (.tup v) h) (fun h => by cases h)

mutual
theorem stmt_tail {f g g' : Fn} : (a : Stmt) → Use.tail g' ∈ a.uses f g → ∃ as, some (.call f as) ∈ a.returns
  | .expr e, h => absurd (expr_uses e h) (fun h => by cases h)
  | .set _ e, h => absurd (expr_uses e h) (fun h => by cases h)
  | .tset ts e, h => (asgUses_tail h).elim
  | .decl _ e, h => absurd (expr_uses e h) (fun h => by cases h)
  | .ret e, h => by
    obtain ⟨as, he⟩ := retUses_tail h
    exact ⟨as, by simp [Stmt.returns, he]⟩
  | .throw_ e, h => absurd (expr_uses e h) (fun h => by cases h)
  | .brk, h => by simp [Stmt.uses] at h
  | .cont, h => by simp [Stmt.uses] at h
  | .block b, h => by
    rw [Stmt.uses] at h; rw [Stmt.returns]; exact stmts_tail b h
  | .ite q t e, h => by
    rw [Stmt.uses] at h; rw [Stmt.returns]
    rcases List.mem_append.mp h with h | h
    · exact absurd (expr_uses q h) (fun h => by cases h)
    · rcases List.mem_append.mp h with h | h
      · obtain ⟨as, h⟩ := stmts_tail t h; exact ⟨as, by simp [h]⟩
      · obtain ⟨as, h⟩ := stmts_tail e h; exact ⟨as, by simp [h]⟩
  | .while_ q b, h => by
    rw [Stmt.uses] at h; rw [Stmt.returns]
    rcases List.mem_append.mp h with h | h
    · exact absurd (expr_uses q h) (fun h => by cases h)
    · exact stmts_tail b h
  | .try_ b k, h => by
    rw [Stmt.uses] at h; rw [Stmt.returns]
    rcases List.mem_append.mp h with h | h
    · obtain ⟨as, h⟩ := stmts_tail b h; exact ⟨as, by simp [h]⟩
    · obtain ⟨as, h⟩ := stmts_tail k h; exact ⟨as, by simp [h]⟩
theorem stmts_tail {f g g' : Fn} : (b : Stmts) → Use.tail g' ∈ b.uses f g → ∃ as, some (.call f as) ∈ b.returns
  | .nil, h => by simp [Stmts.uses] at h
  | .cons a r, h => by
    rw [Stmts.uses] at h; rw [Stmts.returns]
    rcases List.mem_append.mp h with h | h
    · obtain ⟨as, h⟩ := stmt_tail a h; exact ⟨as, by simp [h]⟩
    · obtain ⟨as, h⟩ := stmts_tail r h; exact ⟨as, by simp [h]⟩
end

theorem no_tail {P : Prog} (hT : NoTailCalls P) {f : Fn} {F : Fun} (hF : Prog.get P f = some F) (hx : F.fixed = false) (hr : F.res.isSome) :
    ∀ g, Use.tail g ∉ P.uses f := by
  intro g h
  simp only [Prog.uses, List.mem_flatMap] at h
  obtain ⟨⟨k, G⟩, hm, h⟩ := h
  obtain ⟨as, h⟩ := stmts_tail _ h
  exact hT f F k G hF hx hr hm as h

/-! ## Collecting -/

theorem tails_none {P : Prog} {f : Fn} : ∀ (us : List Use) (c : Col), (∀ g, Use.tail g ∉ us) → (c.at f).tailCaller = none →
    tails P f false us c = (c, true)
  | [], c, _, _ => rfl
  | .tail g :: us, c, h, _ => absurd (by simp) (h g)
  | .asg ts as :: us, c, h, hc => by
    rw [tails, hc]
    exact tails_none us c (fun g hg => h g (by simp [hg])) hc
    all_goals (intro g hg; cases hg)
  | .other :: us, c, h, hc => by
    rw [tails, hc]
    exact tails_none us c (fun g hg => h g (by simp [hg])) hc
    all_goals (intro g hg; cases hg)

/-- The placements before pruning. -/
def rawPl (P : Prog) (f : Fn) (F : Fun) : List (Option Nat) :=
  if F.fixed ∨ F.ext then [] else
  match F.res with
  | none => []
  | some ts => if (P.uses f).isEmpty then [] else
    if (calculate F.params (P.uses f)).length ≠ ts.length then [] else calculate F.params (P.uses f)

theorem upd_same (c : Col) (f : Fn) (k : Placements → Placements) : (c.upd f k).m f = some (k (c.at f)) := by simp [Col.upd]

theorem upd_other (c : Col) {f g : Fn} (k : Placements → Placements) (h : g ≠ f) : (c.upd f k).m g = c.m g := by simp [Col.upd, h]

theorem upd_at (c : Col) (f : Fn) (k : Placements → Placements) : (c.upd f k).at f = k (c.at f) := by simp [Col.at, upd_same]

theorem collectFn_new {P : Prog} (hT : NoTailCalls P) {f : Fn} {F : Fun} (hF : Prog.get P f = some F) {c : Col} (hc : c.m f = none) :
    (collectFn P f F false c).m f = some { pl := rawPl P f F } ∧
    (∀ g, g ≠ f → (collectFn P f F false c).m g = c.m g) ∧ (collectFn P f F false c).revisit = c.revisit := by
  have hat : c.at f = {} := by simp [Col.at, hc]
  have h0 : (c.upd f id).m f = some {} := by rw [upd_same, hat]; rfl
  have h0' : (c.upd f id).at f = {} := by rw [upd_at, hat]; rfl
  simp only [collectFn, hc]
  simp only [Option.isSome_none, Bool.false_eq_true, and_false, if_false, rawPl]
  by_cases h1 : F.fixed = true ∨ F.ext = true
  · simp only [if_pos h1]
    exact ⟨h0, fun g hg => upd_other c id hg, rfl⟩
  · simp only [if_neg h1]
    cases hr : F.res with
    | none => exact ⟨h0, fun g hg => upd_other c id hg, rfl⟩
    | some ts =>
      dsimp only
      by_cases h2 : (P.uses f).isEmpty = true
      · simp only [if_pos h2]; exact ⟨h0, fun g hg => upd_other c id hg, rfl⟩
      · simp only [if_neg h2]
        have hfx : F.fixed = false := by
          cases hq : F.fixed with
          | false => rfl
          | true => exact absurd (.inl hq) h1
        rw [tails_none (P.uses f) (c.upd f id) (no_tail hT hF hfx (by simp [hr])) (by rw [h0'])]
        dsimp only [settle]
        simp only [h0', Option.isNone_none, List.isEmpty_nil, and_self, if_true, upd_at]
        by_cases h3 : (calculate F.params (P.uses f)).length ≠ ts.length
        · simp only [if_pos h3]
          refine ⟨?_, fun g hg => ?_, rfl⟩
          · rw [upd_same]; simp only [upd_at, h0']
          · rw [upd_other _ _ hg, upd_other _ _ hg, upd_other _ _ hg]
        · simp only [if_neg h3]
          refine ⟨?_, fun g hg => ?_, rfl⟩
          · rw [upd_same]; simp only [h0']
          · rw [upd_other _ _ hg, upd_other _ _ hg]

theorem visitAll_eq {P : Prog} (hT : NoTailCalls P) : ∀ (Q : Prog) (c : Col), c.revisit = [] →
    (∀ f F, Prog.get P f = some F → c.m f = some { pl := rawPl P f F } ∨ (c.m f = none ∧ Prog.get Q f = some F)) →
    (∀ f, c.m f = none → Prog.get P f = Prog.get Q f) →
    (visitAll P Q c).revisit = [] ∧ ∀ f F, Prog.get P f = some F → (visitAll P Q c).m f = some { pl := rawPl P f F }
  | [], c, hr, hi, _ => ⟨hr, fun f F hF => by
      rcases hi f F hF with h | ⟨_, h⟩
      · exact h
      · cases h⟩
  | (g, G) :: Q, c, hr, hi, hg => by
    rw [visitAll]
    cases hm : c.m g with
    | some p =>
      have hskip : collectFn P g G false c = c := by simp [collectFn, hm]
      rw [hskip]
      refine visitAll_eq hT Q c hr (fun f F hF => ?_) (fun f hf => ?_)
      · rcases hi f F hF with h | ⟨h1, h2⟩
        · exact .inl h
        · refine .inr ⟨h1, ?_⟩
          have hne : f ≠ g := fun h => by subst h; rw [hm] at h1; cases h1
          simpa [Prog.get, hne] using h2
      · have hne : f ≠ g := fun h => by subst h; rw [hm] at hf; cases hf
        rw [hg f hf]; simp [Prog.get, hne]
    | none =>
      have hG : Prog.get P g = some G := by rw [hg g hm]; simp [Prog.get]
      obtain ⟨h1, h2, h3⟩ := collectFn_new hT hG hm
      refine visitAll_eq hT Q _ (by rw [h3, hr]) (fun f F hF => ?_) (fun f hf => ?_)
      · by_cases hne : f = g
        · subst hne; rw [hG] at hF; injection hF with hF; subst hF; exact .inl h1
        · rw [h2 f hne]
          rcases hi f F hF with h | ⟨h4, h5⟩
          · exact .inl h
          · exact .inr ⟨h4, by simpa [Prog.get, hne] using h5⟩
      · by_cases hne : f = g
        · subst hne; rw [h1] at hf; cases hf
        · rw [h2 f hne] at hf
          rw [hg f hf]; simp [Prog.get, hne]

theorem collect_eq {P : Prog} (hT : NoTailCalls P) {ord : List Fn → List Fn} (ho : ord [] = []) {f : Fn} {F : Fun}
    (hF : Prog.get P f = some F) : (collect ord P).m f = some { pl := rawPl P f F } := by
  obtain ⟨h1, h2⟩ := visitAll_eq hT P {} rfl (fun f F hF => .inr ⟨rfl, hF⟩) (fun f _ => rfl)
  simp only [collect, h1, ho, visitAgain]
  exact h2 f F hF

/-- The placements by which everything is changed, if there are no tail calls. -/
theorem pruned_eq {P : Prog} (hT : NoTailCalls P) {ord : List Fn → List Fn} (ho : ord [] = []) {f : Fn} {F : Fun}
    (hF : Prog.get P f = some F) : prunedAll P (collect ord P) f = { pl := prune P.meth F.body (rawPl P f F) } := by
  simp only [prunedAll, hF, Col.at, collect_eq hT ho hF, Option.getD_some]

/-! ## Placements -/

theorem paramOf_spec : ∀ (ps : List Nat) (as : Exprs) (x : Name) (p : Nat), paramOf ps as x = some p →
    ∃ j : Nat, ps[j]? = some p ∧ as.toList[j]? = some (.name x)
  | [], .nil, x, p, h => by simp [paramOf] at h
  | [], .cons e r, x, p, h => by simp [paramOf] at h
  | q :: ps, .nil, x, p, h => by simp [paramOf] at h
  | q :: ps, .cons e r, x, p, h => by
    have ih := paramOf_spec ps r x
    have step : ∀ p, paramOf ps r x = some p → ∃ j : Nat, (q :: ps)[j]? = some p ∧ (Exprs.cons e r).toList[j]? = some (.name x) := by
      intro p hp
      obtain ⟨j, h1, h2⟩ := ih p hp
      exact ⟨j + 1, by simpa using h1, by simpa [Exprs.toList] using h2⟩
    cases e with
    | name y =>
      simp only [paramOf] at h
      cases hq : paramOf ps r x with
      | some p' =>
        rw [hq] at h
        have : p' = p := by simpa using h
        subst this; exact step _ hq
      | none =>
        rw [hq] at h
        dsimp only at h
        split at h
        · rename_i hx; injection h with h; subst h; subst hx; exact ⟨0, rfl, rfl⟩
        · cases h
    | lit v => exact step p (by simpa only [paramOf] using h)
    | fld v => exact step p (by simpa only [paramOf] using h)
    | op o v => exact step p (by simpa only [paramOf] using h)
    | tup v => exact step p (by simpa only [paramOf] using h)
    | call o v => exact step p (by simpa only [paramOf] using h)

theorem agree_length : ∀ (r e : List (Option Nat)), r.length ≤ (agree r e).length ∧ e.length ≤ (agree r e).length
  | [], [] => by simp [agree]
  | r :: rs, [] => by simp [agree]
  | [], e :: es => by simp [agree]
  | r :: rs, e :: es => by
    have := agree_length rs es
    simp only [agree, List.length_cons]; omega

theorem agree_left : ∀ (r e : List (Option Nat)) (i p : Nat), (agree r e)[i]? = some (some p) → i < r.length → r[i]? = some (some p)
  | [], e, i, p, h, hi => by simp at hi
  | r :: rs, [], i, p, h, hi => by simpa [agree] using h
  | r :: rs, e :: es, 0, p, h, hi => by
    simp only [agree] at h
    split at h
    · simpa using h
    · simp at h
  | r :: rs, e :: es, i + 1, p, h, hi => by
    have := agree_left rs es i p (by simpa [agree] using h) (by simpa using hi)
    simpa using this

theorem agree_right : ∀ (r e : List (Option Nat)) (i p : Nat), (agree r e)[i]? = some (some p) → i < e.length → e[i]? = some (some p)
  | r, [], i, p, h, hi => by simp at hi
  | [], e :: es, i, p, h, hi => by simpa [agree] using h
  | r :: rs, e :: es, 0, p, h, hi => by
    simp only [agree] at h
    split at h
    · rename_i hc; subst hc; simpa using h
    · simp at h
  | r :: rs, e :: es, i + 1, p, h, hi => by
    have := agree_right rs es i p (by simpa [agree] using h) (by simpa using hi)
    simpa using this

theorem placesOf_spec (params : List Nat) : ∀ (us : List Use) (r0 r : List (Option Nat)), placesOf params us r0 = some r →
    r0.length ≤ r.length ∧ (∀ (i p : Nat), r[i]? = some (some p) → i < r0.length → r0[i]? = some (some p)) ∧
    (∀ u ∈ us, ∃ ts as, u = .asg ts as ∧ ts.length ≤ r.length ∧ ∀ (i p : Nat), r[i]? = some (some p) → i < ts.length →
      ∃ x, ts[i]? = some (.name x) ∧ paramOf params as x = some p)
  | [], r0, r, h => by
    simp only [placesOf] at h
    injection h with h; subst h
    exact ⟨by omega, fun i p h _ => h, fun u hu => by cases hu⟩
  | .asg ts as :: us, r0, r, h => by
    rw [placesOf] at h
    obtain ⟨h1, h2, h3⟩ := placesOf_spec params us _ r h
    obtain ⟨h4, h5⟩ := agree_length r0 (ts.map (entry params as))
    rw [List.length_map] at h5
    refine ⟨by omega, fun i p hi hl => agree_left _ _ i p (h2 i p hi (by omega)) hl, fun u hu => ?_⟩
    rcases List.mem_cons.mp hu with rfl | hu
    · refine ⟨ts, as, rfl, by omega, fun i p hi hl => ?_⟩
      have := agree_right _ _ i p (h2 i p hi (by omega)) (by rw [List.length_map]; exact hl)
      rw [List.getElem?_map] at this
      cases ht : ts[i]? with
      | none => rw [ht] at this; cases this
      | some t =>
        rw [ht] at this
        have this : some (entry params as t) = some (some p) := this
        injection this with this
        cases t with
        | fld k => cases this
        | name x => exact ⟨x, rfl, this⟩
    · exact h3 u hu
  | .tail g :: us, r0, r, h => by simp [placesOf] at h
  | .other :: us, r0, r, h => by simp [placesOf] at h

theorem agree_from : ∀ (r e : List (Option Nat)) (i p : Nat), (agree r e)[i]? = some (some p) → r[i]? = some (some p) ∨ e[i]? = some (some p)
  | r, [], i, p, h => .inl (by simpa [agree] using h)
  | [], e :: es, i, p, h => .inr (by simpa [agree] using h)
  | r :: rs, e :: es, 0, p, h => by
    simp only [agree] at h
    split at h
    · exact .inl (by simpa using h)
    · simp at h
  | r :: rs, e :: es, i + 1, p, h => by
    have := agree_from rs es i p (by simpa [agree] using h)
    simpa using this

/-- What is placed is a parameter. -/
theorem placesOf_param (params : List Nat) : ∀ (us : List Use) (r0 r : List (Option Nat)), placesOf params us r0 = some r → ∀ (i p : Nat),
    r[i]? = some (some p) → r0[i]? = some (some p) ∨ p ∈ params
  | [], r0, r, h, i, p, hi => by
    simp only [placesOf] at h
    injection h with h; subst h; exact .inl hi
  | .asg ts as :: us, r0, r, h, i, p, hi => by
    rw [placesOf] at h
    rcases placesOf_param params us _ r h i p hi with h1 | h1
    · rcases agree_from _ _ i p h1 with h2 | h2
      · exact .inl h2
      · rw [List.getElem?_map] at h2
        cases ht : ts[i]? with
        | none => rw [ht] at h2; cases h2
        | some t =>
          rw [ht] at h2
          have h2 : some (entry params as t) = some (some p) := h2
          injection h2 with h2
          cases t with
          | fld k => cases h2
          | name x =>
            obtain ⟨j, hj, _⟩ := paramOf_spec params as x p h2
            exact .inr (List.mem_of_getElem? hj)
    · exact .inr h1
  | .tail g :: us, r0, r, h, i, p, hi => by simp [placesOf] at h
  | .other :: us, r0, r, h, i, p, hi => by simp [placesOf] at h

theorem dedup_get (r : List (Option Nat)) (i p : Nat) (h : (dedup r)[i]? = some (some p)) : r[i]? = some (some p) ∧ r.count (some p) = 1 := by
  simp only [dedup, List.getElem?_map] at h
  cases hr : r[i]? with
  | none => rw [hr] at h; cases h
  | some x =>
    rw [hr] at h
    simp only [Option.map_some] at h
    split at h
    · simp at h
    · rename_i hc
      have hx : x = some p := by simpa using h
      subst hx
      refine ⟨rfl, ?_⟩
      have hpos : 0 < r.count (some p) := List.count_pos_iff.mpr (List.mem_of_getElem? hr)
      have : ¬ r.count (some p) > 1 := fun h => hc ⟨rfl, h⟩
      omega

theorem count_one {α : Type} [BEq α] [LawfulBEq α] {a : α} : ∀ (l : List α) (i j : Nat), l.count a = 1 → l[i]? = some a → l[j]? = some a → i = j
  | [], i, j, h, hi, hj => by cases hi
  | x :: l, 0, 0, h, hi, hj => rfl
  | x :: l, i + 1, j + 1, h, hi, hj => by
    have hi' : l[i]? = some a := by simpa using hi
    have hj' : l[j]? = some a := by simpa using hj
    have : 0 < l.count a := List.count_pos_iff.mpr (List.mem_of_getElem? hi')
    have hc : l.count a = 1 := by
      rw [List.count_cons] at h
      split at h <;> omega
    rw [count_one l i j hc hi' hj']
  | x :: l, 0, j + 1, h, hi, hj => by
    have hx : x = a := by simpa using hi
    subst hx
    have : 0 < l.count x := List.count_pos_iff.mpr (List.mem_of_getElem? (by simpa using hj))
    rw [List.count_cons_self] at h; omega
  | x :: l, i + 1, 0, h, hi, hj => by
    have hx : x = a := by simpa using hj
    subst hx
    have : 0 < l.count x := List.count_pos_iff.mpr (List.mem_of_getElem? (by simpa using hi))
    rw [List.count_cons_self] at h; omega

theorem pruneFrom_length {meth : Fn → Bool} {b : Stmts} : ∀ (k : Nat) (r : List (Option Nat)), (pruneFrom meth b k r).length = r.length
  | _, [] => rfl
  | k, none :: r => by simp [pruneFrom, pruneFrom_length (k + 1) r]
  | k, some p :: r => by simp [pruneFrom, pruneFrom_length (k + 1) r]

theorem pruneFrom_get {meth : Fn → Bool} {b : Stmts} : ∀ (k : Nat) (r : List (Option Nat)) (i p : Nat),
    (pruneFrom meth b k r)[i]? = some (some p) → r[i]? = some (some p) ∧ p ∉ b.ids meth ∧ ∀ e ∈ b.rets, retHas (k + i) p e = true
  | _, [], i, p, h => by simp [pruneFrom] at h
  | k, none :: r, 0, p, h => by simp [pruneFrom] at h
  | k, none :: r, i + 1, p, h => by
    have := pruneFrom_get (k + 1) r i p (by simpa [pruneFrom] using h)
    rw [show k + (i + 1) = k + 1 + i by omega]
    simpa using this
  | k, some q :: r, 0, p, h => by
    simp only [pruneFrom, List.getElem?_cons_zero] at h
    split at h
    · rename_i hc
      have : q = p := by simpa using h
      subst this
      simp only [Bool.and_eq_true, Bool.not_eq_true', List.contains_eq_mem, decide_eq_false_iff_not, List.all_eq_true] at hc
      exact ⟨rfl, hc.1, hc.2⟩
    · simp at h
  | k, some q :: r, i + 1, p, h => by
    have := pruneFrom_get (k + 1) r i p (by simpa [pruneFrom] using h)
    rw [show k + (i + 1) = k + 1 + i by omega]
    simpa using this

/-- What a placement of a parameter means. -/
structure Placed (P : Prog) (f : Fn) (F : Fun) (pl : List (Option Nat)) (i p : Nat) : Prop where
  free : F.fixed = false
  body : F.ext = false
  res : ∃ ts, F.res = some ts ∧ ts.length = pl.length
  uses : ∀ u ∈ P.uses f, ∃ ts as, u = .asg ts as ∧ ts.length ≤ pl.length ∧ ∀ (i p : Nat), pl[i]? = some (some p) → i < ts.length →
    ∃ x, ts[i]? = some (.name x) ∧ paramOf F.params as x = some p
  once : ∀ i', pl[i']? = some (some p) → i' = i
  tup : ∀ e ∈ F.body.rets, isTup e = true
  has : ∀ e ∈ F.body.rets, retHas i p e = true
  nowhere : p ∉ F.body.ids P.meth
  used : P.uses f ≠ []
  param : p ∈ F.params

theorem placed {P : Prog} {f : Fn} {F : Fun} {i p : Nat}
    (h : (prune P.meth F.body (rawPl P f F))[i]? = some (some p)) : Placed P f F (prune P.meth F.body (rawPl P f F)) i p := by
  have hall : F.body.rets.all isTup = true := by
    cases hq : F.body.rets.all isTup with
    | true => rfl
    | false => simp [prune, hq] at h
  have hpr : prune P.meth F.body (rawPl P f F) = pruneFrom P.meth F.body 0 (rawPl P f F) := by simp [prune, hall]
  rw [hpr] at h ⊢
  have hraw := fun i p h => pruneFrom_get (meth := P.meth) (b := F.body) 0 (rawPl P f F) i p h
  have h0 := (hraw i p h).1
  have hlen := pruneFrom_length (meth := P.meth) (b := F.body) 0 (rawPl P f F)
  generalize hpl : pruneFrom P.meth F.body 0 (rawPl P f F) = pl at *
  by_cases h1 : F.fixed = true ∨ F.ext = true
  · simp [rawPl, h1] at h0
  · cases hr : F.res with
    | none => simp [rawPl, h1, hr] at h0
    | some ts =>
      by_cases h2 : (P.uses f).isEmpty = true
      · simp [rawPl, h1, hr, h2] at h0
      · by_cases h3 : (calculate F.params (P.uses f)).length ≠ ts.length
        · simp only [rawPl, if_neg h1, hr, if_neg h2, if_pos h3] at h0; simp at h0
        · have hrp : rawPl P f F = calculate F.params (P.uses f) := by simp only [rawPl, if_neg h1, hr, if_neg h2, if_neg h3]
          rw [hrp] at hraw hlen
          cases h4 : placesOf F.params (P.uses f) [] with
          | none =>
            have : calculate F.params (P.uses f) = [] := by simp only [calculate, if_neg h2, h4]
            rw [hrp, this] at h0; simp at h0
          | some r =>
            have hcal : calculate F.params (P.uses f) = dedup r := by simp only [calculate, if_neg h2, h4]
            rw [hcal] at hraw hlen h3
            have hlr : (dedup r).length = r.length := by simp [dedup]
            obtain ⟨_, _, hus⟩ := placesOf_spec F.params (P.uses f) [] r h4
            have hback : ∀ i p, pl[i]? = some (some p) → r[i]? = some (some p) ∧ r.count (some p) = 1 :=
              fun i p hi => dedup_get r i p (hraw i p hi).1
            refine ⟨?_, ?_, ⟨ts, hr, by omega⟩, fun u hu => ?_, fun i' hi' => ?_, by simpa using hall, ?_, (hraw i p h).2.1, ?_, ?_⟩
            · cases hq : F.fixed with
              | false => rfl
              | true => exact absurd (.inl hq) h1
            · cases hq : F.ext with
              | false => rfl
              | true => exact absurd (.inr hq) h1
            · obtain ⟨ts', as, hu', hl, hx⟩ := hus u hu
              exact ⟨ts', as, hu', by omega, fun i p hi => hx i p (hback i p hi).1⟩
            · exact count_one r i' i (hback i p h).2 (hback i' p hi').1 (hback i p h).1
            · intro e he; have := (hraw i p h).2.2 e he; rwa [Nat.zero_add] at this
            · intro hn; exact h2 (by simp [hn])
            · rcases placesOf_param F.params (P.uses f) [] r h4 i p (hback i p h).1 with h5 | h5
              · cases h5
              · exact h5

/-! ## Bodies -/

mutual
theorem rets_eq : (a : Stmt) → a.rets = a.returns
  | .ret e => rfl
  | .block b => by rw [Stmt.rets, Stmt.returns, retss_eq b]
  | .ite q t e => by rw [Stmt.rets, Stmt.returns, retss_eq t, retss_eq e]
  | .while_ q b => by rw [Stmt.rets, Stmt.returns, retss_eq b]
  | .try_ b h => by rw [Stmt.rets, Stmt.returns, retss_eq b, retss_eq h]
  | .expr _ => rfl
  | .set _ _ => rfl
  | .tset _ _ => rfl
  | .decl _ _ => rfl
  | .throw_ _ => rfl
  | .brk => rfl
  | .cont => rfl
theorem retss_eq : (b : Stmts) → b.rets = b.returns
  | .nil => rfl
  | .cons a r => by rw [Stmts.rets, Stmts.returns, rets_eq a, retss_eq r]
end

theorem lhs_ids {x : Var} {t : Lhs} (h : x ∈ t.vars) : x.id ∈ t.ids := by
  cases t with
  | fld k => simp [Lhs.vars] at h
  | name n =>
    cases n with
    | loc y => simp only [Lhs.vars, List.mem_singleton] at h; subst h; simp [Lhs.ids, Name.ids]
    | glob g => simp [Lhs.vars] at h

theorem lhss_ids {x : Var} {ts : List Lhs} (h : x ∈ ts.flatMap Lhs.vars) : x.id ∈ ts.flatMap Lhs.ids := by
  obtain ⟨t, ht, h⟩ := List.mem_flatMap.mp h
  exact List.mem_flatMap.mpr ⟨t, ht, lhs_ids h⟩

mutual
theorem writes_sub {meth : Fn → Bool} {K : Fn → List Kind} {x : Var} : (a : Stmt) → x ∈ a.writes K →
    x ∈ a.passes K ∨ x ∈ a.decls ∨ x.id ∈ a.ids meth
  | .expr e, h => by simp only [Stmt.writes, Stmt.passes] at h ⊢; exact .inl h
  | .set t e, h => by
    simp only [Stmt.writes, Stmt.passes, Stmt.ids] at h ⊢
    rcases List.mem_append.mp h with h | h
    · exact .inr (.inr (List.mem_append_left _ (lhs_ids h)))
    · exact .inl h
  | .tset ts e, h => by
    simp only [Stmt.writes, Stmt.passes, Stmt.ids] at h ⊢
    rcases List.mem_append.mp h with h | h
    · exact .inr (.inr (List.mem_append_left _ (lhss_ids h)))
    · exact .inl h
  | .decl z e, h => by
    simp only [Stmt.writes, Stmt.passes, Stmt.decls] at h ⊢
    rcases List.mem_cons.mp h with h | h
    · exact .inr (.inl (by simp [h]))
    · exact .inl h
  | .ret e, h => by simp only [Stmt.writes, Stmt.passes] at h ⊢; exact .inl h
  | .throw_ e, h => by simp only [Stmt.writes, Stmt.passes] at h ⊢; exact .inl h
  | .brk, h => by simp [Stmt.writes] at h
  | .cont, h => by simp [Stmt.writes] at h
  | .block b, h => by simp only [Stmt.writes, Stmt.passes, Stmt.decls, Stmt.ids] at h ⊢; exact writess_sub b h
  | .ite q t e, h => by
    have ht := writess_sub (meth := meth) (K := K) (x := x) t
    have he := writess_sub (meth := meth) (K := K) (x := x) e
    simp only [Stmt.writes, Stmt.passes, Stmt.decls, Stmt.ids, List.mem_append] at h ⊢
    rcases h with h | h | h
    · exact .inl (.inl h)
    · rcases ht h with h | h | h
      · exact .inl (.inr (.inl h))
      · exact .inr (.inl (.inl h))
      · exact .inr (.inr (.inr (.inl h)))
    · rcases he h with h | h | h
      · exact .inl (.inr (.inr h))
      · exact .inr (.inl (.inr h))
      · exact .inr (.inr (.inr (.inr h)))
  | .while_ q b, h => by
    have hb := writess_sub (meth := meth) (K := K) (x := x) b
    simp only [Stmt.writes, Stmt.passes, Stmt.decls, Stmt.ids, List.mem_append] at h ⊢
    rcases h with h | h
    · exact .inl (.inl h)
    · rcases hb h with h | h | h
      · exact .inl (.inr h)
      · exact .inr (.inl h)
      · exact .inr (.inr (.inr h))
  | .try_ b g, h => by
    have ht := writess_sub (meth := meth) (K := K) (x := x) b
    have he := writess_sub (meth := meth) (K := K) (x := x) g
    simp only [Stmt.writes, Stmt.passes, Stmt.decls, Stmt.ids, List.mem_append] at h ⊢
    rcases h with h | h
    · rcases ht h with h | h | h
      · exact .inl (.inl h)
      · exact .inr (.inl (.inl h))
      · exact .inr (.inr (.inl h))
    · rcases he h with h | h | h
      · exact .inl (.inr h)
      · exact .inr (.inl (.inr h))
      · exact .inr (.inr (.inr h))
theorem writess_sub {meth : Fn → Bool} {K : Fn → List Kind} {x : Var} : (b : Stmts) → x ∈ b.writes K →
    x ∈ b.passes K ∨ x ∈ b.decls ∨ x.id ∈ b.ids meth
  | .nil, h => by simp [Stmts.writes] at h
  | .cons a r, h => by
    have ht := writes_sub (meth := meth) (K := K) (x := x) a
    have he := writess_sub (meth := meth) (K := K) (x := x) r
    simp only [Stmts.writes, Stmts.passes, Stmts.decls, Stmts.ids, List.mem_append] at h ⊢
    rcases h with h | h
    · rcases ht h with h | h | h
      · exact .inl (.inl h)
      · exact .inr (.inl (.inl h))
      · exact .inr (.inr (.inl h))
    · rcases he h with h | h | h
      · exact .inl (.inr h)
      · exact .inr (.inl (.inr h))
      · exact .inr (.inr (.inr h))
end

mutual
theorem returns_vars {x : Var} {e : Option Expr} : (a : Stmt) → e ∈ a.returns → x ∈ retVars e → x ∈ a.vars
  | .ret e', h, hx => by
    simp only [Stmt.returns, List.mem_singleton] at h; subst h; simpa only [Stmt.vars] using hx
  | .block b, h, hx => by simp only [Stmt.returns, Stmt.vars] at h ⊢; exact returnss_vars b h hx
  | .ite q t e', h, hx => by
    simp only [Stmt.returns, Stmt.vars, List.mem_append] at h ⊢
    rcases h with h | h
    · exact .inr (.inl (returnss_vars t h hx))
    · exact .inr (.inr (returnss_vars e' h hx))
  | .while_ q b, h, hx => by
    simp only [Stmt.returns, Stmt.vars, List.mem_append] at h ⊢; exact .inr (returnss_vars b h hx)
  | .try_ b g, h, hx => by
    simp only [Stmt.returns, Stmt.vars, List.mem_append] at h ⊢
    rcases h with h | h
    · exact .inl (returnss_vars b h hx)
    · exact .inr (returnss_vars g h hx)
  | .expr _, h, _ => by simp [Stmt.returns] at h
  | .set _ _, h, _ => by simp [Stmt.returns] at h
  | .tset _ _, h, _ => by simp [Stmt.returns] at h
  | .decl _ _, h, _ => by simp [Stmt.returns] at h
  | .throw_ _, h, _ => by simp [Stmt.returns] at h
  | .brk, h, _ => by simp [Stmt.returns] at h
  | .cont, h, _ => by simp [Stmt.returns] at h
theorem returnss_vars {x : Var} {e : Option Expr} : (b : Stmts) → e ∈ b.returns → x ∈ retVars e → x ∈ b.vars
  | .nil, h, _ => by simp [Stmts.returns] at h
  | .cons a r, h, hx => by
    simp only [Stmts.returns, Stmts.vars, List.mem_append] at h ⊢
    rcases h with h | h
    · exact .inl (returns_vars a h hx)
    · exact .inr (returnss_vars r h hx)
end

theorem mem_vars_of_get : ∀ (as : Exprs) (i : Nat) (x : Var), as.toList[i]? = some (.name (.loc x)) → x ∈ as.vars
  | .nil, i, x, h => by cases h
  | .cons e r, 0, x, h => by
    have he : e = .name (.loc x) := by have : some e = some _ := h; injection this
    subst he; simp [Exprs.vars, Expr.vars]
  | .cons e r, i + 1, x, h => by
    simp only [Exprs.vars, List.mem_append]; exact .inr (mem_vars_of_get r i x h)

/-- A placed parameter is always returned at its position. -/
theorem Placed.always {P : Prog} (hN : NoShadow P) {f : Fn} {F : Fun} (hF : Prog.get P f = some F) {pl : List (Option Nat)} {i p : Nat}
    (h : Placed P f F pl i p) : AlwaysReturns F i p := by
  have hp := h.param
  refine ⟨h.free, hp, fun e he => ?_⟩
  have h1 := h.has e (by rw [retss_eq]; exact he)
  cases e with
  | none => cases h1
  | some e =>
    cases e with
    | tup as =>
      simp only [retHas] at h1
      cases hi : as.toList[i]? with
      | none => rw [hi] at h1; cases h1
      | some e =>
        rw [hi] at h1
        dsimp only at h1
        cases e with
        | name n =>
          cases n with
          | loc x =>
            have hx : x.id = p := by simpa [Expr.isId] using h1
            have hm := mem_vars_of_get as i x hi
            have hv := returnss_vars (x := x) F.body he (by simpa [retVars, Expr.vars] using hm)
            have hn := (hN f F hF).2 x hv (by rw [hx]; exact hp)
            refine ⟨as, rfl, ?_⟩
            rw [hi]
            obtain ⟨a, b⟩ := x
            simp only at hx hn
            subst hx; subst hn; rfl
          | glob g => cases h1
        | _ => cases h1
    | _ => cases h1

end Verif.Opt.Ret
