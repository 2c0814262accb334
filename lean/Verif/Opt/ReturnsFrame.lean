import Verif.Opt.ReturnsSpec

/-!
# What a call leaves alone, and what a function returns
-/

namespace Verif.Opt.Ret

open Whole (Fn Kind)

set_option linter.unusedSectionVars false

variable {M : Sem}

/-- The location has the value it had. -/
def Res.Keeps {α : Type} (l : Loc) (s : St M) : Res M α → Prop
  | .val _ s' => s'.mem l = s.mem l
  | .exn s' => s'.mem l = s.mem l
  | .ub => True

/-- The same if the computation ends. -/
def CKeeps {α : Type} (l : Loc) (s : St M) (x : Comp M α) : Prop := ∀ r, x = some r → r.Keeps l s

theorem ckeeps_val {α : Type} {l : Loc} {s s' : St M} {a : α} (h : s'.mem l = s.mem l) : CKeeps l s (some (Res.val a s')) := by
  intro r hr; injection hr with hr; subst hr; exact h

theorem ckeeps_exn {α : Type} {l : Loc} {s s' : St M} (h : s'.mem l = s.mem l) : CKeeps l s (some (Res.exn s' : Res M α)) := by
  intro r hr; injection hr with hr; subst hr; exact h

theorem ckeeps_ub {α : Type} {l : Loc} {s : St M} : CKeeps l s (some (Res.ub : Res M α)) := by
  intro r hr; injection hr with hr; subst hr; trivial

theorem ckeeps_none {α : Type} {l : Loc} {s : St M} : CKeeps l s (none : Comp M α) := by
  intro r hr; cases hr

theorem ckeeps_bind {α β : Type} {l : Loc} {s : St M} {x : Comp M α} {k : α → St M → Comp M β}
    (hx : CKeeps l s x) (hk : ∀ a s1, x = some (.val a s1) → CKeeps l s1 (k a s1)) : CKeeps l s (x.bind k) := by
  cases x with
  | none => exact ckeeps_none
  | some r =>
    cases r with
    | val a s1 =>
      have h1 : s1.mem l = s.mem l := hx _ rfl
      intro r hr
      have h2 := hk a s1 rfl r hr
      cases r with
      | val b s2 => exact Eq.trans h2 h1
      | exn s2 => exact Eq.trans h2 h1
      | ub => trivial
    | exn s1 => exact ckeeps_exn (hx _ rfl)
    | ub => exact ckeeps_ub

theorem bind_some {α β : Type} {x : Comp M α} {k : α → St M → Comp M β} {b : β} {s' : St M} (h : x.bind k = some (.val b s')) :
    ∃ a s1, x = some (.val a s1) ∧ k a s1 = some (.val b s') := by
  cases x with
  | none => cases h
  | some r =>
    cases r with
    | val a s1 => exact ⟨a, s1, rfl, h⟩
    | exn s1 => injection h with h; cases h
    | ub => injection h with h; cases h

theorem set_other {s : St M} {l l' : Loc} {v : Val} (h : l ≠ l') : (s.set l' v).mem l = s.mem l := if_neg h

theorem set_same {s : St M} {l : Loc} {v : Val} : (s.set l v).mem l = v := if_pos rfl

/-- Calls change variables below only through `inout` parameters. -/
def FrameC (K : Fn → List Kind) (c : Calls M) : Prop :=
  ∀ f args d s d' x, d' ≤ d → (∀ j : Nat, args[j]? = some (.ref (.slot d' x)) → (K f)[j]? = some Kind.in_) →
    CKeeps (.slot d' x) s (c f args d s)

section
variable {c : Calls M} {K : Fn → List Kind} {env : Var → Loc} {d : Nat}

theorem evalArgs_cons_ref {ks : List Kind} {e : Expr} {r : Exprs} {s : St M} {l : Loc} (hb : byRef env (ks.headD .copy) e = some l) :
    evalArgs c K env d ks (.cons e r) s = (evalArgs c K env d ks.tail r s).bind fun as s1 => some (.val (.ref l :: as) s1) := by
  rw [evalArgs]; simp only [hb]

theorem evalArgs_cons_val {ks : List Kind} {e : Expr} {r : Exprs} {s : St M} (hb : byRef env (ks.headD .copy) e = none) :
    evalArgs c K env d ks (.cons e r) s =
      (eval c K env d e s).bind fun v s1 => (evalArgs c K env d ks.tail r s1).bind fun as s2 => some (.val (.val v :: as) s2) := by
  rw [evalArgs]; simp only [hb]

/-- Where references come from. -/
theorem evalArgs_ref : ∀ (as : Exprs) (ks : List Kind) (s s1 : St M) (args : List Arg), evalArgs c K env d ks as s = some (.val args s1) →
    ∀ (j : Nat) l, args[j]? = some (.ref l) → ∃ e k, as.toList[j]? = some e ∧ ks[j]? = some k ∧ byRef env k e = some l
  | .nil, ks, s, s1, args, h, j, l, hj => by
    rw [evalArgs] at h; injection h with h; injection h with h1 h2; subst h1; cases hj
  | .cons e r, ks, s, s1, args, h, j, l, hj => by
    cases hb : byRef env (ks.headD .copy) e with
    | some l' =>
      rw [evalArgs_cons_ref hb] at h
      obtain ⟨as', s2, h1, h2⟩ := bind_some h
      injection h2 with h2; injection h2 with h2 h3; subst h2
      cases ks with
      | nil => cases hb
      | cons k ks =>
        cases j with
        | zero =>
          have hl : l' = l := by
            have : some (Arg.ref l') = some (Arg.ref l) := hj
            injection this with this; injection this
          subst hl
          exact ⟨e, k, rfl, rfl, hb⟩
        | succ j => exact evalArgs_ref r ks s s2 as' h1 j l hj
    | none =>
      rw [evalArgs_cons_val hb] at h
      obtain ⟨v, s2, h1, h2⟩ := bind_some h
      obtain ⟨as', s3, h3, h4⟩ := bind_some h2
      injection h4 with h4; injection h4 with h4 h5; subst h4
      cases j with
      | zero =>
        have : some (Arg.val v) = some (Arg.ref l) := hj
        injection this with this; cases this
      | succ j =>
        obtain ⟨e', k, ha, hk, hb'⟩ := evalArgs_ref r ks.tail s2 s3 as' h3 j l hj
        cases ks with
        | nil => cases hk
        | cons k' ks => exact ⟨e', k, ha, hk, hb'⟩

theorem mem_inouts : ∀ (as : Exprs) (ks : List Kind) (j : Nat) (e : Expr) (y : Var), as.toList[j]? = some e → ks[j]? = some Kind.inout →
    e.var? = some y → y ∈ Exprs.inouts ks as
  | .nil, _, _, _, _, h, _, _ => by cases h
  | .cons e' r, [], _, _, _, _, h, _ => by cases h
  | .cons e' r, k :: ks, 0, e, y, h, hk, hy => by
    have h1 : e' = e := by have : some e' = some e := h; injection this
    have h2 : k = .inout := by have : some k = some Kind.inout := hk; injection this
    subst h1; subst h2
    simp [Exprs.inouts, hy]
  | .cons e' r, k :: ks, j + 1, e, y, h, hk, hy => by
    have ih := mem_inouts r ks j e y h hk hy
    cases k <;> simp [Exprs.inouts, ih]

theorem byRef_slot {k : Kind} {e : Expr} {d' : Nat} {x : Var} (h : byRef env k e = some (.slot d' x)) :
    ∃ y, e.var? = some y ∧ env y = .slot d' x ∧ (k = .in_ ∨ k = .inout) := by
  cases k with
  | copy => cases h
  | in_ =>
    cases e with
    | name n =>
      cases n with
      | loc y => injection h with h; exact ⟨y, rfl, h, .inl rfl⟩
      | glob g => injection h with h; cases h
    | _ => cases h
  | inout =>
    cases e with
    | name n =>
      cases n with
      | loc y => injection h with h; exact ⟨y, rfl, h, .inr rfl⟩
      | glob g => injection h with h; cases h
    | _ => cases h

variable (hc : FrameC K c) {d' : Nat} {x : Var} (hd : d' ≤ d)

include hc hd in
mutual
theorem eval_keeps : (e : Expr) → (∀ y ∈ e.writes K, env y ≠ .slot d' x) → ∀ s, CKeeps (.slot d' x) s (eval c K env d e s)
  | .lit v, _, s => by rw [eval]; exact ckeeps_val rfl
  | .name n, _, s => by rw [eval]; exact ckeeps_val rfl
  | .fld k, _, s => by rw [eval]; exact ckeeps_val rfl
  | .op o as, h, s => by
    rw [eval]
    refine ckeeps_bind (evalArgs_keeps as (by simpa only [Expr.writes] using h) [] s) fun a s1 _ => ?_
    cases M.op o (a.map (Arg.get s1)) with
    | some v => exact ckeeps_val rfl
    | none => exact ckeeps_exn rfl
  | .tup as, h, s => by
    rw [eval]
    exact ckeeps_bind (evalArgs_keeps as (by simpa only [Expr.writes] using h) [] s) fun a s1 _ => ckeeps_val rfl
  | .call f as, h, s => by
    rw [eval]
    simp only [Expr.writes] at h
    refine ckeeps_bind (evalArgs_keeps as (fun y hy => h y (by simp [hy])) (K f) s) fun args s1 hargs => ?_
    refine hc f args d s1 d' x hd fun j hj => ?_
    obtain ⟨e, k, he, hk, hb⟩ := evalArgs_ref as (K f) s s1 args hargs j _ hj
    obtain ⟨y, hy, henv, hkk⟩ := byRef_slot hb
    rcases hkk with rfl | rfl
    · exact hk
    · exact absurd henv (h y (by simp [mem_inouts as (K f) j e y he hk hy]))
theorem evalArgs_keeps : (as : Exprs) → (∀ y ∈ as.writes K, env y ≠ .slot d' x) → ∀ ks s, CKeeps (.slot d' x) s (evalArgs c K env d ks as s)
  | .nil, _, ks, s => by rw [evalArgs]; exact ckeeps_val rfl
  | .cons e r, h, ks, s => by
    simp only [Exprs.writes] at h
    have he := eval_keeps e (fun y hy => h y (by simp [hy]))
    have hr := evalArgs_keeps r (fun y hy => h y (by simp [hy]))
    cases hb : byRef env (ks.headD .copy) e with
    | some l => rw [evalArgs_cons_ref hb]; exact ckeeps_bind (hr _ s) fun a s1 _ => ckeeps_val rfl
    | none =>
      rw [evalArgs_cons_val hb]
      exact ckeeps_bind (he s) fun v s1 _ => ckeeps_bind (hr _ s1) fun a s2 _ => ckeeps_val rfl
end

include hc hd in
theorem evalRet_keeps (e : Option Expr) (h : ∀ y ∈ retWrites K e, env y ≠ .slot d' x) (s : St M) :
    CKeeps (.slot d' x) s (evalRet c K env d e s) := by
  cases e with
  | none => exact ckeeps_val rfl
  | some e => exact ckeeps_bind (eval_keeps hc hd e h s) fun v s1 _ => ckeeps_val rfl

theorem loop_keeps {q : St M → Comp M Val} {b : St M → Comp M Flow} {l : Loc} (hq : ∀ s, CKeeps l s (q s)) (hb : ∀ s, CKeeps l s (b s)) :
    ∀ n s, CKeeps l s (loop q b n s)
  | 0, s => ckeeps_none
  | n + 1, s => by
    rw [loop]
    refine ckeeps_bind (hq s) fun v s1 _ => ?_
    by_cases hv : v.truth = true
    · rw [if_pos hv]
      refine ckeeps_bind (hb s1) fun o s2 _ => ?_
      cases o with
      | norm => exact loop_keeps hq hb n s2
      | cont => exact loop_keeps hq hb n s2
      | brk => exact ckeeps_val rfl
      | ret v => exact ckeeps_val rfl
    · rw [if_neg hv]; exact ckeeps_val rfl

theorem handle_keeps {y : Comp M Flow} {h : St M → Comp M Flow} {l : Loc} {s : St M} (hy : CKeeps l s y) (hh : ∀ s, CKeeps l s (h s)) :
    CKeeps l s (handle y h) := by
  cases y with
  | none => exact ckeeps_none
  | some r =>
    cases r with
    | val a s1 => exact hy
    | ub => exact ckeeps_ub
    | exn s1 =>
      have h1 : s1.mem l = s.mem l := hy _ rfl
      intro r hr
      have h2 := hh s1 r hr
      cases r with
      | val b s2 => exact Eq.trans h2 h1
      | exn s2 => exact Eq.trans h2 h1
      | ub => trivial

theorem lhs_ne {t : Lhs} (h : ∀ y ∈ t.vars, env y ≠ .slot d' x) : Loc.slot d' x ≠ lhsLoc env t := by
  cases t with
  | fld k => exact (fun h => by cases h)
  | name n =>
    cases n with
    | loc y => exact fun hh => h y (by simp [Lhs.vars]) hh.symm
    | glob g => exact (fun h => by cases h)

theorem assignAll_keeps : ∀ (ts : List Lhs) (vs : List Val) (s : St M), (∀ y ∈ ts.flatMap Lhs.vars, env y ≠ .slot d' x) →
    (assignAll env ts vs s).mem (.slot d' x) = s.mem (.slot d' x)
  | [], vs, s, _ => by cases vs <;> rfl
  | t :: ts, [], s, _ => rfl
  | t :: ts, v :: vs, s, h => by
    rw [assignAll, assignAll_keeps ts vs _ (fun y hy => h y (by simp only [List.flatMap_cons, List.mem_append]; exact .inr hy))]
    exact set_other (lhs_ne fun y hy => h y (by simp only [List.flatMap_cons, List.mem_append]; exact .inl hy))

include hc hd in
mutual
theorem exec_keeps (n : Nat) : (a : Stmt) → (∀ y ∈ a.writes K, env y ≠ .slot d' x) → ∀ s, CKeeps (.slot d' x) s (exec c K env d n a s)
  | .expr e, h, s => by
    rw [exec]; exact ckeeps_bind (eval_keeps hc hd e (by simpa only [Stmt.writes] using h) s) fun v s1 _ => ckeeps_val rfl
  | .set t e, h, s => by
    simp only [Stmt.writes] at h
    rw [exec]
    exact ckeeps_bind (eval_keeps hc hd e (fun y hy => h y (by simp [hy])) s) fun v s1 _ =>
      ckeeps_val (set_other (lhs_ne fun y hy => h y (by simp [hy])))
  | .tset ts e, h, s => by
    simp only [Stmt.writes] at h
    rw [exec]
    refine ckeeps_bind (eval_keeps hc hd e (fun y hy => h y (List.mem_append_right _ hy)) s) fun v s1 _ => ?_
    cases v with
    | void => exact ckeeps_ub
    | int i => exact ckeeps_ub
    | tup vs =>
      dsimp only
      split
      · exact ckeeps_val (assignAll_keeps ts vs s1 fun y hy => h y (List.mem_append_left _ hy))
      · exact ckeeps_ub
  | .decl z e, h, s => by
    simp only [Stmt.writes] at h
    rw [exec]
    exact ckeeps_bind (eval_keeps hc hd e (fun y hy => h y (by simp [hy])) s) fun v s1 _ =>
      ckeeps_val (set_other fun hh => h z (by simp) hh.symm)
  | .ret e, h, s => by
    rw [exec]; exact ckeeps_bind (evalRet_keeps hc hd e (by simpa only [Stmt.writes] using h) s) fun v s1 _ => ckeeps_val rfl
  | .throw_ e, h, s => by
    rw [exec]; exact ckeeps_bind (eval_keeps hc hd e (by simpa only [Stmt.writes] using h) s) fun v s1 _ => ckeeps_exn rfl
  | .brk, h, s => by rw [exec]; exact ckeeps_val rfl
  | .cont, h, s => by rw [exec]; exact ckeeps_val rfl
  | .block b, h, s => by rw [exec]; exact execs_keeps n b (by simpa only [Stmt.writes] using h) s
  | .ite q t e, h, s => by
    simp only [Stmt.writes] at h
    have ht := execs_keeps n t (fun y hy => h y (by simp [hy]))
    have he := execs_keeps n e (fun y hy => h y (by simp [hy]))
    rw [exec]
    refine ckeeps_bind (eval_keeps hc hd q (fun y hy => h y (by simp [hy])) s) fun v s1 _ => ?_
    split
    · exact ht s1
    · exact he s1
  | .while_ q b, h, s => by
    simp only [Stmt.writes] at h
    have hb := execs_keeps n b (fun y hy => h y (by simp [hy]))
    rw [exec]
    exact loop_keeps (eval_keeps hc hd q (fun y hy => h y (by simp [hy]))) hb n s
  | .try_ b g, h, s => by
    simp only [Stmt.writes] at h
    have hb := execs_keeps n b (fun y hy => h y (by simp [hy]))
    have hg := execs_keeps n g (fun y hy => h y (by simp [hy]))
    rw [exec]
    exact handle_keeps (hb s) hg
theorem execs_keeps (n : Nat) : (b : Stmts) → (∀ y ∈ b.writes K, env y ≠ .slot d' x) → ∀ s, CKeeps (.slot d' x) s (execs c K env d n b s)
  | .nil, h, s => by rw [execs]; exact ckeeps_val rfl
  | .cons a r, h, s => by
    simp only [Stmts.writes] at h
    have ha := exec_keeps n a (fun y hy => h y (by simp [hy]))
    have hr := execs_keeps n r (fun y hy => h y (by simp [hy]))
    rw [execs]
    refine ckeeps_bind (ha s) fun o s1 _ => ?_
    cases o with
    | norm => exact hr s1
    | brk => exact ckeeps_val rfl
    | cont => exact ckeeps_val rfl
    | ret v => exact ckeeps_val rfl
end
end

/-! ## Calls -/

theorem bindEnv_slot (e : Nat) : ∀ (ps : List Nat) (args : List Arg) (y : Var) (d' : Nat) (x : Var), bindEnv e ps args y = .slot d' x →
    (∃ (j : Nat) (p : Nat), ps[j]? = some p ∧ y = ⟨p, 0⟩ ∧ args[j]? = some (.ref (.slot d' x))) ∨ (d' = e ∧ x = y)
  | [], args, y, d', x, h => by
    have : Loc.slot e y = .slot d' x := by cases args <;> exact h
    injection this with h1 h2; exact .inr ⟨h1.symm, h2.symm⟩
  | p :: ps, [], y, d', x, h => by
    have : Loc.slot e y = .slot d' x := h
    injection this with h1 h2; exact .inr ⟨h1.symm, h2.symm⟩
  | p :: ps, .ref l :: args, y, d', x, h => by
    simp only [bindEnv] at h
    split at h
    · rename_i hy; subst h; exact .inl ⟨0, p, rfl, hy, rfl⟩
    · rcases bindEnv_slot e ps args y d' x h with ⟨j, q, h1, h2, h3⟩ | h
      · exact .inl ⟨j + 1, q, h1, h2, h3⟩
      · exact .inr h
  | p :: ps, .val v :: args, y, d', x, h => by
    simp only [bindEnv] at h
    split at h
    · rename_i hy; injection h with h1 h2; exact .inr ⟨h1.symm, by rw [hy]; exact h2.symm⟩
    · rcases bindEnv_slot e ps args y d' x h with ⟨j, q, h1, h2, h3⟩ | h
      · exact .inl ⟨j + 1, q, h1, h2, h3⟩
      · exact .inr h

theorem enter_keeps (e : Nat) : ∀ (ps : List Nat) (args : List Arg) (s : St M) (d' : Nat) (x : Var), d' ≠ e →
    (enter e ps args s).mem (.slot d' x) = s.mem (.slot d' x)
  | [], args, s, d', x, h => by cases args <;> rfl
  | p :: ps, [], s, d', x, h => rfl
  | p :: ps, .ref l :: args, s, d', x, h => by rw [enter]; exact enter_keeps e ps args s d' x h
  | p :: ps, .val v :: args, s, d', x, h => by
    rw [enter, set_other (fun hh => by injection hh with h1 _; exact h h1)]; exact enter_keeps e ps args s d' x h

theorem back_slot {s s' : St M} {d d' : Nat} {x : Var} (h : d' ≤ d) : (s.back d s').mem (.slot d' x) = s'.mem (.slot d' x) := by
  show (if d < d' then _ else _) = _
  rw [if_neg (by omega)]

theorem writeBack_keeps {l : Loc} : ∀ (ks : List Kind) (args : List Arg) (vs : List Val) (s : St M),
    (∀ j : Nat, args[j]? = some (.ref l) → ks[j]? ≠ some Kind.inout) → (writeBack ks args vs s).mem l = s.mem l
  | [], args, vs, s, _ => by cases args <;> cases vs <;> rfl
  | k :: ks, [], vs, s, _ => by cases k <;> cases vs <;> rfl
  | k :: ks, a :: args, [], s, _ => by cases k <;> cases a <;> rfl
  | k :: ks, a :: args, v :: vs, s, h => by
    have ih := writeBack_keeps (l := l) ks args vs
    have h' : ∀ j : Nat, args[j]? = some (.ref l) → ks[j]? ≠ some Kind.inout := fun j hj => h (j + 1) hj
    cases k with
    | copy => rw [writeBack]; exact ih s h'; all_goals simp
    | in_ => rw [writeBack]; exact ih s h'; all_goals simp
    | inout =>
      cases a with
      | val w => rw [writeBack]; exact ih s h'; all_goals simp
      | ref l' =>
        rw [writeBack, ih _ h']
        refine set_other fun hh => ?_
        subst hh
        exact h 0 rfl rfl

theorem mem_zip_of_get {α β : Type} {xs : List α} {ys : List β} {j : Nat} {a : α} {b : β} (ha : xs[j]? = some a) (hb : ys[j]? = some b) :
    (a, b) ∈ xs.zip ys := by
  apply List.mem_of_getElem? (i := j)
  rw [List.getElem?_zip_eq_some]; exact ⟨ha, hb⟩

theorem kinds_of_get {P : Prog} {f : Fn} {F : Fun} (h : Prog.get P f = some F) : Prog.kinds P f = F.kinds := by
  simp only [Prog.kinds, h]

theorem callN_frame {P : Prog} (hP : Compiles P) : ∀ n, FrameC (Prog.kinds P) (callN M P n)
  | 0 => fun f args d s d' x _ _ => ckeeps_none
  | n + 1 => by
    intro f args d s d' x hd hargs
    have ih := callN_frame hP n
    rw [callN]
    cases hF : Prog.get P f with
    | none => exact ckeeps_ub
    | some F =>
      rw [kinds_of_get hF] at hargs
      obtain ⟨hlen, hnd, hin⟩ := hP f F hF
      dsimp only
      split
      · split
        · have hw : (writeBack F.kinds args (M.ext f (args.map (Arg.get s)) s.w).2.1
              { s with w := (M.ext f (args.map (Arg.get s)) s.w).2.2 }).mem (.slot d' x) = s.mem (.slot d' x) :=
            writeBack_keeps _ _ _ _ fun j hj hk => by rw [hargs j hj] at hk; injection hk with hk; cases hk
          simp only [callExt]
          cases (M.ext f (args.map (Arg.get s)) s.w).1 with
          | some v => exact ckeeps_val hw
          | none => exact ckeeps_exn hw
        · have hb : ∀ y ∈ F.body.writes (Prog.kinds P), bindEnv (d + 1) F.params args y ≠ .slot d' x := by
            intro y hy he
            rcases bindEnv_slot _ _ _ _ _ _ he with ⟨j, p, h1, h2, h3⟩ | ⟨h1, _⟩
            · subst h2
              exact hin p (mem_zip_of_get h1 (hargs j h3)) hy
            · omega
          have hk := execs_keeps ih (show d' ≤ d + 1 by omega) (n + 1) F.body hb (enter (d + 1) F.params args s)
          have he := enter_keeps (d + 1) F.params args s d' x (by omega)
          intro r hr
          simp only [callFun] at hr
          generalize execs (callN M P n) (Prog.kinds P) (bindEnv (d + 1) F.params args) (d + 1) (n + 1) F.body
            (enter (d + 1) F.params args s) = q at hk hr
          cases q with
          | none => cases hr
          | some w =>
            cases w with
            | ub => injection hr with hr; subst hr; trivial
            | exn s1 =>
              injection hr with hr; subst hr
              show (s.back d s1).mem _ = _
              rw [back_slot hd, ← he]; exact hk _ rfl
            | val o s1 =>
              have h1 : s1.mem (.slot d' x) = s.mem (.slot d' x) := by rw [← he]; exact hk _ rfl
              have h2 : (s.back d s1).mem (.slot d' x) = s.mem (.slot d' x) := by rw [back_slot hd, h1]
              have h3 : ∀ o', CKeeps (.slot d' x) s (leave s d (result F.res s d o' s1)) := by
                intro o'
                cases o' with
                | ret v =>
                  cases v with
                  | some v =>
                    cases F.res with
                    | none => exact ckeeps_val h2
                    | some ts =>
                      cases v with
                      | void => exact ckeeps_ub
                      | int i => exact ckeeps_ub
                      | tup vs =>
                        simp only [result]
                        split
                        · exact ckeeps_val h2
                        · exact ckeeps_ub
                  | none => simp only [result]; split; exact ckeeps_ub; exact ckeeps_val h2
                | norm => simp only [result]; split; exact ckeeps_ub; exact ckeeps_val h2
                | brk => simp only [result]; split; exact ckeeps_ub; exact ckeeps_val h2
                | cont => simp only [result]; split; exact ckeeps_ub; exact ckeeps_val h2
              exact h3 o r hr
      · exact ckeeps_ub

end Verif.Opt.Ret
