import Verif.Opt.ReturnsFrame

/-!
# A parameter that is always returned comes back as it was passed
-/

namespace Verif.Opt.Ret

open Whole (Fn Kind)

set_option linter.unusedSectionVars false

variable {M : Sem}

section
variable {c : Calls M} {K : Fn → List Kind} {env : Var → Loc} {d : Nat}

theorem evalArgs_length : ∀ (as : Exprs) (ks : List Kind) (s s1 : St M) (args : List Arg), evalArgs c K env d ks as s = some (.val args s1) →
    args.length = as.toList.length
  | .nil, ks, s, s1, args, h => by
    rw [evalArgs] at h; injection h with h; injection h with h1 h2; subst h1; rfl
  | .cons e r, ks, s, s1, args, h => by
    cases hb : byRef env (ks.headD .copy) e with
    | some l' =>
      rw [evalArgs_cons_ref hb] at h
      obtain ⟨as', s2, h1, h2⟩ := bind_some h
      injection h2 with h2; injection h2 with h2 h3; subst h2
      simp only [List.length_cons, Exprs.toList, evalArgs_length r _ _ _ _ h1]
    | none =>
      rw [evalArgs_cons_val hb] at h
      obtain ⟨v, s2, h1, h2⟩ := bind_some h
      obtain ⟨as', s3, h3, h4⟩ := bind_some h2
      injection h4 with h4; injection h4 with h4 h5; subst h4
      simp only [List.length_cons, Exprs.toList, evalArgs_length r _ _ _ _ h3]

/-- A variable as an argument: a reference, or its value, which is still the same in the end. -/
theorem evalArgs_name (hc : FrameC K c) {v : Var} {d' : Nat} {x : Var} (hd : d' ≤ d) (hv : env v = .slot d' x) :
    ∀ (as : Exprs) (ks : List Kind) (s s1 : St M) (args : List Arg), evalArgs c K env d ks as s = some (.val args s1) →
    (∀ y ∈ as.writes K, env y ≠ .slot d' x) → ∀ j : Nat, as.toList[j]? = some (.name (.loc v)) →
    (∃ k, ks[j]? = some k ∧ k ≠ Kind.copy ∧ args[j]? = some (.ref (.slot d' x))) ∨
    ((ks[j]? = none ∨ ks[j]? = some Kind.copy) ∧ args[j]? = some (.val (s1.mem (.slot d' x))))
  | .nil, ks, s, s1, args, h, _, j, hj => by cases hj
  | .cons e r, ks, s, s1, args, h, hw, j, hj => by
    simp only [Exprs.writes] at hw
    have hwr : ∀ y ∈ r.writes K, env y ≠ .slot d' x := fun y hy => hw y (by simp [hy])
    cases hb : byRef env (ks.headD .copy) e with
    | some l' =>
      rw [evalArgs_cons_ref hb] at h
      obtain ⟨as', s2, h1, h2⟩ := bind_some h
      injection h2 with h2; injection h2 with h2 h3; subst h2; subst h3
      cases ks with
      | nil => cases hb
      | cons k ks =>
        cases j with
        | succ j => exact evalArgs_name hc hd hv r ks s s2 as' h1 hwr j hj
        | zero =>
          have he : e = .name (.loc v) := by have : some e = some _ := hj; injection this
          subst he
          refine .inl ⟨k, rfl, (fun hk => by subst hk; cases hb), ?_⟩
          have hb' : some (env v) = some l' := by cases k with
            | copy => cases hb
            | in_ => exact hb
            | inout => exact hb
          injection hb' with hb'
          rw [← hb', hv]; rfl
    | none =>
      rw [evalArgs_cons_val hb] at h
      obtain ⟨w, s2, h1, h2⟩ := bind_some h
      obtain ⟨as', s3, h3, h4⟩ := bind_some h2
      injection h4 with h4; injection h4 with h4 h5; subst h4; subst h5
      cases j with
      | succ j =>
        have ih := evalArgs_name hc hd hv r ks.tail s2 s3 as' h3 hwr j hj
        cases ks with
        | nil => exact ih
        | cons k ks => exact ih
      | zero =>
        have he : e = .name (.loc v) := by have : some e = some _ := hj; injection this
        subst he
        rw [eval] at h1
        injection h1 with h1; injection h1 with h6 h7; subst h7
        refine .inr ⟨?_, ?_⟩
        · cases ks with
          | nil => exact .inl rfl
          | cons k ks => cases k with
            | copy => exact .inr rfl
            | in_ => cases hb
            | inout => cases hb
        · have hk : s3.mem (.slot d' x) = s.mem (.slot d' x) := evalArgs_keeps hc hd r hwr _ _ _ h3
          show some (Arg.val w) = _
          rw [← h6, hk, ← hv]; rfl

/-- Where a returned value comes from. -/
theorem loop_returns {q : St M → Comp M Val} {b : St M → Comp M Flow} {v : Option Val} {s' : St M} {A : Prop}
    (hb : ∀ s, b s = some (.val (.ret v) s') → A) : ∀ n s, loop q b n s = some (.val (.ret v) s') → A
  | 0, s, h => by cases h
  | n + 1, s, h => by
    rw [loop] at h
    obtain ⟨w, s1, h1, h2⟩ := bind_some h
    split at h2
    · obtain ⟨o, s2, h3, h4⟩ := bind_some h2
      cases o with
      | norm => exact loop_returns hb n s2 h4
      | cont => exact loop_returns hb n s2 h4
      | brk => injection h4 with h4; injection h4 with h4 _; cases h4
      | ret u =>
        injection h4 with h4; injection h4 with h4 h5; injection h4 with h4; subst h4; subst h5
        exact hb s1 h3
    · injection h2 with h2; injection h2 with h2 _; cases h2

mutual
theorem exec_returns (n : Nat) {v : Option Val} {s' : St M} : (a : Stmt) → ∀ s, exec c K env d n a s = some (.val (.ret v) s') →
    ∃ e ∈ a.returns, ∃ s1, evalRet c K env d e s1 = some (.val v s')
  | .expr e, s, h => by rw [exec] at h; obtain ⟨_, _, _, h⟩ := bind_some h; injection h with h; injection h with h _; cases h
  | .set t e, s, h => by rw [exec] at h; obtain ⟨_, _, _, h⟩ := bind_some h; injection h with h; injection h with h _; cases h
  | .tset ts e, s, h => by
    rw [exec] at h
    obtain ⟨w, _, _, h⟩ := bind_some h
    cases w with
    | void => injection h with h; cases h
    | int i => injection h with h; cases h
    | tup vs =>
      dsimp only at h
      split at h
      · injection h with h; injection h with h _; cases h
      · injection h with h; cases h
  | .decl z e, s, h => by rw [exec] at h; obtain ⟨_, _, _, h⟩ := bind_some h; injection h with h; injection h with h _; cases h
  | .ret e, s, h => by
    rw [exec] at h
    obtain ⟨w, s1, h1, h2⟩ := bind_some h
    injection h2 with h2; injection h2 with h2 h3; injection h2 with h2; subst h2; subst h3
    exact ⟨e, by simp [Stmt.returns], s, h1⟩
  | .throw_ e, s, h => by rw [exec] at h; obtain ⟨_, _, _, h⟩ := bind_some h; injection h with h; cases h
  | .brk, s, h => by rw [exec] at h; injection h with h; injection h with h _; cases h
  | .cont, s, h => by rw [exec] at h; injection h with h; injection h with h _; cases h
  | .block b, s, h => by rw [exec] at h; simpa only [Stmt.returns] using execs_returns n b s h
  | .ite q t e, s, h => by
    rw [exec] at h
    obtain ⟨w, s1, _, h⟩ := bind_some h
    simp only [Stmt.returns]
    split at h
    · obtain ⟨e', he, h⟩ := execs_returns n t s1 h; exact ⟨e', by simp [he], h⟩
    · obtain ⟨e', he, h⟩ := execs_returns n e s1 h; exact ⟨e', by simp [he], h⟩
  | .while_ q b, s, h => by
    have ih := execs_returns n (v := v) (s' := s') b
    rw [exec] at h
    simp only [Stmt.returns]
    exact loop_returns ih n s h
  | .try_ b g, s, h => by
    rw [exec] at h
    simp only [Stmt.returns]
    cases hq : execs c K env d n b s with
    | none => rw [hq] at h; cases h
    | some r =>
      rw [hq] at h
      cases r with
      | exn s1 => obtain ⟨e', he, h⟩ := execs_returns n g s1 h; exact ⟨e', by simp [he], h⟩
      | ub => injection h with h; cases h
      | val o s1 =>
        have h' : some (Res.val o s1) = some (.val (.ret v) s') := h
        rw [h'] at hq
        obtain ⟨e', he, h⟩ := execs_returns n b s hq; exact ⟨e', by simp [he], h⟩
theorem execs_returns (n : Nat) {v : Option Val} {s' : St M} : (b : Stmts) → ∀ s, execs c K env d n b s = some (.val (.ret v) s') →
    ∃ e ∈ b.returns, ∃ s1, evalRet c K env d e s1 = some (.val v s')
  | .nil, s, h => by rw [execs] at h; injection h with h; injection h with h _; cases h
  | .cons a r, s, h => by
    rw [execs] at h
    obtain ⟨o, s1, h1, h2⟩ := bind_some h
    simp only [Stmts.returns]
    cases o with
    | norm => obtain ⟨e', he, h⟩ := execs_returns n r s1 h2; exact ⟨e', by simp [he], h⟩
    | brk => injection h2 with h2; injection h2 with h2 _; cases h2
    | cont => injection h2 with h2; injection h2 with h2 _; cases h2
    | ret w =>
      have h2' : some (Res.val (Flow.ret w) s1) = some (.val (.ret v) s') := h2
      rw [h2'] at h1
      obtain ⟨e', he, h⟩ := exec_returns n a s h1; exact ⟨e', by simp [he], h⟩
end

/-- A variable as an element of a returned tuple: the value it has in the end. -/
theorem evalRet_tup (hc : FrameC K c) {v : Var} {d' : Nat} {x : Var} (hd : d' ≤ d) (hv : env v = .slot d' x) {as : Exprs}
    (hw : ∀ y ∈ as.writes K, env y ≠ .slot d' x) {i : Nat} (hi : as.toList[i]? = some (.name (.loc v))) {s s' : St M} {w : Option Val}
    (h : evalRet c K env d (some (.tup as)) s = some (.val w s')) :
    ∃ vs, w = some (.tup vs) ∧ vs[i]? = some (s'.mem (.slot d' x)) ∧ vs.length = as.toList.length := by
  simp only [evalRet, eval] at h
  obtain ⟨u, s1, h1, h2⟩ := bind_some h
  obtain ⟨args, s2, h3, h4⟩ := bind_some h1
  injection h4 with h4; injection h4 with h4 h5; subst h4; subst h5
  injection h2 with h2; injection h2 with h2 h6; subst h2; subst h6
  refine ⟨_, rfl, ?_, ?_⟩
  · rcases evalArgs_name hc hd hv as [] s s2 args h3 hw i hi with ⟨k, hk, _⟩ | ⟨_, ha⟩
    · cases hk
    · rw [List.getElem?_map, ha]; rfl
  · rw [List.length_map]; exact evalArgs_length as _ _ _ _ h3
end

/-! ## What comes back -/

theorem bindEnv_ref (e : Nat) {l : Loc} : ∀ (ps : List Nat) (args : List Arg) (j : Nat) (p : Nat), ps.Nodup → ps[j]? = some p →
    args[j]? = some (.ref l) → bindEnv e ps args ⟨p, 0⟩ = l
  | [], _, _, _, _, h, _ => by cases h
  | q :: ps, [], _, _, _, _, h => by cases h
  | q :: ps, a :: args, 0, p, _, hp, ha => by
    have h1 : q = p := by have : some q = some p := hp; injection this
    have h2 : a = .ref l := by have : some a = some (Arg.ref l) := ha; injection this
    subst h1; subst h2; simp [bindEnv]
  | q :: ps, a :: args, j + 1, p, hn, hp, ha => by
    have ih := bindEnv_ref e ps args j p (List.nodup_cons.mp hn).2 hp ha
    have hne : p ≠ q := fun h => by
      subst h; exact (List.nodup_cons.mp hn).1 (List.mem_of_getElem? hp)
    have hne' : (⟨p, 0⟩ : Var) ≠ ⟨q, 0⟩ := fun h => hne (by injection h)
    cases a <;> simp [bindEnv, hne, ih]

theorem bindEnv_val (e : Nat) {v : Val} : ∀ (ps : List Nat) (args : List Arg) (j : Nat) (p : Nat), ps.Nodup → ps[j]? = some p →
    args[j]? = some (.val v) → bindEnv e ps args ⟨p, 0⟩ = .slot e ⟨p, 0⟩ ∧ ∀ s : St M, (enter e ps args s).mem (.slot e ⟨p, 0⟩) = v
  | [], _, _, _, _, h, _ => by cases h
  | q :: ps, [], _, _, _, _, h => by cases h
  | q :: ps, a :: args, 0, p, _, hp, ha => by
    have h1 : q = p := by have : some q = some p := hp; injection this
    have h2 : a = .val v := by have : some a = some (Arg.val v) := ha; injection this
    subst h1; subst h2
    exact ⟨by simp [bindEnv], fun s => by rw [enter]; exact set_same⟩
  | q :: ps, a :: args, j + 1, p, hn, hp, ha => by
    obtain ⟨ih1, ih2⟩ := bindEnv_val e ps args j p (List.nodup_cons.mp hn).2 hp ha
    have hne : p ≠ q := fun h => by
      subst h; exact (List.nodup_cons.mp hn).1 (List.mem_of_getElem? hp)
    cases a with
    | ref l => exact ⟨by simp [bindEnv, hne, ih1], fun s => by rw [enter]; exact ih2 s⟩
    | val w =>
      exact ⟨by simp [bindEnv, hne, ih1], fun s => by
        rw [enter, set_other (fun h => by injection h with _ h; injection h with h _; exact hne h)]; exact ih2 s⟩

/-- A parameter that is always returned comes back: as it was, or as the variable is that it refers to. `steady` and `quiet` are what `Steady` and
    `Compiles` say about it. -/
theorem comes_back {P : Prog} (hP : Compiles P) {f : Fn} {F : Fun} (hF : Prog.get P f = some F) {i j p : Nat}
    {ts : List Nat} (hres : F.res = some ts) (hext : F.ext = false) (hj : F.params[j]? = some p)
    (hret : ∀ e ∈ F.body.returns, ∃ as, e = some (Expr.tup as) ∧ as.toList[i]? = some (Expr.name (.loc ⟨p, 0⟩)) ∧
      (⟨p, 0⟩ : Var) ∉ as.writes (Prog.kinds P))
    (hcopy : F.kinds[j]? = some Kind.copy → (⟨p, 0⟩ : Var) ∉ F.body.writes (Prog.kinds P))
    {n : Nat} {args : List Arg} {d : Nat} {s s' : St M} {v : Val} (hfit : Fits d F.kinds args) (h : callN M P n f args d s = some (.val v s')) :
    ∃ vs, v = .tup vs ∧ vs.length = ts.length ∧
      (∀ v0, F.kinds[j]? = some Kind.copy → args[j]? = some (.val v0) → vs[i]? = some v0) ∧
      (∀ d' x, d' ≤ d → args[j]? = some (.ref (.slot d' x)) → (∀ k : Nat, args[k]? = some (.ref (.slot d' x)) → k = j) →
        vs[i]? = some (s'.mem (.slot d' x))) := by
  obtain ⟨hlen, hnd, hin⟩ := hP f F hF
  cases n with
  | zero => cases h
  | succ n =>
    rw [callN] at h
    simp only [hF, hext] at h
    split at h
    · simp only [Bool.false_eq_true, if_false, callFun] at h
      have hfr := callN_frame (M := M) hP n
      cases hq : execs (callN M P n) (Prog.kinds P) (bindEnv (d + 1) F.params args) (d + 1) (n + 1) F.body
          (enter (d + 1) F.params args s) with
      | none => rw [hq] at h; cases h
      | some r =>
        rw [hq] at h
        cases r with
        | ub => injection h with h; cases h
        | exn s1 => injection h with h; cases h
        | val o s1 =>
          have h' : leave s d (result F.res s d o s1) = some (.val v s') := h
          rw [hres] at h'
          have hub : ∀ {A : Prop}, leave s d (some Res.ub : Comp M Val) = some (.val v s') → A := fun hh => by
            injection hh with hh; cases hh
          cases o with
          | norm => exact hub h'
          | brk => exact hub h'
          | cont => exact hub h'
          | ret u =>
            cases u with
            | none => exact hub h'
            | some u =>
              obtain ⟨hlv, rfl, rfl⟩ : (∃ vs', u = .tup vs' ∧ vs'.length = ts.length) ∧ u = v ∧ s.back d s1 = s' := by
                cases u with
                | void => exact hub h'
                | int i => exact hub h'
                | tup vs' =>
                  simp only [result] at h'
                  split at h'
                  · rename_i hl
                    injection h' with h'; injection h' with h1 h2
                    exact ⟨⟨vs', rfl, hl⟩, h1, h2⟩
                  · exact hub h'
              obtain ⟨e, he, s0, hev⟩ := execs_returns (n + 1) F.body _ hq
              obtain ⟨as, rfl, hi, hw⟩ := hret e he
              -- the location of the parameter
              have key : ∀ d' x, d' ≤ d + 1 → bindEnv (d + 1) F.params args ⟨p, 0⟩ = .slot d' x →
                  (∀ y, bindEnv (d + 1) F.params args y = .slot d' x → y = ⟨p, 0⟩) →
                  ∃ vs, some u = some (.tup vs) ∧ vs[i]? = some (s1.mem (.slot d' x)) ∧ vs.length = as.toList.length := by
                intro d' x hd' hloc huniq
                exact evalRet_tup hfr hd' hloc (fun y hy hc => hw (huniq y hc ▸ hy)) hi hev
              obtain ⟨vs, rfl, hl⟩ := hlv
              refine ⟨vs, rfl, hl, ?_, ?_⟩
              · intro v0 hk hv
                obtain ⟨hb, hent⟩ := bindEnv_val (M := M) (d + 1) F.params args j p hnd hj hv
                have hu : ∀ y, bindEnv (d + 1) F.params args y = .slot (d + 1) ⟨p, 0⟩ → y = ⟨p, 0⟩ := by
                  intro y hy
                  rcases bindEnv_slot _ _ _ _ _ _ hy with ⟨k, q, h1, h2, h3⟩ | ⟨_, h2⟩
                  · have := (hfit k _ h3).2 _ _ rfl; omega
                  · exact h2.symm
                obtain ⟨vs', h1, h2, _⟩ := key (d + 1) ⟨p, 0⟩ (by omega) hb hu
                injection h1 with h1; injection h1 with h1; subst h1
                rw [h2]
                have hkeep := execs_keeps hfr (show d + 1 ≤ d + 1 by omega) (n + 1) F.body (env := bindEnv (d + 1) F.params args)
                  (x := ⟨p, 0⟩) (fun y hy hc => hcopy hk (hu y hc ▸ hy)) (enter (d + 1) F.params args s) _ hq
                have : s1.mem (.slot (d + 1) ⟨p, 0⟩) = (enter (d + 1) F.params args s).mem (.slot (d + 1) ⟨p, 0⟩) := hkeep
                rw [this, hent s]
              · intro d' x hd' hr huniq
                have hb := bindEnv_ref (d + 1) F.params args j p hnd hj hr
                obtain ⟨vs', h1, h2, _⟩ := key d' x (by omega) hb (fun y hy => by
                  rcases bindEnv_slot _ _ _ _ _ _ hy with ⟨k, q, h1, h2, h3⟩ | ⟨h1, _⟩
                  · have := huniq k h3; subst this
                    rw [hj] at h1; injection h1 with h1; subst h1; exact h2
                  · omega)
                injection h1 with h1; injection h1 with h1; subst h1
                rw [h2, back_slot hd']
    · injection h with h; cases h

end Verif.Opt.Ret
