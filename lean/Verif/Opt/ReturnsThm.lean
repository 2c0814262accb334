import Verif.Opt.ReturnsMain

/-!
# C85: programs do the same after the pass
-/

namespace Verif.Opt.Ret

open Whole (Fn Kind)

set_option linter.unusedSectionVars false

variable {M : Sem}

/-! ## Statements -/

theorem leftF_unchanged {P : Prog} {D : Fn → Placements} {g : Fn} (h : changed P D g = false) : leftF P D g = fun o => o := by
  funext o
  cases o with
  | ret v => cases v <;> simp [leftF, h]
  | _ => rfl

theorem loop_same {φ : Flow → Flow} (h1 : φ .norm = .norm) (h2 : φ .cont = .cont) (h3 : φ .brk = .brk) (h4 : ∀ v, ∃ v', φ (.ret v) = .ret v')
    {q q' : St M → Comp M Val} {b b' : St M → Comp M Flow} (hq : ∀ s, Same (fun a => a) (q s) (q' s)) (hb : ∀ s, Same φ (b s) (b' s)) :
    ∀ n s, Same φ (loop q b n s) (loop q' b' n s)
  | 0, s => .inr rfl
  | n + 1, s => by
    simp only [loop]
    refine same_bind (hq s) fun v s1 _ => ?_
    cases v.truth with
    | false => exact same_val h1.symm
    | true =>
      simp only [if_true]
      rcases hb s1 with h | h
      · exact .inl (by rw [h]; rfl)
      · rw [h]
        cases b s1 with
        | none => exact .inr rfl
        | some r =>
          cases r with
          | exn s2 => exact .inr rfl
          | ub => exact .inl rfl
          | val o s2 =>
            simp only [mapR, Comp.bind]
            cases o with
            | norm => rw [h1]; exact loop_same h1 h2 h3 h4 hq hb n s2
            | cont => rw [h2]; exact loop_same h1 h2 h3 h4 hq hb n s2
            | brk => rw [h3]; exact same_val h1.symm
            | ret v =>
              obtain ⟨v', hv⟩ := h4 v
              rw [hv]; exact same_val hv.symm

theorem leftF_ret {P : Prog} {D : Fn → Placements} {g : Fn} (v : Option Val) : ∃ v', leftF P D g (.ret v) = .ret v' := by
  cases v with
  | none => exact ⟨none, rfl⟩
  | some v =>
    simp only [leftF]
    split
    · cases v with
      | tup vs =>
        simp only [shrinkF]
        cases left (D g).pl vs with
        | nil => exact ⟨_, rfl⟩
        | cons a l => cases l <;> exact ⟨_, rfl⟩
      | _ => exact ⟨_, rfl⟩
    · exact ⟨_, rfl⟩

section
variable {P : Prog} {D : Fn → Placements} (hD : Found P D) (hP : Good P) {m : Nat} {c' : Calls M} (hc : CSame P D (callN M P m) c')
  {g : Fn} {G : Fun} (hG : Prog.get P g = some G) {env : Var → Loc} {d : Nat} (henv : EnvOk G env d)

include hD hc henv in
theorem tset_other {ts : List Lhs} {e : Expr} (h : Same (fun a => a) (eval (callN M P m) (Prog.kinds P) env d e s) (eval c' (Prog.kinds P) env d e s)) (n : Nat) :
    Same (leftF P D g) (exec (callN M P m) (Prog.kinds P) env d n (.tset ts e) s) (exec c' (Prog.kinds P) env d n (.tset ts e) s) := by
  simp only [exec]
  refine same_bind h fun v s1 _ => ?_
  cases v with
  | tup vs =>
    dsimp only
    split
    · exact same_val rfl
    · exact .inl rfl
  | _ => exact .inl rfl

include hD hP hG henv hc in
theorem ret_same {e : Option Expr} (hu : ∀ f u, u ∈ retUses f g e → u ∈ P.uses f) (hr : e ∈ G.body.returns) (n : Nat) (s : St M) :
    Same (leftF P D g) (exec (callN M P m) (Prog.kinds P) env d n (.ret e) s) (exec c' (Prog.kinds P) env d n (.ret (mutRet D g e)) s) := by
  cases hch : changed P D g with
  | false =>
    have hm : mutRet D g e = e := by
      cases e with
      | none => rfl
      | some e =>
        cases e with
        | tup as =>
          simp only [mutRet, newRet]
          rw [staying_all _ _ (unchanged_none hD hG hch), if_pos rfl]
        | _ => rfl
    rw [hm, leftF_unchanged hch]
    cases e with
    | none => simp only [exec, evalRet]; exact same_rfl
    | some e =>
      have he : Same (fun a => a) (eval (callN M P m) (Prog.kinds P) env d e s) (eval c' (Prog.kinds P) env d e s) := by
        cases e with
        | call f as =>
          exact call_same hD hc henv.low (fun k u hk => hu k u (by simp [retUses, hk]))
            (unchanged_of_use hD (u := .tail g) (hu f _ (by simp [retUses])) (fun _ _ h => by cases h)) s
        | _ => exact eval_same hD hc henv.low _ hu s
      simp only [exec, evalRet]
      exact same_bind (same_bind he fun v s1 _ => same_rfl) fun v s1 _ => same_rfl
  | true =>
    obtain ⟨G', hG', i0, p0, hi0⟩ := of_changed hD hch
    rw [hG] at hG'; injection hG' with hG'; subst hG'
    obtain ⟨as, rfl, ha0⟩ := (placed_always hD hP hG hi0).2.2 e hr
    have hl0 : i0 < as.toList.length := (List.getElem?_eq_some_iff.mp ha0).1
    have hargs := evalArgs_same hD hc henv.low as hu [] s
    simp only [exec, mutRet]
    rw [evalRet_left (c := c') (K := Prog.kinds P) (env := env) (d := d) hi0 hl0 (fun i p hi e he => by
      obtain ⟨as', h1, h2⟩ := (placed_always hD hP hG hi).2.2 _ hr
      injection h1 with h1; injection h1 with h1; subst h1
      rw [h2] at he; injection he with he; subst he; simp [Expr.isId]) s]
    simp only [evalRet, eval]
    rcases same_eq hargs with h | h
    · exact .inl (by rw [h]; rfl)
    · rw [h]
      cases evalArgs (callN M P m) (Prog.kinds P) env d [] as s with
      | none => exact .inr rfl
      | some r =>
        cases r with
        | exn s1 => exact .inr rfl
        | ub => exact .inl rfl
        | val vs s1 =>
          refine same_val ?_
          simp [leftF, hch]

include hD hP hG henv hc in
mutual
theorem exec_same (n : Nat) : (a : Stmt) → (∀ f u, u ∈ a.uses f g → u ∈ P.uses f) → (∀ e ∈ a.returns, e ∈ G.body.returns) →
    (∀ t ∈ a.unpacks, t ∈ G.body.unpacks) → ∀ s : St M,
    Same (leftF P D g) (exec (callN M P m) (Prog.kinds P) env d n a s) (exec c' (Prog.kinds P) env d n (mutS P D g a) s)
  | .expr e, hu, _, _, s => by
    simp only [mutS, exec]
    exact same_bind (eval_same hD hc henv.low e (by simpa only [Stmt.uses] using hu) s) fun v s1 _ => same_val rfl
  | .set t e, hu, _, _, s => by
    simp only [mutS, exec]
    exact same_bind (eval_same hD hc henv.low e (by simpa only [Stmt.uses] using hu) s) fun v s1 _ => same_val rfl
  | .decl x e, hu, _, _, s => by
    simp only [mutS, exec]
    exact same_bind (eval_same hD hc henv.low e (by simpa only [Stmt.uses] using hu) s) fun v s1 _ => same_val rfl
  | .throw_ e, hu, _, _, s => by
    simp only [mutS, exec]
    exact same_bind (eval_same hD hc henv.low e (by simpa only [Stmt.uses] using hu) s) fun v s1 _ => .inr rfl
  | .tset ts e, hu, _, hk, s => by
    simp only [Stmt.uses] at hu
    simp only [mutS]
    have hk : (ts, e) ∈ G.body.unpacks := hk _ (by simp [Stmt.unpacks])
    cases e with
    | call f as =>
      cases hch : changed P D f with
      | true => exact tset_same hD hP hc hG henv hu hk n s hch
      | false =>
        have hm : mutAsg P D ts (.call f as) = .tset ts (.call f as) := by simp [mutAsg, hch]
        rw [hm]
        exact tset_other hD hc henv (call_same hD hc henv.low (fun k u hk => hu k u (by simp [asgUses, hk])) hch s) n
    | _ => exact tset_other hD hc henv (eval_same hD hc henv.low _ hu s) n
  | .ret e, hu, hr, _, s => by
    simp only [mutS]
    exact ret_same hD hP hc hG henv (by simpa only [Stmt.uses] using hu) (hr e (by simp [Stmt.returns])) n s
  | .brk, _, _, _, s => by simp only [mutS, exec]; exact same_val rfl
  | .cont, _, _, _, s => by simp only [mutS, exec]; exact same_val rfl
  | .block b, hu, hr, hk, s => by
    simp only [mutS, exec]
    exact execs_same n b (by simpa only [Stmt.uses] using hu) (by simpa only [Stmt.returns] using hr) (by simpa only [Stmt.unpacks] using hk) s
  | .ite q t e, hu, hr, hk, s => by
    simp only [Stmt.uses, Stmt.returns, Stmt.unpacks] at hu hr hk
    simp only [mutS, exec]
    refine same_bind (eval_same hD hc henv.low q (fun k u h => hu k u (by simp [h])) s) fun v s1 _ => ?_
    cases v.truth with
    | true =>
      exact execs_same n t (fun k u h => hu k u (by simp [h])) (fun e' h => hr e' (by simp [h])) (fun e' h => hk e' (by simp [h])) s1
    | false =>
      exact execs_same n e (fun k u h => hu k u (by simp [h])) (fun e' h => hr e' (by simp [h])) (fun e' h => hk e' (by simp [h])) s1
  | .while_ q b, hu, hr, hk, s => by
    simp only [Stmt.uses, Stmt.returns, Stmt.unpacks] at hu hr hk
    simp only [mutS, exec]
    exact loop_same rfl rfl rfl leftF_ret (fun s => eval_same hD hc henv.low q (fun k u h => hu k u (by simp [h])) s)
      (fun s => execs_same n b (fun k u h => hu k u (by simp [h])) hr hk s) n s
  | .try_ b h, hu, hr, hk, s => by
    simp only [Stmt.uses, Stmt.returns, Stmt.unpacks] at hu hr hk
    simp only [mutS, exec]
    have hb := execs_same n b (fun k u h => hu k u (by simp [h])) (fun e' h => hr e' (by simp [h])) (fun e' h => hk e' (by simp [h])) s
    have hh := execs_same n h (fun k u h => hu k u (by simp [h])) (fun e' h => hr e' (by simp [h])) (fun e' h => hk e' (by simp [h]))
    rcases hb with hb | hb
    · exact .inl (by rw [hb]; rfl)
    · rw [hb]
      cases execs (callN M P m) (Prog.kinds P) env d n b s with
      | none => exact .inr rfl
      | some r =>
        cases r with
        | exn s1 => exact hh s1
        | ub => exact .inl rfl
        | val o s1 => exact .inr rfl
theorem execs_same (n : Nat) : (b : Stmts) → (∀ f u, u ∈ b.uses f g → u ∈ P.uses f) → (∀ e ∈ b.returns, e ∈ G.body.returns) →
    (∀ t ∈ b.unpacks, t ∈ G.body.unpacks) → ∀ s : St M,
    Same (leftF P D g) (execs (callN M P m) (Prog.kinds P) env d n b s) (execs c' (Prog.kinds P) env d n (mutB P D g b) s)
  | .nil, _, _, _, s => by simp only [mutB, execs]; exact same_val rfl
  | .cons a r, hu, hr, hk, s => by
    simp only [Stmts.uses, Stmts.returns, Stmts.unpacks] at hu hr hk
    simp only [mutB, execs]
    have ha := exec_same n a (fun k u h => hu k u (by simp [h])) (fun e' h => hr e' (by simp [h])) (fun e' h => hk e' (by simp [h])) s
    have hr' := execs_same n r (fun k u h => hu k u (by simp [h])) (fun e' h => hr e' (by simp [h])) (fun e' h => hk e' (by simp [h]))
    rcases ha with ha | ha
    · exact .inl (by rw [ha]; rfl)
    · rw [ha]
      cases exec (callN M P m) (Prog.kinds P) env d n a s with
      | none => exact .inr rfl
      | some r =>
        cases r with
        | exn s1 => exact .inr rfl
        | ub => exact .inl rfl
        | val o s1 =>
          cases o with
          | norm => exact hr' s1
          | ret v =>
            obtain ⟨v', hv⟩ := leftF_ret (P := P) (D := D) (g := g) v
            simp only [mapR, Comp.bind, hv]; exact same_val hv.symm
          | brk => exact same_val rfl
          | cont => exact same_val rfl
end
end

/-! ## Calls -/

theorem bindEnv_own (e : Nat) {v : Var} : ∀ (ps : List Nat) (args : List Arg),
    (∀ (j : Nat) p l, ps[j]? = some p → args[j]? = some (.ref l) → v ≠ ⟨p, 0⟩) → bindEnv e ps args v = .slot e v
  | [], args, _ => by cases args <;> rfl
  | p :: ps, [], _ => rfl
  | p :: ps, .ref l :: args, h => by
    rw [bindEnv, if_neg (h 0 p l rfl rfl)]
    exact bindEnv_own e ps args fun j q l h1 h2 => h (j + 1) q l (by simpa using h1) (by simpa using h2)
  | p :: ps, .val w :: args, h => by
    rw [bindEnv]
    split
    · rename_i hv; rw [hv]
    · exact bindEnv_own e ps args fun j q l h1 h2 => h (j + 1) q l (by simpa using h1) (by simpa using h2)

theorem bindEnv_ok {F : Fun} {args : List Arg} {d : Nat} (hf : Fits d F.kinds args) : EnvOk F (bindEnv (d + 1) F.params args) (d + 1) := by
  refine ⟨fun y d' x h => ?_, fun v hv => ?_, fun y x h => ?_⟩
  · rcases bindEnv_slot _ _ _ _ _ _ h with ⟨j, p, _, _, h3⟩ | ⟨h1, _⟩
    · have := (hf j _ h3).2 d' x rfl; omega
    · omega
  · refine bindEnv_own _ _ _ fun j p l h1 h2 h3 => ?_
    obtain ⟨⟨k, hk, hne⟩, _⟩ := hf j l h2
    exact hne (hv p k (mem_zip_of_get h1 hk) h3)
  · rcases bindEnv_slot _ _ _ _ _ _ h with ⟨j, p, _, _, h3⟩ | ⟨_, h1⟩
    · have := (hf j _ h3).2 (d + 1) x rfl; omega
    · exact h1.symm

theorem uses_mem {P : Prog} {g : Fn} {G : Fun} (hG : Prog.get P g = some G) {f : Fn} {u : Use} (h : u ∈ G.body.uses f g) : u ∈ P.uses f := by
  simp only [Prog.uses, List.mem_flatMap]
  exact ⟨(g, G), get_mem hG, h⟩

section
variable {P : Prog} {D : Fn → Placements} (hD : Found P D) (hP : Good P)

include hD in
theorem result_same {f : Fn} {F : Fun} (hF : Prog.get P f = some F) (d : Nat) (s s1 : St M) (o : Flow) :
    Same (leftOf P D f) (leave s d (result F.res s d o s1)) (leave s d (result (mutF P D f F).res s d (leftF P D f o) s1)) := by
  cases hch : changed P D f with
  | false =>
    rw [leftF_unchanged hch, leftOf_unchanged hch]
    simp only [mutF, hch]
    exact same_rfl
  | true =>
    obtain ⟨F', hF', i0, p0, hi0⟩ := of_changed hD hch
    rw [hF] at hF'; injection hF' with hF'; subst hF'
    obtain ⟨ts, hts, htl⟩ := (found_placed hD hF hi0).res
    simp only [mutF, hch, if_true, newRes, hts, found_ids hD hF]
    cases o with
    | norm => exact .inl rfl
    | brk => exact .inl rfl
    | cont => exact .inl rfl
    | ret v =>
      cases v with
      | none => exact .inl rfl
      | some v =>
        cases v with
        | tup vs =>
          by_cases hl : vs.length = ts.length
          · have hll := left_length (D f).pl vs ts hl
            simp only [result, if_pos hl, leftF, hch, if_true, shrinkF, leave]
            cases h1 : left (D f).pl ts with
            | nil =>
              cases h2 : left (D f).pl vs with
              | nil => exact same_val (by simp [leftOf, hch, shrink, h2])
              | cons v r => rw [h1, h2] at hll; simp at hll
            | cons t r =>
              cases h2 : left (D f).pl vs with
              | nil => rw [h1, h2] at hll; simp at hll
              | cons v q =>
                rw [h1, h2] at hll
                cases r with
                | nil =>
                  cases q with
                  | nil => exact same_val (by simp [leftOf, hch, shrink, h2])
                  | cons v' q => simp at hll
                | cons t' r =>
                  cases q with
                  | nil => simp at hll
                  | cons v' q =>
                    simp only [result]
                    rw [if_pos hll]
                    exact same_val (by simp [leftOf, hch, shrink, h2])
          · simp only [result, if_neg hl]; exact .inl rfl
        | void => exact .inl rfl
        | int i => exact .inl rfl

include hD hP in
theorem callFun_same {m n : Nat} {c' : Calls M} (hc : CSame P D (callN M P m) c') {f : Fn} {F : Fun} (hF : Prog.get P f = some F) {args : List Arg} {d : Nat}
    (hf : Fits d F.kinds args) (s : St M) :
    Same (leftOf P D f) (callFun (callN M P m) (Prog.kinds P) n F args d s) (callFun c' (Prog.kinds P) n (mutF P D f F) args d s) := by
  have hx := execs_same hD hP hc hF (bindEnv_ok hf) n F.body (fun k u h => uses_mem hF h) (fun _ h => h) (fun _ h => h) (enter (d + 1) F.params args s)
  have hpar : (mutF P D f F).params = F.params := rfl
  have hbody : (mutF P D f F).body = mutB P D f F.body := rfl
  simp only [callFun, hpar, hbody]
  rcases hx with hx | hx
  · exact .inl (by rw [hx]; rfl)
  · rw [hx]
    cases execs (callN M P m) (Prog.kinds P) (bindEnv (d + 1) F.params args) (d + 1) n F.body (enter (d + 1) F.params args s) with
    | none => exact .inr rfl
    | some r =>
      cases r with
      | exn s1 => exact .inr rfl
      | ub => exact .inl rfl
      | val o s1 => exact result_same hD hF d s s1 o
end

theorem get_map (k : Fn → Fun → Fun) (f : Fn) : ∀ Q : Prog, Prog.get (Q.map fun x => (x.1, k x.1 x.2)) f = (Prog.get Q f).map (k f)
  | [] => rfl
  | (g, G) :: Q => by
    simp only [List.map_cons, Prog.get]
    split
    · rename_i h; subst h; rfl
    · exact get_map k f Q

section
variable {P : Prog} (hP : Good P) {ord : List Fn → List Fn} (ho : ord [] = [])

include hP ho in
theorem found : Found P (prunedAll P (collect ord P)) := fun _ _ hF => pruned_eq hP.tails ho hF

theorem get_propagate (f : Fn) : Prog.get (propagate ord P) f = (Prog.get P f).map (mutF P (prunedAll P (collect ord P)) f) :=
  get_map (mutF P (prunedAll P (collect ord P))) f P

theorem kinds_propagate : Prog.kinds (propagate ord P) = Prog.kinds P := by
  funext f
  simp only [Prog.kinds, get_propagate]
  cases Prog.get P f <;> rfl

include hP ho in
theorem callN_same : ∀ n, CSame P (prunedAll P (collect ord P)) (callN M P n) (callN M (propagate ord P) n)
  | 0, f, args, d, s, _ => .inr rfl
  | n + 1, f, args, d, s, hf => by
    have hD := found hP ho
    simp only [callN, get_propagate, kinds_propagate]
    cases hF : Prog.get P f with
    | none => exact .inl rfl
    | some F =>
      rw [kinds_of_get hF] at hf
      simp only [Option.map_some]
      by_cases hl : args.length = F.kinds.length
      · have hl' : args.length = (mutF P (prunedAll P (collect ord P)) f F).kinds.length := hl
        rw [if_pos hl, if_pos hl']
        cases hx : F.ext with
        | true =>
          have hx' : (mutF P (prunedAll P (collect ord P)) f F).ext = true := hx
          have hun : changed P (prunedAll P (collect ord P)) f = false := by
            cases hch : changed P (prunedAll P (collect ord P)) f with
            | false => rfl
            | true =>
              obtain ⟨F', hF', i, p, hi⟩ := of_changed hD hch
              rw [hF] at hF'; injection hF' with hF'; subst hF'
              have := (found_placed hD hF hi).body
              rw [hx] at this; cases this
          rw [if_pos rfl, hx', if_pos rfl, leftOf_unchanged hun]
          exact same_rfl
        | false =>
          have hx' : (mutF P (prunedAll P (collect ord P)) f F).ext = false := hx
          simp only [hx', Bool.false_eq_true, if_false]
          exact callFun_same hD hP (callN_same n) hF hf s
      · rw [if_neg hl]; exact .inl rfl

end

/-- **C85.** If no call of `f` has no meaning, then after the pass a function that other code can call does exactly what it did before. The program must
    satisfy `Good`; missing: programs with tail calls of functions that return tuples. -/
theorem propagate_keeps_partial {P : Prog} (hP : Good P) {ord : List Fn → List Fn} (ho : ∀ l x, x ∈ ord l → x ∈ l) {f : Fn} {F : Fun}
    (hF : Prog.get P f = some F) (hx : F.fixed = true) {args : List Arg} {d : Nat} (hf : Fits d F.kinds args) {s : St M}
    (hm : ¬ Does M P f args d s .ub) (r : Res M Val) :
    Does M (propagate ord P) f args d s r ↔ Does M P f args d s r := by
  have ho : ord [] = [] := by
    cases h : ord [] with
    | nil => rfl
    | cons x l => exact absurd (ho [] x (by rw [h]; simp)) (by simp)
  have hD := found hP ho
  have hun : changed P (prunedAll P (collect ord P)) f = false := by
    cases hch : changed P (prunedAll P (collect ord P)) f with
    | false => rfl
    | true =>
      obtain ⟨F', hF', i, p, hi⟩ := of_changed hD hch
      rw [hF] at hF'; injection hF' with hF'; subst hF'
      have := (found_placed hD hF hi).free
      rw [hx] at this; cases this
  have key : ∀ n, callN M (propagate ord P) n f args d s = callN M P n f args d s := by
    intro n
    have h := callN_same (M := M) hP ho n f args d s (by rw [kinds_of_get hF]; exact hf)
    rw [leftOf_unchanged hun] at h
    rcases same_eq h with h | h
    · exact absurd ⟨n, h⟩ hm
    · exact h
  constructor
  · rintro ⟨n, h⟩; exact ⟨n, by rw [← key]; exact h⟩
  · rintro ⟨n, h⟩; exact ⟨n, by rw [key]; exact h⟩

end Verif.Opt.Ret
