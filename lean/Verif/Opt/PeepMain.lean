import Verif.Opt.PeepExpr

/-!
# The peephole pass: the program behaves the same
-/

namespace Verif.Opt.Peep

/-- The states of the two programs: only the error field may differ, and not where it may be looked at. -/
structure Rel (fr : Bool) (s s' : St) : Prop where
  vars : s'.vars = s.vars
  out : s'.out = s.out
  err : fr = true → s'.err = s.err

/-- The results of the two programs. -/
inductive RR (fr : Bool) : Option R → Option R → Prop
  | none : RR fr none none
  | done : Rel fr s s' → RR fr (some (.done s)) (some (.done s'))
  | ret : Rel false s s' → RR fr (some (.ret v s)) (some (.ret v s'))
  | exn : Rel false s s' → RR fr (some (.exn t s)) (some (.exn t s'))

theorem Rel.weaken {fr : Bool} {s s' : St} (h : Rel fr s s') : Rel false s s' :=
  ⟨h.vars, h.out, fun h => by cases h⟩

theorem RR.weaken {fr : Bool} {r r' : Option R} (h : RR fr r r') : RR false r r' := by
  cases h with
  | none => exact .none
  | done h => exact .done h.weaken
  | ret h => exact .ret h
  | exn h => exact .exn h

theorem Rel.setVar {fr : Bool} {s s' : St} (h : Rel fr s s') (x : Nat) (v : Int) :
    Rel fr (s.setVar x v) (s'.setVar x v) :=
  ⟨by simp only [St.setVar, h.vars], h.out, h.err⟩

theorem RR.bind {fr fr' : Bool} {r r' : Option R} {k k' : St → Option R} (h : RR fr r r')
    (hk : ∀ s s', Rel fr s s' → RR fr' (k s) (k' s')) : RR fr' (Peep.bind r k) (Peep.bind r' k') := by
  cases h with
  | none => exact .none
  | done h => exact hk _ _ h
  | ret h => exact .ret h
  | exn h => exact .exn h

/-- Expressions in related states. -/
theorem evalX_rel (O : Ops) (e : Ex) {fr : Bool} (hu : (fr || ! usesErr e) = true) {s s' : St} (h : Rel fr s s') :
    (evalX O e s').1 = (evalX O e s).1 ∧ Rel fr (evalX O e s).2 (evalX O e s').2 := by
  induction e generalizing s s' with
  | lit v => exact ⟨rfl, h⟩
  | var x => exact ⟨by simp only [evalX, h.vars], h⟩
  | getErr =>
    simp only [usesErr, Bool.not_true, Bool.or_false] at hu
    exact ⟨by simp only [evalX, h.err hu], h⟩
  | move e ih => simp only [evalX]; exact ih hu h
  | ext k a b iha ihb =>
    have hua : (fr || ! usesErr a) = true := by
      revert hu; simp only [usesErr]; cases fr <;> cases usesErr a <;> simp
    have hub : (fr || ! usesErr b) = true := by
      revert hu; simp only [usesErr]; cases fr <;> cases usesErr a <;> cases usesErr b <;> simp
    have ha := iha hua h
    simp only [evalX]
    generalize evalX O a s = ra at ha ⊢
    generalize evalX O a s' = ra' at ha ⊢
    obtain ⟨ra, sa⟩ := ra
    obtain ⟨ra', sa'⟩ := ra'
    obtain ⟨he, h⟩ := ha
    dsimp only at he h
    subst he
    cases ra' with
    | error t => exact ⟨rfl, h⟩
    | ok va =>
      have hb := ihb hub h
      dsimp only
      generalize evalX O b sa = rb at hb ⊢
      generalize evalX O b sa' = rb' at hb ⊢
      obtain ⟨rb, sb⟩ := rb
      obtain ⟨rb', sb'⟩ := rb'
      obtain ⟨he, h⟩ := hb
      dsimp only at he h
      subst he
      cases rb' with
      | error t => exact ⟨rfl, h⟩
      | ok vb =>
        dsimp only
        rw [h.out]
        exact ⟨rfl, ⟨h.vars, rfl, h.err⟩⟩
  | seq a b iha ihb =>
    have hua : (fr || ! usesErr a) = true := by
      revert hu; simp only [usesErr]; cases fr <;> cases usesErr a <;> simp
    have hub : (fr || ! usesErr b) = true := by
      revert hu; simp only [usesErr]; cases fr <;> cases usesErr a <;> cases usesErr b <;> simp
    have ha := iha hua h
    simp only [evalX]
    generalize evalX O a s = ra at ha ⊢
    generalize evalX O a s' = ra' at ha ⊢
    obtain ⟨ra, sa⟩ := ra
    obtain ⟨ra', sa'⟩ := ra'
    obtain ⟨he, h⟩ := ha
    dsimp only at he h
    subst he
    cases ra' with
    | error t => exact ⟨rfl, h⟩
    | ok va => exact ihb hub h
  | ite c a b ihc iha ihb =>
    have huc : (fr || ! usesErr c) = true := by
      revert hu; simp only [usesErr]; cases fr <;> cases usesErr c <;> simp
    have hua : (fr || ! usesErr a) = true := by
      revert hu; simp only [usesErr]; cases fr <;> cases usesErr c <;> cases usesErr a <;> simp
    have hub : (fr || ! usesErr b) = true := by
      revert hu; simp only [usesErr]; cases fr <;> cases usesErr c <;> cases usesErr a <;> cases usesErr b <;> simp
    have ha := ihc huc h
    simp only [evalX]
    generalize evalX O c s = ra at ha ⊢
    generalize evalX O c s' = ra' at ha ⊢
    obtain ⟨ra, sa⟩ := ra
    obtain ⟨ra', sa'⟩ := ra'
    obtain ⟨he, h⟩ := ha
    dsimp only at he h
    subst he
    cases ra' with
    | error t => exact ⟨rfl, h⟩
    | ok va =>
      dsimp only
      split
      · exact iha hua h
      · exact ihb hub h
  | grp x i e ihi ihe =>
    have hua : (fr || ! usesErr i) = true := by
      revert hu; simp only [usesErr]; cases fr <;> cases usesErr i <;> simp
    have hub : (fr || ! usesErr e) = true := by
      revert hu; simp only [usesErr]; cases fr <;> cases usesErr i <;> cases usesErr e <;> simp
    have ha := ihi hua h
    simp only [evalX]
    generalize evalX O i s = ra at ha ⊢
    generalize evalX O i s' = ra' at ha ⊢
    obtain ⟨ra, sa⟩ := ra
    obtain ⟨ra', sa'⟩ := ra'
    obtain ⟨he, h⟩ := ha
    dsimp only at he h
    subst he
    cases ra' with
    | error t => exact ⟨rfl, h⟩
    | ok va =>
      dsimp only
      obtain ⟨h1, h2⟩ := ihe hub (h.setVar x va)
      refine ⟨h1, ?_⟩
      rw [h.vars]
      exact h2.setVar x _
  | set x e ih =>
    have hua : (fr || ! usesErr e) = true := by revert hu; simp only [usesErr]; exact id
    have ha := ih hua h
    simp only [evalX]
    generalize evalX O e s = ra at ha ⊢
    generalize evalX O e s' = ra' at ha ⊢
    obtain ⟨ra, sa⟩ := ra
    obtain ⟨ra', sa'⟩ := ra'
    obtain ⟨he, h⟩ := ha
    dsimp only at he h
    subst he
    cases ra' with
    | error t => exact ⟨rfl, h⟩
    | ok va => exact ⟨rfl, h.setVar x va⟩
  | setErr e ih =>
    have hua : (fr || ! usesErr e) = true := by revert hu; simp only [usesErr]; exact id
    have ha := ih hua h
    simp only [evalX]
    generalize evalX O e s = ra at ha ⊢
    generalize evalX O e s' = ra' at ha ⊢
    obtain ⟨ra, sa⟩ := ra
    obtain ⟨ra', sa'⟩ := ra'
    obtain ⟨he, h⟩ := ha
    dsimp only at he h
    subst he
    cases ra' with
    | error t => exact ⟨rfl, h⟩
    | ok va => exact ⟨rfl, ⟨h.vars, h.out, fun _ => rfl⟩⟩

theorem RR.withX {fr fr' : Bool} {r r' : Except Nat Int × St} {k k' : Int → St → Option R} (h1 : r'.1 = r.1)
    (h2 : Rel fr r.2 r'.2) (hk : ∀ v s s', Rel fr s s' → RR fr' (k v s) (k' v s')) :
    RR fr' (Peep.withX r k) (Peep.withX r' k') := by
  obtain ⟨r, s⟩ := r
  obtain ⟨r', s'⟩ := r'
  dsimp only at h1 h2
  subst h1
  cases r' with
  | ok v => exact hk v _ _ h2
  | error t => exact .exn h2.weaken

theorem RR.loopN (n : Nat) {c c' : St → Except Nat Int × St} {b b' : St → Option R}
    (hc : ∀ s s', Rel false s s' → (c' s').1 = (c s).1 ∧ Rel false (c s).2 (c' s').2)
    (hb : ∀ s s', Rel false s s' → RR false (b s) (b' s')) {s s' : St} (h : Rel false s s') :
    RR false (Peep.loopN n c b s) (Peep.loopN n c' b' s') := by
  induction n generalizing s s' with
  | zero => exact .none
  | succ n ih =>
    simp only [Peep.loopN]
    obtain ⟨h1, h2⟩ := hc _ _ h
    refine RR.withX h1 h2 fun v s s' h => ?_
    split
    · exact (hb _ _ h).bind fun s s' h => ih h
    · exact .done h

theorem RR.restore {r r' : Option R} (h : RR false r r') (x : Nat) (v : Int) :
    RR false (Peep.restore x v r) (Peep.restore x v r') := by
  cases h with
  | none => exact .none
  | done h => exact .done (h.setVar x v)
  | ret h => exact .ret (h.setVar x v)
  | exn h => exact .exn (h.setVar x v)

theorem isVoid_eq {a : Sm} (h : isVoid a = true) : a = .dvoid := by
  unfold isVoid at h
  split at h
  · rfl
  · cases h

theorem isPush_eq {a : Sm} (h : isPush a = true) : a = .expr (.setErr (.var errVar)) := by
  unfold isPush at h
  split at h
  · rename_i x; rw [beq_iff_eq] at h; rw [h]
  · cases h

theorem isPop_eq {a : Sm} (h : isPop a = true) : a = .expr (.set errVar .getErr) := by
  unfold isPop at h
  split at h
  · rename_i x; rw [beq_iff_eq] at h; rw [h]
  · cases h

theorem onlyRethrows_eq {cs : Cts} (h : onlyRethrows cs = true) :
    ∃ t x, cs = .cons t x (.cons .rethrow .nil) .nil := by
  unfold onlyRethrows at h
  split at h
  · exact ⟨_, _, rfl⟩
  · cases h

theorem popAt_eq {rest : Sms} {k : List Act} (h : popAt rest = some k) :
    (∃ r, rest = .cons (.expr (.set errVar .getErr)) r ∧ k = [.drop, .keep]) ∨
    ∃ r, rest = .cons .dvoid (.cons (.expr (.set errVar .getErr)) r) ∧ k = [.keep, .drop] := by
  match rest with
  | .nil => simp [popAt] at h
  | .cons a .nil =>
    simp only [popAt] at h
    split at h
    · rename_i hp; injection h with h; exact .inl ⟨_, by rw [isPop_eq hp], h.symm⟩
    · split at h <;> cases h
  | .cons a (.cons b r) =>
    simp only [popAt] at h
    split at h
    · rename_i hp; injection h with h; exact .inl ⟨_, by rw [isPop_eq hp], h.symm⟩
    · split at h
      · rename_i hv
        split at h
        · rename_i hp; injection h with h; exact .inr ⟨r, by rw [isPop_eq hp, isVoid_eq hv], h.symm⟩
        · cases h
      · cases h

theorem evalX_core (O : Ops) (e : Ex) (s : St) : evalX O (core e) s = evalX O e s := by
  induction e with
  | move e ih => simp only [core, evalX]; exact ih
  | _ => rfl

theorem usesErr_core (e : Ex) : usesErr (core e) = usesErr e := by
  induction e with
  | move e ih => simp only [core, usesErr]; exact ih
  | _ => rfl

/-- An expression as a statement. -/
theorem exprRel (O : Ops) (e : Ex) {fr : Bool} (ho : (fr || ! usesErr e) = true) {s s' : St} (h : Rel fr s s') :
    RR (afterX fr (core e)) (Peep.withX (evalX O e s) fun _ s => some (.done s))
      (Peep.withX (evalX O e s') fun _ s => some (.done s)) := by
  rw [← evalX_core O e s, ← evalX_core O e s']
  rw [← usesErr_core] at ho
  generalize core e = e at ho ⊢
  obtain ⟨h1, h2⟩ := evalX_rel O e ho h
  match e with
  | .setErr e =>
    simp only [afterX]
    have ho' : (fr || ! usesErr e) = true := by simpa only [usesErr] using ho
    obtain ⟨h1, h2⟩ := evalX_rel O e ho' h
    simp only [evalX]
    generalize evalX O e s = ra at h1 h2 ⊢
    generalize evalX O e s' = ra' at h1 h2 ⊢
    obtain ⟨ra, sa⟩ := ra
    obtain ⟨ra', sa'⟩ := ra'
    dsimp only at h1 h2
    subst h1
    cases ra' with
    | error t => exact .exn h2.weaken
    | ok va => exact .done ⟨h2.vars, h2.out, fun _ => rfl⟩
  | .set x e =>
    have key : RR fr (Peep.withX (evalX O (.set x e) s) fun _ s => some (.done s))
        (Peep.withX (evalX O (.set x e) s') fun _ s => some (.done s)) :=
      RR.withX h1 h2 fun v s s' h => .done h
    cases e with
    | getErr => exact key.weaken
    | _ => exact key
  | .lit _ | .var _ | .ext _ _ _ | .ite _ _ _ | .seq _ _ | .grp _ _ _ | .getErr | .move _ =>
    exact RR.withX h1 h2 fun v s s' h => .done h

section
variable (O : Ops) (n : Nat)

mutual
/-- A statement in related states. -/
theorem selfS (a : Sm) (fr : Bool) (ho : okS fr a = true) (cur : Nat) (s s' : St) (h : Rel fr s s') :
    RR (after fr a) (evalS O n cur a s) (evalS O n cur a s') := by
  match a with
  | .expr e =>
    simp only [okS] at ho
    simp only [evalS, after]
    exact exprRel O e ho h
  | .dvoid => simp only [evalS]; exact .done h
  | .hook k =>
    simp only [okS] at ho
    simp only [evalS, h.err ho, h.out]
    exact .done ⟨h.vars, rfl, fun _ => rfl⟩
  | .cond c a b =>
    simp only [okS, Bool.and_eq_true] at ho
    simp only [evalS]
    obtain ⟨h1, h2⟩ := evalX_rel O c ho.1.1 h
    refine RR.withX h1 h2 fun v s s' h => ?_
    split
    · exact selfL a fr ho.1.2 cur s s' h
    · exact selfL b fr ho.2 cur s s' h
  | .loop c b =>
    simp only [okS, Bool.and_eq_true] at ho
    simp only [evalS]
    exact RR.loopN n (fun s s' h => evalX_rel O c (by rw [Bool.false_or]; exact ho.1) h)
      (fun s s' h => selfL b false ho.2 cur s s' h) h.weaken
  | .try_ b cs =>
    simp only [okS, Bool.and_eq_true] at ho
    have hb := selfL b fr ho.1 cur s s' h
    simp only [evalS]
    generalize evalL O n cur b s = r at hb ⊢
    generalize evalL O n cur b s' = r' at hb ⊢
    cases hb with
    | none => exact .none
    | done h => exact .done h
    | ret h => exact .ret h
    | exn h => exact selfC cs ho.2 _ _ _ h
  | .throw t => simp only [evalS]; exact .exn h.weaken
  | .rethrow => simp only [evalS]; exact .exn h.weaken
  | .ret e =>
    simp only [okS] at ho
    simp only [evalS]
    obtain ⟨h1, h2⟩ := evalX_rel O e ho h
    exact RR.withX h1 h2 fun v s s' h => .ret h.weaken
  | .block b =>
    simp only [okS] at ho
    simp only [evalS]
    exact selfL b fr ho cur s s' h
  termination_by sizeOf a

/-- A statement list in related states. -/
theorem selfL (b : Sms) (fr : Bool) (ho : okL fr b = true) (cur : Nat) (s s' : St) (h : Rel fr s s') :
    RR false (evalL O n cur b s) (evalL O n cur b s') := by
  match b with
  | .nil => simp only [evalL]; exact .done h.weaken
  | .cons a rest =>
    simp only [okL, Bool.and_eq_true] at ho
    simp only [evalL]
    exact (selfS a fr ho.1 cur s s' h).bind fun s s' h => selfL rest _ ho.2 cur s s' h
  termination_by sizeOf b

/-- Catch blocks in related states. -/
theorem selfC (cs : Cts) (ho : okC cs = true) (t : Nat) (s s' : St) (h : Rel false s s') :
    RR false (evalC O n t cs s) (evalC O n t cs s') := by
  match cs with
  | .nil => simp only [evalC]; exact .exn h
  | .cons ty x b rest =>
    simp only [okC, Bool.and_eq_true] at ho
    simp only [evalC]
    split
    · rw [h.vars]
      exact RR.restore (selfL b false ho.1 t _ _ (h.setVar x t)) x _
    · exact selfC rest ho.2 t s s' h
  termination_by sizeOf cs
end

theorem only_rethrow (t : Option Nat) (x t' : Nat) (s : St) :
    evalC O n t' (.cons t x (.cons .rethrow .nil) .nil) s = some (.exn t' s) := by
  simp only [evalC, evalL, evalS, Peep.bind, Peep.restore, setVar_back]
  split <;> rfl

/-- What is to do with the statements that follow. -/
inductive Good : List Act → Sms → Prop
  | visit : Good [] b
  | keep : Good [.keep] b

mutual
theorem simS (a : Sm) (fr : Bool) (ho : okS fr a = true) (cur : Nat) (s s' : St) (h : Rel fr s s') :
    RR (after fr a) (evalS O n cur a s) (evalS O n cur (trS a) s') := by
  match a with
  | .expr e =>
    simp only [okS] at ho
    simp only [evalS, trS, trTop_same, after]
    exact exprRel O e ho h
  | .dvoid => simp only [evalS, trS]; exact .done h
  | .hook k =>
    simp only [okS] at ho
    simp only [evalS, trS, h.err ho, h.out]
    exact .done ⟨h.vars, rfl, fun _ => rfl⟩
  | .cond c a b =>
    simp only [okS, Bool.and_eq_true] at ho
    simp only [evalS, trS, trX_same]
    obtain ⟨h1, h2⟩ := evalX_rel O c ho.1.1 h
    refine RR.withX h1 h2 fun v s s' h => ?_
    split
    · exact simL a [] .visit fr ho.1.2 cur s s' h
    · exact simL b [] .visit fr ho.2 cur s s' h
  | .loop c b =>
    simp only [okS, Bool.and_eq_true] at ho
    simp only [evalS, trS, trX_same]
    exact RR.loopN n (fun s s' h => evalX_rel O c (by rw [Bool.false_or]; exact ho.1) h)
      (fun s s' h => simL b [] .visit false ho.2 cur s s' h) h.weaken
  | .try_ b cs =>
    simp only [okS, Bool.and_eq_true] at ho
    simp only [trS]
    split
    · rename_i hr
      obtain ⟨t, x, rfl⟩ := onlyRethrows_eq hr
      have hb := selfL O n b fr ho.1 cur s s' h
      simp only [evalS]
      generalize evalL O n cur b s = r at hb ⊢
      generalize evalL O n cur b s' = r' at hb ⊢
      cases hb with
      | none => exact .none
      | done h => exact .done h
      | ret h => exact .ret h
      | exn h => simp only [only_rethrow]; exact .exn h
    · have hb := simL b [] .visit fr ho.1 cur s s' h
      simp only [evalS]
      generalize evalL O n cur b s = r at hb ⊢
      generalize evalL O n cur (trL [] b) s' = r' at hb ⊢
      cases hb with
      | none => exact .none
      | done h => exact .done h
      | ret h => exact .ret h
      | exn h => exact simC cs ho.2 _ _ _ h
  | .throw t => simp only [evalS, trS]; exact .exn h.weaken
  | .rethrow => simp only [evalS, trS]; exact .exn h.weaken
  | .ret e =>
    simp only [okS] at ho
    simp only [evalS, trS, trX_same]
    obtain ⟨h1, h2⟩ := evalX_rel O e ho h
    exact RR.withX h1 h2 fun v s s' h => .ret h.weaken
  | .block b =>
    simp only [okS] at ho
    simp only [evalS, trS]
    exact simL b [] .visit fr ho cur s s' h
  termination_by sizeOf a

theorem simL (b : Sms) (todo : List Act) (ht : Good todo b) (fr : Bool) (ho : okL fr b = true) (cur : Nat)
    (s s' : St) (h : Rel fr s s') :
    RR false (evalL O n cur b s) (evalL O n cur (trL todo b) s') := by
  match b with
  | .nil => simp only [evalL, trL]; exact .done h.weaken
  | .cons a rest =>
    simp only [okL, Bool.and_eq_true] at ho
    cases ht with
    | keep =>
      simp only [trL, evalL]
      exact (selfS O n a fr ho.1 cur s s' h).bind fun s s' h => simL rest [] .visit _ ho.2 cur s s' h
    | visit =>
      have general : RR false (evalL O n cur (.cons a rest) s) (evalL O n cur (.cons (trS a) (trL [] rest)) s') := by
        simp only [evalL]
        exact (simS a fr ho.1 cur s s' h).bind fun s s' h => simL rest [] .visit _ ho.2 cur s s' h
      rw [trL]
      split
      · rename_i hv
        have := isVoid_eq hv
        subst this
        simp only [evalL, evalS, Peep.bind]
        exact simL rest [.keep] .keep _ ho.2 cur s s' h
      · split
        · rename_i hp
          have := isPush_eq hp
          subst this
          split
          · rename_i k hk
            rcases popAt_eq hk with ⟨r, rfl, rfl⟩ | ⟨r, rfl, rfl⟩
            · simp only [okL, after, core, afterX, Bool.and_eq_true] at ho
              rw [trL]
              simp only [evalL, evalS, evalX, Peep.withX, Peep.bind]
              refine simL r [.keep] .keep false ho.2.2 cur _ s' ⟨?_, h.out, fun h => by cases h⟩
              simp only [St.setVar, h.vars]
              funext z
              split
              · rename_i hz; rw [hz]
              · rfl
            · simp only [okL, after, core, afterX, Bool.and_eq_true] at ho
              rw [trL, trL]
              simp only [evalL, evalS, evalX, Peep.withX, Peep.bind]
              refine simL r [] .visit false ho.2.2.2 cur _ s' ⟨?_, h.out, fun h => by cases h⟩
              simp only [St.setVar, h.vars]
              funext z
              split
              · rename_i hz; rw [hz]
              · rfl
          · exact general
        · exact general
  termination_by sizeOf b

theorem simC (cs : Cts) (ho : okC cs = true) (t : Nat) (s s' : St) (h : Rel false s s') :
    RR false (evalC O n t cs s) (evalC O n t (trC cs) s') := by
  match cs with
  | .nil => simp only [evalC, trC]; exact .exn h
  | .cons ty x b rest =>
    simp only [okC, Bool.and_eq_true] at ho
    simp only [trC]
    simp only [evalC]
    split
    · rw [h.vars]
      exact RR.restore (simL b [] .visit false ho.1 t _ _ (h.setVar x t)) x _
    · exact simC rest ho.2 t s s' h
  termination_by sizeOf cs
end
end

/-- **The peephole pass keeps what a function does**: the result or exception, the variables and the output, for any
number of loop iterations; if the original does not end, neither does the new one. -/
theorem pass_keeps_partial (O : Ops) (b : Sms) (ho : okL true b = true) (n cur : Nat) (s : St) :
    seen (evalL O n cur (pass b) s) = seen (evalL O n cur b s) := by
  have key := simL O n b [] .visit true ho cur s s ⟨rfl, rfl, fun _ => rfl⟩
  unfold pass
  generalize evalL O n cur b s = r at key ⊢
  generalize evalL O n cur (trL [] b) s = r' at key ⊢
  cases key with
  | none => rfl
  | done h => simp only [seen, h.vars, h.out]
  | ret h => simp only [seen, h.vars, h.out]
  | exn h => simp only [seen, h.vars, h.out]

/-- Taking away a catch block that only rethrows changes nothing at all, whatever the exception types. -/
theorem rethrow_same (O : Ops) (n cur : Nat) (b : Sms) (t : Option Nat) (x : Nat) (s : St) :
    evalS O n cur (.try_ b (.cons t x (.cons .rethrow .nil) .nil)) s = evalS O n cur (.block b) s := by
  simp only [evalS]
  cases evalL O n cur b s with
  | none => rfl
  | some r =>
    cases r with
    | done s => rfl
    | ret v s => rfl
    | exn t' s => exact only_rethrow O n t x t' s

/-! ## Again and again -/

/-- Where the error field may be looked at, more is fine. -/
theorem afterX_mono {fr fr' : Bool} (h : fr = true → fr' = true) (e : Ex) (he : afterX fr e = true) :
    afterX fr' e = true := by
  unfold afterX at he ⊢
  split at he
  · rfl
  · cases he
  · exact h he

theorem after_mono {fr fr' : Bool} (h : fr = true → fr' = true) (a : Sm) (ha : after fr a = true) :
    after fr' a = true := by
  cases a with
  | expr e => exact afterX_mono h _ ha
  | dvoid => exact h ha
  | hook k => exact h ha
  | _ => cases ha

theorem or_mono {fr fr' : Bool} (h : fr = true → fr' = true) {c : Bool} (hc : (fr || c) = true) : (fr' || c) = true := by
  revert h hc
  cases fr <;> cases fr' <;> cases c <;> simp

mutual
theorem okS_mono (a : Sm) {fr fr' : Bool} (h : fr = true → fr' = true) (ho : okS fr a = true) : okS fr' a = true := by
  match a with
  | .expr e => exact or_mono h ho
  | .dvoid => rfl
  | .hook k => exact h ho
  | .cond c a b =>
    simp only [okS, Bool.and_eq_true] at ho ⊢
    exact ⟨⟨or_mono h ho.1.1, okL_mono a h ho.1.2⟩, okL_mono b h ho.2⟩
  | .loop c b => exact ho
  | .try_ b cs =>
    simp only [okS, Bool.and_eq_true] at ho ⊢
    exact ⟨okL_mono b h ho.1, ho.2⟩
  | .throw t => rfl
  | .rethrow => rfl
  | .ret e => exact or_mono h ho
  | .block b =>
    simp only [okS] at ho ⊢
    exact okL_mono b h ho
  termination_by sizeOf a
theorem okL_mono (b : Sms) {fr fr' : Bool} (h : fr = true → fr' = true) (ho : okL fr b = true) : okL fr' b = true := by
  match b with
  | .nil => rfl
  | .cons a rest =>
    simp only [okL, Bool.and_eq_true] at ho ⊢
    exact ⟨okS_mono a h ho.1, okL_mono rest (after_mono h a) ho.2⟩
  termination_by sizeOf b
end

theorem after_trS (fr : Bool) (a : Sm) : after fr (trS a) = after fr a := by
  cases a with
  | expr e => simp only [trS, after]; exact afterX_trTop fr e
  | try_ b cs => simp only [trS]; split <;> rfl
  | _ => simp only [trS, after]

mutual
theorem okS_tr (a : Sm) (fr : Bool) (ho : okS fr a = true) : okS fr (trS a) = true := by
  match a with
  | .expr e => simp only [trS, okS, trTop_usesErr] at ho ⊢; exact ho
  | .dvoid => simp only [trS, okS]
  | .hook k => simp only [trS]; exact ho
  | .cond c a b =>
    simp only [okS, trS, trX_usesErr, Bool.and_eq_true] at ho ⊢
    exact ⟨⟨ho.1.1, okL_tr a [] .visit fr ho.1.2⟩, okL_tr b [] .visit fr ho.2⟩
  | .loop c b =>
    simp only [okS, trS, trX_usesErr, Bool.and_eq_true] at ho ⊢
    exact ⟨ho.1, okL_tr b [] .visit false ho.2⟩
  | .try_ b cs =>
    simp only [okS, Bool.and_eq_true] at ho
    simp only [trS]
    split
    · exact ho.1
    · simp only [okS, Bool.and_eq_true]
      exact ⟨okL_tr b [] .visit fr ho.1, okC_tr cs ho.2⟩
  | .throw t => simp only [trS, okS]
  | .rethrow => simp only [trS, okS]
  | .ret e => simp only [trS, okS, trX_usesErr] at ho ⊢; exact ho
  | .block b =>
    simp only [okS, trS] at ho ⊢
    exact okL_tr b [] .visit fr ho
  termination_by sizeOf a
theorem okL_tr (b : Sms) (todo : List Act) (ht : Good todo b) (fr : Bool) (ho : okL fr b = true) :
    okL fr (trL todo b) = true := by
  match b with
  | .nil => simp only [trL]; exact ho
  | .cons a rest =>
    simp only [okL, Bool.and_eq_true] at ho
    cases ht with
    | keep =>
      simp only [trL, okL, Bool.and_eq_true]
      exact ⟨ho.1, okL_tr rest [] .visit _ ho.2⟩
    | visit =>
      have general : okL fr (.cons (trS a) (trL [] rest)) = true := by
        simp only [okL, Bool.and_eq_true, after_trS]
        exact ⟨okS_tr a fr ho.1, okL_tr rest [] .visit _ ho.2⟩
      rw [trL]
      split
      · rename_i hv
        have := isVoid_eq hv
        subst this
        exact okL_tr rest [.keep] .keep _ ho.2
      · split
        · rename_i hp
          have := isPush_eq hp
          subst this
          split
          · rename_i k hk
            rcases popAt_eq hk with ⟨r, rfl, rfl⟩ | ⟨r, rfl, rfl⟩
            · simp only [okL, after, core, afterX, Bool.and_eq_true] at ho
              rw [trL]
              exact okL_mono _ (fun h => by cases h) (okL_tr r [.keep] .keep false ho.2.2)
            · simp only [okL, after, core, afterX, Bool.and_eq_true] at ho
              rw [trL, trL]
              simp only [okL, okS, after, Bool.true_and]
              exact okL_mono _ (fun h => by cases h) (okL_tr r [] .visit false ho.2.2.2)
          · exact general
        · exact general
  termination_by sizeOf b
theorem okC_tr (cs : Cts) (ho : okC cs = true) : okC (trC cs) = true := by
  match cs with
  | .nil => simp only [trC]; exact ho
  | .cons ty x b rest =>
    simp only [okC, trC, Bool.and_eq_true] at ho ⊢
    exact ⟨okL_tr b [] .visit false ho.1, okC_tr rest ho.2⟩
  termination_by sizeOf cs
end

/-- **Any number of rounds of the pass keep what a function does.** -/
theorem rounds_keep_partial (O : Ops) (b : Sms) (ho : okL true b = true) (k n cur : Nat) (s : St) :
    seen (evalL O n cur (rounds k b) s) = seen (evalL O n cur b s) := by
  induction k generalizing b with
  | zero => rfl
  | succ k ih =>
    rw [rounds, ih (pass b) (okL_tr b [] .visit true ho)]
    exact pass_keeps_partial O b ho n cur s

end Verif.Opt.Peep
