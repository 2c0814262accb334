import Verif.Opt.Det

/-!
# An interpreter

The meaning of `Lang.lean` as a function, with a bound on the number of steps, for concrete programs.
-/

namespace Verif.Opt

variable {M : Sem}

/-- Leave the scope of the given variables, keep the outcome. -/
def leave (vs : List Var) : Option (Out × State M) → Option (Out × State M)
  | some (o, s) => some (o, s.drop vs)
  | none => none

/-- Run a piece of code; `none` if the steps do not suffice or the program uses a variable that is not in scope. -/
def interp : Nat → Code → State M → Option (Out × State M)
  | 0, _, _ => none
  | n + 1, .one st, s => match st with
    | .decl .. | .assign .. | .expr .. | .callRef .. => match atom st s with
      | .val _ s' => some (.normal, s')
      | .exn s' => some (.exn false, s')
      | .stuck => none
    | .ret _ none => some (.ret none, s)
    | .ret _ (some e) => match eval e s with
      | .val v s' => some (.ret (some v), s')
      | .exn s' => some (.exn false, s')
      | .stuck => none
    | .throw_ _ e => match eval e s with
      | .val _ s' => some (.exn true, s')
      | .exn s' => some (.exn false, s')
      | .stuck => none
    | .brk => some (.brk, s)
    | .cont => some (.cont, s)
    | .block b => leave (declsOf b) (interp n (.many b) s)
    | .ite _ i c t h e => match initStep i s with
      | .val _ s0 => match eval c s0 with
        | .val v s1 =>
          if v = 0 then
            if h then leave (initVars i) (leave (declsOf e) (interp n (.many e) s1)) else some (.normal, s1.drop (initVars i))
          else leave (initVars i) (leave (declsOf t) (interp n (.many t) s1))
        | .exn s' => some (.exn false, s'.drop (initVars i))
        | .stuck => none
      | .exn s' => some (.exn false, s')
      | .stuck => none
    | .while_ l i c b h e => match initStep i s with
      | .val _ s0 => leave (initVars i) (interp n (.loop l c b h e) s0)
      | .exn s' => some (.exn false, s')
      | .stuck => none
    | .for_ _ lx x q b => match eval q s with
      | .val v s1 => leave (x :: declsOf b) (interp n (.iter lx x (M.elems v) b) s1)
      | .exn s' => some (.exn false, s')
      | .stuck => none
    | .try_ b c => match interp n (.many b) s with
      | some (.exn _, s1) => leave (declsOf c) (interp n (.many c) (s1.drop (declsOf b)))
      | some (o, s1) => some (o, s1.drop (declsOf b))
      | none => none
  | n + 1, .many b, s => match b with
    | [] => some (.normal, s)
    | st :: r => match interp n (.one st) s with
      | some (.normal, s1) => interp n (.many r) s1
      | q => q
  | n + 1, .loop l c b h e, s => match eval c s with
    | .val v s1 =>
      if v = 0 then
        if h then leave (declsOf e) (interp n (.many e) s1) else some (.normal, s1)
      else match interp n (.many b) s1 with
        | some (.brk, s2) => some (.normal, s2.drop (declsOf b))
        | some (.ret u, s2) => some (.ret u, s2.drop (declsOf b))
        | some (.exn u, s2) => some (.exn u, s2.drop (declsOf b))
        | some (_, s2) => interp n (.loop l c b h e) (s2.drop (declsOf b))
        | none => none
    | .exn s' => some (.exn false, s')
    | .stuck => none
  | n + 1, .iter lx x vs b, s => match vs with
    | [] => some (.normal, s)
    | v :: vs => match interp n (.many b) (s.set x v) with
      | some (.brk, s2) => some (.normal, s2.drop (declsOf b))
      | some (.ret u, s2) => some (.ret u, s2.drop (declsOf b))
      | some (.exn u, s2) => some (.exn u, s2.drop (declsOf b))
      | some (_, s2) => interp n (.iter lx x vs b) (s2.drop (declsOf b))
      | none => none

theorem leave_some {vs : List Var} {q : Option (Out × State M)} {o : Out} {s : State M} (h : leave vs q = some (o, s)) :
    ∃ s', q = some (o, s') ∧ s = s'.drop vs := by
  cases q with
  | none => cases h
  | some p => obtain ⟨o', s'⟩ := p; cases h; exact ⟨s', rfl, rfl⟩

/-- What the interpreter finds is the meaning. -/
theorem interp_exec : ∀ (n : Nat) (c : Code) (s : State M) (o : Out) (s' : State M), interp n c s = some (o, s') → Exec c s o s'
  | 0, _, _, _, _, h => by cases h
  | n + 1, .one st, s, o, s', h => by
    have ih := interp_exec n
    simp only [interp] at h
    split at h
    · split at h <;> cases h
      · exact .atomOk rfl ‹_›
      · exact .atomExn rfl ‹_›
    · split at h <;> cases h
      · exact .atomOk rfl ‹_›
      · exact .atomExn rfl ‹_›
    · split at h <;> cases h
      · exact .atomOk rfl ‹_›
      · exact .atomExn rfl ‹_›
    · split at h <;> cases h
      · exact .atomOk rfl ‹_›
      · exact .atomExn rfl ‹_›
    · cases h; exact .retNone
    · split at h <;> cases h
      · exact .retSome ‹_›
      · exact .retExn ‹_›
    · split at h <;> cases h
      · exact .throwOk ‹_›
      · exact .throwExn ‹_›
    · cases h; exact .brk
    · cases h; exact .cont
    · obtain ⟨s1, h1, rfl⟩ := leave_some h
      exact .block (ih _ _ _ _ h1)
    · split at h
      · split at h
        · split at h
          · rename_i hz; subst hz
            split at h
            · rename_i hh; subst hh
              obtain ⟨s1, h1, rfl⟩ := leave_some h
              obtain ⟨s2, h2, rfl⟩ := leave_some h1
              exact .iteElse ‹_› ‹_› (ih _ _ _ _ h2)
            · rename_i hh
              rw [Bool.not_eq_true] at hh; subst hh
              cases h
              exact .iteSkip ‹_› ‹_›
          · obtain ⟨s1, h1, rfl⟩ := leave_some h
            obtain ⟨s2, h2, rfl⟩ := leave_some h1
            exact .iteTrue ‹_› ‹_› ‹_› (ih _ _ _ _ h2)
        · cases h; exact .iteExn ‹_› ‹_›
        · cases h
      · cases h; exact .iteInitExn ‹_›
      · cases h
    · split at h
      · obtain ⟨s1, h1, rfl⟩ := leave_some h
        exact .while_ ‹_› (ih _ _ _ _ h1)
      · cases h; exact .whileInitExn ‹_›
      · cases h
    · split at h
      · obtain ⟨s1, h1, rfl⟩ := leave_some h
        exact .for_ ‹_› (ih _ _ _ _ h1)
      · cases h; exact .forExn ‹_›
      · cases h
    · split at h
      · obtain ⟨s1, h1, rfl⟩ := leave_some h
        exact .tryCatch (ih _ _ _ _ ‹_›) (ih _ _ _ _ h1)
      · rename_i hne hq
        cases h
        exact .tryOk (ih _ _ _ _ hq) (fun t ht => hne t ht)
      · cases h
  | n + 1, .many b, s, o, s', h => by
    have ih := interp_exec n
    simp only [interp] at h
    split at h
    · cases h; exact .nil
    · split at h
      · exact .cons (ih _ _ _ _ ‹_›) (ih _ _ _ _ h)
      · rename_i hne
        exact .stop (ih _ _ _ _ h) (fun ho => hne _ (by rw [← ho]; exact h))
  | n + 1, .loop l c b hh e, s, o, s', h => by
    have ih := interp_exec n
    simp only [interp] at h
    split at h
    · split at h
      · rename_i hz; subst hz
        split at h
        · rename_i hh; subst hh
          obtain ⟨s1, h1, rfl⟩ := leave_some h
          exact .loopElse ‹_› (ih _ _ _ _ h1)
        · rename_i hh
          rw [Bool.not_eq_true] at hh; subst hh
          cases h; exact .loopDone ‹_›
      · split at h
        · cases h; exact .loopBrk ‹_› ‹_› (ih _ _ _ _ ‹_›)
        · cases h; exact .loopLeave ‹_› ‹_› (ih _ _ _ _ ‹_›) rfl
        · cases h; exact .loopLeave ‹_› ‹_› (ih _ _ _ _ ‹_›) rfl
        · rename_i n1 n2 n3 hq
          rename_i o1 s2
          refine .loopAgain ‹_› ‹_› (ih _ _ _ _ hq) ?_ (ih _ _ _ _ h)
          cases o1 with
          | normal => rfl
          | cont => rfl
          | brk => exact (n1 rfl).elim
          | ret v => exact (n2 _ rfl).elim
          | exn v => exact (n3 _ rfl).elim
        · cases h
    · cases h; exact .loopExn ‹_›
    · cases h
  | n + 1, .iter lx x vs b, s, o, s', h => by
    have ih := interp_exec n
    simp only [interp] at h
    split at h
    · cases h; exact .iterDone
    · split at h
      · cases h; exact .iterBrk (ih _ _ _ _ ‹_›)
      · cases h; exact .iterLeave (ih _ _ _ _ ‹_›) rfl
      · cases h; exact .iterLeave (ih _ _ _ _ ‹_›) rfl
      · rename_i n1 n2 n3 hq
        rename_i o1 s2
        refine .iterAgain (ih _ _ _ _ hq) ?_ (ih _ _ _ _ h)
        cases o1 with
        | normal => rfl
        | cont => rfl
        | brk => exact (n1 rfl).elim
        | ret v => exact (n2 _ rfl).elim
        | exn v => exact (n3 _ rfl).elim
      · cases h

end Verif.Opt
