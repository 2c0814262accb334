import Verif.Opt.Lang

/-!
# Executions are deterministic

A body has at most one outcome from a state. So where a pass is shown to preserve one outcome of a body, the optimized body has
no other.
-/

namespace Verif.Opt

variable {M : Sem}

theorem not_both (o : Out) : ¬ (o.again = true ∧ o.leaves = true) := by
  cases o <;> simp [Out.again, Out.leaves]

/-- **Determinism**: the same code in the same state ends the same way. -/
theorem exec_deterministic {c : Code} {s : State M} {o o' : Out} {s1 s2 : State M} (h : Exec c s o s1) (h' : Exec c s o' s2) :
    o = o' ∧ s1 = s2 := by
  induction h generalizing o' s2 with
  | atomOk ha hv =>
    rename_i st _ _ _
    cases st <;> simp [Stmt.isAtom] at ha <;> cases h' <;> simp_all
  | atomExn ha hv =>
    rename_i st _ _
    cases st <;> simp [Stmt.isAtom] at ha <;> cases h' <;> simp_all
  | retNone => cases h' <;> simp_all [Stmt.isAtom]
  | retSome hv => cases h' <;> simp_all [Stmt.isAtom]
  | retExn hv => cases h' <;> simp_all [Stmt.isAtom]
  | throwOk hv => cases h' <;> simp_all [Stmt.isAtom]
  | throwExn hv => cases h' <;> simp_all [Stmt.isAtom]
  | brk => cases h' <;> simp_all [Stmt.isAtom]
  | cont => cases h' <;> simp_all [Stmt.isAtom]
  | block _ ih =>
    cases h' with
    | block hb => obtain ⟨rfl, rfl⟩ := ih hb; exact ⟨rfl, rfl⟩
    | _ => simp_all [Stmt.isAtom]
  | iteInitExn hi => cases h' <;> simp_all [Stmt.isAtom]
  | iteExn hi hc => cases h' <;> simp_all [Stmt.isAtom] 
  | iteTrue hi hc hv _ ih =>
    cases h' with
    | iteTrue hi' hc' hv' hb' =>
      rw [hi] at hi'; cases hi'; rw [hc] at hc'; cases hc'
      obtain ⟨rfl, rfl⟩ := ih hb'; exact ⟨rfl, rfl⟩
    | _ => simp_all [Stmt.isAtom]
  | iteElse hi hc _ ih =>
    cases h' with
    | iteElse hi' hc' hb' =>
      rw [hi] at hi'; cases hi'; rw [hc] at hc'; cases hc'
      obtain ⟨rfl, rfl⟩ := ih hb'; exact ⟨rfl, rfl⟩
    | _ => simp_all [Stmt.isAtom]
  | iteSkip hi hc => cases h' <;> simp_all [Stmt.isAtom]
  | whileInitExn hi => cases h' <;> simp_all [Stmt.isAtom]
  | while_ hi _ ih =>
    cases h' with
    | while_ hi' hb' =>
      rw [hi] at hi'; cases hi'
      obtain ⟨rfl, rfl⟩ := ih hb'; exact ⟨rfl, rfl⟩
    | _ => simp_all [Stmt.isAtom]
  | loopExn hc => cases h' <;> simp_all
  | loopDone hc => cases h' <;> simp_all
  | loopElse hc _ ih =>
    cases h' with
    | loopElse hc' hb' =>
      rw [hc] at hc'; cases hc'
      obtain ⟨rfl, rfl⟩ := ih hb'; exact ⟨rfl, rfl⟩
    | _ => simp_all
  | loopAgain hc hv _ ha _ ih1 ih2 =>
    cases h' with
    | loopAgain hc' hv' hb' ha' hl' =>
      rw [hc] at hc'; cases hc'
      obtain ⟨rfl, rfl⟩ := ih1 hb'; exact ih2 hl'
    | loopBrk hc' hv' hb' =>
      rw [hc] at hc'; cases hc'
      obtain ⟨rfl, rfl⟩ := ih1 hb'; cases ha
    | loopLeave hc' hv' hb' hl' =>
      rw [hc] at hc'; cases hc'
      obtain ⟨rfl, rfl⟩ := ih1 hb'
      exact absurd ⟨ha, hl'⟩ (not_both _)
    | _ => simp_all
  | loopBrk hc hv _ ih =>
    cases h' with
    | loopAgain hc' hv' hb' ha' hl' =>
      rw [hc] at hc'; cases hc'
      obtain ⟨rfl, rfl⟩ := ih hb'; cases ha'
    | loopBrk hc' hv' hb' =>
      rw [hc] at hc'; cases hc'
      obtain ⟨-, rfl⟩ := ih hb'; exact ⟨rfl, rfl⟩
    | loopLeave hc' hv' hb' hl' =>
      rw [hc] at hc'; cases hc'
      obtain ⟨rfl, rfl⟩ := ih hb'; cases hl'
    | _ => simp_all
  | loopLeave hc hv _ hl ih =>
    cases h' with
    | loopAgain hc' hv' hb' ha' hl' =>
      rw [hc] at hc'; cases hc'
      obtain ⟨rfl, rfl⟩ := ih hb'
      exact absurd ⟨ha', hl⟩ (not_both _)
    | loopBrk hc' hv' hb' =>
      rw [hc] at hc'; cases hc'
      obtain ⟨rfl, rfl⟩ := ih hb'; cases hl
    | loopLeave hc' hv' hb' hl' =>
      rw [hc] at hc'; cases hc'
      obtain ⟨rfl, rfl⟩ := ih hb'; exact ⟨rfl, rfl⟩
    | _ => simp_all
  | forExn hc => cases h' <;> simp_all [Stmt.isAtom]
  | for_ hc _ ih =>
    cases h' with
    | for_ hc' hb' =>
      rw [hc] at hc'; cases hc'
      obtain ⟨rfl, rfl⟩ := ih hb'; exact ⟨rfl, rfl⟩
    | _ => simp_all [Stmt.isAtom]
  | iterDone => cases h'; exact ⟨rfl, rfl⟩
  | iterAgain _ ha _ ih1 ih2 =>
    cases h' with
    | iterAgain hb' ha' hl' => obtain ⟨rfl, rfl⟩ := ih1 hb'; exact ih2 hl'
    | iterBrk hb' => obtain ⟨rfl, rfl⟩ := ih1 hb'; cases ha
    | iterLeave hb' hl' =>
      obtain ⟨rfl, rfl⟩ := ih1 hb'
      exact absurd ⟨ha, hl'⟩ (not_both _)
  | iterBrk _ ih =>
    cases h' with
    | iterAgain hb' ha' hl' => obtain ⟨rfl, rfl⟩ := ih hb'; cases ha'
    | iterBrk hb' => obtain ⟨-, rfl⟩ := ih hb'; exact ⟨rfl, rfl⟩
    | iterLeave hb' hl' => obtain ⟨rfl, rfl⟩ := ih hb'; cases hl'
  | iterLeave _ hl ih =>
    cases h' with
    | iterAgain hb' ha' hl' =>
      obtain ⟨rfl, rfl⟩ := ih hb'
      exact absurd ⟨ha', hl⟩ (not_both _)
    | iterBrk hb' => obtain ⟨rfl, rfl⟩ := ih hb'; cases hl
    | iterLeave hb' hl' => obtain ⟨rfl, rfl⟩ := ih hb'; exact ⟨rfl, rfl⟩
  | tryOk _ hn ih =>
    cases h' with
    | tryOk hb' hn' => obtain ⟨rfl, rfl⟩ := ih hb'; exact ⟨rfl, rfl⟩
    | tryCatch hb' hc' => obtain ⟨rfl, rfl⟩ := ih hb'; exact absurd rfl (hn _)
    | _ => simp_all [Stmt.isAtom]
  | tryCatch _ _ ih1 ih2 =>
    cases h' with
    | tryOk hb' hn' => obtain ⟨rfl, rfl⟩ := ih1 hb'; exact absurd rfl (hn' _)
    | tryCatch hb' hc' =>
      obtain ⟨h1, rfl⟩ := ih1 hb'
      obtain ⟨rfl, rfl⟩ := ih2 hc'; exact ⟨rfl, rfl⟩
    | _ => simp_all [Stmt.isAtom]
  | nil => cases h'; exact ⟨rfl, rfl⟩
  | cons _ _ ih1 ih2 =>
    cases h' with
    | cons h1' h2' => obtain ⟨-, rfl⟩ := ih1 h1'; exact ih2 h2'
    | stop h1' hn' => obtain ⟨rfl, rfl⟩ := ih1 h1'; exact absurd rfl hn'
  | stop _ hn ih =>
    cases h' with
    | cons h1' h2' => obtain ⟨rfl, rfl⟩ := ih h1'; exact absurd rfl hn
    | stop h1' hn' => obtain ⟨rfl, rfl⟩ := ih h1'; exact ⟨rfl, rfl⟩

end Verif.Opt
