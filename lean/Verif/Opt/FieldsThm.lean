import Verif.Opt.FieldsMain

/-!
# Removing unused fields: the theorems
-/

namespace Verif.Opt.Fields

theorem mode_noWrites_drop {P : Prog} {f : Fld} (h : mode P f = .noWrites ∨ mode P f = .drop) :
    readsP P f = false := by
  unfold mode at h
  split at h
  · rcases h with h | h <;> cases h
  · cases hr : readsP P f with
    | false => rfl
    | true => rw [hr] at h; cases hw : writesP P f <;> rw [hw] at h <;> simp at h

theorem mode_noReads_drop {P : Prog} {f : Fld} (h : mode P f = .noReads ∨ mode P f = .drop) :
    writesP P f = false := by
  unfold mode at h
  split at h
  · rcases h with h | h <;> cases h
  · cases hw : writesP P f with
    | false => rfl
    | true => rw [hw] at h; cases hr : readsP P f <;> rw [hr] at h <;> simp at h

theorem mode_considered {P : Prog} {f : Fld} (h : mode P f ≠ .keep) :
    (P.decl f).keep = false ∧ (P.decl f).gone = false := by
  unfold mode at h
  cases hk : (P.decl f).keep <;> cases hg : (P.decl f).gone <;> simp_all

theorem modes_mode (P : Prog) : Modes P.decl (mode P) := by
  constructor
  · intro f hf
    have := mode_noReads_drop hf
    simp only [writesP, Bool.or_eq_false_iff] at this
    exact this.1.1
  · intro f hf
    exact (mode_considered (by rw [hf]; intro h; cases h)).2

theorem fits_main (P : Prog) : Fits (mode P) P.main := by
  intro f
  constructor
  · intro hf
    have := mode_noWrites_drop hf
    simp only [readsP, Bool.or_eq_false_iff] at this
    exact this.1
  · intro hf
    have := mode_noReads_drop hf
    simp only [writesP, Bool.or_eq_false_iff] at this
    exact this.1.2

theorem fits_fun (P : Prog) {e : E} (he : e ∈ P.funs) : Fits (mode P) e := by
  intro f
  constructor
  · intro hf
    have := mode_noWrites_drop hf
    simp only [readsP, Bool.or_eq_false_iff, List.any_eq_false] at this
    simpa using this.2 e he
  · intro hf
    have := mode_noReads_drop hf
    simp only [writesP, Bool.or_eq_false_iff, List.any_eq_false] at this
    simpa using this.2 e he

theorem RR.frame {decl : Fld → Decl} {M : Fld → Mode} {body body' : St → Option R}
    (hb : ∀ s s', Rel decl M s s' → RR decl M (body s) (body' s')) (a b : Val) {s s' : St} (h : Rel decl M s s') :
    RR decl M (Fields.frame body a b s) (Fields.frame body' a b s') := by
  unfold Fields.frame
  have key := hb { s with loc := fun n => if n = 0 then a else if n = 1 then b else .null }
    { s' with loc := fun n => if n = 0 then a else if n = 1 then b else .null }
    ⟨rfl, h.glob, h.out, h.next, h.heap, h.init⟩
  cases hr : body { s with loc := fun n => if n = 0 then a else if n = 1 then b else .null } with
  | none =>
    rw [hr] at key
    generalize body' { s' with loc := fun n => if n = 0 then a else if n = 1 then b else .null } = r' at key ⊢
    cases key
    exact .none
  | some r =>
    rw [hr] at key
    generalize body' { s' with loc := fun n => if n = 0 then a else if n = 1 then b else .null } = r' at key ⊢
    cases key with
    | null => exact .null
    | ok h' => exact .ok ⟨h.loc, h'.glob, h'.out, h'.next, h'.heap, h'.init⟩
    | ret h' => exact .ok ⟨h.loc, h'.glob, h'.out, h'.next, h'.heap, h'.init⟩
    | exn h' => exact .exn ⟨h.loc, h'.glob, h'.out, h'.next, h'.heap, h'.init⟩

theorem handler_rel (O : Ops) (P : Prog) (hL : O.Law) (hS : Safe O P) (n : Nat) :
    HRel P.decl (mode P) (handler O P n) (handler O (pass O P) n) := by
  induction n with
  | zero => exact ⟨rfl, fun g a b s s' h => .none⟩
  | succ n ih =>
    refine ⟨rfl, fun g a b s s' h => ?_⟩
    simp only [handler, pass, List.getElem?_map]
    cases hg : P.funs[g]? with
    | none => exact .ok h
    | some body =>
      have hmem := List.mem_of_getElem? hg
      exact RR.frame (fun s s' h => sim hL (modes_mode P) hS.2.2 P.nf _ _ ih body (fits_fun P hmem)
        (hS.2.1 body hmem) s s' h) a b h

/-- The state a program starts in: nothing allocated, nothing printed. -/
def start (loc glob : Nat → Val) : St :=
  { loc := loc, glob := glob, out := [], heap := fun _ _ => none, next := 0 }

/-- **The pass keeps what the program does**: with any number of nested calls and loop iterations, from any start, the
changed program has finished exactly if the original has, and they end the same way with the same output — unless the
original goes through a null reference. -/
theorem pass_keeps_partial (O : Ops) (P : Prog) (hL : O.Law) (hS : Safe O P) (loc glob : Nat → Val) (n : Nat) :
    outcome (run O (pass O P) n (start loc glob)) = outcome (run O P n (start loc glob)) ∨
    ∃ out, outcome (run O P n (start loc glob)) = some (.threw .nullRef, out) := by
  have key := sim hL (modes_mode P) hS.2.2 P.nf _ _ (handler_rel O P hL hS n) P.main (fits_main P) hS.1
    (start loc glob) (start loc glob) ⟨rfl, rfl, rfl, rfl, fun _ _ _ => rfl, fun o f _ h => absurd h (Nat.not_lt_zero o)⟩
  change RR P.decl (mode P) (run O P n (start loc glob)) (run O (pass O P) n (start loc glob)) at key
  generalize run O P n (start loc glob) = r at key ⊢
  generalize run O (pass O P) n (start loc glob) = r' at key ⊢
  cases key with
  | null => exact .inr ⟨_, rfl⟩
  | none => exact .inl rfl
  | ok h => left; simp only [outcome, h.out]
  | ret h => left; simp only [outcome, h.out]
  | exn h => left; simp only [outcome, h.out]

/-- The pass run again and again. -/
def rounds (O : Ops) : Nat → Prog → Prog
  | 0, P => P
  | n + 1, P => rounds O n (pass O P)

/-- Any number of rounds keeps what the program does. -/
theorem rounds_keep_partial (O : Ops) (hL : O.Law) (m : Nat) (P : Prog) (hS : ∀ j, j < m → Safe O (rounds O j P))
    (loc glob : Nat → Val) (n : Nat) :
    outcome (run O (rounds O m P) n (start loc glob)) = outcome (run O P n (start loc glob)) ∨
    ∃ out, outcome (run O P n (start loc glob)) = some (.threw .nullRef, out) := by
  induction m generalizing P with
  | zero => exact .inl rfl
  | succ m ih =>
    rcases pass_keeps_partial O P hL (hS 0 (Nat.succ_pos m)) loc glob n with h | h
    · rcases ih (pass O P) (fun j hj => hS (j + 1) (Nat.succ_lt_succ hj)) with h' | h'
      · left; rw [← h]; exact h'
      · right; rw [← h]; exact h'
    · exact .inr h

end Verif.Opt.Fields
