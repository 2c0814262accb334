import Verif.Opt.PeepSpec

/-!
# The peephole pass on expressions
-/

namespace Verif.Opt.Peep

theorem setVar_back (s : St) (x : Nat) (v : Int) : (s.setVar x v).setVar x (s.vars x) = s := by
  cases s with
  | mk vars err out =>
    simp only [St.setVar, St.mk.injEq, and_true]
    funext z
    by_cases hx : z = x
    · subst hx; simp
    · simp [hx]

/-- Taking the local away. -/
theorem inline_same (O : Ops) (x : Nat) (i e : Ex) (hi : mayEff i = false) (he : mayEff e = false) (s : St) :
    evalX O (replace x i e) s = evalX O (.grp x i e) s := by
  cases e with
  | lit v => cases i <;> first | (simp [mayEff] at hi; done) | simp only [replace, evalX, setVar_back]
  | var y =>
    simp only [replace]
    cases i with
    | lit v =>
      simp only [evalX, setVar_back]
      split
      · rename_i h; subst h; simp [evalX, St.setVar]
      · rename_i h; simp [evalX, St.setVar, h]
    | var z =>
      simp only [evalX, setVar_back]
      split
      · rename_i h; subst h; simp [evalX, St.setVar]
      · rename_i h; simp [evalX, St.setVar, h]
    | _ => simp [mayEff] at hi
  | _ => simp [mayEff] at he

/-- **Expressions keep their meaning.** -/
theorem trX_same (O : Ops) (e : Ex) (s : St) : evalX O (trX e) s = evalX O e s := by
  induction e generalizing s with
  | lit v => rfl
  | var z => rfl
  | getErr => rfl
  | ext k a b iha ihb => simp only [trX, evalX, iha, ihb]
  | seq a b iha ihb => simp only [trX, evalX, iha, ihb]
  | ite c a b ihc iha ihb => simp only [trX, evalX, ihc, iha, ihb]
  | set z e ih => simp only [trX, evalX, ih]
  | setErr e ih => simp only [trX, evalX, ih]
  | move e ih => simp only [trX, evalX, ih]
  | grp z k e ihk ihe =>
    simp only [trX]
    split
    · simp only [evalX, ihk, ihe]
    · rename_i hne
      simp only [Bool.or_eq_true, not_or, Bool.not_eq_true] at hne
      exact inline_same O z k e hne.1 hne.2 s

theorem trTop_same (O : Ops) (e : Ex) (s : St) : evalX O (trTop e) s = evalX O e s := by
  cases e with
  | move e => rfl
  | _ => exact trX_same O _ s

theorem inline_usesErr (x : Nat) (i e : Ex) (hi : mayEff i = false) (he : mayEff e = false) :
    usesErr (replace x i e) = false := by
  cases e with
  | lit v => rfl
  | var y =>
    simp only [replace]
    cases i with
    | lit v => split <;> rfl
    | var z => split <;> rfl
    | _ => simp [mayEff] at hi
  | _ => simp [mayEff] at he

theorem noEff_usesErr (e : Ex) (he : mayEff e = false) : usesErr e = false := by
  cases e with
  | lit v => rfl
  | var y => rfl
  | _ => simp [mayEff] at he

theorem trX_usesErr (e : Ex) : usesErr (trX e) = usesErr e := by
  induction e with
  | lit v => rfl
  | var z => rfl
  | getErr => rfl
  | ext k a b iha ihb => simp only [trX, usesErr, iha, ihb]
  | seq a b iha ihb => simp only [trX, usesErr, iha, ihb]
  | ite c a b ihc iha ihb => simp only [trX, usesErr, ihc, iha, ihb]
  | set z e ih => simp only [trX, usesErr, ih]
  | setErr e ih => simp only [trX, usesErr, ih]
  | move e ih => simp only [trX, usesErr, ih]
  | grp z k e ihk ihe =>
    simp only [trX]
    split
    · simp only [usesErr, ihk, ihe]
    · rename_i hne
      simp only [Bool.or_eq_true, not_or, Bool.not_eq_true] at hne
      rw [inline_usesErr z k e hne.1 hne.2, usesErr, noEff_usesErr k hne.1, noEff_usesErr e hne.2]; rfl

theorem trTop_usesErr (e : Ex) : usesErr (trTop e) = usesErr e := by
  cases e with
  | move e => rfl
  | _ => exact trX_usesErr _

theorem afterX_inline (fr : Bool) (x : Nat) (i e : Ex) (hi : mayEff i = false) (he : mayEff e = false) :
    afterX fr (core (replace x i e)) = fr := by
  cases e with
  | lit v => rfl
  | var y =>
    simp only [replace]
    cases i with
    | lit v => split <;> rfl
    | var z => split <;> rfl
    | _ => simp [mayEff] at hi
  | _ => simp [mayEff] at he

theorem afterX_trX (fr : Bool) (e : Ex) : afterX fr (core (trX e)) = afterX fr (core e) := by
  induction e with
  | move e ih => simp only [trX, core]; exact ih
  | grp x i e _ _ =>
    simp only [trX]
    split
    · rfl
    · rename_i hne
      simp only [Bool.or_eq_true, not_or, Bool.not_eq_true] at hne
      rw [afterX_inline fr x i e hne.1 hne.2]; rfl
  | set x e ih =>
    cases e with
    | grp y i e =>
      simp only [trX, core]
      split
      · rfl
      · rename_i hne
        simp only [Bool.or_eq_true, not_or, Bool.not_eq_true] at hne
        have := inline_usesErr y i e hne.1 hne.2
        generalize replace y i e = q at this ⊢
        cases q with
        | getErr => simp [usesErr] at this
        | _ => rfl
    | _ => rfl
  | _ => rfl

theorem afterX_trTop (fr : Bool) (e : Ex) : afterX fr (core (trTop e)) = afterX fr (core e) := by
  cases e with
  | move e => rfl
  | _ => exact afterX_trX fr _

end Verif.Opt.Peep
