import Verif.Opt.FieldsTwo

/-!
# Removing unused fields: cases that meet the hypotheses, and what goes wrong without them
-/

namespace Verif.Opt.Fields.Examples

/-- Operators: 0 prints its first operand, 1 adds, 2 divides (no effects for the compiler, but throws). -/
def O : Ops :=
  { run := fun k a b out =>
      match k, a, b with
      | 0, a, _ => (.ok a, out ++ [a])
      | 1, .int i, .int j => (.ok (.int (i + j)), out)
      | 1, _, _ => (.ok .null, out)
      | 2, .int i, .int j => if j = 0 then (.error 7, out) else (.ok (.int (i / j)), out)
      | _, _, _ => (.ok .null, out)
    eff := fun k => match k with | 0 => true | _ => false
    quiet := fun k => match k with | 1 => true | _ => false }

theorem law : O.Law := by
  intro k hk
  match k with
  | 0 => cases hk
  | 1 =>
    refine ⟨rfl, fun a b out => ?_⟩
    cases a <;> cases b <;> exact ⟨_, rfl⟩
  | 2 => cases hk
  | n + 3 => cases hk

def st : St := start (fun _ => .null) (fun _ => .int 5)

def one : E := .lit (.int 1)
def prt (e : E) : E := .ext 0 e one
def newS : E := .new .nil
def plain : Decl := { opt := false, dflt := .none, zero := .int 0, keep := false, gone := false }
def noField : Decl := { opt := true, dflt := .none, zero := .null, keep := true, gone := false }

/-- Field 0 is read and written; 1 only written; 2 optional and only read; 3 only read, with a default; 4 only unset;
5 only written, by a default expression. -/
def decls : Fld → Decl
  | 0 => plain
  | 1 => plain
  | 2 => { plain with opt := true }
  | 3 => { plain with dflt := .const (.int 9) }
  | 4 => { plain with opt := true }
  | 5 => { plain with dflt := .expr (.ext 1 (.glob 0) (.lit (.int 1))) }
  | _ => noField

/-- A program that uses the fields in all these ways. -/
def good : Prog :=
  { nf := 6
    decl := decls
    funs := [.seq (.assign (.loc 0) 1 (prt (.lit (.int 3)))) (.ret (.ext 1 (.read (.loc 0) 0) (.read (.loc 0) 3)))]
    main :=
      .seq (.setl 0 (.new (.cons (.init 0) (.lit (.int 4)) (.cons (.init 1) (.ext 1 one one) .nil))))
      (.seq (.unset (.loc 0) 4)
      (.seq (.tasg (.cons (.loc 1) (prt one) (.cons (.fld 0 1) one .nil)))
      (.seq (.upd (.loc 0) 0 1 one)
      (.seq (prt (.call 0 (.loc 0) one))
      (.seq (prt (.has (.loc 0) 2))
      (.tryRead (.loc 0) 2)))))) }

example : (List.range 6).map (mode good) = [.keep, .noWrites, .noReads, .noReads, .drop, .noWrites] := by
  decide +kernel

theorem good_safe : Safe O good := by
  refine ⟨by decide +kernel, ?_, ?_⟩
  · intro e he
    simp only [good, List.mem_singleton] at he
    subst he
    decide +kernel
  · intro f d hm hd
    match f with
    | 0 => cases hd
    | 1 => cases hd
    | 2 => cases hd
    | 3 => cases hd
    | 4 => cases hd
    | 5 => injection hd with hd; subst hd; rfl
    | n + 6 => cases hd

/-- The program does something, and the pass keeps it. -/
example : outcome (run O good 3 st) = some (.threw .attributeNotSet, [.int 1, .int 3, .int 14, .bool false]) := by
  decide +kernel
example : outcome (run O (pass O good) 3 st)
    = some (.threw .attributeNotSet, [.int 1, .int 3, .int 14, .bool false]) := by
  decide +kernel

/-- Field 4 goes in the first round, fields 1, 5, 2 and 3 in the second, and field 0 stays. -/
example : (List.range 6).map (fun f => ((pass O good).decl f).gone) = [false, false, false, false, true, false] := by
  decide +kernel
example : (List.range 6).map (fun f => ((pass O (pass O good)).decl f).gone)
    = [false, true, true, true, true, true] := by
  decide +kernel

/-- The hypothesis of `gone_not_mentioned`: no field is `&no-emit` at first. -/
example (f : Fld) (h : ((pass O good).decl f).gone = true) : ¬ Mentioned f (pass O good) := by
  refine gone_not_mentioned O good ?_ f h
  intro f hf
  match f with
  | 0 | 1 | 2 | 3 | 4 | 5 => cases hf
  | n + 6 => cases hf

/-- The hypotheses of `unread_gone` for field 1. -/
example : ((pass O (pass O good)).decl 1).gone = true := by
  refine unread_gone O good 1 rfl ?_ ?_
  · intro e x he hw hr
    have hx : reads 1 x = true := by cases hr <;> simp [reads]
    have := readsUp 1 hw hx
    rcases he with rfl | he
    · revert this; decide +kernel
    · simp only [good, List.mem_singleton] at he
      subst he
      revert this; decide +kernel
  · intro e he
    rcases he with rfl | he
    · decide +kernel
    · simp only [good, List.mem_singleton] at he
      subst he
      decide +kernel

/-! ## What goes wrong -/

/-- A struct with one plain field. -/
def oneField (main : E) (funs : List E) : Prog :=
  { nf := 1, decl := fun f => if f = 0 then plain else noField, funs := funs, main := main }

/-- `s = [$f=1]; print s;` -/
def printed : Prog := oneField (.seq (.setl 0 (.new (.cons (.init 0) one .nil))) (.shw (.loc 0))) []

/-- Printing a struct is no read of its fields: the output loses the value, then the field. -/
theorem printing_changes :
    outcome (run O printed 1 st) = some (.value .null, [.int 1]) ∧
    outcome (run O (pass O printed) 1 st) = some (.value .null, [.int 0]) ∧
    outcome (run O (pass O (pass O printed)) 1 st) = some (.value .null, []) := by
  decide +kernel

/-- `foo().f = 1;` where `foo` prints. -/
def baseCall : Prog := oneField (.assign (.call 0 one one) 0 one) [.seq (prt one) newS]

/-- The call on the left of a removed write is not made any more. -/
theorem base_effect_lost :
    outcome (run O baseCall 2 st) = some (.value (.int 1), [.int 1]) ∧
    outcome (run O (pass O baseCall) 2 st) = some (.value (.int 1), []) := by
  decide +kernel

/-- `foo().f` for a field that is never written. -/
def baseCallRead : Prog := oneField (.read (.call 0 one one) 0) [.seq (prt one) newS]

/-- Nor is the call in a replaced read. -/
theorem base_effect_lost_read :
    outcome (run O baseCallRead 2 st) = some (.value (.int 0), [.int 1]) ∧
    outcome (run O (pass O baseCallRead) 2 st) = some (.value (.int 0), []) := by
  decide +kernel

/-- `&default=foo()` where `foo` prints, on a field that is never read. -/
def dfltEffect : Prog :=
  { nf := 1
    decl := fun f => if f = 0 then { plain with dflt := .expr (.ext 0 (.lit (.int 8)) (.lit .null)) } else noField
    funs := [], main := newS }

/-- The default's effect disappears. -/
theorem default_effect_lost :
    outcome (run O dfltEffect 1 st) = some (.value (.ref 0), [.int 8]) ∧
    outcome (run O (pass O dfltEffect) 1 st) = some (.value (.ref 0), []) := by
  decide +kernel

/-- `(x, s.f) = (g(), h());` -/
def tupleOrder : Prog :=
  oneField (.seq (.setl 0 newS)
    (.tasg (.cons (.loc 1) (prt (.lit (.int 1))) (.cons (.fld 0 0) (prt (.lit (.int 2))) .nil)))) []

/-- The element that belonged to the removed field is evaluated before the others. -/
theorem tuple_order_changes :
    outcome (run O tupleOrder 1 st) = some (.value .null, [.int 1, .int 2]) ∧
    outcome (run O (pass O tupleOrder) 1 st) = some (.value .null, [.int 2, .int 1]) := by
  decide +kernel

/-- `[$f=1 / 0]`: no side effects as the compiler sees it. -/
def initThrows : Prog := oneField (.new (.cons (.init 0) (.ext 2 one (.lit (.int 0))) .nil)) []

/-- The exception of a dropped initialiser is lost. -/
theorem init_exception_lost :
    outcome (run O initThrows 1 st) = some (.threw (.user 7), []) ∧
    outcome (run O (pass O initThrows) 1 st) = some (.value (.ref 0), []) := by
  decide +kernel

/-- `x.f = 1` for a null reference `x`. -/
def nullWrite : Prog := oneField (.assign (.loc 0) 0 one) []

/-- The null reference is no longer noticed. -/
theorem null_not_noticed :
    outcome (run O nullWrite 1 st) = some (.threw .nullRef, []) ∧
    outcome (run O (pass O nullWrite) 1 st) = some (.value (.int 1), []) := by
  decide +kernel

end Verif.Opt.Fields.Examples
