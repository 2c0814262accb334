/-!
# Outcomes of modelled C++ operations

Every modelled operation that can throw or be undefined returns `Res α`. `ub` is undefined behaviour in the C++ sense
(use after free, null dereference, out-of-bounds access, bad shift, a loop that never terminates).
-/

namespace Verif

/-- Exception classes of the runtime, `hilti/runtime/include/exception.h` (HILTI_EXCEPTION declarations) and
    `spicy/runtime/include/parser.h` (ParseError, Backtrack). Messages are not modelled. -/
inductive Exn where
  | frozen | invalidIterator | missingData | wouldBlock | overflow | divisionByZero | indexError
  | invalidArgument | invalidValue | outOfRange | runtimeError | parseError | backtrack | sinkError
  | filterError | logicError | nullReference | illegalReference | assertionFailure | unsetOptional | unicodeError
  | internalError | expiredReference | patternError | matchStateReuse | notSupported
  deriving DecidableEq, Repr

/-- Result of a modelled operation: a value, a thrown exception, or undefined behaviour. -/
inductive Res (α : Type) where
  | ok (a : α)
  | throw (e : Exn)
  | ub
  deriving Repr

instance {α} [DecidableEq α] : DecidableEq (Res α) := fun a b => by
  cases a <;> cases b
  case ok.ok x y =>
    exact if h : x = y then isTrue (by rw [h]) else isFalse (by intro h'; injection h' with h'; exact h h')
  case throw.throw x y =>
    exact if h : x = y then isTrue (by rw [h]) else isFalse (by intro h'; injection h' with h'; exact h h')
  case ub.ub => exact isTrue rfl
  all_goals exact isFalse (by intro h; nomatch h)

namespace Res

variable {α β γ : Type}

/-- Sequencing: an exception or undefined behaviour ends the computation. -/
@[inline] protected def bind : Res α → (α → Res β) → Res β
  | .ok a, f => f a
  | .throw e, _ => .throw e
  | .ub, _ => .ub

instance : Monad Res where
  pure := Res.ok
  bind := Res.bind

instance : LawfulMonad Res := LawfulMonad.mk'
  (id_map := by intro α x; cases x <;> rfl)
  (pure_bind := by intros; rfl)
  (bind_assoc := by intro α β γ x f g; cases x <;> rfl)

@[simp] theorem pure_eq (a : α) : (pure a : Res α) = .ok a := rfl
@[simp] theorem ok_bind (a : α) (f : α → Res β) : (Res.ok a >>= f) = f a := rfl
@[simp] theorem throw_bind (e : Exn) (f : α → Res β) : ((Res.throw e : Res α) >>= f) = .throw e := rfl
@[simp] theorem ub_bind (f : α → Res β) : ((Res.ub : Res α) >>= f) = .ub := rfl
@[simp] theorem map_ok (a : α) (f : α → β) : f <$> (Res.ok a) = .ok (f a) := rfl
@[simp] theorem map_throw (e : Exn) (f : α → β) : f <$> (Res.throw e : Res α) = .throw e := rfl
@[simp] theorem map_ub (f : α → β) : f <$> (Res.ub : Res α) = .ub := rfl

/-- The operation did not run into undefined behaviour. -/
def Defined : Res α → Prop
  | .ub => False
  | _ => True

instance (r : Res α) : Decidable r.Defined := by
  cases r <;> simp only [Defined] <;> infer_instance

@[simp] theorem defined_ok (a : α) : (Res.ok a).Defined := trivial
@[simp] theorem defined_throw (e : Exn) : (Res.throw e : Res α).Defined := trivial
@[simp] theorem not_defined_ub : ¬ (Res.ub : Res α).Defined := id

end Res
end Verif
