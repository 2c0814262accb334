import Verif.Front.FoldProps
/-!
# Concrete expressions

That the hypotheses of the theorems of `FoldProps` are met, and what happens without them.
-/

namespace Verif.Front.Fold.Witness

/-- A library without constructors; the operators add their operands, or throw. -/
def op (_ : Nat) : Res Val → Res Val → Res Val
  | .ok (.sint w n), .ok (.sint _ m) => exact (.sint w (n + m))
  | .ok _, .ok _ => .ub
  | .ok _, x => x
  | x, _ => x

def sem : Sem := { made := fun _ _ => .ub, takes := fun _ _ => false, op := op }

theorem sem_monotone : Monotone sem := by
  intro k x y x' y' r hx hy h
  cases x with
  | ok x =>
    cases y with
    | ok y => rw [hx x rfl, hy y rfl]; exact h
    | throw e => cases x <;> cases h
    | ub => cases x <;> cases h
  | throw e => cases h
  | ub => cases h

theorem sem_fits : MadeFit sem := fun _ _ _ h => by cases h

/-- The style the optimizer uses, and the one the resolver uses. -/
def all : Style := ⟨true, true, true, true⟩
def none_ : Style := ⟨false, false, false, false⟩

/-- `(! False ? -5 : 7) + int8(c)`, for `const c = 120` -/
def sum : Expr := .bin (.other 0)
  (.ternary (.un .not (.ctor (.bool false))) (.un .negU (.ctor (.uint 64 5))) (.ctor (.sint 64 7)))
  (.un (.sintU 8) (.name false false (.ctor (.uint 64 120))))

theorem sum_plain : NoOverflow sem sum ∧ ConstsFit sum := by
  constructor
  · intro p hp hc
    simp only [sum, parts, List.mem_cons, List.mem_append, List.not_mem_nil, or_false, or_assoc] at hp
    rcases hp with rfl | rfl | rfl | rfl | rfl | rfl | rfl | rfl | rfl | rfl
    · cases hc
    · exact ⟨.sint 64 (-5), by decide⟩
    · exact ⟨.bool true, by decide⟩
    · exact ⟨.bool false, by decide⟩
    · exact ⟨.sint 64 (-5), by decide⟩
    · exact ⟨.uint 64 5, by decide⟩
    · exact ⟨.sint 64 7, by decide⟩
    · exact ⟨.sint 8 120, by decide⟩
    · exact ⟨.uint 64 120, by decide⟩
    · exact ⟨.uint 64 120, by decide⟩
  · intro v hv
    simp only [sum, parts, List.mem_cons, List.mem_append, List.not_mem_nil, or_false, or_assoc] at hv
    rcases hv with h | h | h | h | h | h | h | h | h | h <;> first | (cases h; done) | (injection h with h; subst h; decide)

/-- The hypotheses of `folding_keeps_meaning_partial` are met, with something to fold: one constant for the ternary operator, one for
    the conversion. -/
theorem sum_compiles : Compiles sem all sum (.bin (.other 0) (.ctor (.sint 64 (-5))) (.ctor (.sint 8 120))) ∧
    eval sem sum = .ok (.sint 64 115) := by
  refine ⟨⟨3, by decide +kernel, ?_⟩, by decide +kernel⟩
  intro v hv
  simp only [parts, List.mem_cons, List.mem_append, List.not_mem_nil, or_false] at hv
  rcases hv with h | h | h <;> first | (cases h; done) | (injection h with h; subst h; decide)

/-- Without ternary operators and names, less is folded. -/
theorem sum_style : Compiles sem none_ sum (.bin (.other 0)
    (.ternary (.ctor (.bool true)) (.ctor (.sint 64 (-5))) (.ctor (.sint 64 7))) (.ctor (.sint 8 120))) := by
  refine ⟨3, by decide +kernel, ?_⟩
  intro v hv
  simp only [parts, List.mem_cons, List.mem_append, List.not_mem_nil, or_false, or_assoc] at hv
  rcases hv with h | h | h | h | h | h <;> first | (cases h; done) | (injection h with h; subst h; decide)

/-- `uint16(int8(300))` overflows when it is evaluated, but the compiler turns it into 300: only the last constant is checked. -/
theorem overflow_lost :
    eval sem (.un (.uintS 16) (.un (.sintU 8) (.ctor (.uint 64 300)))) = .throw .overflow ∧
    ConstsFit (.un (.uintS 16) (.un (.sintU 8) (.ctor (.uint 64 300)))) ∧
    ∀ st, Compiles sem st (.un (.uintS 16) (.un (.sintU 8) (.ctor (.uint 64 300)))) (.ctor (.uint 16 300)) := by
  refine ⟨by decide +kernel, ?_, fun st => ⟨2, rfl, ?_⟩⟩ <;>
  · intro v hv
    simp only [parts, List.mem_cons, List.not_mem_nil, or_false] at hv
    first
    | (rcases hv with h | h | h <;> first | (cases h; done) | (injection h with h; subst h; decide))
    | (injection hv with h; subst h; decide)

/-- As does `-(-int8(-128))`: -128. -/
theorem negation_lost :
    eval sem (.un .negS (.un .negS (.ctor (.sint 8 (-128))))) = .throw .overflow ∧
    ∀ st, Compiles sem st (.un .negS (.un .negS (.ctor (.sint 8 (-128))))) (.ctor (.sint 8 (-128))) := by
  refine ⟨by decide +kernel, fun st => ⟨2, rfl, ?_⟩⟩
  intro v hv
  simp only [parts, List.mem_cons, List.not_mem_nil, or_false] at hv
  injection hv with h
  subst h
  decide

/-- `-(-9223372036854775808)` has no meaning in the compiler. -/
theorem undefined_negation (st : Style) :
    visit sem st (.un .negS (.un .negU (.ctor (.uint 64 9223372036854775808)))) = .ub := rfl

/-- A constant that overflows is an error also where it is not used: `True ? 1 : uint8(-1)`. -/
theorem unused_rejected (st : Style) :
    eval sem (.ternary (.ctor (.bool true)) (.ctor (.uint 8 1)) (.un (.uintS 8) (.ctor (.sint 64 (-1))))) = .ok (.uint 8 1) ∧
    ∀ e', ¬ Compiles sem st (.ternary (.ctor (.bool true)) (.ctor (.uint 8 1)) (.un (.uintS 8) (.ctor (.sint 64 (-1))))) e' := by
  refine ⟨by decide +kernel, ?_⟩
  intro e' ⟨n, h, _⟩
  have h2 := foldAll_mono sem st n (n + 1) _ 0 _ (Nat.le_add_right _ _) h
  have h3 : foldAll sem st (n + 1) (.ternary (.ctor (.bool true)) (.ctor (.uint 8 1)) (.un (.uintS 8) (.ctor (.sint 64 (-1))))) 0 =
      .ok (some (.ternary (.ctor (.bool true)) (.ctor (.uint 8 1)) (.un (.uintS 8) (.ctor (.sint 64 (-1)))), 1)) := by
    obtain ⟨t, b, f, a⟩ := st
    cases t <;> rfl
  rw [h3] at h2
  injection h2 with h2; injection h2 with h2; injection h2 with _ h2
  cases h2

end Verif.Front.Fold.Witness
