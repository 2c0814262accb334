import Verif.Opt.FlattenProps
/-!
# Flattening blocks: programs
-/

namespace Verif.Opt.Flatten

/-- `tests/hilti/optimization/flatten-block.hlt`, first function: `my_stop`, `x`, the inner `x`, `y`, the innermost `y`. -/
def testNames : Nat → Name
  | 0 => [109]
  | 1 => [120]
  | 2 => [120]
  | 3 => [121]
  | 4 => [121]
  | _ => []

/-- `{ local my_stop; local x; x = …; { local x; x = …; local y = x + 1; { local y = x + 2; print y; } my_stop = … x … y; } return … }` -/
def testProg : Seq :=
  .decl 0 (.decl 1 (.use 1 (.block [[120], [121]]
    (.decl 2 (.use 2 (.decl 3 (.use 2 (.block [[121]] (.decl 4 (.use 2 (.use 4 .nil))) (.use 0 (.use 2 (.use 3 .nil))))))))
    (.use 0 (.use 1 .nil)))))

theorem test_valid : Valid testNames [] testProg := by
  refine ⟨?_, ?_⟩
  · simp only [Bound, testProg]
    simp [Finds, testNames]
  · simp [Distinct, testProg, testNames]

theorem test_scoped : Scoped testNames [[109], [120]] testProg := by simp [Scoped, testProg, testNames]

theorem test_apart : Apart testNames [] [] testProg := by
  simp only [Apart, testProg, Seq.decls]
  refine ⟨(fun d _ e he => by cases he), ⟨?_, trivial, trivial⟩, trivial⟩
  intro d hd e he k
  simp only [List.mem_cons, List.not_mem_nil, or_false] at hd he
  subst hd
  rcases he with rfl | rfl <;> simp [testNames]

/-- All hypotheses hold of this program, so it stays valid whatever is flattened first. -/
theorem test_case {σ' : State} {s' : Seq} (h : Pass [[109], [120]] ⟨testNames, []⟩ testProg σ' s') : Valid σ'.nm [] s' :=
  flatten_keeps_binding_partial test_valid test_scoped (fun p hp => by cases hp) test_apart (by decide) h

/-- The outer block first, then the inner one. -/
theorem test_run : ∃ σ' s', Pass [[109], [120]] ⟨testNames, []⟩ testProg σ' s' ∧ s'.blocks = 0 ∧
    σ'.nm 1 = [120] ∧ σ'.nm 2 = [120, 95] ∧ σ'.nm 3 = [121] ∧ σ'.nm 4 = [121, 95] :=
  ⟨_, _, .step (.decl (.decl (.use (.here [2, 3, 4] (by simp [Seq.decls])))))
    (.step (.decl (.decl (.use (.decl (.use (.decl (.use (.here [4] (by simp [Seq.decls]))))))))) .done),
    by decide, by decide, by decide, by decide, by decide⟩

/-- `f(x) { if ( … ) { { local x = 1; print x; } print x; } }` -/
def badNames : Nat → Name
  | 0 => [120]
  | 1 => [120]
  | _ => []

def badProg : Seq := .body [] (.block [[120]] (.decl 1 (.use 1 .nil)) (.use 0 .nil)) .nil

/-- Without `Apart` it is false, as only the scope of the parent block is searched for a name: the second `print` then prints the
    inner variable. All other hypotheses hold. -/
theorem C76_fails_shadowed_outside_parent :
    Valid badNames [0] badProg ∧ Scoped badNames [[120]] badProg ∧ (∀ p ∈ [0], badNames p ∈ [[120]]) ∧
      ([0] ++ badProg.decls).Nodup ∧
      ∃ σ' s', Pass [[120]] ⟨badNames, []⟩ badProg σ' s' ∧ s' = .body [] (.decl 1 (.use 1 (.use 0 .nil))) .nil ∧
        Finds σ'.nm [1, 0] 1 ∧ ¬ Finds σ'.nm [1, 0] 0 ∧ ¬ Valid σ'.nm [0] s' := by
  refine ⟨⟨?_, ?_⟩, ?_, ?_, by decide, renameAll [] ⟨badNames, []⟩ [1], _,
    .step (.bodyIn (.here [1] (by simp [Seq.decls]))) .done, rfl, ?_, ?_, ?_⟩
  · simp only [Bound, badProg]
    simp [Finds, badNames]
  · simp [Distinct, badProg]
  · simp [Scoped, badProg, badNames]
  · simp [badNames]
  · unfold Finds; decide
  · unfold Finds; decide
  · intro h
    have h1 := h.1
    simp only [Seq.append, Bound] at h1
    have h2 := h1.1.2.1
    revert h2
    unfold Finds
    decide

end Verif.Opt.Flatten
