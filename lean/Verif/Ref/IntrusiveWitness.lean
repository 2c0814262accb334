import Verif.Ref.IntrusiveMain

/-!
# Intrusive pointers: cases
-/

namespace Verif.Ref.Intrusive

instance (s : S) (i : Nat) : Decidable (There s i) :=
  match h : s.ptrs[i]? with
  | some (.at p) => .isTrue ⟨p, h⟩
  | some .gone => .isFalse fun ⟨p, e⟩ => by rw [h] at e; cases e
  | none => .isFalse fun ⟨p, e⟩ => by rw [h] at e; cases e

instance (s : S) (o : Nat) : Decidable (Alive s o) :=
  match h : s.heap[o]? with
  | some (.live n) => .isTrue ⟨n, h⟩
  | some .freed => .isFalse fun ⟨p, e⟩ => by rw [h] at e; cases e
  | none => .isFalse fun ⟨p, e⟩ => by rw [h] at e; cases e

/-- Checks that a history is legal. -/
def legalAll : List Op → S → Bool
  | [], _ => true
  | op :: ops, s =>
    (match op with
      | .make | .null => true
      | .newRef o => decide (Alive s o)
      | .adopt o => decide (o ∈ s.raws)
      | .copy i | .move i | .release i | .destroy i => decide (There s i)
      | .swap i j | .assign i j | .assignMove i j => decide (There s i) && decide (There s j)
      | .use i => match s.ptrs[i]? with | some (.at (some _)) => true | _ => false) &&
    (match step op s with | some s' => legalAll ops s' | none => true)

theorem legalAll_sound : ∀ (ops : List Op) (s : S), legalAll ops s = true → LegalAll ops s
  | [], _, _ => trivial
  | op :: ops, s, h => by
    simp only [legalAll, Bool.and_eq_true] at h
    refine ⟨?_, fun s' hs' => legalAll_sound ops s' (by have := h.2; rw [hs'] at this; exact this)⟩
    have h1 := h.1
    cases op <;> simp only [Legal, Bool.and_eq_true, decide_eq_true_eq] at h1 ⊢
    all_goals first | exact h1 | skip
    split at h1
    · rename_i o e; exact ⟨o, e⟩
    · cases h1

/-- Two objects, with all operations. -/
def story : List Op :=
  [.make, .copy 0, .use 1, .assign 0 0, .assignMove 1 1, .destroy 0, .use 1, .make, .null, .assign 3 2, .swap 1 3,
   .release 1, .use 2, .adopt 1, .newRef 0, .move 5, .destroy 3, .use 6, .assignMove 6 4]

theorem story_legal : LegalAll story init := legalAll_sound _ _ (by decide +kernel)

/-- The theorem applies to it. -/
theorem story_safe : ∃ s, run story init = some s ∧ ∀ o, Alive s o ↔ Held s o :=
  pointers_safe story (by decide) story_legal

/-- In the end the first object is deleted, and the second has two pointers. -/
theorem story_end : run story init =
    some ⟨[.freed, .live 2], [.gone, .at none, .at (some 1), .gone, .at none, .at none, .at (some 1)], []⟩ := by
  decide +kernel

/-- Adopting a pointer that was not released is against the rules, and the object is deleted while it is used. -/
theorem adopted_twice :
    run [.make, .adopt 0, .destroy 0] init = some ⟨[.freed], [.gone, .at (some 0)], []⟩ ∧
    run [.make, .adopt 0, .destroy 0, .use 1] init = none := by decide +kernel

/-- A released pointer that nobody adopts keeps its object for ever. -/
theorem never_adopted : run [.make, .release 0, .destroy 0] init = some ⟨[.live 1], [.gone], [0]⟩ := by
  decide +kernel

end Verif.Ref.Intrusive
