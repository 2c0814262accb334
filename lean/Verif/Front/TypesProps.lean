import Verif.Front.TypesRound
/-!
# Type identity: the theorems
-/

namespace Verif.Front.Types

/-! ## The unifications set so far do not matter -/

theorem text_current (t : Ty) : Current t → text t = text (bare t) := by
  induction t using Ty.rec (motive_2 := fun es => CurrentEls es → tupleText es = tupleText (bareEls es) ∧
      paramsText es = paramsText (bareEls es)) with
  | alias t ih => intro h; simp only [Current] at h; simp only [bare, text]; exact ih h
  | con c k t ih => intro h; simp only [Current] at h; simp only [bare, text]; rw [ih h]
  | map i kk a vk b iha ihb => intro h; simp only [Current] at h; simp only [bare, text]; rw [iha h.1, ihb h.2]
  | tuple es ih => intro h; simp only [Current] at h; simp only [bare, text]; rw [(ih h).1]
  | func k t es iht ih => intro h; simp only [Current] at h; simp only [bare, text]; rw [iht h.1, (ih h.2).2]
  | memo s t ih =>
    intro h
    simp only [Current] at h
    obtain ⟨h1, h2, h3⟩ := h
    simp only [bare]
    rw [h2]
    have h4 := ih h3
    rw [h2] at h4
    cases t with
    | alias u => simp only [text] at h4 ⊢; exact h4
    | unresolved => simp only [text] at h4; cases h4
    | _ => simp only [text]
  | nil => exact ⟨rfl, rfl⟩
  | cons l k t es iht ih h =>
    simp only [CurrentEls] at h
    simp only [bareEls, tupleText, paramsText]
    rw [iht h.1, (ih h.2).1, (ih h.2).2]
    exact ⟨rfl, rfl⟩
  | _ => intro _; simp only [bare]

theorem bitsText_strip (bs : List Bit) : bitsText (bs.map fun b => { b with attrs := 0 }) = bitsText bs := by
  induction bs with
  | nil => rfl
  | cons b bs ih => simp only [List.map_cons, bitsText, bitText]; rw [ih]

/-- What does not matter does not enter the unification. -/
theorem text_strip (t : Ty) : text (strip t) = text (bare t) := by
  induction t using Ty.rec (motive_2 := fun es => tupleText (stripEls es) = tupleText (bareEls es) ∧
      paramsText (stripEls es) = paramsText (bareEls es)) with
  | alias t ih => simp only [strip, bare, text]; exact ih
  | memo s t ih => simp only [strip, bare]; exact ih
  | con c k t ih => simp only [strip, bare, text]; rw [ih]
  | map i kk a vk b iha ihb => simp only [strip, bare, text]; rw [iha, ihb]
  | tuple es ih => simp only [strip, bare, text]; rw [ih.1]
  | func k t es iht ih => simp only [strip, bare, text]; rw [iht, ih.2]
  | bitfield w bs at' => simp only [strip, bare, text]; rw [bitsText_strip]
  | nil => exact ⟨rfl, rfl⟩
  | cons l k t es iht ih =>
    simp only [stripEls, bareEls, tupleText, paramsText]
    rw [iht, ih.1, ih.2]
    exact ⟨rfl, rfl⟩
  | _ => simp only [strip, bare]

theorem text_settled (t : Ty) : (∃ s, text (bare t) = some s) ↔ Settled t := by
  induction t using Ty.rec (motive_2 := fun es => ((∃ s, tupleText (bareEls es) = some s) ↔ SettledEls es) ∧
      ((∃ s, paramsText (bareEls es) = some s) ↔ SettledEls es)) with
  | auto => simp [bare, text, Settled]
  | unresolved => simp [bare, text, Settled]
  | decl id => cases id <;> simp [bare, text, Settled]
  | alias t ih => simp only [bare, text, Settled]; exact ih
  | memo s t ih => simp only [bare, Settled]; exact ih
  | con c k t ih =>
    simp only [bare, text, Settled]
    rw [← ih]
    cases text (bare t) <;> simp
  | map i kk a vk b iha ihb =>
    simp only [bare, text, Settled]
    rw [← iha, ← ihb]
    cases text (bare a) <;> cases text (bare b) <;> simp
  | tuple es ih =>
    simp only [bare, text, Settled]
    rw [← ih.1]
    cases tupleText (bareEls es) <;> simp
  | func k t es iht ih =>
    simp only [bare, text, Settled]
    rw [← iht, ← ih.2]
    cases text (bare t) <;> cases paramsText (bareEls es) <;> simp
  | int sg w => cases sg <;> simp [bare, text, Settled]
  | nil => simp [bareEls, tupleText, paramsText, SettledEls]
  | cons l k t es iht ih =>
    simp only [bareEls, tupleText, paramsText, SettledEls]
    constructor
    · rw [← iht, ← ih.1]
      cases text (bare t) <;> cases tupleText (bareEls es) <;> simp
    · rw [← iht, ← ih.2]
      cases text (bare t) <;> cases paramsText (bareEls es) <;> simp
  | _ => simp [bare, text, Settled]

/-! ## Following names -/

theorem follow_facts (t : Ty) : strip (follow t) = strip t ∧ (Current t → Current (follow t)) ∧ (NamesOk t → NamesOk (follow t)) ∧
    (Settled t → Settled (follow t)) ∧ (∀ u, follow t ≠ .alias u) ∧ (∀ s u, follow t ≠ .memo s (.alias u)) := by
  induction t using Ty.rec (motive_2 := fun _ => True) with
  | alias t ih => simp only [follow, strip, Current, NamesOk, Settled]; exact ih
  | memo s t ih =>
    cases t with
    | alias u =>
      simp only [follow] at ih ⊢
      simp only [strip, Current, NamesOk, Settled] at ih ⊢
      exact ⟨ih.1, fun h => ih.2.1 h.2.2, ih.2.2⟩
    | _ =>
      exact ⟨rfl, id, id, id, (fun _ h => by cases h), (fun _ _ h => by cases h)⟩
  | nil => trivial
  | cons => trivial
  | _ => exact ⟨rfl, id, id, id, (fun _ h => by cases h), (fun _ _ h => by cases h)⟩

/-- A type that is nothing but `any` or `unknown`. -/
theorem follow_never (t : Ty) (hc : Current t) : strip t = .never ↔ follow t = .never := by
  obtain ⟨e, h1, -, -, h4, h5⟩ := follow_facts t
  constructor
  · intro h
    rw [← e] at h
    have hc' := h1 hc
    cases hf : follow t with
    | never => rfl
    | alias u => exact absurd hf (h4 u)
    | memo s u =>
      rw [hf] at h hc'
      simp only [Current] at hc'
      simp only [strip] at h
      obtain ⟨u', rfl⟩ := hc'.1 h
      exact absurd hf (h5 s u')
    | _ => rw [hf] at h; simp only [strip] at h; cases h
  · intro h
    rw [← e, h]; rfl

theorem unif_ne (t : Ty) (h : t ≠ .never) : unif t = (match text t with | none => .unset | some s => .str s) := by
  cases t with
  | never => exact absurd rfl h
  | _ => rfl

/-- The unification of a type: unset, never matching, or that of the type without anything that does not matter. -/
theorem unif_follow (t : Ty) (hc : Current t) : unif (follow t) = unif (strip t) := by
  have hn := follow_never t hc
  obtain ⟨e, h1, -, -, -, -⟩ := follow_facts t
  by_cases h : strip t = .never
  · rw [hn.1 h, h]
  · rw [unif_ne _ (fun h' => h (hn.2 h')), unif_ne _ h, text_current _ (h1 hc), ← text_strip, e]

/-! ## The properties -/

/-- **Type identity.** For types whose names have been resolved, and whichever of their unifications have been computed so far, the
compiler takes two types for the same if and only if they are; it never takes `any` and `unknown` for the same as anything. -/
theorem same_iff (t u : Ty) (ht : Current t) (hu : Current u) (nt : NamesOk t) (nu : NamesOk u) (st : Settled t) (su : Settled u) :
    same t u = true ↔ Same t u ∧ strip t ≠ .never := by
  unfold same
  rw [unif_follow t ht, unif_follow u hu]
  unfold Same
  have e1 := text_strip t
  have e2 := text_strip u
  obtain ⟨s1, h1⟩ := (text_settled t).2 st
  obtain ⟨s2, h2⟩ := (text_settled u).2 su
  rw [h1] at e1
  rw [h2] at e2
  by_cases c1 : strip t = .never
  · rw [c1]
    simp [Unif.eq, unif]
  · by_cases c2 : strip u = .never
    · rw [c2]
      have : ∀ x, Unif.eq x (unif .never) = false := by intro x; cases x <;> rfl
      rw [this]
      simp [c1]
    · rw [unif_ne _ c1, unif_ne _ c2, e1, e2]
      show (s1 == s2) = true ↔ _
      rw [beq_iff_eq]
      constructor
      · intro e
        subst e
        refine ⟨?_, c1⟩
        have d1 := dec_text t s1 h1 nt (weight t + weight u) (by omega) [] (.inl rfl)
        have d2 := dec_text u s1 h2 nu (weight t + weight u) (by omega) [] (.inl rfl)
        rw [d1] at d2
        injection d2 with d2
        injection d2
      · intro ⟨e, _⟩
        rw [e, e2] at e1
        injection e1 with e1
        exact e1.symm

/-- A type with a part that is still open is not the same as any other, not even as itself. -/
theorem same_open (t u : Ty) (ht : Current t) (h : ¬ Settled t) : same t u = false ∧ same u t = false := by
  have e : text (strip t) = none := by
    rw [text_strip]
    cases e : text (bare t) with
    | none => rfl
    | some s => exact absurd ((text_settled t).1 ⟨s, e⟩) h
  unfold same
  have hn : strip t ≠ .never := by intro h'; rw [h'] at e; cases e
  rw [unif_follow t ht, unif_ne _ hn, e]
  exact ⟨by cases unif (follow u) <;> rfl, by cases unif (follow u) <;> rfl⟩

theorem same_refl (t : Ty) (ht : Current t) (nt : NamesOk t) (st : Settled t) (h : strip t ≠ .never) : same t t = true :=
  (same_iff t t ht ht nt nt st st).2 ⟨rfl, h⟩

/-- The order does not matter. -/
theorem same_symm (t u : Ty) : same t u = same u t := by
  unfold same
  cases unif (follow t) <;> cases unif (follow u) <;> simp only [Unif.eq]
  rw [Bool.eq_iff_iff]
  simp only [beq_iff_eq]
  exact ⟨Eq.symm, Eq.symm⟩

/-- Types that are the same as a third one are the same. -/
theorem same_trans (t u v : Ty) (h : same t u = true) (h' : same u v = true) : same t v = true := by
  unfold same at *
  cases e1 : unif (follow t) <;> cases e2 : unif (follow u) <;> cases e3 : unif (follow v) <;> rw [e1, e2] at h <;> rw [e2, e3] at h' <;>
    simp only [Unif.eq, Bool.false_eq_true, beq_iff_eq] at *
  rw [h, h']

/-- With constness: the constness of the types themselves is compared, that of their parameters is not. -/
theorem sameQualified_iff (k k' : Bool) (t u : Ty) (ht : Current t) (hu : Current u) (nt : NamesOk t) (nu : NamesOk u)
    (st : Settled t) (su : Settled u) :
    sameQualified k t k' u = true ↔ k = k' ∧ Same t u ∧ strip t ≠ .never := by
  unfold sameQualified
  by_cases e : k = k'
  · subst e
    simp only [bne_self_eq_false, Bool.false_eq_true, if_false, true_and]
    exact same_iff t u ht hu nt nu st su
  · have : (k != k') = true := by simpa using e
    rw [if_pos this]
    simp [e]

/-! ## The pass -/

/-- A node visited. -/
theorem setUnif_facts (t : Ty) (hc : Current t) (h : strip t = .never → (t = .never ∨ ∃ u, t = .alias u) ∨ ∃ s u, t = .memo s u) :
    Current (setUnif t) ∧ bare (setUnif t) = bare t ∧ strip (setUnif t) = strip t := by
  have key : t ≠ .never → (∀ s u, t ≠ .memo s u) → Current (match text t with | none => t | some s => .memo s t) ∧
      bare (match text t with | none => t | some s => .memo s t) = bare t ∧
      strip (match text t with | none => t | some s => .memo s t) = strip t := by
    intro h1 h2
    have e := text_current t hc
    cases et : text t with
    | none => exact ⟨hc, rfl, rfl⟩
    | some s =>
      dsimp only
      refine ⟨?_, by simp only [bare], by simp only [strip]⟩
      simp only [Current]
      refine ⟨?_, by rw [← e, et], hc⟩
      intro hs
      rcases h hs with (h | h) | ⟨s, u, h⟩
      · exact absurd h h1
      · exact h
      · exact absurd h (h2 s u)
  cases t with
  | memo s u => exact ⟨hc, rfl, rfl⟩
  | never => exact ⟨hc, rfl, rfl⟩
  | _ => exact key (fun h => by cases h) (fun _ _ h => by cases h)

/-- **The pass.** Computing unifications changes nothing but the unifications set, and these are right. -/
theorem unify_facts (t : Ty) : Current t → Current (unify t) ∧ bare (unify t) = bare t ∧ strip (unify t) = strip t := by
  have leaf : ∀ t : Ty, (strip t = t) → Current t → Current (setUnif t) ∧ bare (setUnif t) = bare t ∧ strip (setUnif t) = strip t :=
    fun t e hc => setUnif_facts t hc (fun h => .inl (.inl (by rw [← e]; exact h)))
  induction t using Ty.rec (motive_2 := fun es => CurrentEls es → CurrentEls (unifyEls es) ∧ bareEls (unifyEls es) = bareEls es ∧
      stripEls (unifyEls es) = stripEls es) with
  | alias t ih =>
    intro h
    simp only [Current] at h
    obtain ⟨h1, h2, h3⟩ := ih h
    simp only [unify]
    have := setUnif_facts (.alias (unify t)) (by simp only [Current]; exact h1) (fun _ => .inl (.inr ⟨_, rfl⟩))
    simp only [bare, strip] at this ⊢
    rw [h2, h3] at this
    exact this
  | memo s t ih => intro h; exact ⟨h, rfl, rfl⟩
  | con c k t ih =>
    intro h
    simp only [Current] at h
    obtain ⟨h1, h2, h3⟩ := ih h
    simp only [unify]
    have := setUnif_facts (.con c k (unify t)) (by simp only [Current]; exact h1) (fun h => by simp only [strip] at h; cases h)
    simp only [bare, strip] at this ⊢
    rw [h2, h3] at this
    exact this
  | map i kk a vk b iha ihb =>
    intro h
    simp only [Current] at h
    obtain ⟨h1, h2, h3⟩ := iha h.1
    obtain ⟨g1, g2, g3⟩ := ihb h.2
    simp only [unify]
    have := setUnif_facts (.map i kk (unify a) vk (unify b)) (by simp only [Current]; exact ⟨h1, g1⟩) (fun h => by simp only [strip] at h; cases h)
    simp only [bare, strip] at this ⊢
    rw [h2, h3, g2, g3] at this
    exact this
  | tuple es ih =>
    intro h
    simp only [Current] at h
    obtain ⟨h1, h2, h3⟩ := ih h
    simp only [unify]
    have := setUnif_facts (.tuple (unifyEls es)) (by simp only [Current]; exact h1) (fun h => by simp only [strip] at h; cases h)
    simp only [bare, strip] at this ⊢
    rw [h2, h3] at this
    exact this
  | func k t es iht ih =>
    intro h
    simp only [Current] at h
    obtain ⟨h1, h2, h3⟩ := iht h.1
    obtain ⟨g1, g2, g3⟩ := ih h.2
    simp only [unify]
    have := setUnif_facts (.func k (unify t) (unifyEls es)) (by simp only [Current]; exact ⟨h1, g1⟩) (fun h => by simp only [strip] at h; cases h)
    simp only [bare, strip] at this ⊢
    rw [h2, h3, g2, g3] at this
    exact this
  | bitfield w bs at' =>
    intro h
    simp only [unify]
    exact setUnif_facts _ h (fun h => by simp only [strip] at h; cases h)
  | nil => exact ⟨trivial, rfl, rfl⟩
  | cons l k t es iht ih h =>
    simp only [CurrentEls] at h
    obtain ⟨h1, h2, h3⟩ := iht h.1
    obtain ⟨g1, g2, g3⟩ := ih h.2
    simp only [unifyEls, CurrentEls, bareEls, stripEls]
    rw [h2, h3, g2, g3]
    exact ⟨⟨h1, g1⟩, rfl, rfl⟩
  | _ => intro h; simp only [unify]; exact leaf _ (by simp only [strip]) h

/-- Whether two types are the same does not depend on what has been unified before, nor in which order. -/
theorem same_unify (t u : Ty) (ht : Current t) (hu : Current u) : same (unify t) (unify u) = same t u := by
  obtain ⟨h1, -, h3⟩ := unify_facts t ht
  obtain ⟨g1, -, g3⟩ := unify_facts u hu
  unfold same
  rw [unif_follow _ h1, unif_follow _ g1, unif_follow _ ht, unif_follow _ hu, h3, g3]

/-- A type of which every part is known gets its unification. -/
theorem unify_sets (t : Ty) (ht : Current t) (st : Settled t) (hn : strip t ≠ .never) : ∃ s, unif (follow (unify t)) = .str s := by
  obtain ⟨h1, h2, h3⟩ := unify_facts t ht
  rw [unif_follow _ h1, h3, unif_ne _ hn, text_strip]
  obtain ⟨s, e⟩ := (text_settled t).2 st
  rw [e]
  exact ⟨s, rfl⟩

end Verif.Front.Types
