import Verif.Front.CoerceProps
/-!
# Conversions of types, and the code generated for them
-/

namespace Verif.Front.Coerce

theorem typeOk_eq (st : Style) (d : Ty) : typeOk st d d = true := by
  cases d <;> simp [typeOk]

theorem genCode_eq (d : Ty) (v : V) : genCode d d v = some v := by
  cases d <;> simp [genCode]

/-- Where the type can be converted, the generated code gives a value of the new type, and one that agrees. -/
theorem gen_ok (d : Ty) :
    (∀ (st : Style) (s : Ty) (v : V), st.Real → Plain d → typeOk st s d = true → HasType s v →
      ∃ v', genCode s d v = some v' ∧ HasType d v' ∧ Agree st.contextual s d v v') ∧
    (∀ (ctx : Bool) (s : Ty) (v : V), Plain d → typesOk s d = true → HasType s v →
      ∃ v', genCodes s d v = some v' ∧ HasType d v' ∧ Agree ctx s d v v') := by
  have triv : ∀ (st : Style) (s d : Ty) (v : V), s = d → HasType s v →
      ∃ v', genCode s d v = some v' ∧ HasType d v' ∧ Agree st.contextual s d v v' := by
    intro st s d v e h
    subst e
    exact ⟨v, genCode_eq _ _, h, Agree.refl _ _ h⟩
  induction d with
  | bool =>
    refine ⟨?_, ?_⟩
    · intro st s v hr hp ht hv
      by_cases e : s = .bool
      · exact triv st s _ v e hv
      · cases s <;> simp [typeOk] at ht <;> simp only [HasType] at hv
        · exact absurd rfl e
        · obtain ⟨n, rfl⟩ := hv
          exact ⟨_, rfl, ⟨_, rfl⟩, .inr ⟨ht, _, rfl, n, rfl, by simp⟩⟩
        · obtain ⟨n, rfl⟩ := hv
          exact ⟨_, rfl, ⟨_, rfl⟩, .inr ⟨ht, _, rfl, n, rfl, by simp⟩⟩
        · obtain ⟨n, rfl, _⟩ := hv
          exact ⟨_, rfl, ⟨_, rfl⟩, .inr ⟨ht, _, rfl, n, rfl, by simp⟩⟩
        · obtain ⟨n, rfl⟩ := hv
          refine ⟨_, rfl, ⟨_, rfl⟩, .inr ⟨ht, _, rfl, n, rfl, ?_⟩⟩
          unfold hasLabel
          simp only [List.any_eq_true, Bool.and_eq_true, bne_iff_ne, ne_eq, beq_iff_eq]
          constructor
          · rintro ⟨l, h1, h2, rfl⟩; exact ⟨h1, h2⟩
          · rintro ⟨h1, h2⟩; exact ⟨n, h1, h2, rfl⟩
        · rcases hv with rfl | ⟨x, rfl, _⟩
          · exact ⟨_, rfl, ⟨_, rfl⟩, .inr ⟨ht, _, rfl, by simp [Truth]⟩⟩
          · exact ⟨_, rfl, ⟨_, rfl⟩, .inr ⟨ht, _, rfl, by simp [Truth]⟩⟩
        · rcases hv with ⟨s, rfl⟩ | ⟨x, rfl, _⟩
          · exact ⟨_, rfl, ⟨_, rfl⟩, .inr ⟨ht, _, rfl, by simp [Truth]⟩⟩
          · exact ⟨_, rfl, ⟨_, rfl⟩, .inr ⟨ht, _, rfl, by simp [Truth]⟩⟩
    · intro ctx s v _ ht; simp [typesOk] at ht
  | int sg w =>
    refine ⟨?_, ?_⟩
    · intro st s v hr hp ht hv
      by_cases e : s = .int sg w
      · exact triv st s _ v e hv
      · cases s with
        | int s' w' =>
          obtain ⟨i, rfl, hf⟩ := hv
          unfold typeOk at ht
          rw [if_neg e] at ht
          have hf' : fits sg w i = true := by
            cases s' <;> cases sg <;> simp at ht
            · exact fits_mono _ _ _ _ ht hf
            · exact fits_signed _ _ _ ht hf
            · exact fits_mono _ _ _ _ ht hf
          refine ⟨.num i, ?_, ⟨i, rfl, hf'⟩, .inl ⟨rfl, rfl⟩⟩
          unfold genCode
          rw [if_neg e]
          dsimp only
          rw [if_pos hf']
        | _ => simp [typeOk] at ht
    · intro ctx s v _ ht; simp [typesOk] at ht
  | error =>
    refine ⟨?_, ?_⟩
    · intro st s v hr hp ht hv
      by_cases e : s = .error
      · exact triv st s _ v e hv
      · cases s <;> simp [typeOk] at ht
        · obtain ⟨x, rfl⟩ := hv
          exact ⟨_, rfl, ⟨_, rfl⟩, .inr ⟨ht, x, rfl, rfl, rfl⟩⟩
        · exact absurd rfl e
    · intro ctx s v _ ht; simp [typesOk] at ht
  | set d ih =>
    refine ⟨?_, ?_⟩
    · intro st s v hr hp ht hv
      by_cases e : s = .set d
      · exact triv st s _ v e hv
      · cases s <;> simp [typeOk] at ht
        · subst ht
          obtain ⟨vs, rfl, hvs⟩ := hv
          refine ⟨_, by simp [genCode], ⟨vs, rfl, hvs⟩, .inr (.inl ⟨_, rfl, vs, vs, rfl, rfl, ?_⟩)⟩
          clear e
          induction vs with
          | nil => trivial
          | cons x xs ih2 =>
            exact ⟨Agree.refl _ _ (hvs x (List.mem_cons_self ..)), ih2 (fun y hy => hvs y (List.mem_cons_of_mem _ hy))⟩
        · exact absurd (by rw [ht]) e
    · intro ctx s v _ ht; simp [typesOk] at ht
  | vector d ih =>
    refine ⟨?_, ?_⟩
    · intro st s v hr hp ht hv
      by_cases e : s = .vector d
      · exact triv st s _ v e hv
      · cases s <;> simp [typeOk] at ht
        · subst ht
          obtain ⟨vs, rfl, hvs⟩ := hv
          refine ⟨_, by simp [genCode], ⟨vs, rfl, hvs⟩, .inr ⟨_, .inl rfl, vs, vs, rfl, rfl, ?_⟩⟩
          clear e
          induction vs with
          | nil => trivial
          | cons x xs ih2 =>
            exact ⟨Agree.refl _ _ (hvs x (List.mem_cons_self ..)), ih2 (fun y hy => hvs y (List.mem_cons_of_mem _ hy))⟩
        · exact absurd (by rw [ht]) e
    · intro ctx s v _ ht; simp [typesOk] at ht
  | tnil =>
    refine ⟨?_, ?_⟩
    · intro st s v hr hp ht hv
      by_cases e : s = .tnil
      · exact triv st s _ v e hv
      · cases s <;> simp [typeOk] at ht
        exact absurd rfl e
    · intro ctx s v _ ht hv
      cases s <;> simp [typesOk] at ht
      cases hv
      exact ⟨.tnil, rfl, rfl, rfl, rfl⟩
  | tcons d ds ihd ihs =>
    have key : ∀ (ctx : Bool) (s ss : Ty) (v : V), Plain (.tcons d ds) → (typeOk forAssignment s d && typesOk ss ds) = true →
        HasType (.tcons s ss) v → ∃ x xs y ys, v = .tcons x xs ∧ genCode s d x = some y ∧ genCodes ss ds xs = some ys ∧
          HasType (.tcons d ds) (.tcons y ys) ∧ Agree ctx (.tcons s ss) (.tcons d ds) v (.tcons y ys) := by
      rintro ctx s ss v ⟨hp1, hp2⟩ ht ⟨x, xs, rfl, hx, hxs⟩
      rw [Bool.and_eq_true] at ht
      obtain ⟨y, g1, t1, a1⟩ := ihd.1 forAssignment s x (by intro h; cases h) hp1 ht.1 hx
      obtain ⟨ys, g2, t2, a2⟩ := ihs.2 ctx ss xs hp2 ht.2 hxs
      exact ⟨x, xs, y, ys, rfl, g1, g2, ⟨y, ys, rfl, t1, t2⟩, s, ss, rfl, x, xs, y, ys, rfl, rfl, a1.ctx, a2⟩
    refine ⟨?_, ?_⟩
    · intro st s v hr hp ht hv
      by_cases e : s = .tcons d ds
      · exact triv st s _ v e hv
      · cases s with
        | tcons s ss =>
          unfold typeOk at ht
          rw [if_neg e] at ht
          obtain ⟨x, xs, y, ys, rfl, g1, g2, t, a⟩ := key st.contextual s ss v hp ht hv
          refine ⟨.tcons y ys, ?_, t, a⟩
          unfold genCode
          rw [if_neg e]
          dsimp only
          rw [g1, g2]
        | _ => simp [typeOk] at ht
    · intro ctx s v hp ht hv
      cases s with
      | tcons s ss =>
        unfold typesOk at ht
        obtain ⟨x, xs, y, ys, rfl, g1, g2, t, a⟩ := key ctx s ss v hp ht hv
        refine ⟨.tcons y ys, ?_, t, a⟩
        unfold genCodes
        dsimp only
        rw [g1, g2]
      | _ => simp [typesOk] at ht
  | optional d ih =>
    refine ⟨?_, ?_⟩
    · intro st s v hr hp ht hv
      by_cases e : s = .optional d
      · exact triv st s _ v e hv
      · obtain ⟨hp, p1, p2, p3⟩ := hp
        unfold typeOk at ht
        rw [if_neg e] at ht
        dsimp only at ht
        -- by converting the value
        have inner : ∀ (s : Ty), (if (st.assign || st.call) = true then typeOk { st with assign := true } s d else false) = true → HasType s v →
            st.contextual = false ∧ typeOk { st with assign := true } s d = true ∧
            ∃ x, genCode s d v = some x ∧ HasType d x ∧ Agree st.contextual s d v x := by
          intro s h hv
          split at h
          · rename_i hc
            have hctx : st.contextual = false := by
              rw [Bool.eq_false_iff]
              intro h'
              obtain ⟨h1, h2⟩ := hr h'
              rw [h1, h2] at hc; cases hc
            obtain ⟨x, g, t, a⟩ := ih.1 { st with assign := true } s v (by intro h'; rw [show ({ st with assign := true } : Style).contextual = st.contextual from rfl, hctx] at h'; cases h') hp h hv
            exact ⟨hctx, h, x, g, t, a⟩
          · cases h
        -- types that are converted to such a `d` are not optional, result or null
        have no : ∀ s : Ty, (∃ u, s = .optional u) ∨ (∃ u, s = .result u) ∨ s = .null → st.contextual = false →
            typeOk { st with assign := true } s d = true → False := by
          intro s hs hctx h
          cases d <;> rcases hs with ⟨u, rfl⟩ | ⟨u, rfl⟩ | rfl <;> simp [typeOk, hctx] at h
          all_goals first | exact p1 _ rfl | exact p2 _ rfl | exact p3 rfl
        rw [Bool.or_eq_true] at ht
        cases s with
        | null =>
          exact ⟨.unset, by unfold genCode; rw [if_neg e], .inl rfl, .inr (.inl ⟨rfl, rfl⟩)⟩
        | optional u =>
          rcases ht with ht | ht
          · obtain ⟨h1, h2, _⟩ := inner _ ht hv
            exact (no _ (.inl ⟨u, rfl⟩) h1 h2).elim
          · cases ht
        | result u =>
          rcases ht with ht | ht
          · obtain ⟨h1, h2, _⟩ := inner _ ht hv
            exact (no _ (.inr (.inl ⟨u, rfl⟩)) h1 h2).elim
          · have : u = d := by simpa using ht
            subst this
            rcases hv with ⟨m, rfl⟩ | ⟨x, rfl, hx⟩
            · exact ⟨.unset, by simp [genCode], .inl rfl, .inr (.inr (.inl ⟨rfl, .inr ⟨m, rfl, rfl⟩⟩))⟩
            · exact ⟨.opt x, by simp [genCode], .inr ⟨x, rfl, hx⟩, .inr (.inr (.inl ⟨rfl, .inl ⟨x, rfl, rfl⟩⟩))⟩
        | _ =>
          rcases ht with ht | ht
          · obtain ⟨_, _, x, g, t, a⟩ := inner _ ht hv
            refine ⟨.opt x, ?_, .inr ⟨x, rfl, t⟩, .inr (.inr (.inr ⟨x, rfl, a⟩))⟩
            unfold genCode
            rw [if_neg e]
            dsimp only
            rw [g]; rfl
          · cases ht
    · intro ctx s v _ ht; simp [typesOk] at ht
  | result d ih =>
    refine ⟨?_, ?_⟩
    · intro st s v hr hp ht hv
      by_cases e : s = .result d
      · exact triv st s _ v e hv
      · obtain ⟨hp, p1, p2, p3, p4⟩ := hp
        unfold typeOk at ht
        rw [if_neg e] at ht
        dsimp only at ht
        have inner : ∀ (s : Ty), (if (st.assign || st.call) = true then typeOk st s d else false) = true → HasType s v →
            ∃ x, genCode s d v = some x ∧ HasType d x ∧ Agree st.contextual s d v x := by
          intro s h hv
          split at h
          · exact ih.1 st s v hr hp h hv
          · cases h
        rw [Bool.or_eq_true] at ht
        cases s with
        | error =>
          obtain ⟨m, rfl⟩ := hv
          refine ⟨.failed m, ?_, .inl ⟨m, rfl⟩, .inr (.inl ⟨rfl, m, rfl, rfl⟩)⟩
          unfold genCode
          rw [if_neg e]
          dsimp only
          rw [if_neg p4]
        | _ =>
          rcases ht with ht | ht
          · obtain ⟨x, g, t, a⟩ := inner _ ht hv
            refine ⟨.ok x, ?_, .inr ⟨x, rfl, t⟩, .inr (.inr ⟨x, rfl, a⟩)⟩
            unfold genCode
            rw [if_neg e]
            dsimp only
            rw [g]; rfl
          · cases ht
    · intro ctx s v _ ht; simp [typesOk] at ht
  | _ =>
    refine ⟨?_, ?_⟩
    · intro st s v hr hp ht hv
      refine triv st s _ v ?_ hv
      simpa [typeOk] using ht
    · intro ctx s v _ ht; simp [typesOk] at ht

end Verif.Front.Coerce
