import Verif.Front.CoerceSpec
import Mathlib.Tactic.Ring
/-!
# Implicit conversions keep values
-/

namespace Verif.Front.Coerce

/-! ## Ranges -/

theorem pow_le_pow (a b : Nat) (h : a ≤ b) : (2 : Int) ^ a ≤ 2 ^ b := by
  have : (2 : Nat) ^ a ≤ 2 ^ b := Nat.pow_le_pow_right (by omega) h
  exact_mod_cast this

theorem pow_pos' (a : Nat) : (0 : Int) < 2 ^ a := by
  have : 0 < (2 : Nat) ^ a := Nat.pow_pos (by omega)
  exact_mod_cast this

theorem fits_true (w : Nat) (i : Int) : fits true w i = true ↔ -(2 : Int) ^ (w - 1) ≤ i ∧ i < 2 ^ (w - 1) := by
  unfold fits; simp

theorem fits_false (w : Nat) (i : Int) : fits false w i = true ↔ 0 ≤ i ∧ i < 2 ^ w := by
  unfold fits; simp

theorem fits_mono (s : Bool) (w w' : Nat) (i : Int) (h : w ≤ w') (hf : fits s w i = true) : fits s w' i = true := by
  cases s
  · rw [fits_false] at *
    have := pow_le_pow w w' h
    omega
  · rw [fits_true] at *
    have := pow_le_pow (w - 1) (w' - 1) (by omega)
    omega

theorem fits_signed (w w' : Nat) (i : Int) (h : w < w') (hf : fits false w i = true) : fits true w' i = true := by
  rw [fits_false] at hf
  rw [fits_true]
  have := pow_le_pow w (w' - 1) (by omega)
  have := pow_pos' (w' - 1)
  omega

/-! ## Agreement -/

theorem Each.imp {α β : Type} {R S : α → β → Prop} (h : ∀ a b, R a b → S a b) : ∀ (xs : List α) (ys : List β), Each R xs ys → Each S xs ys
  | [], [], _ => trivial
  | _ :: _, _ :: _, ⟨a, b⟩ => ⟨h _ _ a, Each.imp h _ _ b⟩
  | [], _ :: _, h' => h'.elim
  | _ :: _, [], h' => h'.elim

theorem Truth_kind (S S' : Ty) (h : S.kind = S'.kind) (v : V) (b : Bool) (ht : Truth S v b) : Truth S' v b := by
  cases S <;> cases S' <;> simp only [Ty.kind, Ty.enum.injEq, reduceCtorEq] at h <;> try exact ht
  obtain ⟨rfl, rfl⟩ := h
  exact ht

theorem kind_real (S : Ty) (h : S.kind = .real) : S = .real := by cases S <;> simp [Ty.kind] at h; rfl
theorem kind_bool (S : Ty) (h : S.kind = .bool) : S = .bool := by cases S <;> simp [Ty.kind] at h; rfl
theorem kind_string (S : Ty) (h : S.kind = .string) : S = .string := by cases S <;> simp [Ty.kind] at h; rfl
theorem kind_error (S : Ty) (h : S.kind = .error) : S = .error := by cases S <;> simp [Ty.kind] at h; rfl
theorem kind_null (S : Ty) (h : S.kind = .null) : S = .null := by cases S <;> simp [Ty.kind] at h; rfl
theorem kind_interval (S : Ty) (h : S.kind = .interval) : S = .interval := by cases S <;> simp [Ty.kind] at h; rfl
theorem kind_time (S : Ty) (h : S.kind = .time) : S = .time := by cases S <;> simp [Ty.kind] at h; rfl
theorem kind_tnil (S : Ty) (h : S.kind = .tnil) : S = .tnil := by cases S <;> simp [Ty.kind] at h; rfl
theorem kind_enum (S : Ty) (id ls) (h : S.kind = .enum id ls) : S = .enum id ls := by
  cases S <;> simp only [Ty.kind, reduceCtorEq, Ty.enum.injEq] at h; rw [h.1, h.2]
theorem kind_int (S : Ty) (s w) (h : S.kind = .int s w) : ∃ s w, S = .int s w := by
  cases S <;> simp only [Ty.kind, reduceCtorEq] at h; exact ⟨_, _, rfl⟩
theorem kind_list (S t : Ty) (h : S.kind = .list t) : ∃ s, S = .list s ∧ s.kind = t := by
  cases S <;> simp only [Ty.kind, reduceCtorEq, Ty.list.injEq] at h; exact ⟨_, rfl, h⟩
theorem kind_vector (S t : Ty) (h : S.kind = .vector t) : ∃ s, S = .vector s ∧ s.kind = t := by
  cases S <;> simp only [Ty.kind, reduceCtorEq, Ty.vector.injEq] at h; exact ⟨_, rfl, h⟩
theorem kind_set (S t : Ty) (h : S.kind = .set t) : ∃ s, S = .set s ∧ s.kind = t := by
  cases S <;> simp only [Ty.kind, reduceCtorEq, Ty.set.injEq] at h; exact ⟨_, rfl, h⟩
theorem kind_map (S k u : Ty) (h : S.kind = .map k u) : ∃ k' u', S = .map k' u' ∧ k'.kind = k ∧ u'.kind = u := by
  cases S <;> simp only [Ty.kind, reduceCtorEq, Ty.map.injEq] at h; exact ⟨_, _, rfl, h⟩
theorem kind_tcons (S k u : Ty) (h : S.kind = .tcons k u) : ∃ k' u', S = .tcons k' u' ∧ k'.kind = k ∧ u'.kind = u := by
  cases S <;> simp only [Ty.kind, reduceCtorEq, Ty.tcons.injEq] at h; exact ⟨_, _, rfl, h⟩

/-- Agreement does not depend on the widths of the integers of the first type. -/
theorem Agree.kind {ctx : Bool} (T : Ty) : ∀ (S S' : Ty) (v v' : V), S.kind = S'.kind → Agree ctx S T v v' → Agree ctx S' T v v' := by
  induction T with
  | int s w =>
    intro S S' v v' h ha
    simp only [Agree] at *
    rcases ha with ⟨a, b⟩ | ⟨rfl, a⟩
    · exact .inl ⟨h ▸ a, b⟩
    · exact .inr ⟨kind_real _ h.symm, a⟩
  | real =>
    intro S S' v v' h ha
    simp only [Agree] at *
    rcases ha with ⟨rfl, b⟩ | ⟨⟨s, w, rfl⟩, a⟩
    · exact .inl ⟨kind_real _ h.symm, b⟩
    · exact .inr ⟨kind_int _ _ _ h.symm, a⟩
  | bool =>
    intro S S' v v' h ha
    simp only [Agree] at *
    rcases ha with ⟨rfl, b⟩ | ⟨c, b, e, a⟩
    · exact .inl ⟨kind_bool _ h.symm, b⟩
    · exact .inr ⟨c, b, e, Truth_kind _ _ h _ _ a⟩
  | error =>
    intro S S' v v' h ha
    simp only [Agree] at *
    rcases ha with ⟨rfl, b⟩ | ⟨c, s, rfl, a⟩
    · exact .inl ⟨kind_error _ h.symm, b⟩
    · exact .inr ⟨c, s, kind_string _ h.symm, a⟩
  | optional d ih =>
    intro S S' v v' h ha
    simp only [Agree] at *
    rcases ha with ⟨a, b⟩ | ⟨rfl, a⟩ | ⟨a, b⟩ | ⟨x, e, a⟩
    · exact .inl ⟨h ▸ a, b⟩
    · exact .inr (.inl ⟨kind_null _ h.symm, a⟩)
    · exact .inr (.inr (.inl ⟨h ▸ a, b⟩))
    · exact .inr (.inr (.inr ⟨x, e, ih _ _ _ _ h a⟩))
  | result d ih =>
    intro S S' v v' h ha
    simp only [Agree] at *
    rcases ha with ⟨a, b⟩ | ⟨rfl, a⟩ | ⟨x, e, a⟩
    · exact .inl ⟨h ▸ a, b⟩
    · exact .inr (.inl ⟨kind_error _ h.symm, a⟩)
    · exact .inr (.inr ⟨x, e, ih _ _ _ _ h a⟩)
  | list d ih =>
    intro S S' v v' h ha
    simp only [Agree] at *
    rcases ha with ⟨a, b⟩ | ⟨s, rfl, vs, vs', e1, e2, a⟩
    · exact .inl ⟨h ▸ a, b⟩
    · obtain ⟨s', rfl, hs⟩ := kind_list _ _ h.symm
      exact .inr ⟨s', rfl, vs, vs', e1, e2, a.imp (fun _ _ => ih _ _ _ _ hs.symm)⟩
  | vector d ih =>
    intro S S' v v' h ha
    simp only [Agree] at *
    rcases ha with ⟨a, b⟩ | ⟨s, rfl | rfl, vs, vs', e1, e2, a⟩
    · exact .inl ⟨h ▸ a, b⟩
    · obtain ⟨s', rfl, hs⟩ := kind_list _ _ h.symm
      exact .inr ⟨s', .inl rfl, vs, vs', e1, e2, a.imp (fun _ _ => ih _ _ _ _ hs.symm)⟩
    · obtain ⟨s', rfl, hs⟩ := kind_vector _ _ h.symm
      exact .inr ⟨s', .inr rfl, vs, vs', e1, e2, a.imp (fun _ _ => ih _ _ _ _ hs.symm)⟩
  | set d ih =>
    intro S S' v v' h ha
    simp only [Agree] at *
    rcases ha with ⟨a, b⟩ | ⟨s, rfl, vs, vs', e1, e2, a⟩ | ⟨s, rfl, vs, vs', e1, e2, a⟩
    · exact .inl ⟨h ▸ a, b⟩
    · obtain ⟨s', rfl, hs⟩ := kind_list _ _ h.symm
      exact .inr (.inl ⟨s', rfl, vs, vs', e1, e2, a.imp (fun _ _ => ih _ _ _ _ hs.symm)⟩)
    · obtain ⟨s', rfl, hs⟩ := kind_set _ _ h.symm
      exact .inr (.inr ⟨s', rfl, vs, vs', e1, e2, a.imp (fun _ _ => ih _ _ _ _ hs.symm)⟩)
  | map k u ihk ihu =>
    intro S S' v v' h ha
    simp only [Agree] at *
    rcases ha with ⟨a, b⟩ | ⟨k', u', rfl, vs, vs', e1, e2, a⟩
    · exact .inl ⟨h ▸ a, b⟩
    · obtain ⟨s', t', rfl, hs, ht⟩ := kind_map _ _ _ h.symm
      exact .inr ⟨s', t', rfl, vs, vs', e1, e2, a.imp (fun _ _ h => ⟨ihk _ _ _ _ hs.symm h.1, ihu _ _ _ _ ht.symm h.2⟩)⟩
  | tcons d ds ihd ihs =>
    intro S S' v v' h ha
    simp only [Agree] at *
    obtain ⟨s, ss, rfl, x, xs, x', xs', e1, e2, a, b⟩ := ha
    obtain ⟨s', t', rfl, hs, ht⟩ := kind_tcons _ _ _ h.symm
    exact ⟨s', t', rfl, x, xs, x', xs', e1, e2, ihd _ _ _ _ hs.symm a, ihs _ _ _ _ ht.symm b⟩
  | string => intro S S' v v' h ha; simp only [Agree] at *; exact ⟨kind_string _ (by rw [← h, ha.1]; rfl), ha.2⟩
  | null => intro S S' v v' h ha; simp only [Agree] at *; exact ⟨kind_null _ (by rw [← h, ha.1]; rfl), ha.2⟩
  | interval => intro S S' v v' h ha; simp only [Agree] at *; exact ⟨kind_interval _ (by rw [← h, ha.1]; rfl), ha.2⟩
  | time => intro S S' v v' h ha; simp only [Agree] at *; exact ⟨kind_time _ (by rw [← h, ha.1]; rfl), ha.2⟩
  | tnil => intro S S' v v' h ha; simp only [Agree] at *; exact ⟨kind_tnil _ (by rw [← h, ha.1]; rfl), ha.2⟩
  | enum id ls => intro S S' v v' h ha; simp only [Agree] at *; exact ⟨kind_enum _ _ _ (by rw [← h, ha.1]; rfl), ha.2⟩

/-- A value agrees with itself. -/
theorem Agree.refl {ctx : Bool} (T : Ty) : ∀ v, HasType T v → Agree ctx T T v v := by
  induction T with
  | tcons d ds ihd ihs =>
    rintro v ⟨x, xs, rfl, a, b⟩
    exact ⟨_, _, rfl, x, xs, x, xs, rfl, rfl, ihd _ a, ihs _ b⟩
  | _ => intro v _; simp only [Agree, true_and, true_or]

theorem Agree.ctx {ctx : Bool} (T : Ty) : ∀ S v v', Agree false S T v v' → Agree ctx S T v v' := by
  induction T with
  | bool =>
    intro S v v' h
    simp only [Agree, Bool.false_eq_true, false_and, or_false] at *
    exact .inl h
  | error =>
    intro S v v' h
    simp only [Agree, Bool.false_eq_true, false_and, or_false] at *
    exact .inl h
  | optional d ih =>
    intro S v v' h
    simp only [Agree] at *
    rcases h with a | a | a | ⟨x, e, a⟩
    · exact .inl a
    · exact .inr (.inl a)
    · exact .inr (.inr (.inl a))
    · exact .inr (.inr (.inr ⟨x, e, ih _ _ _ a⟩))
  | result d ih =>
    intro S v v' h
    simp only [Agree] at *
    rcases h with a | a | ⟨x, e, a⟩
    · exact .inl a
    · exact .inr (.inl a)
    · exact .inr (.inr ⟨x, e, ih _ _ _ a⟩)
  | list d ih =>
    intro S v v' h
    simp only [Agree] at *
    rcases h with a | ⟨s, r, vs, vs', e1, e2, a⟩
    · exact .inl a
    · exact .inr ⟨s, r, vs, vs', e1, e2, a.imp (fun _ _ => ih _ _ _)⟩
  | vector d ih =>
    intro S v v' h
    simp only [Agree] at *
    rcases h with a | ⟨s, r, vs, vs', e1, e2, a⟩
    · exact .inl a
    · exact .inr ⟨s, r, vs, vs', e1, e2, a.imp (fun _ _ => ih _ _ _)⟩
  | set d ih =>
    intro S v v' h
    simp only [Agree] at *
    rcases h with a | ⟨s, r, vs, vs', e1, e2, a⟩ | ⟨s, r, vs, vs', e1, e2, a⟩
    · exact .inl a
    · exact .inr (.inl ⟨s, r, vs, vs', e1, e2, a.imp (fun _ _ => ih _ _ _)⟩)
    · exact .inr (.inr ⟨s, r, vs, vs', e1, e2, a.imp (fun _ _ => ih _ _ _)⟩)
  | map k u ihk ihu =>
    intro S v v' h
    simp only [Agree] at *
    rcases h with a | ⟨k', u', r, vs, vs', e1, e2, a⟩
    · exact .inl a
    · exact .inr ⟨k', u', r, vs, vs', e1, e2, a.imp (fun _ _ h => ⟨ihk _ _ _ h.1, ihu _ _ _ h.2⟩)⟩
  | tcons d ds ihd ihs =>
    intro S v v' h
    simp only [Agree] at *
    obtain ⟨s, ss, r, x, xs, x', xs', e1, e2, a, b⟩ := h
    exact ⟨s, ss, r, x, xs, x', xs', e1, e2, ihd _ _ _ a, ihs _ _ _ b⟩
  | _ => intro S v v' h; simp only [Agree] at *; exact h

end Verif.Front.Coerce
