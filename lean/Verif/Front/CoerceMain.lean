import Verif.Front.CoerceSound
/-!
# Conversions of expressions
-/

namespace Verif.Front.Coerce

mutual
/-- Types that are the same but for the widths of integers, also inside tuples. -/
inductive Near : Ty → Ty → Prop where
  | eq {d} : Near d d
  | int {s w s' w'} : Near (.int s w) (.int s' w')
  | tcons {s d ss ds} : Near s d → NearT ss ds → Near (.tcons s ss) (.tcons d ds)
/-- The same for the elements of tuples. -/
inductive NearT : Ty → Ty → Prop where
  | nil : NearT .tnil .tnil
  | cons {s d ss ds} : Near s d → NearT ss ds → NearT (.tcons s ss) (.tcons d ds)
end

/-- The generated code keeps values between such types. -/
theorem near_gen (d : Ty) :
    (∀ (s : Ty) (v : V), Near s d → HasType d v → genCode s d v = some v) ∧
    (∀ (s : Ty) (v : V), NearT s d → HasType d v → genCodes s d v = some v) := by
  induction d with
  | int sg w =>
    refine ⟨?_, fun s v h => by cases h⟩
    intro s v h hv
    obtain ⟨i, rfl, hf⟩ := hv
    cases h with
    | eq => exact genCode_eq _ _
    | int =>
      unfold genCode
      split
      · rfl
      · dsimp only; rw [if_pos hf]
  | tnil =>
    refine ⟨fun s v h hv => by cases h; exact genCode_eq _ _, fun s v h hv => ?_⟩
    cases h; cases hv; rfl
  | tcons d ds ihd ihs =>
    refine ⟨?_, ?_⟩
    · intro s v h hv
      cases h with
      | eq => exact genCode_eq _ _
      | tcons h1 h2 =>
        obtain ⟨x, xs, rfl, hx, hxs⟩ := hv
        unfold genCode
        split
        · rfl
        · dsimp only; rw [ihd.1 _ _ h1 hx, ihs.2 _ _ h2 hxs]
    · intro s v h hv
      cases h with
      | cons h1 h2 =>
        obtain ⟨x, xs, rfl, hx, hxs⟩ := hv
        unfold genCodes
        dsimp only; rw [ihd.1 _ _ h1 hx, ihs.2 _ _ h2 hxs]
  | _ => exact ⟨fun s v h hv => by cases h; exact genCode_eq _ _, fun s v h => by cases h⟩

theorem near_opt {s d : Ty} {v : V} (h : Near s d) (hp : Plain (.optional d)) (hv : HasType d v) :
    genCode s (.optional d) v = some (.opt v) := by
  obtain ⟨_, p1, p2, p3⟩ := hp
  have g := (near_gen d).1 s v h hv
  have e : s ≠ .optional d := by
    rintro rfl
    generalize hs : Ty.optional d = s at h
    cases h with
    | eq => exact p1 d hs.symm
    | int => cases hs
    | tcons => cases hs
  unfold genCode
  rw [if_neg e]
  dsimp only
  cases s with
  | null => cases h; exact absurd rfl p3
  | optional u => cases h; exact absurd rfl (p1 _)
  | result u => cases h; exact absurd rfl (p2 _)
  | _ => dsimp only; rw [g]; rfl

theorem near_res {s d : Ty} {v : V} (h : Near s d) (hp : Plain (.result d)) (hv : HasType d v) :
    genCode s (.result d) v = some (.ok v) := by
  obtain ⟨_, p1, p2, p3, p4⟩ := hp
  have g := (near_gen d).1 s v h hv
  have e : s ≠ .result d := by
    rintro rfl
    generalize hs : Ty.result d = s at h
    cases h with
    | eq => exact p2 d hs.symm
    | int => cases hs
    | tcons => cases hs
  unfold genCode
  rw [if_neg e]
  dsimp only
  cases s with
  | error => cases h; exact absurd rfl p4
  | _ => dsimp only; rw [g]; rfl

theorem EvL.mem {es : List E} : ∀ {vs : List V}, EvL es vs → ∀ x ∈ vs, ∃ e ∈ es, Ev e x := by
  induction es with
  | nil => intro vs h; cases h; intro x hx; cases hx
  | cons e es ih =>
    intro vs h
    cases h with
    | cons h1 h2 =>
      intro x hx
      rcases List.mem_cons.1 hx with rfl | hx
      · exact ⟨e, List.mem_cons_self .., h1⟩
      · obtain ⟨e', a, b⟩ := ih h2 x hx
        exact ⟨e', List.mem_cons_of_mem _ a, b⟩

theorem EvM.mem {es : List (E × E)} : ∀ {vs : List (V × V)}, EvM es vs → ∀ x ∈ vs, ∃ e ∈ es, Ev e.1 x.1 ∧ Ev e.2 x.2 := by
  induction es with
  | nil => intro vs h; cases h; intro x hx; cases hx
  | cons e es ih =>
    intro vs h
    cases h with
    | cons h1 h2 h3 =>
      intro x hx
      rcases List.mem_cons.1 hx with rfl | hx
      · exact ⟨_, List.mem_cons_self .., h1, h2⟩
      · obtain ⟨e', a, b⟩ := ih h3 x hx
        exact ⟨e', List.mem_cons_of_mem _ a, b⟩

theorem EvL.ex {es : List E} (h : ∀ e ∈ es, ∃ v, Ev e v) : ∃ vs, EvL es vs := by
  induction es with
  | nil => exact ⟨[], .nil⟩
  | cons e es ih =>
    obtain ⟨v, hv⟩ := h e (List.mem_cons_self ..)
    obtain ⟨vs, hvs⟩ := ih (fun x hx => h x (List.mem_cons_of_mem _ hx))
    exact ⟨_, .cons hv hvs⟩

theorem EvM.ex {es : List (E × E)} (h : ∀ e ∈ es, ∃ v, Ev e.1 v) (h' : ∀ e ∈ es, ∃ v, Ev e.2 v) : ∃ vs, EvM es vs := by
  induction es with
  | nil => exact ⟨[], .nil⟩
  | cons e es ih =>
    obtain ⟨v, hv⟩ := h e (List.mem_cons_self ..)
    obtain ⟨w, hw⟩ := h' e (List.mem_cons_self ..)
    obtain ⟨vs, hvs⟩ := ih (fun x hx => h x (List.mem_cons_of_mem _ hx)) (fun x hx => h' x (List.mem_cons_of_mem _ hx))
    exact ⟨_, .cons hv hw hvs⟩

/-- Well-typed expressions have a value, and all their values are of their type. -/
theorem Wt.value {e : E} (h : Wt e) : (∃ v, Ev e v) ∧ ∀ v, Ev e v → HasType e.ty v := by
  induction h using Wt.rec (motive_2 := fun c _ => (∃ v, EvC c v) ∧ ∀ v, EvC c v → HasType c.ty v) with
  | dyn h => exact ⟨⟨_, .dyn⟩, fun v hv => by cases hv; exact h⟩
  | ctor h ih => exact ⟨ih.1.imp fun _ => .ctor, fun v hv => by cases hv with | ctor h => exact ih.2 _ h⟩
  | name h ih => exact ⟨ih.1.imp fun _ => .name, fun v hv => by cases hv with | name h => exact ih.2 _ h⟩
  | coerced h hr hp ht ih =>
    obtain ⟨⟨v, hv⟩, ih⟩ := ih
    refine ⟨?_, ?_⟩
    · obtain ⟨v', g, _⟩ := (gen_ok _).1 _ _ v hr hp ht (ih v hv)
      exact ⟨v', .coerced hv g⟩
    · intro v' hv'
      cases hv' with
      | coerced h1 h2 =>
        obtain ⟨v', g, t, _⟩ := (gen_ok _).1 _ _ _ hr hp ht (ih _ h1)
        rw [g] at h2; injection h2 with h2; subst h2; exact t
  | bool => exact ⟨⟨_, .bool⟩, fun v hv => by cases hv; exact ⟨_, rfl⟩⟩
  | real => exact ⟨⟨_, .real⟩, fun v hv => by cases hv; exact ⟨_, rfl⟩⟩
  | str => exact ⟨⟨_, .str⟩, fun v hv => by cases hv; exact ⟨_, rfl⟩⟩
  | err => exact ⟨⟨_, .err⟩, fun v hv => by cases hv; exact ⟨_, rfl⟩⟩
  | null => exact ⟨⟨_, .null⟩, fun v hv => by cases hv; exact rfl⟩
  | int _ hf => exact ⟨⟨_, .int⟩, fun v hv => by cases hv; exact ⟨_, rfl, hf⟩⟩
  | enum => exact ⟨⟨_, .enum⟩, fun v hv => by cases hv; exact ⟨_, rfl⟩⟩
  | unset => exact ⟨⟨_, .unset⟩, fun v hv => by cases hv; exact .inl rfl⟩
  | tnil => exact ⟨⟨_, .tnil⟩, fun v hv => by cases hv; exact rfl⟩
  | tcons _ _ ih1 ih2 =>
    obtain ⟨⟨v, hv⟩, ih1⟩ := ih1
    obtain ⟨⟨vs, hvs⟩, ih2⟩ := ih2
    exact ⟨⟨_, .tcons hv hvs⟩, fun v hv => by cases hv with | tcons a b => exact ⟨_, _, rfl, ih1 _ a, ih2 _ b⟩⟩
  | list _ h ih =>
    refine ⟨(EvL.ex fun e he => (ih e he).1).imp' _ fun _ => .list, fun v hv => ?_⟩
    cases hv with
    | list a =>
      refine ⟨_, rfl, fun x hx => ?_⟩
      obtain ⟨e, he, hx⟩ := a.mem x hx
      exact (h e he).2 x hx
  | vector _ h ih =>
    refine ⟨(EvL.ex fun e he => (ih e he).1).imp' _ fun _ => .vector, fun v hv => ?_⟩
    cases hv with
    | vector a =>
      refine ⟨_, rfl, fun x hx => ?_⟩
      obtain ⟨e, he, hx⟩ := a.mem x hx
      exact (h e he).2 x hx
  | set _ h ih =>
    refine ⟨(EvL.ex fun e he => (ih e he).1).imp' _ fun _ => .set, fun v hv => ?_⟩
    cases hv with
    | set a =>
      refine ⟨_, rfl, fun x hx => ?_⟩
      obtain ⟨e, he, hx⟩ := a.mem x hx
      exact (h e he).2 x hx
  | map _ _ h ih1 ih2 =>
    refine ⟨(EvM.ex (fun e he => (ih1 e he).1) (fun e he => (ih2 e he).1)).imp' _ fun _ => .map, fun v hv => ?_⟩
    cases hv with
    | map a =>
      refine ⟨_, rfl, fun x hx => ?_⟩
      obtain ⟨e, he, hx⟩ := a.mem x hx
      exact ⟨(h e he).1.2 _ hx.1, (h e he).2.2 _ hx.2⟩
  | cast _ ih => exact ⟨ih.1.imp fun _ => .coerced, fun v hv => by cases hv with | coerced h => exact ih.2 _ h⟩

/-! ## The theorem -/

/-- What holds for a converted expression. -/
def Good (ctx : Bool) (e e' : E) (dst : Ty) : Prop :=
  Near e'.ty dst ∧ ∀ v, Ev e v → ∃ v', Ev e' v' ∧ HasType dst v' ∧ Agree ctx e.ty dst v v'

def GoodC (ctx : Bool) (c c' : C) (dst : Ty) : Prop :=
  Near c'.ty dst ∧ ∀ v, EvC c v → ∃ v', EvC c' v' ∧ HasType dst v' ∧ Agree ctx c.ty dst v v'

def GoodT (ctx : Bool) (c c' : C) (dst : Ty) : Prop :=
  NearT c'.ty dst ∧ ∀ v, EvC c v → ∃ v', EvC c' v' ∧ HasType dst v' ∧ Agree ctx c.ty dst v v'

theorem list_ok {ctx : Bool} {d t : Ty} {f : E → Option E} (es : List E) (es' : List E) (h : allOf f es = some es')
    (hk : ∀ e ∈ es, e.ty.kind = t.kind)
    (hf : ∀ e ∈ es, ∀ e', f e = some e' → Good ctx e e' d) :
    ∀ vs, EvL es vs → ∃ vs', EvL es' vs' ∧ (∀ x ∈ vs', HasType d x) ∧ Each (Agree ctx t d) vs vs' := by
  induction es generalizing es' with
  | nil =>
    intro vs hv; cases hv
    cases h
    exact ⟨[], .nil, (fun x hx => by cases hx), trivial⟩
  | cons e es ih =>
    intro vs hv
    cases hv with
    | cons h1 h2 =>
      unfold allOf at h
      split at h
      · cases h
      · rename_i y hy
        split at h
        · cases h
        · rename_i ys hys
          injection h with h; subst h
          obtain ⟨vs', a, b, c⟩ := ih ys hys (fun e he => hk e (List.mem_cons_of_mem _ he)) (fun e he => hf e (List.mem_cons_of_mem _ he)) _ h2
          obtain ⟨v', a', b', c'⟩ := (hf e (List.mem_cons_self ..) _ hy).2 _ h1
          refine ⟨v' :: vs', .cons a' a, ?_, c'.kind _ _ _ _ _ (hk e (List.mem_cons_self ..)), c⟩
          intro x hx
          rcases List.mem_cons.1 hx with rfl | hx
          · exact b'
          · exact b x hx

theorem map_ok {ctx : Bool} {d u t r : Ty} {f : E × E → Option (E × E)} (es : List (E × E)) (es' : List (E × E)) (h : allOf f es = some es')
    (hk : ∀ e ∈ es, e.1.ty.kind = t.kind ∧ e.2.ty.kind = r.kind)
    (hf : ∀ e ∈ es, ∀ e', f e = some e' → Good ctx e.1 e'.1 d ∧ Good ctx e.2 e'.2 u) :
    ∀ vs, EvM es vs → ∃ vs', EvM es' vs' ∧ (∀ x ∈ vs', HasType d x.1 ∧ HasType u x.2) ∧
      Each (fun a b => Agree ctx t d a.1 b.1 ∧ Agree ctx r u a.2 b.2) vs vs' := by
  induction es generalizing es' with
  | nil =>
    intro vs hv; cases hv
    cases h
    exact ⟨[], .nil, (fun x hx => by cases hx), trivial⟩
  | cons e es ih =>
    intro vs hv
    cases hv with
    | cons h1 h2 h3 =>
      unfold allOf at h
      split at h
      · cases h
      · rename_i y hy
        split at h
        · cases h
        · rename_i ys hys
          injection h with h; subst h
          obtain ⟨vs', a, b, c⟩ := ih ys hys (fun e he => hk e (List.mem_cons_of_mem _ he)) (fun e he => hf e (List.mem_cons_of_mem _ he)) _ h3
          obtain ⟨g1, g2⟩ := hf _ (List.mem_cons_self ..) _ hy
          obtain ⟨v', a', b', c'⟩ := g1.2 _ h1
          obtain ⟨w', a2, b2, c2⟩ := g2.2 _ h2
          obtain ⟨k1, k2⟩ := hk _ (List.mem_cons_self ..)
          refine ⟨(v', w') :: vs', .cons a' a2 a, ?_, ⟨c'.kind _ _ _ _ _ k1, c2.kind _ _ _ _ _ k2⟩, c⟩
          intro x hx
          rcases List.mem_cons.1 hx with rfl | hx
          · exact ⟨b', b2⟩
          · exact b x hx

theorem signed_real (wild i : Int) (hw : toDouble wild < 2 ^ 63) (d : Dbl) (h : signedAsReal wild i = some d) :
    d = .fin i 0 := by
  unfold signedAsReal at h
  dsimp only at h
  split at h
  · rename_i hc
    obtain ⟨_, _, h3⟩ := hc
    unfold castSigned at h3
    split at h3
    · rw [h3] at h; injection h with h; exact h.symm
    · subst h3; omega
  · cases h

theorem unsigned_real (i : Int) (d : Dbl) (h : unsignedAsReal i = some d) : d = .fin i 0 := by
  unfold unsignedAsReal at h
  dsimp only at h
  split at h
  · rename_i hc
    rw [hc.2] at h; injection h with h; exact h.symm
  · cases h

/-- An accepted conversion gives an expression of the type, up to the widths of integers, that has a value of the type that agrees. -/
theorem coerce_good (wild : Int) (hw : toDouble wild < 2 ^ 63) (n : Nat) :
    (∀ (st : Style) (e e' : E) (dst : Ty), st.Real → Plain dst → Wt e → coerceExpr wild n st e dst = some e' → Good st.contextual e e' dst) ∧
    (∀ (st : Style) (c c' : C) (dst : Ty), st.Real → Plain dst → WtC c → coerceCtor wild n st c dst = some c' → GoodC st.contextual c c' dst) ∧
    (∀ (ctx : Bool) (c c' : C) (dst : Ty), Plain dst → WtC c → coerceTail wild n c dst = some c' → GoodT ctx c c' dst) := by
  induction n with
  | zero => exact ⟨fun _ _ _ _ _ _ _ h => by simp [coerceExpr] at h, fun _ _ _ _ _ _ _ h => by simp [coerceCtor] at h,
      fun _ _ _ _ _ _ h => by simp [coerceTail] at h⟩
  | succ n ih =>
    obtain ⟨ihE, ihC, ihT⟩ := ih
    refine ⟨?_, ?_, ?_⟩
    · intro st e e' dst hr hp hw' h
      unfold coerceExpr at h
      split at h
      · rename_i hc
        injection h with h; subst h
        rw [Bool.and_eq_true, decide_eq_true_eq] at hc
        obtain ⟨_, rfl⟩ := hc
        exact ⟨.eq, fun v hv => ⟨v, hv, hw'.value.2 v hv, Agree.refl _ _ (hw'.value.2 v hv)⟩⟩
      · split at h
        · rename_i x hx
          injection h with h; subst h
          split at hx
          · split at hx
            · rename_i d _
              cases hy : coerceExpr wild n st e d with
              | none => rw [hy] at hx; cases hx
              | some y =>
                rw [hy] at hx; injection hx with hx; subst hx
                obtain ⟨g1, g2⟩ := ihE st e y d hr hp.1 hw' hy
                refine ⟨.eq, fun v hv => ?_⟩
                obtain ⟨v', a, b, c⟩ := g2 v hv
                exact ⟨.opt v', .coerced a (near_opt g1 hp b), .inr ⟨_, rfl, b⟩, .inr (.inr (.inr ⟨_, rfl, c⟩))⟩
            · rename_i d _
              cases hy : coerceExpr wild n st e d with
              | none => rw [hy] at hx; cases hx
              | some y =>
                rw [hy] at hx; injection hx with hx; subst hx
                obtain ⟨g1, g2⟩ := ihE st e y d hr hp.1 hw' hy
                refine ⟨.eq, fun v hv => ?_⟩
                obtain ⟨v', a, b, c⟩ := g2 v hv
                exact ⟨.ok v', .coerced a (near_res g1 hp b), .inr ⟨_, rfl, b⟩, .inr (.inr ⟨_, rfl, c⟩)⟩
            · cases hx
          · cases hx
        · split at h
          · split at h
            · rename_i x hx
              injection h with h; subst h
              split at hx
              · rename_i c hc
                cases hy : coerceCtor wild n st c dst with
                | none => rw [hy] at hx; cases hx
                | some y =>
                  rw [hy] at hx; injection hx with hx; subst hx
                  cases e with
                  | ctor c0 =>
                    injection hc with hc; subst hc
                    cases hw' with
                    | ctor hw' =>
                      obtain ⟨g1, g2⟩ := ihC st _ y dst hr hp hw' hy
                      refine ⟨g1, fun v hv => ?_⟩
                      cases hv with
                      | ctor hv =>
                        obtain ⟨v', a, b⟩ := g2 v hv
                        exact ⟨v', .ctor (.coerced a), b⟩
                  | name c0 =>
                    injection hc with hc; subst hc
                    cases hw' with
                    | name hw' =>
                      obtain ⟨g1, g2⟩ := ihC st _ y dst hr hp hw' hy
                      refine ⟨g1, fun v hv => ?_⟩
                      cases hv with
                      | name hv =>
                        obtain ⟨v', a, b⟩ := g2 v hv
                        exact ⟨v', .ctor (.coerced a), b⟩
                  | _ => cases hc
              · cases hx
            · split at h
              · rename_i ht
                injection h with h; subst h
                refine ⟨.eq, fun v hv => ?_⟩
                obtain ⟨v', g, t, a⟩ := (gen_ok dst).1 st _ v hr hp ht (hw'.value.2 v hv)
                exact ⟨v', .coerced hv g, t, a⟩
              · cases h
          · cases h
    · intro st c c' dst hr hp hwc h
      have hval : ∀ v, EvC c v → HasType c.ty v := fun v hv => (Wt.ctor hwc).value.2 v (.ctor hv)
      have ihA : ∀ (e e' : E) (d : Ty), Plain d → Wt e → coerceExpr wild n forAssignment e d = some e' → Good st.contextual e e' d := by
        intro e e' d hp hw' h
        obtain ⟨g1, g2⟩ := ihE forAssignment e e' d (by intro h; cases h) hp hw' h
        exact ⟨g1, fun v hv => by obtain ⟨v', a, b, c⟩ := g2 v hv; exact ⟨v', a, b, c.ctx⟩⟩
      unfold coerceCtor at h
      split at h
      · rename_i hc
        injection h with h; subst h; subst hc
        exact ⟨.eq, fun v hv => ⟨v, hv, hval v hv, Agree.refl _ _ (hval v hv)⟩⟩
      · rename_i hne
        split at h
        -- enum to bool
        · rename_i id ls nn u
          split at h
          · rename_i hc
            injection h with h; subst h
            refine ⟨.eq, fun v hv => ?_⟩
            cases hv
            cases hwc with
            | enum h1 h2 =>
              refine ⟨_, .bool, ⟨_, rfl⟩, .inr ⟨hc, _, rfl, _, rfl, ?_⟩⟩
              cases u with
              | false => simp at h2; simp [h1, h2]
              | true => simp at h2; simp [h2]
          · cases h
        -- map
        · rename_i k0 v0 es k u
          rw [Option.map_eq_some_iff] at h
          obtain ⟨xs, hy, rfl⟩ := h
          refine ⟨.eq, fun v hv => ?_⟩
          cases hv with
          | map hv =>
            cases hwc with
            | map w1 w2 w3 =>
              obtain ⟨vs', a, b, c⟩ := map_ok (ctx := st.contextual) (d := k) (u := u) es xs hy (fun e he => ⟨(w3 e he).1.1, (w3 e he).2.1⟩)
                (fun e he e' h' => by
                  split at h'
                  · rename_i a b ha hb
                    injection h' with h'; subst h'
                    exact ⟨ihE _ _ _ _ hr hp.1 (w1 e he) ha, ihE _ _ _ _ hr hp.2 (w2 e he) hb⟩
                  · cases h') _ hv
              exact ⟨_, .map a, ⟨_, rfl, b⟩, .inr ⟨_, _, rfl, _, _, rfl, rfl, c⟩⟩
        -- null to optional
        · injection h with h; subst h
          exact ⟨.eq, fun v hv => ⟨_, .unset, .inl rfl, .inr (.inl ⟨rfl, rfl⟩)⟩⟩
        -- null to bool
        · split at h
          · rename_i hc
            injection h with h; subst h
            exact ⟨.eq, fun v hv => ⟨_, .bool, ⟨_, rfl⟩, .inr ⟨hc, _, rfl, rfl⟩⟩⟩
          · cases h
        -- list to list
        · rename_i t0 es t
          cases hy : allOf (fun e => coerceExpr wild n forAssignment e t) es with
          | none => rw [hy] at h; cases h
          | some xs =>
            rw [hy] at h; injection h with h; subst h
            refine ⟨.eq, fun v hv => ?_⟩
            cases hv with
            | list hv =>
              cases hwc with
              | list w1 w3 =>
                obtain ⟨vs', a, b, c⟩ := list_ok (ctx := st.contextual) (d := t) es xs hy (fun e he => (w3 e he).1)
                  (fun e he e' h' => ihA _ _ _ hp (w1 e he) h') _ hv
                exact ⟨_, .list a, ⟨_, rfl, b⟩, .inr ⟨_, rfl, _, _, rfl, rfl, c⟩⟩
        -- list to vector
        · rename_i t0 es t
          cases hy : allOf (fun e => coerceExpr wild n forAssignment e t) es with
          | none => rw [hy] at h; cases h
          | some xs =>
            rw [hy] at h; injection h with h; subst h
            refine ⟨.eq, fun v hv => ?_⟩
            cases hv with
            | list hv =>
              cases hwc with
              | list w1 w3 =>
                obtain ⟨vs', a, b, c⟩ := list_ok (ctx := st.contextual) (d := t) es xs hy (fun e he => (w3 e he).1)
                  (fun e he e' h' => ihA _ _ _ hp (w1 e he) h') _ hv
                exact ⟨_, .vector a, ⟨_, rfl, b⟩, .inr ⟨_, .inl rfl, _, _, rfl, rfl, c⟩⟩
        -- list to set
        · rename_i t0 es t
          cases hy : allOf (fun e => coerceExpr wild n forAssignment e t) es with
          | none => rw [hy] at h; cases h
          | some xs =>
            rw [hy] at h; injection h with h; subst h
            refine ⟨.eq, fun v hv => ?_⟩
            cases hv with
            | list hv =>
              cases hwc with
              | list w1 w3 =>
                obtain ⟨vs', a, b, c⟩ := list_ok (ctx := st.contextual) (d := t) es xs hy (fun e he => (w3 e he).1)
                  (fun e he e' h' => ihA _ _ _ hp (w1 e he) h') _ hv
                exact ⟨_, .set a, ⟨_, rfl, b⟩, .inr (.inl ⟨_, rfl, _, _, rfl, rfl, c⟩)⟩
        -- real to int
        · rename_i d sg w
          split at h
          · rename_i hc
            rw [Bool.and_eq_true] at hc
            split at h
            · rename_i m ex
              injection h with h; subst h
              have h2 := hc.2
              unfold isRepresentable at h2
              rw [Bool.and_eq_true, decide_eq_true_eq] at h2
              refine ⟨.eq, fun v hv => ?_⟩
              cases hv
              refine ⟨_, .int, ⟨_, rfl, h2.2⟩, .inr ⟨rfl, _, m, ex, rfl, rfl, ?_⟩⟩
              exact (Int.ediv_mul_cancel (Int.dvd_of_emod_eq_zero h2.1)).symm
            · cases h
          · cases h
        -- set to set
        · rename_i t0 es t
          cases hy : allOf (fun e => coerceExpr wild n st e t) es with
          | none => rw [hy] at h; cases h
          | some xs =>
            rw [hy] at h; injection h with h; subst h
            refine ⟨.eq, fun v hv => ?_⟩
            cases hv with
            | set hv =>
              cases hwc with
              | set w1 w3 =>
                obtain ⟨vs', a, b, c⟩ := list_ok (ctx := st.contextual) (d := t) es xs hy (fun e he => (w3 e he).1)
                  (fun e he e' h' => ihE _ _ _ _ hr hp (w1 e he) h') _ hv
                exact ⟨_, .set a, ⟨_, rfl, b⟩, .inr (.inr ⟨_, rfl, _, _, rfl, rfl, c⟩)⟩
        -- vector to vector
        · rename_i t0 es t
          cases hy : allOf (fun e => coerceExpr wild n st e t) es with
          | none => rw [hy] at h; cases h
          | some xs =>
            rw [hy] at h; injection h with h; subst h
            refine ⟨.eq, fun v hv => ?_⟩
            cases hv with
            | vector hv =>
              cases hwc with
              | vector w1 w3 =>
                obtain ⟨vs', a, b, c⟩ := list_ok (ctx := st.contextual) (d := t) es xs hy (fun e he => (w3 e he).1)
                  (fun e he e' h' => ihE _ _ _ _ hr hp (w1 e he) h') _ hv
                exact ⟨_, .vector a, ⟨_, rfl, b⟩, .inr ⟨_, .inr rfl, _, _, rfl, rfl, c⟩⟩
        -- integers
        · rename_i w i w'
          cases hwc with
          | int hw64 hf =>
            split at h
            · rename_i hc
              injection h with h; subst h; subst hc
              exact ⟨.int, fun v hv => by cases hv; exact ⟨_, .int, ⟨_, rfl, fits_mono _ _ _ _ hw64 hf⟩, .inl ⟨rfl, rfl⟩⟩⟩
            · split at h
              · rename_i hc
                injection h with h; subst h
                exact ⟨.int, fun v hv => by cases hv; exact ⟨_, .int, ⟨_, rfl, hc⟩, .inl ⟨rfl, rfl⟩⟩⟩
              · cases h
        · rename_i i w'
          split at h
          · rename_i hc
            injection h with h; subst h
            exact ⟨.int, fun v hv => by cases hv; exact ⟨_, .int, ⟨_, rfl, hc.2⟩, .inl ⟨rfl, rfl⟩⟩⟩
          · cases h
        · rename_i w i w'
          cases hwc with
          | int hw64 hf =>
            split at h
            · rename_i hc
              injection h with h; subst h; subst hc
              exact ⟨.int, fun v hv => by cases hv; exact ⟨_, .int, ⟨_, rfl, fits_mono _ _ _ _ hw64 hf⟩, .inl ⟨rfl, rfl⟩⟩⟩
            · split at h
              · rename_i hc
                injection h with h; subst h
                exact ⟨.int, fun v hv => by cases hv; exact ⟨_, .int, ⟨_, rfl, hc⟩, .inl ⟨rfl, rfl⟩⟩⟩
              · cases h
        · rename_i i w'
          split at h
          · rename_i hc
            injection h with h; subst h
            exact ⟨.int, fun v hv => by cases hv; exact ⟨_, .int, ⟨_, rfl, hc.2⟩, .inl ⟨rfl, rfl⟩⟩⟩
          · cases h
        · rename_i i
          cases hy : signedAsReal wild i with
          | none => rw [hy] at h; cases h
          | some d =>
            rw [hy] at h; injection h with h; subst h
            rw [signed_real wild i hw d hy]
            exact ⟨.eq, fun v hv => by cases hv; exact ⟨_, .real, ⟨_, rfl⟩, .inr ⟨⟨_, _, rfl⟩, i, i, 0, rfl, rfl, by simp⟩⟩⟩
        · rename_i i
          cases hy : unsignedAsReal i with
          | none => rw [hy] at h; cases h
          | some d =>
            rw [hy] at h; injection h with h; subst h
            rw [unsigned_real i d hy]
            exact ⟨.eq, fun v hv => by cases hv; exact ⟨_, .real, ⟨_, rfl⟩, .inr ⟨⟨_, _, rfl⟩, i, i, 0, rfl, rfl, by simp⟩⟩⟩
        · split at h
          · rename_i hc
            injection h with h; subst h
            exact ⟨.eq, fun v hv => by cases hv; exact ⟨_, .bool, ⟨_, rfl⟩, .inr ⟨hc, _, rfl, _, rfl, by simp⟩⟩⟩
          · cases h
        · split at h
          · rename_i hc
            injection h with h; subst h
            exact ⟨.eq, fun v hv => by cases hv; exact ⟨_, .err, ⟨_, rfl⟩, .inr ⟨hc, _, rfl, rfl, rfl⟩⟩⟩
          · cases h
        · rename_i e c t ts
          cases hwc with
          | tcons w1 w2 =>
            split at h
            · rename_i e' c' he hc
              injection h with h; subst h
              obtain ⟨g1, g2⟩ := ihA _ _ _ hp.1 w1 he
              obtain ⟨g3, g4⟩ := ihT st.contextual _ _ _ hp.2 w2 hc
              refine ⟨.tcons g1 g3, fun v hv => ?_⟩
              cases hv with
              | tcons hv1 hv2 =>
                obtain ⟨v1, a1, b1, c1⟩ := g2 _ hv1
                obtain ⟨v2, a2, b2, c2⟩ := g4 _ hv2
                exact ⟨_, .tcons a1 a2, ⟨_, _, rfl, b1, b2⟩, _, _, rfl, _, _, _, _, rfl, rfl, c1, c2⟩
            · cases h
        · cases h
    · intro ctx c c' dst hp hwc h
      unfold coerceTail at h
      split at h
      · injection h with h; subst h
        exact ⟨.nil, fun v hv => by cases hv; exact ⟨_, .tnil, rfl, rfl, rfl⟩⟩
      · rename_i e c t ts
        cases hwc with
        | tcons w1 w2 =>
          split at h
          · rename_i e' c' he hc
            injection h with h; subst h
            obtain ⟨g1, g2⟩ := ihE forAssignment e e' t (by intro h; cases h) hp.1 w1 he
            obtain ⟨g3, g4⟩ := ihT ctx _ _ _ hp.2 w2 hc
            refine ⟨.cons g1 g3, fun v hv => ?_⟩
            cases hv with
            | tcons hv1 hv2 =>
              obtain ⟨v1, a1, b1, c1⟩ := g2 _ hv1
              obtain ⟨v2, a2, b2, c2⟩ := g4 _ hv2
              exact ⟨_, .tcons a1 a2, ⟨_, _, rfl, b1, b2⟩, _, _, rfl, _, _, _, _, rfl, rfl, c1.ctx, c2⟩
          · cases h
      · cases h

end Verif.Front.Coerce
