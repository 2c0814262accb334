import Verif.Front.Fold
/-!
# Folding constants keeps what expressions mean
-/

namespace Verif.Front.Fold

variable (S : Sem)

theorem bind_ok {α β : Type} {x : Res α} {f : α → Res β} {r : β} (h : x.bind f = .ok r) : ∃ a, x = .ok a ∧ f a = .ok r := by
  cases x with
  | ok a => exact ⟨a, rfl, h⟩
  | throw e => cases h
  | ub => cases h

theorem exact_ok {v r : Val} (h : exact v = .ok r) : r = v ∧ Fits v := by
  unfold exact at h
  split at h
  · injection h with h; exact ⟨h.symm, by assumption⟩
  · cases h

theorem foldUn_sound {u : Un} {x v r : Val} (hf : foldUn S u x = .ok (some v)) (he : evalUn S u x = .ok r) : r = v := by
  cases u <;> cases x <;> simp only [foldUn, evalUn] at hf he <;>
    first
    | (cases hf; done)
    | (cases he; done)
    | (split at hf
       · first
         | (cases hf; done)
         | (rename_i ht; rw [if_pos ht] at he; obtain ⟨a, ha, hb⟩ := bind_ok hf; injection hb with hb; injection hb with hb
            rw [he] at ha; injection ha with ha; exact ha.trans hb)
       · first
         | (injection hf with hf; injection hf with hf; rw [← hf]; exact (exact_ok he).1)
         | (cases hf; done))
    | (injection hf with hf; injection hf with hf; rw [← hf]; first | exact (exact_ok he).1 | (injection he with he; exact he.symm))

/-- **C75.** What the compiler computes for an expression is the value the expression has, if it has one: with any style, for any
    expression. -/
theorem fold_sound (st : Style) : ∀ (e : Expr) (v r : Val), fold S st e = .ok (some v) → eval S e = .ok r → r = v := by
  intro e
  induction e with
  | ctor x =>
    intro v r hf he
    simp only [fold, eval] at hf he
    injection hf with hf; injection hf with hf; injection he with he
    exact he.symm.trans hf
  | un u e ih =>
    intro v r hf he
    simp only [fold, eval] at hf he
    obtain ⟨o, ho, hf⟩ := bind_ok hf
    obtain ⟨x, hx, he⟩ := bind_ok he
    cases o with
    | none => cases hf
    | some y =>
      have hxy := ih y x ho hx
      subst hxy
      exact foldUn_sound S hf he
  | bin o a b iha ihb =>
    intro v r hf he
    cases o with
    | other k => simp only [fold] at hf; cases hf
    | or =>
      simp only [fold, eval] at hf he
      obtain ⟨x, hx, hf⟩ := bind_ok hf
      obtain ⟨y, hy, hf⟩ := bind_ok hf
      obtain ⟨z, hz, he⟩ := bind_ok he
      cases x with
      | none => cases hf
      | some x =>
        cases y with
        | none => cases hf
        | some y =>
          have hxz := iha x z hx hz
          subst hxz
          simp only [Res.ok.injEq] at hf
          cases z with
          | bool p =>
            cases y with
            | bool q =>
              simp only [foldBin] at hf
              injection hf with hf
              subst hf
              cases p with
              | true => simp only at he; injection he with he; rw [← he]; rfl
              | false => simp only at he; exact ihb (.bool q) r hy he
            | sint => cases hf
            | uint => cases hf
            | other => cases hf
          | sint => cases he
          | uint => cases he
          | other => cases he
    | and =>
      simp only [fold, eval] at hf he
      obtain ⟨x, hx, hf⟩ := bind_ok hf
      obtain ⟨y, hy, hf⟩ := bind_ok hf
      obtain ⟨z, hz, he⟩ := bind_ok he
      cases x with
      | none => cases hf
      | some x =>
        cases y with
        | none => cases hf
        | some y =>
          have hxz := iha x z hx hz
          subst hxz
          simp only [Res.ok.injEq] at hf
          cases z with
          | bool p =>
            cases y with
            | bool q =>
              simp only [foldBin] at hf
              injection hf with hf
              subst hf
              cases p with
              | true => simp only at he; exact ihb (.bool q) r hy he
              | false => simp only at he; injection he with he; rw [← he]; rfl
            | sint => cases hf
            | uint => cases hf
            | other => cases hf
          | sint => cases he
          | uint => cases he
          | other => cases he
  | ternary c a b ihc _ _ =>
    intro v r hf he
    simp only [fold, eval] at hf he
    split at hf
    · cases hf
    · obtain ⟨x, hx, hf⟩ := bind_ok hf
      obtain ⟨z, hz, he⟩ := bind_ok he
      cases x with
      | none => cases hf
      | some x =>
        have hxz := ihc x z hx hz
        subst hxz
        cases z with
        | sint => cases he
        | uint => cases he
        | other => cases he
        | bool p =>
          cases a <;> cases b <;> simp only at hf <;> first | (cases hf; done) | skip
          injection hf with hf; injection hf with hf
          subst hf
          cases p <;> (simp only [eval] at he; injection he with he; exact he.symm)
  | name f b e ih =>
    intro v r hf he
    simp only [fold, eval] at hf he
    split at hf
    · cases hf
    · exact ih v r hf he

/-- Only constant expressions are folded. -/
theorem fold_constant (st : Style) : ∀ (e : Expr) (v : Val), fold S st e = .ok (some v) → constant e = true := by
  intro e
  induction e with
  | ctor x => intros; rfl
  | un u e ih =>
    intro v hf
    simp only [fold] at hf
    obtain ⟨o, ho, hf⟩ := bind_ok hf
    cases o with
    | none => cases hf
    | some y => exact ih y ho
  | bin o a b iha ihb =>
    intro v hf
    cases o with
    | other k => simp only [fold] at hf; cases hf
    | or =>
      simp only [fold] at hf
      obtain ⟨x, hx, hf⟩ := bind_ok hf
      obtain ⟨y, hy, hf⟩ := bind_ok hf
      cases x with
      | none => cases hf
      | some x =>
        cases y with
        | none => cases hf
        | some y => simp only [constant, iha x hx, ihb y hy, Bool.and_self]
    | and =>
      simp only [fold] at hf
      obtain ⟨x, hx, hf⟩ := bind_ok hf
      obtain ⟨y, hy, hf⟩ := bind_ok hf
      cases x with
      | none => cases hf
      | some x =>
        cases y with
        | none => cases hf
        | some y => simp only [constant, iha x hx, ihb y hy, Bool.and_self]
  | ternary c a b ihc _ _ =>
    intro v hf
    simp only [fold] at hf
    split at hf
    · cases hf
    · obtain ⟨x, hx, hf⟩ := bind_ok hf
      cases x with
      | none => cases hf
      | some x =>
        have hc := ihc x hx
        cases x with
        | sint => cases hf
        | uint => cases hf
        | other => cases hf
        | bool p =>
          cases a <;> cases b <;> simp only at hf <;> first | (cases hf; done) | skip
          simp only [constant, hc, Bool.and_self]
  | name f b e ih =>
    intro v hf
    simp only [fold] at hf
    split at hf
    · cases hf
    · exact ih v hf

theorem foldExpression_fold {st : Style} {e : Expr} {v : Val} (h : foldExpression S st e = .ok (some v)) :
    fold S st e = .ok (some v) := by
  cases e with
  | name f b e =>
    simp only [foldExpression] at h
    split at h
    · cases h
    · exact h
  | ctor => exact h
  | un => exact h
  | bin => exact h
  | ternary => exact h

/-- What a node becomes. -/
theorem atNode_cases {st : Style} {n : Expr} {k m : Nat} {r : Visited} (h : atNode S st n k m = .ok r) :
    (r.tree = n ∧ r.replaced = k ∧ (r.errors = m ∨ r.errors = m + 1 ∧ ∃ x, foldExpression S st n = .throw x)) ∨
    (∃ v, r.tree = .ctor v ∧ r.replaced = k + 1 ∧ r.errors = m ∧ fold S st n = .ok (some v) ∧ ∀ w, n ≠ .ctor w) := by
  unfold atNode at h
  split at h
  · injection h with h; subst h; exact Or.inl ⟨rfl, rfl, Or.inl rfl⟩
  · rename_i hn
    split at h
    · injection h with h; subst h; exact Or.inl ⟨rfl, rfl, Or.inl rfl⟩
    · rename_i hv
      injection h with h; subst h
      exact Or.inr ⟨_, rfl, rfl, rfl, foldExpression_fold S hv, fun w hw => hn w hw⟩
    · rename_i hx
      injection h with h; subst h; exact Or.inl ⟨rfl, rfl, Or.inr ⟨rfl, _, hx⟩⟩
    · cases h

theorem atNode_eval {st : Style} {n : Expr} {k m : Nat} {r : Visited} (h : atNode S st n k m = .ok r) {x : Val}
    (he : eval S n = .ok x) : eval S r.tree = .ok x := by
  rcases atNode_cases S h with ⟨ht, _⟩ | ⟨v, ht, _, _, hf, _⟩
  · rw [ht]; exact he
  · rw [ht, fold_sound S st n v x hf he]; rfl

/-- Operators do not notice when an operand that has no value is replaced. -/
def Monotone : Prop := ∀ k x y x' y' r, (∀ v, x = .ok v → x' = .ok v) → (∀ v, y = .ok v → y' = .ok v) →
  S.op k x y = .ok r → S.op k x' y' = .ok r

theorem visit_value (hS : Monotone S) (st : Style) :
    ∀ (e : Expr) (r : Visited) (v : Val), visit S st e = .ok r → eval S e = .ok v → eval S r.tree = .ok v := by
  intro e
  induction e with
  | ctor x =>
    intro r v hr he
    simp only [visit] at hr
    injection hr with hr; subst hr; exact he
  | un u e ih =>
    intro r v hr he
    simp only [visit] at hr
    obtain ⟨q, hq, hr⟩ := bind_ok hr
    simp only [eval] at he
    obtain ⟨x, hx, he⟩ := bind_ok he
    refine atNode_eval S hr ?_
    simp only [eval, ih q x hq hx]
    exact he
  | bin o a b iha ihb =>
    intro r v hr he
    simp only [visit] at hr
    obtain ⟨q, hq, hr⟩ := bind_ok hr
    obtain ⟨p, hp, hr⟩ := bind_ok hr
    refine atNode_eval S hr ?_
    cases o with
    | other k =>
      simp only [eval] at he ⊢
      exact hS k _ _ _ _ v (fun x hx => iha q x hq hx) (fun x hx => ihb p x hp hx) he
    | or =>
      simp only [eval] at he ⊢
      obtain ⟨x, hx, he⟩ := bind_ok he
      rw [iha q x hq hx]
      simp only [Res.bind]
      cases x with
      | bool x => cases x with
        | true => exact he
        | false => exact ihb p v hp he
      | sint => exact he
      | uint => exact he
      | other => exact he
    | and =>
      simp only [eval] at he ⊢
      obtain ⟨x, hx, he⟩ := bind_ok he
      rw [iha q x hq hx]
      simp only [Res.bind]
      cases x with
      | bool x => cases x with
        | false => exact he
        | true => exact ihb p v hp he
      | sint => exact he
      | uint => exact he
      | other => exact he
  | ternary c a b ihc iha ihb =>
    intro r v hr he
    simp only [visit] at hr
    obtain ⟨q, hq, hr⟩ := bind_ok hr
    obtain ⟨p, hp, hr⟩ := bind_ok hr
    obtain ⟨o, ho, hr⟩ := bind_ok hr
    refine atNode_eval S hr ?_
    simp only [eval] at he ⊢
    obtain ⟨x, hx, he⟩ := bind_ok he
    rw [ihc q x hq hx]
    simp only [Res.bind]
    cases x with
    | bool x => cases x with
      | true => exact iha p v hp he
      | false => exact ihb o v ho he
    | sint => exact he
    | uint => exact he
    | other => exact he
  | name f b e ih =>
    intro r v hr he
    simp only [visit] at hr
    exact atNode_eval S hr he

/-- **C75.** Folding a whole expression, in as many rounds as it takes, keeps the value the expression has, if it has one — also if
    constants overflow in parts of the expression that are not evaluated. -/
theorem values_kept (hS : Monotone S) (st : Style) : ∀ (rounds : Nat) (e : Expr) (k m : Nat) (e' : Expr) (v : Val),
    foldAll S st rounds e k = .ok (some (e', m)) → eval S e = .ok v → eval S e' = .ok v := by
  intro rounds
  induction rounds with
  | zero => intro e k m e' v h; cases h
  | succ rounds ih =>
    intro e k m e' v h he
    simp only [foldAll] at h
    obtain ⟨r, hr, h⟩ := bind_ok h
    have hv := visit_value S hS st e r v hr he
    split at h
    · injection h with h; injection h with h; injection h with h1 h2; subst h1; exact hv
    · exact ih _ _ _ _ _ h hv

/-! ## Folding ends -/

/-- The number of operators and names. -/
def weight : Expr → Nat
  | .ctor _ => 0
  | .un _ e => weight e + 1
  | .bin _ a b => weight a + weight b + 1
  | .ternary c a b => weight c + weight a + weight b + 1
  | .name _ _ _ => 1

theorem atNode_weight {st : Style} {n : Expr} {k m : Nat} {r : Visited} (h : atNode S st n k m = .ok r) :
    r.replaced + weight r.tree ≤ k + weight n := by
  rcases atNode_cases S h with ⟨ht, hk, _⟩ | ⟨v, ht, hk, _, _, hn⟩
  · rw [ht, hk]; exact Nat.le_refl _
  · rw [ht, hk]
    have : 0 < weight n := by
      cases n with
      | ctor w => exact absurd rfl (hn w)
      | un => exact Nat.succ_pos _
      | bin => exact Nat.succ_pos _
      | ternary => exact Nat.succ_pos _
      | name => exact Nat.succ_pos _
    have h0 : weight (.ctor v) = 0 := rfl
    omega

theorem visit_weight (st : Style) : ∀ (e : Expr) (r : Visited), visit S st e = .ok r → r.replaced + weight r.tree ≤ weight e := by
  intro e
  induction e with
  | ctor x =>
    intro r hr
    simp only [visit] at hr
    injection hr with hr; subst hr; exact Nat.le_refl _
  | un u e ih =>
    intro r hr
    simp only [visit] at hr
    obtain ⟨q, hq, hr⟩ := bind_ok hr
    have h1 := ih q hq
    have h2 := atNode_weight S hr
    simp only [weight] at h2 ⊢
    omega
  | bin o a b iha ihb =>
    intro r hr
    simp only [visit] at hr
    obtain ⟨q, hq, hr⟩ := bind_ok hr
    obtain ⟨p, hp, hr⟩ := bind_ok hr
    have h1 := iha q hq
    have h2 := ihb p hp
    have h3 := atNode_weight S hr
    simp only [weight] at h3 ⊢
    omega
  | ternary c a b ihc iha ihb =>
    intro r hr
    simp only [visit] at hr
    obtain ⟨q, hq, hr⟩ := bind_ok hr
    obtain ⟨p, hp, hr⟩ := bind_ok hr
    obtain ⟨o, ho, hr⟩ := bind_ok hr
    have h1 := ihc q hq
    have h2 := iha p hp
    have h3 := ihb o ho
    have h4 := atNode_weight S hr
    simp only [weight] at h4 ⊢
    omega
  | name f b e ih =>
    intro r hr
    simp only [visit] at hr
    have h4 := atNode_weight S hr
    simp only [weight] at h4 ⊢
    omega

/-- **C75.** Folding ends: it takes at most as many rounds as the expression has operators and names, and one. -/
theorem fold_ends (st : Style) : ∀ (rounds : Nat) (e : Expr) (k : Nat), weight e < rounds → foldAll S st rounds e k ≠ .ok none := by
  intro rounds
  induction rounds with
  | zero => intro e k h; omega
  | succ rounds ih =>
    intro e k h hc
    simp only [foldAll] at hc
    obtain ⟨r, hr, hc⟩ := bind_ok hc
    have hw := visit_weight S st e r hr
    split at hc
    · cases hc
    · exact ih _ _ (by omega) hc

/-! ## Expressions without overflows -/

theorem self_mem (e : Expr) : e ∈ parts e := by cases e <;> simp only [parts, List.mem_cons, true_or]

theorem NoOverflow.un {u : Un} {e : Expr} (h : NoOverflow S (.un u e)) : NoOverflow S e :=
  fun p hp => h p (List.mem_cons_of_mem _ hp)

theorem NoOverflow.left {o : Bin} {a b : Expr} (h : NoOverflow S (.bin o a b)) : NoOverflow S a :=
  fun p hp => h p (List.mem_cons_of_mem _ (List.mem_append_left _ hp))

theorem NoOverflow.right {o : Bin} {a b : Expr} (h : NoOverflow S (.bin o a b)) : NoOverflow S b :=
  fun p hp => h p (List.mem_cons_of_mem _ (List.mem_append_right _ hp))

theorem NoOverflow.cond {c a b : Expr} (h : NoOverflow S (.ternary c a b)) : NoOverflow S c :=
  fun p hp => h p (List.mem_cons_of_mem _ (List.mem_append_left _ hp))

theorem NoOverflow.yes {c a b : Expr} (h : NoOverflow S (.ternary c a b)) : NoOverflow S a :=
  fun p hp => h p (List.mem_cons_of_mem _ (List.mem_append_right _ (List.mem_append_left _ hp)))

theorem NoOverflow.no {c a b : Expr} (h : NoOverflow S (.ternary c a b)) : NoOverflow S b :=
  fun p hp => h p (List.mem_cons_of_mem _ (List.mem_append_right _ (List.mem_append_right _ hp)))

theorem NoOverflow.named {f b : Bool} {e : Expr} (h : NoOverflow S (.name f b e)) : NoOverflow S e :=
  fun p hp => h p (List.mem_cons_of_mem _ hp)

theorem NoOverflow.self {e : Expr} (h : NoOverflow S e) (hc : constant e = true) : ∃ v, eval S e = .ok v := h e (self_mem e) hc

/-- A node, after its children have become others that mean the same. -/
theorem atNode_same {st : Style} {n e : Expr} {k m : Nat} {r : Visited} (h : atNode S st n k m = .ok r)
    (he : eval S n = eval S e) (hc : constant n = true → constant e = true) (ho : NoOverflow S e) :
    eval S r.tree = eval S e ∧ (constant r.tree = true → constant e = true) := by
  rcases atNode_cases S h with ⟨ht, _⟩ | ⟨v, ht, _, _, hf, _⟩
  · rw [ht]; exact ⟨he, hc⟩
  · have hce := hc (fold_constant S st n v hf)
    obtain ⟨x, hx⟩ := ho.self S hce
    have := fold_sound S st n v x hf (he.trans hx)
    subst this
    rw [ht]
    exact ⟨hx.symm, fun _ => hce⟩

/-- The parts of the new tree: constants, or what parts of the old tree have become, with the same meaning. -/
def From (e e' : Expr) : Prop := ∀ p ∈ parts e', (∃ v, p = .ctor v) ∨
  ∃ q ∈ parts e, eval S p = eval S q ∧ (constant p = true → constant q = true)

theorem atNode_from {st : Style} {n e : Expr} {k m : Nat} {r : Visited} (h : atNode S st n k m = .ok r) (hn : From S e n) :
    From S e r.tree := by
  rcases atNode_cases S h with ⟨ht, _⟩ | ⟨v, ht, _, _, hf, _⟩
  · rw [ht]; exact hn
  · rw [ht]
    intro p hp
    simp only [parts, List.mem_singleton] at hp
    exact Or.inl ⟨v, hp⟩

theorem from_refl (e : Expr) : From S e e := fun p hp => Or.inr ⟨p, hp, rfl, fun h => h⟩

theorem From.mono {e e1 e' : Expr} (h : From S e1 e') (hs : ∀ p ∈ parts e1, p ∈ parts e) : From S e e' := by
  intro p hp
  rcases h p hp with hv | ⟨q, hq, hr⟩
  · exact Or.inl hv
  · exact Or.inr ⟨q, hs q hq, hr⟩

theorem From.overflow {e e' : Expr} (h : From S e e') (ho : NoOverflow S e) : NoOverflow S e' := by
  intro p hp hc
  rcases h p hp with ⟨v, hv⟩ | ⟨q, hq, hr, hcq⟩
  · subst hv; exact ⟨v, rfl⟩
  · rw [hr]; exact ho q hq (hcq hc)

/-- A whole expression. -/
theorem visit_same (st : Style) : ∀ (e : Expr) (r : Visited), NoOverflow S e → visit S st e = .ok r →
    (eval S r.tree = eval S e ∧ (constant r.tree = true → constant e = true)) ∧ From S e r.tree := by
  intro e
  induction e with
  | ctor x =>
    intro r _ hr
    simp only [visit] at hr
    injection hr with hr; subst hr; exact ⟨⟨rfl, fun h => h⟩, from_refl S _⟩
  | un u e ih =>
    intro r ho hr
    simp only [visit] at hr
    obtain ⟨q, hq, hr⟩ := bind_ok hr
    obtain ⟨⟨h1, h2⟩, h3⟩ := ih q (ho.un S) hq
    have hev : eval S (.un u q.tree) = eval S (.un u e) := by simp only [eval, h1]
    have hco : constant (.un u q.tree) = true → constant (.un u e) = true := by simpa only [constant] using h2
    refine ⟨atNode_same S hr hev hco ho, atNode_from S hr ?_⟩
    intro p hp
    simp only [parts, List.mem_cons] at hp
    rcases hp with hp | hp
    · subst hp; exact Or.inr ⟨_, self_mem _, hev, hco⟩
    · exact h3.mono S (e := .un u e) (fun p hp => List.mem_cons_of_mem _ hp) p hp
  | bin o a b iha ihb =>
    intro r ho hr
    simp only [visit] at hr
    obtain ⟨q, hq, hr⟩ := bind_ok hr
    obtain ⟨p, hp, hr⟩ := bind_ok hr
    obtain ⟨⟨h1, h2⟩, h3⟩ := iha q (ho.left S) hq
    obtain ⟨⟨g1, g2⟩, g3⟩ := ihb p (ho.right S) hp
    have hev : eval S (.bin o q.tree p.tree) = eval S (.bin o a b) := by cases o <;> simp only [eval, h1, g1]
    have hco : constant (.bin o q.tree p.tree) = true → constant (.bin o a b) = true := by
      cases o with
      | other => intro h; simp only [constant] at h; cases h
      | or => simp only [constant, Bool.and_eq_true]; exact fun h => ⟨h2 h.1, g2 h.2⟩
      | and => simp only [constant, Bool.and_eq_true]; exact fun h => ⟨h2 h.1, g2 h.2⟩
    refine ⟨atNode_same S hr hev hco ho, atNode_from S hr ?_⟩
    intro x hx
    simp only [parts, List.mem_cons, List.mem_append] at hx
    rcases hx with hx | hx | hx
    · subst hx; exact Or.inr ⟨_, self_mem _, hev, hco⟩
    · exact h3.mono S (e := .bin o a b) (fun p hp => List.mem_cons_of_mem _ (List.mem_append_left _ hp)) x hx
    · exact g3.mono S (e := .bin o a b) (fun p hp => List.mem_cons_of_mem _ (List.mem_append_right _ hp)) x hx
  | ternary c a b ihc iha ihb =>
    intro r ho hr
    simp only [visit] at hr
    obtain ⟨q, hq, hr⟩ := bind_ok hr
    obtain ⟨p, hp, hr⟩ := bind_ok hr
    obtain ⟨o, hoo, hr⟩ := bind_ok hr
    obtain ⟨⟨h1, h2⟩, h3⟩ := ihc q (ho.cond S) hq
    obtain ⟨⟨g1, g2⟩, g3⟩ := iha p (ho.yes S) hp
    obtain ⟨⟨f1, f2⟩, f3⟩ := ihb o (ho.no S) hoo
    have hev : eval S (.ternary q.tree p.tree o.tree) = eval S (.ternary c a b) := by simp only [eval, h1, g1, f1]
    have hco : constant (.ternary q.tree p.tree o.tree) = true → constant (.ternary c a b) = true := by
      simp only [constant, Bool.and_eq_true]
      exact fun h => ⟨⟨h2 h.1.1, g2 h.1.2⟩, f2 h.2⟩
    refine ⟨atNode_same S hr hev hco ho, atNode_from S hr ?_⟩
    intro x hx
    simp only [parts, List.mem_cons, List.mem_append] at hx
    rcases hx with hx | hx | hx | hx
    · subst hx; exact Or.inr ⟨_, self_mem _, hev, hco⟩
    · exact h3.mono S (e := .ternary c a b) (fun p hp => List.mem_cons_of_mem _ (List.mem_append_left _ hp)) x hx
    · exact g3.mono S (e := .ternary c a b) (fun p hp => List.mem_cons_of_mem _ (List.mem_append_right _ (List.mem_append_left _ hp))) x hx
    · exact f3.mono S (e := .ternary c a b) (fun p hp => List.mem_cons_of_mem _ (List.mem_append_right _ (List.mem_append_right _ hp))) x hx
  | name f b e ih =>
    intro r ho hr
    simp only [visit] at hr
    exact ⟨atNode_same S hr rfl (fun h => h) ho, atNode_from S hr (from_refl S _)⟩

/-- **C75.** If no constant part of an expression overflows, what is compiled for it means exactly what it means: the same value,
    the same exception. -/
theorem meaning_kept (st : Style) : ∀ (rounds : Nat) (e : Expr) (k m : Nat) (e' : Expr), NoOverflow S e →
    foldAll S st rounds e k = .ok (some (e', m)) → eval S e' = eval S e ∧ NoOverflow S e' := by
  intro rounds
  induction rounds with
  | zero => intro e k m e' _ h; cases h
  | succ rounds ih =>
    intro e k m e' ho h
    simp only [foldAll] at h
    obtain ⟨r, hr, h⟩ := bind_ok h
    obtain ⟨⟨h1, _⟩, h3⟩ := visit_same S st e r ho hr
    split at h
    · injection h with h; injection h with h; injection h with h4 h5; subst h4; exact ⟨h1, h3.overflow S ho⟩
    · obtain ⟨g1, g2⟩ := ih _ _ _ _ (h3.overflow S ho) h
      exact ⟨g1.trans h1, g2⟩

/-! ## Errors -/

theorem pow_le {w : Nat} (h : w ≤ 64) : (2 : Int) ^ (w - 1) ≤ 2 ^ 63 := by
  have := Nat.pow_le_pow_right (n := 2) (by omega) (show w - 1 ≤ 63 by omega)
  have h2 : ((2 ^ (w - 1) : Nat) : Int) ≤ ((2 ^ 63 : Nat) : Int) := by exact_mod_cast this
  simpa using h2

theorem foldUn_fine {u : Un} {x r : Val} (he : evalUn S u x = .ok r) :
    ∃ o, foldUn S u x = .ok o := by
  cases u <;> cases x <;> simp only [foldUn, evalUn] at he ⊢ <;>
    first
    | (cases he; done)
    | exact ⟨_, rfl⟩
    | skip
  · obtain ⟨_, _, h1, _, h2⟩ := exact_ok he
    rename_i w n
    have := pow_le h1
    rw [if_neg (by omega)]
    exact ⟨_, rfl⟩
  · obtain ⟨_, _, h1, h2, _⟩ := exact_ok he
    rename_i w n
    have := pow_le h1
    rw [if_neg (by omega)]
    exact ⟨_, rfl⟩
  · obtain ⟨_, _, h1, _, h2⟩ := exact_ok he
    rename_i w _ n
    have := pow_le h1
    rw [if_neg (by omega)]
    exact ⟨_, rfl⟩
  · obtain ⟨_, _, h1, h2, _⟩ := exact_ok he
    rw [if_neg (by omega)]
    exact ⟨_, rfl⟩
  all_goals
    split at he
    · rename_i ht; rw [if_pos ht, he]; exact ⟨_, rfl⟩
    · cases he

/-- Folding an expression whose constant parts have values succeeds. -/
theorem fold_fine (st : Style) : ∀ (e : Expr), NoOverflow S e → ∃ o, fold S st e = .ok o := by
  intro e
  induction e with
  | ctor x => intro _; exact ⟨_, rfl⟩
  | un u e ih =>
    intro ho
    obtain ⟨o, hf⟩ := ih (ho.un S)
    simp only [fold, hf, Res.bind]
    cases o with
    | none => exact ⟨_, rfl⟩
    | some v =>
      have hc := fold_constant S st e v hf
      obtain ⟨x, hx⟩ := (ho.un S).self S hc
      obtain ⟨y, hy⟩ := ho.self S (show constant (.un u e) = true from hc)
      have := fold_sound S st e v x hf hx
      subst this
      simp only [eval, hx, Res.bind] at hy
      exact foldUn_fine S hy
  | bin o a b iha ihb =>
    intro ho
    obtain ⟨x, hx⟩ := iha (ho.left S)
    obtain ⟨y, hy⟩ := ihb (ho.right S)
    cases o with
    | other k => exact ⟨_, rfl⟩
    | or =>
      simp only [fold, hx, hy, Res.bind]
      cases x <;> cases y <;> exact ⟨_, rfl⟩
    | and =>
      simp only [fold, hx, hy, Res.bind]
      cases x <;> cases y <;> exact ⟨_, rfl⟩
  | ternary c a b ihc _ _ =>
    intro ho
    obtain ⟨x, hx⟩ := ihc (ho.cond S)
    simp only [fold, hx, Res.bind]
    split
    · exact ⟨_, rfl⟩
    · split
      · split <;> exact ⟨_, rfl⟩
      · exact ⟨_, rfl⟩
  | name f b e ih =>
    intro ho
    simp only [fold]
    split
    · exact ⟨_, rfl⟩
    · exact ih (ho.named S)

theorem foldExpression_fine (st : Style) (e : Expr) (ho : NoOverflow S e) : ∃ o, foldExpression S st e = .ok o := by
  cases e with
  | name f b e =>
    simp only [foldExpression]
    split
    · exact ⟨_, rfl⟩
    · exact fold_fine S st _ ho
  | ctor => exact fold_fine S st _ ho
  | un => exact fold_fine S st _ ho
  | bin => exact fold_fine S st _ ho
  | ternary => exact fold_fine S st _ ho

theorem atNode_fine (st : Style) (n : Expr) (k m : Nat) (ho : NoOverflow S n) : ∃ r, atNode S st n k m = .ok r ∧ r.errors = m := by
  obtain ⟨o, h⟩ := foldExpression_fine S st n ho
  unfold atNode
  split
  · exact ⟨_, rfl, rfl⟩
  · rw [h]
    cases o <;> exact ⟨_, rfl, rfl⟩

/-! ## The constants that are left -/

/-- What the library makes fits its type, and does not depend on whether the compiler or the program asks for it. -/
def MadeFit : Prop := ∀ k v r, S.made k v = .ok r → Fits r

theorem evalUn_fits (hm : MadeFit S) {u : Un} {x r : Val} (hx : Fits x) (h : evalUn S u x = .ok r) : Fits r := by
  cases u <;> cases x <;> simp only [evalUn] at h <;>
    first
    | (cases h; done)
    | (have h2 := exact_ok h; rw [h2.1]; exact h2.2)
    | (injection h with h; rw [← h]; exact hx)
    | (injection h with h; rw [← h]; exact True.intro)
    | (split at h
       · exact hm _ _ _ h
       · cases h)

theorem ConstsFit.sub {e e1 : Expr} (h : ConstsFit e) (hs : ∀ p ∈ parts e1, p ∈ parts e) : ConstsFit e1 :=
  fun v hv => h v (hs _ hv)

theorem value_fits (hm : MadeFit S) : ∀ (e : Expr) (r : Val), ConstsFit e → constant e = true → eval S e = .ok r → Fits r := by
  intro e
  induction e with
  | ctor x => intro r hf _ he; simp only [eval] at he; injection he with he; rw [← he]; exact hf x (self_mem _)
  | un u e ih =>
    intro r hf hc he
    simp only [eval] at he
    obtain ⟨x, hx, he⟩ := bind_ok he
    exact evalUn_fits S hm (ih x (hf.sub fun p hp => List.mem_cons_of_mem _ hp) hc hx) he
  | bin o a b iha ihb =>
    intro r hf hc he
    have hb : ConstsFit b := hf.sub fun p hp => List.mem_cons_of_mem _ (List.mem_append_right _ hp)
    cases o with
    | other k => simp only [constant] at hc; cases hc
    | or =>
      simp only [constant, Bool.and_eq_true] at hc
      simp only [eval] at he
      obtain ⟨x, hx, he⟩ := bind_ok he
      cases x with
      | bool x => cases x with
        | true => injection he with he; rw [← he]; exact True.intro
        | false => exact ihb r hb hc.2 he
      | sint => cases he
      | uint => cases he
      | other => cases he
    | and =>
      simp only [constant, Bool.and_eq_true] at hc
      simp only [eval] at he
      obtain ⟨x, hx, he⟩ := bind_ok he
      cases x with
      | bool x => cases x with
        | false => injection he with he; rw [← he]; exact True.intro
        | true => exact ihb r hb hc.2 he
      | sint => cases he
      | uint => cases he
      | other => cases he
  | ternary c a b ihc iha ihb =>
    intro r hf hc he
    simp only [constant, Bool.and_eq_true] at hc
    simp only [eval] at he
    obtain ⟨x, hx, he⟩ := bind_ok he
    cases x with
    | bool x => cases x with
      | true => exact iha r (hf.sub fun p hp => List.mem_cons_of_mem _ (List.mem_append_right _ (List.mem_append_left _ hp))) hc.1.2 he
      | false => exact ihb r (hf.sub fun p hp => List.mem_cons_of_mem _ (List.mem_append_right _ (List.mem_append_right _ hp))) hc.2 he
    | sint => cases he
    | uint => cases he
    | other => cases he
  | name f b e ih =>
    intro r hf hc he
    exact ih r (hf.sub fun p hp => List.mem_cons_of_mem _ hp) hc he

theorem atNode_fits (hm : MadeFit S) {st : Style} {n : Expr} {k m : Nat} {r : Visited} (h : atNode S st n k m = .ok r)
    (ho : NoOverflow S n) (hf : ConstsFit n) : ConstsFit r.tree := by
  rcases atNode_cases S h with ⟨ht, _⟩ | ⟨v, ht, _, _, hv, _⟩
  · rw [ht]; exact hf
  · rw [ht]
    intro w hw
    simp only [parts, List.mem_singleton] at hw
    injection hw with hw
    subst hw
    have hc := fold_constant S st n w hv
    obtain ⟨x, hx⟩ := ho.self S hc
    have := fold_sound S st n w x hv hx
    subst this
    exact value_fits S hm n x hf hc hx

/-! ## What the compiler accepts -/

theorem visit_fine (st : Style) : ∀ (e : Expr), NoOverflow S e → 
    ∃ r, visit S st e = .ok r ∧ r.errors = 0 ∧ (MadeFit S → ConstsFit e → ConstsFit r.tree) := by
  intro e
  induction e with
  | ctor x => intro _; exact ⟨_, rfl, rfl, fun _ h => h⟩
  | un u e ih =>
    intro ho
    obtain ⟨q, hq, hq0, hqf⟩ := ih (ho.un S)
    obtain ⟨⟨h1, h2⟩, h3⟩ := visit_same S st e q (ho.un S) hq
    have hn : NoOverflow S (.un u q.tree) := by
      intro p hp hc
      simp only [parts, List.mem_cons] at hp
      rcases hp with hp | hp
      · subst hp
        obtain ⟨v, hv⟩ := ho.self S (show constant (.un u e) = true from h2 hc)
        exact ⟨v, by simp only [eval, h1] at hv ⊢; exact hv⟩
      · exact h3.overflow S (ho.un S) p hp hc
    obtain ⟨r, hr, hr0⟩ := atNode_fine S st _ q.replaced q.errors hn
    exact ⟨r, by simp only [visit, hq, Res.bind]; exact hr, hr0.trans hq0, fun hm hf => atNode_fits S hm hr hn (fun v hv => by
      simp only [parts, List.mem_cons] at hv
      rcases hv with hv | hv
      · cases hv
      · exact hqf hm (hf.sub fun p hp => List.mem_cons_of_mem _ hp) v hv)⟩
  | bin o a b iha ihb =>
    intro ho
    obtain ⟨q, hq, hq0, hqf⟩ := iha (ho.left S)
    obtain ⟨p, hp, hp0, hpf⟩ := ihb (ho.right S)
    obtain ⟨⟨h1, h2⟩, h3⟩ := visit_same S st a q (ho.left S) hq
    obtain ⟨⟨g1, g2⟩, g3⟩ := visit_same S st b p (ho.right S) hp
    have hn : NoOverflow S (.bin o q.tree p.tree) := by
      intro x hx hc
      simp only [parts, List.mem_cons, List.mem_append] at hx
      rcases hx with hx | hx | hx
      · subst hx
        have hco : constant (.bin o a b) = true := by
          cases o with
          | other => simp only [constant] at hc; cases hc
          | or => simp only [constant, Bool.and_eq_true] at hc ⊢; exact ⟨h2 hc.1, g2 hc.2⟩
          | and => simp only [constant, Bool.and_eq_true] at hc ⊢; exact ⟨h2 hc.1, g2 hc.2⟩
        obtain ⟨v, hv⟩ := ho.self S hco
        exact ⟨v, by cases o <;> (simp only [eval, h1, g1] at hv ⊢; exact hv)⟩
      · exact h3.overflow S (ho.left S) x hx hc
      · exact g3.overflow S (ho.right S) x hx hc
    obtain ⟨r, hr, hr0⟩ := atNode_fine S st _ (q.replaced + p.replaced) (q.errors + p.errors) hn
    exact ⟨r, by simp only [visit, hq, hp, Res.bind]; exact hr, by omega, fun hm hf => atNode_fits S hm hr hn (fun v hv => by
      simp only [parts, List.mem_cons, List.mem_append] at hv
      rcases hv with hv | hv | hv
      · cases hv
      · exact hqf hm (hf.sub fun p hp => List.mem_cons_of_mem _ (List.mem_append_left _ hp)) v hv
      · exact hpf hm (hf.sub fun p hp => List.mem_cons_of_mem _ (List.mem_append_right _ hp)) v hv)⟩
  | ternary c a b ihc iha ihb =>
    intro ho
    obtain ⟨q, hq, hq0, hqf⟩ := ihc (ho.cond S)
    obtain ⟨p, hp, hp0, hpf⟩ := iha (ho.yes S)
    obtain ⟨o, hoo, ho0, hof⟩ := ihb (ho.no S)
    obtain ⟨⟨h1, h2⟩, h3⟩ := visit_same S st c q (ho.cond S) hq
    obtain ⟨⟨g1, g2⟩, g3⟩ := visit_same S st a p (ho.yes S) hp
    obtain ⟨⟨f1, f2⟩, f3⟩ := visit_same S st b o (ho.no S) hoo
    have hn : NoOverflow S (.ternary q.tree p.tree o.tree) := by
      intro x hx hc
      simp only [parts, List.mem_cons, List.mem_append] at hx
      rcases hx with hx | hx | hx | hx
      · subst hx
        have hco : constant (.ternary c a b) = true := by
          simp only [constant, Bool.and_eq_true] at hc ⊢; exact ⟨⟨h2 hc.1.1, g2 hc.1.2⟩, f2 hc.2⟩
        obtain ⟨v, hv⟩ := ho.self S hco
        exact ⟨v, by simp only [eval, h1, g1, f1] at hv ⊢; exact hv⟩
      · exact h3.overflow S (ho.cond S) x hx hc
      · exact g3.overflow S (ho.yes S) x hx hc
      · exact f3.overflow S (ho.no S) x hx hc
    obtain ⟨r, hr, hr0⟩ := atNode_fine S st _ (q.replaced + p.replaced + o.replaced) (q.errors + p.errors + o.errors) hn
    exact ⟨r, by simp only [visit, hq, hp, hoo, Res.bind]; exact hr, by omega, fun hm hf => atNode_fits S hm hr hn (fun v hv => by
      simp only [parts, List.mem_cons, List.mem_append] at hv
      rcases hv with hv | hv | hv | hv
      · cases hv
      · exact hqf hm (hf.sub fun p hp => List.mem_cons_of_mem _ (List.mem_append_left _ hp)) v hv
      · exact hpf hm (hf.sub fun p hp => List.mem_cons_of_mem _ (List.mem_append_right _ (List.mem_append_left _ hp))) v hv
      · exact hof hm (hf.sub fun p hp => List.mem_cons_of_mem _ (List.mem_append_right _ (List.mem_append_right _ hp))) v hv)⟩
  | name f b e ih =>
    intro ho
    obtain ⟨r, hr, hr0⟩ := atNode_fine S st (.name f b e) 0 0 ho
    exact ⟨r, hr, hr0, fun hm hf => atNode_fits S hm hr ho hf⟩

theorem foldAll_fine (st : Style) : ∀ (rounds : Nat) (e : Expr) (k : Nat), weight e < rounds → NoOverflow S e →
    ∃ e', foldAll S st rounds e k = .ok (some (e', k)) ∧ (MadeFit S → ConstsFit e → ConstsFit e') := by
  intro rounds
  induction rounds with
  | zero => intro e k h; omega
  | succ rounds ih =>
    intro e k h ho
    obtain ⟨r, hr, hr0, hrf⟩ := visit_fine S st e ho
    have hw := visit_weight S st e r hr
    simp only [foldAll, hr, Res.bind, hr0, Nat.add_zero]
    split
    · exact ⟨_, rfl, hrf⟩
    · obtain ⟨e', he', hf'⟩ := ih r.tree k (by omega) ((visit_same S st e r ho hr).2.overflow S ho)
      exact ⟨e', he', fun hm hf => hf' hm (hrf hm hf)⟩

/-- **C75.** The compiler accepts every expression whose constants fit their types and whose constant parts have values, and what it
    compiles means the same. -/
theorem accepted_same (st : Style) (e : Expr) (hm : MadeFit S) (hf : ConstsFit e) (ho : NoOverflow S e) :
    ∃ e', Compiles S st e e' ∧ eval S e' = eval S e := by
  obtain ⟨e', h1, h2⟩ := foldAll_fine S st (weight e + 1) e 0 (Nat.lt_succ_self _) ho
  exact ⟨e', ⟨_, h1, h2 hm hf⟩, (meaning_kept S st _ e 0 0 e' ho h1).1⟩

theorem foldAll_mono (st : Style) : ∀ (n m : Nat) (e : Expr) (k : Nat) (x : Expr × Nat), n ≤ m →
    foldAll S st n e k = .ok (some x) → foldAll S st m e k = .ok (some x) := by
  intro n
  induction n with
  | zero => intro m e k x _ h; cases h
  | succ n ih =>
    intro m e k x hm h
    cases m with
    | zero => omega
    | succ m =>
      simp only [foldAll] at h ⊢
      obtain ⟨r, hr, h⟩ := bind_ok h
      simp only [hr, Res.bind]
      split at h
      · rename_i h0; rw [if_pos h0]; exact h
      · rename_i h0; rw [if_neg h0]; exact ih m _ _ _ (by omega) h

/-- **C75.** What is compiled for an expression is unique. -/
theorem compiles_unique (st : Style) (e e' e'' : Expr) (h1 : Compiles S st e e') (h2 : Compiles S st e e'') : e' = e'' := by
  obtain ⟨n, h1, _⟩ := h1
  obtain ⟨m, h2, _⟩ := h2
  have g1 := foldAll_mono S st n (n + m) e 0 _ (Nat.le_add_right _ _) h1
  have g2 := foldAll_mono S st m (n + m) e 0 _ (Nat.le_add_left _ _) h2
  rw [g1] at g2
  injection g2 with g2; injection g2 with g2; injection g2

/-- **C75.** An expression the compiler accepts and that has a value when it is evaluated has the same value when it is compiled; one
    whose constant parts have values is accepted, and its exceptions stay as well. What is missing: an expression whose evaluation
    overflows may be compiled to a value (`overflow_lost`, `negation_lost`), and compiling may be undefined (`undefined_negation`). -/
theorem folding_keeps_meaning_partial (st : Style) (e : Expr) (hS : Monotone S) (hm : MadeFit S) :
    (∀ e' v, Compiles S st e e' → eval S e = .ok v → eval S e' = .ok v) ∧
    (ConstsFit e → NoOverflow S e → (∃ e', Compiles S st e e') ∧ ∀ e', Compiles S st e e' → eval S e' = eval S e) := by
  refine ⟨fun e' v ⟨n, h, _⟩ he => values_kept S hS st n e 0 0 e' v h he, fun hf ho => ?_⟩
  obtain ⟨e', h1, _⟩ := accepted_same S st e hm hf ho
  exact ⟨⟨e', h1⟩, fun e'' ⟨n, h, _⟩ => (meaning_kept S st n e 0 0 e'' ho h).1⟩

end Verif.Front.Fold
