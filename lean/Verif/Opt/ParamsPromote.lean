import Verif.Opt.ParamsRel

/-!
# Promoting parameters to `in` keeps what programs do: bodies (C84)
-/

namespace Verif.Opt.Whole

variable {M : Sem}

/-- Kinds of parameters, before and after. -/
def KindsR : List Kind → List Kind → Prop
  | [], [] => True
  | k :: ks, k' :: ks' => (k' = k ∨ k' = .in_) ∧ KindsR ks ks'
  | _, _ => False

theorem KindsR.head {ks ks' : List Kind} (h : KindsR ks ks') : ks'.headD .copy = ks.headD .copy ∨ ks'.headD .copy = .in_ := by
  cases ks with
  | nil => cases ks' with
    | nil => exact .inl rfl
    | cons => exact absurd h (by simp [KindsR])
  | cons k ks => cases ks' with
    | nil => exact absurd h (by simp [KindsR])
    | cons k' ks' => exact h.1

theorem KindsR.tail {ks ks' : List Kind} (h : KindsR ks ks') : KindsR ks.tail ks'.tail := by
  cases ks with
  | nil => cases ks' with
    | nil => trivial
    | cons => exact absurd h (by simp [KindsR])
  | cons k ks => cases ks' with
    | nil => exact absurd h (by simp [KindsR])
    | cons k' ks' => exact h.2

/-- An argument, for a parameter of kind `k` before and `k'` after. -/
inductive ArgR (B R : Loc → Prop) (d : Nat) (s s' : St M) (k k' : Kind) : Arg → Arg → Prop
  | val {v} : ArgR B R d s s' k k' (.val v) (.val v)
  | same {l} : ¬ B l → (∀ e x, l = .slot e x → e ≤ d) → (k' = .in_ ∨ (k' = .inout ∧ ¬ R l)) → k ≠ .copy → ArgR B R d s s' k k' (.ref l) (.ref l)
  | prot {l l'} : R l → R l' → s.mem l = s'.mem l' → k' = .in_ → k ≠ .copy → ArgR B R d s s' k k' (.ref l) (.ref l')
  | prom {l'} : R l' → k = .copy → k' = .in_ → ArgR B R d s s' k k' (.val (s'.mem l')) (.ref l')

/-- Arguments. -/
inductive ArgsR (B R : Loc → Prop) (d : Nat) (s s' : St M) : List Kind → List Kind → List Arg → List Arg → Prop
  | nil {ks ks'} : ArgsR B R d s s' ks ks' [] []
  | cons {ks ks' a a' as as'} : ArgR B R d s s' (ks.headD .copy) (ks'.headD .copy) a a' → ArgsR B R d s s' ks.tail ks'.tail as as' →
      ArgsR B R d s s' ks ks' (a :: as) (a' :: as')

theorem ArgR.step {B R : Loc → Prop} {d : Nat} {s s' s1 s1' : St M} {k k' : Kind} {a a' : Arg} (h : ArgR B R d s s' k k' a a')
    (h1 : Same R s s1) (h2 : Same R s' s1') : ArgR B R d s1 s1' k k' a a' := by
  cases h with
  | val => exact .val
  | same hb hd hk hc => exact .same hb hd hk hc
  | prot hl hl' he hk hc => exact .prot hl hl' (by rw [h1 _ hl, h2 _ hl', he]) hk hc
  | prom hl hk hk' => rw [← h2 _ hl]; exact .prom hl hk hk'

theorem ArgsR.step {B R : Loc → Prop} {d : Nat} {s s' s1 s1' : St M} {ks ks' : List Kind} {as as' : List Arg}
    (h : ArgsR B R d s s' ks ks' as as') (h1 : Same R s s1) (h2 : Same R s' s1') : ArgsR B R d s1 s1' ks ks' as as' := by
  induction h with
  | nil => exact .nil
  | cons ha _ ih => exact .cons (ha.step h1 h2) ih

/-- Outcomes of lists of arguments. -/
inductive EvsR (B R : Loc → Prop) (d : Nat) (s s' : St M) (ks ks' : List Kind) : Option (Evs M) → Option (Evs M) → Prop
  | none : EvsR B R d s s' ks ks' none none
  | vals {as as' s1 s1'} : Agree B s1 s1' → Same R s s1 → Same R s' s1' → ArgsR B R d s1 s1' ks ks' as as' →
      EvsR B R d s s' ks ks' (some (.vals as s1)) (some (.vals as' s1'))
  | exn {s1 s1'} : Agree B s1 s1' → Same R s s1 → Same R s' s1' → EvsR B R d s s' ks ks' (some (.exn s1)) (some (.exn s1'))

/-- What calls do, before and after. -/
def CallsR (K K' : Fn → List Kind) (c c' : Calls M) : Prop :=
  ∀ f args args' d s s' (B R : Loc → Prop), Low d B → Low d R → Agree B s s' → ArgsR B R d s s' (K f) (K' f) args args' →
    EvR B R s s' (c f args d s) (c' f args' d s')

/-- The frames of the two runs. `B`: places that may differ, `R`: places nobody writes, `wr`: names that may be written, `own`: variables of the function itself. -/
structure Frame (B R : Loc → Prop) (wr own : Nat → Prop) (d : Nat) (env env' : Nat → Loc) : Prop where
  lowB : Low d B
  lowR : Low d R
  name : ∀ x, (env x = env' x ∧ ¬ B (env x)) ∨ (R (env x) ∧ R (env' x))
  wrt : ∀ x, wr x → env x = env' x ∧ ¬ B (env x) ∧ ¬ R (env x)
  mine : ∀ x, own x → (env x = env' x ∧ env x = .slot d x) ∨ (R (env x) ∧ R (env' x))
  far : ∀ x, env x = .slot d x ∨ (∀ e y, env x = .slot e y → e < d)

/-- Names mean the same. -/
def Equal (env env' : Nat → Loc) (s s' : St M) : Prop := ∀ x, s.mem (env x) = s'.mem (env' x)

/-- A call is safe. -/
def SafeCall (K K' : Fn → List Kind) (own : Nat → Prop) (c : Fn × Exprs) : Prop :=
  ∀ (j : Nat) n, c.2.toList[j]? = some (Expr.name n) → (K c.1)[j]? = some Kind.copy → (K' c.1)[j]? = some Kind.in_ →
    ∃ x, n = Name.loc x ∧ own x ∧ x ∉ Exprs.inouts (K' c.1) c.2 ∧ x ∉ c.2.writes K'

theorem Low.glob {d : Nat} {B : Loc → Prop} (h : Low d B) (g : Nat) : ¬ B (.glob g) := fun hb => by
  obtain ⟨e, x, he, _⟩ := h _ hb; cases he

section
variable {c c' : Calls M} {K K' : Fn → List Kind} {env env' : Nat → Loc} {d : Nat} {B : Loc → Prop} {own : Nat → Prop}

theorem Frame.step {R : Loc → Prop} {wr : Nat → Prop} (hf : Frame B R wr own d env env') {s s' s1 s1' : St M} (he : Equal env env' s s')
    (ha : Agree B s1 s1') (h1 : Same R s s1) (h2 : Same R s' s1') : Equal env env' s1 s1' := by
  intro x
  rcases hf.name x with ⟨hx, hb⟩ | ⟨hr, hr'⟩
  · rw [← hx]; exact ha.mem _ hb
  · rw [h1 _ hr, h2 _ hr']; exact he x

theorem Frame.read {R : Loc → Prop} {wr : Nat → Prop} (hf : Frame B R wr own d env env') {s s' : St M} (he : Equal env env' s s')
    (ha : Agree B s s') (n : Name) : s.mem (locOf env n) = s'.mem (locOf env' n) := by
  cases n with
  | loc x => exact he x
  | glob g => exact ha.mem _ (hf.lowB.glob g)

theorem Frame.write {R : Loc → Prop} {wr : Nat → Prop} (hf : Frame B R wr own d env env') (n : Name) (hn : ∀ x, n = .loc x → wr x) :
    locOf env n = locOf env' n ∧ ¬ R (locOf env n) := by
  cases n with
  | loc x => exact ⟨(hf.wrt x (hn x rfl)).1, (hf.wrt x (hn x rfl)).2.2⟩
  | glob g => exact ⟨rfl, hf.lowR.glob g⟩

/-- The frame during a call: variables passed for promoted parameters are protected. -/
theorem Frame.protect {R : Loc → Prop} {wr : Nat → Prop} (hf : Frame B R wr own d env env') (pn : Nat → Prop) :
    Frame B (fun l => R l ∨ ∃ x, pn x ∧ l = .slot d x) (fun x => wr x ∧ ¬ pn x) own d env env' where
  lowB := hf.lowB
  lowR := by
    rintro l (h | ⟨x, _, h⟩)
    · exact hf.lowR l h
    · exact ⟨d, x, h, Nat.le_refl d⟩
  name := fun x => (hf.name x).imp id fun h => ⟨.inl h.1, .inl h.2⟩
  wrt := by
    rintro x ⟨hw, hp⟩
    refine ⟨(hf.wrt x hw).1, (hf.wrt x hw).2.1, ?_⟩
    rintro (h | ⟨y, hy, h⟩)
    · exact (hf.wrt x hw).2.2 h
    · rcases hf.far x with h' | h'
      · rw [h'] at h; injection h with _ h; subst h; exact hp hy
      · have := h' _ _ h; omega
  mine := fun x hx => (hf.mine x hx).imp id fun h => ⟨.inl h.1, .inl h.2⟩
  far := hf.far

theorem byRef_none {e : Expr} (h : ∀ n, e ≠ .name n) (env : Nat → Loc) (k : Kind) : byRef env k e = none := by
  cases e with
  | name n => exact absurd rfl (h n)
  | _ => cases k <;> rfl

theorem inouts_cons {ks : List Kind} {e : Expr} {r : Exprs} :
    Exprs.inouts ks (.cons e r) = (if ks.headD .copy = .inout then e.loc?.toList else []) ++ Exprs.inouts ks.tail r := by
  cases ks with
  | nil => cases r <;> simp [Exprs.inouts]
  | cons k ks => cases k <;> simp [Exprs.inouts]

theorem map_get {R : Loc → Prop} {s s' : St M} (ha : Agree B s s') {ks ks' : List Kind} {as as' : List Arg}
    (h : ArgsR B R d s s' ks ks' as as') : as.map (Arg.get s) = as'.map (Arg.get s') := by
  induction h with
  | nil => rfl
  | cons hx _ ih =>
    simp only [List.map_cons, ih, List.cons.injEq, and_true]
    cases hx with
    | val => rfl
    | same hb => exact ha.mem _ hb
    | prot _ _ he => exact he
    | prom => rfl

variable (hc : CallsR K K' c c') (hk : ∀ f, KindsR (K f) (K' f))
include hc hk

mutual
theorem eval_promote : (e : Expr) → ∀ ⦃R : Loc → Prop⦄ ⦃wr : Nat → Prop⦄ ⦃s s' : St M⦄, Frame B R wr own d env env' → Equal env env' s s' → Agree B s s' →
    (∀ x ∈ e.writes K', wr x) → (∀ x ∈ e.invocations, SafeCall K K' own x) →
    EvR B R s s' (eval c K env d e s) (eval c' K' env' d e s')
  | .lit v => by
    intro R wr s s' hf he ha hw hs
    simp only [eval]; exact .val ha .refl .refl
  | .name n => by
    intro R wr s s' hf he ha hw hs
    simp only [eval, hf.read he ha n]; exact .val ha .refl .refl
  | .op o as => by
    have ih := evalArgs_promote as
    intro R wr s s' hf he ha hw hs
    simp only [Expr.writes] at hw
    simp only [Expr.invocations] at hs
    have h := ih (ks := []) (ks' := []) hf he ha trivial (fun j n _ h => by simp at h) (fun x hx => by cases as <;> simp [Exprs.inouts] at hx) hw hs
    simp only [eval]
    generalize evalArgs c K env d [] as s = q at h
    generalize evalArgs c' K' env' d [] as s' = q' at h
    cases h with
    | none => exact .none
    | exn ha1 h1 h2 => exact .exn ha1 h1 h2
    | vals ha1 h1 h2 hr =>
      simp only [map_get ha1 hr]
      split
      · exact .val ha1 h1 h2
      · exact .exn ha1 h1 h2
  | .mod o n => by
    intro R wr s s' hf he ha hw hs
    have hn := hf.write n fun x hx => hw x (by subst hx; simp [Expr.writes])
    simp only [eval, hf.read he ha n]
    split
    · rw [← hn.1]; exact .val (ha.set _ _) (.set hn.2 _) (.set hn.2 _)
    · exact .exn ha .refl .refl
  | .assign n e => by
    have ih := eval_promote e
    intro R wr s s' hf he ha hw hs
    have hn := hf.write n fun x hx => hw x (by subst hx; simp [Expr.writes])
    have h := ih hf he ha (fun x hx => hw x (by cases n <;> simp [Expr.writes, hx])) (by simpa only [Expr.invocations] using hs)
    simp only [eval]
    generalize eval c K env d e s = q at h
    generalize eval c' K' env' d e s' = q' at h
    cases h with
    | none => exact .none
    | exn ha1 h1 h2 => exact .exn ha1 h1 h2
    | val ha1 h1 h2 => simp only [← hn.1]; exact .val (ha1.set _ _) (h1.trans (.set hn.2 _)) (h2.trans (.set hn.2 _))
  | .tern q a b => by
    have ihq := eval_promote q
    have iha := eval_promote a
    have ihb := eval_promote b
    intro R wr s s' hf he ha hw hs
    simp only [Expr.writes, List.mem_append] at hw
    simp only [Expr.invocations, List.mem_append] at hs
    have h := ihq hf he ha (fun x hx => hw x (.inl hx)) (fun x hx => hs x (.inl hx))
    simp only [eval]
    generalize eval c K env d q s = o at h
    generalize eval c' K' env' d q s' = o' at h
    cases h with
    | none => exact .none
    | exn ha1 h1 h2 => exact .exn ha1 h1 h2
    | @val v s1 s1' ha1 h1 h2 =>
      have he1 := hf.step he ha1 h1 h2
      dsimp only
      cases v.truth with
      | true =>
        simp only [if_true]
        exact (iha hf he1 ha1 (fun x hx => hw x (.inr (.inl hx))) (fun x hx => hs x (.inr (.inl hx)))).mono (fun _ h => h) h1 h2
      | false =>
        simp only [Bool.false_eq_true, if_false]
        exact (ihb hf he1 ha1 (fun x hx => hw x (.inr (.inr hx))) (fun x hx => hs x (.inr (.inr hx)))).mono (fun _ h => h) h1 h2
  | .call f as => by
    have ih := evalArgs_promote as
    intro R wr s s' hf he ha hw hs
    simp only [Expr.writes, List.mem_append] at hw
    simp only [Expr.invocations, List.mem_cons] at hs
    have hs1 := hs (f, as) (.inl rfl)
    let pn : Nat → Prop := fun x => ∃ j : Nat, as.toList[j]? = some (Expr.name (.loc x)) ∧ (K f)[j]? = some Kind.copy ∧ (K' f)[j]? = some Kind.in_
    have hpn : ∀ x, pn x → x ∉ Exprs.inouts (K' f) as ∧ x ∉ as.writes K' := by
      rintro x ⟨j, h1, h2, h3⟩
      obtain ⟨y, hy, _, h4, h5⟩ := hs1 j _ h1 h2 h3
      injection hy with hy; subst hy
      exact ⟨h4, h5⟩
    have hf' := hf.protect pn
    have h := ih (ks := K f) (ks' := K' f) hf' he ha (hk f)
      (fun j n h1 h2 h3 => by
        obtain ⟨x, rfl, ho, _, _⟩ := hs1 j n h1 h2 h3
        exact ⟨x, rfl, ho, .inr ⟨x, ⟨j, h1, h2, h3⟩, rfl⟩⟩)
      (fun x hx => ⟨hw x (.inl hx), fun hp => (hpn x hp).1 hx⟩)
      (fun x hx => ⟨hw x (.inr hx), fun hp => (hpn x hp).2 hx⟩)
      (fun x hx => hs x (.inr hx))
    simp only [eval]
    generalize evalArgs c K env d (K f) as s = q at h
    generalize evalArgs c' K' env' d (K' f) as s' = q' at h
    cases h with
    | none => exact .none
    | exn ha1 h1 h2 => exact .exn ha1 (fun l hl => h1 l (.inl hl)) (fun l hl => h2 l (.inl hl))
    | vals ha1 h1 h2 hr =>
      exact (hc f _ _ d _ _ B _ hf'.lowB hf'.lowR ha1 hr).mono (fun l hl => .inl hl) (fun l hl => h1 l (.inl hl)) (fun l hl => h2 l (.inl hl))
theorem evalArgs_promote : (as : Exprs) → ∀ ⦃R : Loc → Prop⦄ ⦃wr : Nat → Prop⦄ ⦃s s' : St M⦄ ⦃ks ks' : List Kind⦄, Frame B R wr own d env env' →
    Equal env env' s s' → Agree B s s' → KindsR ks ks' →
    (∀ (j : Nat) n, as.toList[j]? = some (Expr.name n) → ks[j]? = some Kind.copy → ks'[j]? = some Kind.in_ →
      ∃ x, n = Name.loc x ∧ own x ∧ R (.slot d x)) →
    (∀ x ∈ Exprs.inouts ks' as, wr x) →
    (∀ x ∈ as.writes K', wr x) → (∀ x ∈ as.invocations, SafeCall K K' own x) →
    EvsR B R d s s' ks ks' (evalArgs c K env d ks as s) (evalArgs c' K' env' d ks' as s')
  | .nil => by
    intro R wr s s' ks ks' hf he ha hkk hp hi hw hs
    simp only [evalArgs]; exact .vals ha .refl .refl .nil
  | .cons e r => by
    have ihe := eval_promote e
    have ihr := evalArgs_promote r
    intro R wr s s' ks ks' hf he ha hkk hp hi hw hs
    simp only [Exprs.writes, List.mem_append] at hw
    simp only [Exprs.invocations, List.mem_append] at hs
    rw [inouts_cons] at hi
    simp only [List.mem_append] at hi
    have hp' : ∀ (j : Nat) n, r.toList[j]? = some (Expr.name n) → ks.tail[j]? = some Kind.copy → ks'.tail[j]? = some Kind.in_ →
        ∃ x, n = Name.loc x ∧ own x ∧ R (.slot d x) := fun j n h1 h2 h3 =>
      hp (j + 1) n (by simpa only [Exprs.toList, List.getElem?_cons_succ] using h1)
        (by cases ks <;> simp_all) (by cases ks' <;> simp_all)
    have rest : ∀ {t t' : St M}, Equal env env' t t' → Agree B t t' →
        EvsR B R d t t' ks.tail ks'.tail (evalArgs c K env d ks.tail r t) (evalArgs c' K' env' d ks'.tail r t') := fun het hat =>
      ihr hf het hat hkk.tail hp' (fun x hx => hi x (.inr hx)) (fun x hx => hw x (.inr hx)) (fun x hx => hs x (.inr hx))
    -- both are evaluated
    have both : byRef env (ks.headD .copy) e = none → byRef env' (ks'.headD .copy) e = none →
        EvsR B R d s s' ks ks' (evalArgs c K env d ks (.cons e r) s) (evalArgs c' K' env' d ks' (.cons e r) s') := by
      intro hb hb'
      have h := ihe hf he ha (fun x hx => hw x (.inl hx)) (fun x hx => hs x (.inl hx))
      simp only [evalArgs, hb, hb']
      generalize eval c K env d e s = q at h
      generalize eval c' K' env' d e s' = q' at h
      cases h with
      | none => exact .none
      | exn ha1 h1 h2 => exact .exn ha1 h1 h2
      | val ha1 h1 h2 =>
        have h := rest (hf.step he ha1 h1 h2) ha1
        dsimp only
        rename_i v s1 s1'
        generalize evalArgs c K env d ks.tail r s1 = q at h
        generalize evalArgs c' K' env' d ks'.tail r s1' = q' at h
        cases h with
        | none => exact .none
        | exn ha2 h3 h4 => exact .exn ha2 (h1.trans h3) (h2.trans h4)
        | vals ha2 h3 h4 hr => exact .vals ha2 (h1.trans h3) (h2.trans h4) (.cons .val hr)
    -- references
    have refs : ∀ l l', byRef env (ks.headD .copy) e = some l → byRef env' (ks'.headD .copy) e = some l' →
        ArgR B R d s s' (ks.headD .copy) (ks'.headD .copy) (.ref l) (.ref l') →
        EvsR B R d s s' ks ks' (evalArgs c K env d ks (.cons e r) s) (evalArgs c' K' env' d ks' (.cons e r) s') := by
      intro l l' hb hb' hx
      have h := rest he ha
      simp only [evalArgs, hb, hb']
      generalize evalArgs c K env d ks.tail r s = q at h
      generalize evalArgs c' K' env' d ks'.tail r s' = q' at h
      cases h with
      | none => exact .none
      | exn ha2 h3 h4 => exact .exn ha2 h3 h4
      | vals ha2 h3 h4 hr => exact .vals ha2 h3 h4 (.cons (hx.step h3 h4) hr)
    by_cases hn : ∃ n, e = .name n
    · obtain ⟨n, hn⟩ := hn
      by_cases h1 : ks.headD .copy = .copy
      · by_cases h2 : ks'.headD .copy = .copy
        · exact both (by rw [h1]; rfl) (by rw [h2]; rfl)
        · have h3 : ks'.headD .copy = .in_ := hkk.head.elim (fun h => absurd (h.trans h1) h2) id
          have hh' : ks'[0]? = some Kind.in_ := by cases ks' <;> simp_all
          have hh : ks[0]? = some Kind.copy := by
            cases ks with
            | nil => cases ks' with
              | nil => simp at h3
              | cons => exact absurd hkk (by simp [KindsR])
            | cons k ks => simp_all
          obtain ⟨x, hx, ho, hR⟩ := hp 0 n (by simp [Exprs.toList, hn]) hh hh'
          subst hx
          have h := rest he ha
          have hl' : R (env' x) := by
            rcases hf.mine x ho with ⟨h5, h6⟩ | ⟨_, h5⟩
            · rw [← h5, h6]; exact hR
            · exact h5
          simp only [evalArgs, h1, h3, hn, byRef, eval, locOf, he x]
          generalize evalArgs c K env d ks.tail r s = q at h
          generalize evalArgs c' K' env' d ks'.tail r s' = q' at h
          cases h with
          | none => exact .none
          | exn ha2 h3 h4 => exact .exn ha2 h3 h4
          | vals ha2 h4 h5 hr =>
            refine .vals ha2 h4 h5 (.cons ?_ hr)
            rw [← h5 _ hl']
            exact .prom hl' h1 h3
      · have h2 : ks'.headD .copy ≠ .copy := by
          intro h; rcases hkk.head with h' | h'
          · exact h1 (h'.symm.trans h)
          · rw [h'] at h; cases h
        have hb : byRef env (ks.headD .copy) e = some (locOf env n) := by
          rw [hn]; cases hq : ks.headD Kind.copy <;> simp_all [byRef]
        have hb' : byRef env' (ks'.headD .copy) e = some (locOf env' n) := by
          rw [hn]; cases hq : ks'.headD Kind.copy <;> simp_all [byRef]
        refine refs _ _ hb hb' ?_
        have hkind : ks'.headD .copy = .in_ ∨ ks'.headD .copy = .inout := by
          cases hq : ks'.headD Kind.copy <;> simp_all
        cases n with
        | glob g =>
          refine .same (hf.lowB.glob g) (fun e x he => by cases he) ?_ h1
          exact hkind.imp id fun h => ⟨h, hf.lowR.glob g⟩
        | loc x =>
          have hd : ∀ e y, env x = .slot e y → e ≤ d := by
            intro e y h
            rcases hf.far x with h' | h'
            · rw [h'] at h; cases h; exact Nat.le_refl _
            · have := h' _ _ h; omega
          rcases hkind with h | h
          · rcases hf.name x with ⟨h3, h4⟩ | ⟨h3, h4⟩
            · show ArgR B R d s s' _ _ (.ref (env x)) (.ref (env' x))
              rw [← h3]
              exact .same h4 hd (.inl h) h1
            · exact .prot h3 h4 (he x) h h1
          · have hx : wr x := hi x (.inl (by rw [if_pos h, hn]; simp [Expr.loc?]))
            obtain ⟨h3, h4, h5⟩ := hf.wrt x hx
            show ArgR B R d s s' _ _ (.ref (env x)) (.ref (env' x))
            rw [← h3]
            exact .same h4 hd (.inr ⟨h, h5⟩) h1
    · exact both (byRef_none (fun n h => hn ⟨n, h⟩) _ _) (byRef_none (fun n h => hn ⟨n, h⟩) _ _)
end

theorem evalInit_promote (i : Option (Nat × Expr)) {R : Loc → Prop} {wr : Nat → Prop} {s s' : St M} (hf : Frame B R wr own d env env')
    (he : Equal env env' s s') (ha : Agree B s s') (hw : ∀ x ∈ initWrites K' i, wr x) (hs : ∀ x ∈ initInvocations i, SafeCall K K' own x) :
    EvR B R s s' (evalInit c K env d i s) (evalInit c' K' env' d i s') := by
  cases i with
  | none => exact .val ha .refl .refl
  | some p =>
    obtain ⟨x, e⟩ := p
    simp only [initWrites, List.mem_cons] at hw
    have h := eval_promote hc hk e hf he ha (fun y hy => hw y (.inr hy)) hs
    obtain ⟨h3, h4, h5⟩ := hf.wrt x (hw x (.inl rfl))
    simp only [evalInit]
    generalize eval c K env d e s = q at h
    generalize eval c' K' env' d e s' = q' at h
    cases h with
    | none => exact .none
    | exn ha1 h1 h2 => exact .exn ha1 h1 h2
    | val ha1 h1 h2 => simp only [← h3]; exact .val (ha1.set _ _) (h1.trans (.set h5 _)) (h2.trans (.set h5 _))

omit hc hk in
theorem loop_promote {R : Loc → Prop} {wr : Nat → Prop} (hf : Frame B R wr own d env env') {q q' : St M → Option (Ev M)} {b b' e e' : St M → Option (Out M)}
    (hq : ∀ {s s'}, Equal env env' s s' → Agree B s s' → EvR B R s s' (q s) (q' s'))
    (hb : ∀ {s s'}, Equal env env' s s' → Agree B s s' → OutR B R s s' (b s) (b' s'))
    (hel : ∀ {s s'}, Equal env env' s s' → Agree B s s' → OutR B R s s' (e s) (e' s')) :
    ∀ n {s s'}, Equal env env' s s' → Agree B s s' → OutR B R s s' (loop q b e n s) (loop q' b' e' n s')
  | 0, s, s', _, _ => .none
  | n + 1, s, s', he, ha => by
    have h := hq he ha
    simp only [loop]
    generalize q s = o at h
    generalize q' s' = o' at h
    cases h with
    | none => exact .none
    | exn ha1 h1 h2 => exact .exn ha1 h1 h2
    | @val v s1 s1' ha1 h1 h2 =>
      have he1 := hf.step he ha1 h1 h2
      dsimp only
      cases v.truth with
      | false => simp only [Bool.false_eq_true, if_false]; exact (hel he1 ha1).mono h1 h2
      | true =>
        simp only [if_true]
        have h := hb he1 ha1
        generalize b s1 = o at h
        generalize b' s1' = o' at h
        cases h with
        | none => exact .none
        | norm ha2 h3 h4 => exact (loop_promote hf hq hb hel n (hf.step he1 ha2 h3 h4) ha2).mono (h1.trans h3) (h2.trans h4)
        | cont ha2 h3 h4 => exact (loop_promote hf hq hb hel n (hf.step he1 ha2 h3 h4) ha2).mono (h1.trans h3) (h2.trans h4)
        | brk ha2 h3 h4 => exact .norm ha2 (h1.trans h3) (h2.trans h4)
        | ret ha2 h3 h4 => exact .ret ha2 (h1.trans h3) (h2.trans h4)
        | exn ha2 h3 h4 => exact .exn ha2 (h1.trans h3) (h2.trans h4)

variable {R : Loc → Prop} {wr : Nat → Prop} (hf : Frame B R wr own d env env')
include hf

mutual
theorem exec_promote (n : Nat) : (a : Stmt) → ∀ ⦃s s' : St M⦄, Equal env env' s s' → Agree B s s' →
    (∀ x ∈ a.writes K', wr x) → (∀ x ∈ a.invocations, SafeCall K K' own x) →
    OutR B R s s' (exec c K env d n a s) (exec c' K' env' d n a s')
  | .expr e => by
    intro s s' he ha hw hs
    have h := eval_promote hc hk e hf he ha hw hs
    simp only [exec]
    generalize eval c K env d e s = q at h
    generalize eval c' K' env' d e s' = q' at h
    cases h with
    | none => exact .none
    | exn ha1 h1 h2 => exact .exn ha1 h1 h2
    | val ha1 h1 h2 => exact .norm ha1 h1 h2
  | .decl x e => by
    intro s s' he ha hw hs
    have h := evalInit_promote hc hk (some (x, e)) hf he ha hw hs
    simp only [exec]
    generalize evalInit c K env d (some (x, e)) s = q at h
    generalize evalInit c' K' env' d (some (x, e)) s' = q' at h
    cases h with
    | none => exact .none
    | exn ha1 h1 h2 => exact .exn ha1 h1 h2
    | val ha1 h1 h2 => exact .norm ha1 h1 h2
  | .ret none => by
    intro s s' he ha hw hs
    simp only [exec]; exact .ret ha .refl .refl
  | .ret (some e) => by
    intro s s' he ha hw hs
    have h := eval_promote hc hk e hf he ha hw hs
    simp only [exec]
    generalize eval c K env d e s = q at h
    generalize eval c' K' env' d e s' = q' at h
    cases h with
    | none => exact .none
    | exn ha1 h1 h2 => exact .exn ha1 h1 h2
    | val ha1 h1 h2 => exact .ret ha1 h1 h2
  | .throw_ e => by
    intro s s' he ha hw hs
    have h := eval_promote hc hk e hf he ha hw hs
    simp only [exec]
    generalize eval c K env d e s = q at h
    generalize eval c' K' env' d e s' = q' at h
    cases h with
    | none => exact .none
    | exn ha1 h1 h2 => exact .exn ha1 h1 h2
    | val ha1 h1 h2 => exact .exn ha1 h1 h2
  | .brk => by
    intro s s' he ha hw hs
    simp only [exec]; exact .brk ha .refl .refl
  | .cont => by
    intro s s' he ha hw hs
    simp only [exec]; exact .cont ha .refl .refl
  | .block b => by
    have ih := execs_promote n b
    intro s s' he ha hw hs
    simp only [exec]
    exact ih he ha hw hs
  | .ite i q t e => by
    have iht := execs_promote n t
    have ihe := execs_promote n e
    intro s s' he ha hw hs
    simp only [Stmt.writes, List.mem_append] at hw
    simp only [Stmt.invocations, List.mem_append] at hs
    have h := evalInit_promote hc hk i hf he ha (fun x hx => hw x (.inl hx)) (fun x hx => hs x (.inl hx))
    simp only [exec]
    generalize evalInit c K env d i s = o at h
    generalize evalInit c' K' env' d i s' = o' at h
    cases h with
    | none => exact .none
    | exn ha1 h1 h2 => exact .exn ha1 h1 h2
    | @val v s1 s1' ha1 h1 h2 =>
      have he1 := hf.step he ha1 h1 h2
      have h := eval_promote hc hk q hf he1 ha1 (fun x hx => hw x (.inr (.inl hx))) (fun x hx => hs x (.inr (.inl hx)))
      dsimp only
      generalize eval c K env d q s1 = o at h
      generalize eval c' K' env' d q s1' = o' at h
      cases h with
      | none => exact .none
      | exn ha2 h3 h4 => exact .exn ha2 (h1.trans h3) (h2.trans h4)
      | @val v2 s2 s2' ha2 h3 h4 =>
        have he2 := hf.step he1 ha2 h3 h4
        dsimp only
        cases v2.truth with
        | true =>
          simp only [if_true]
          exact (iht he2 ha2 (fun x hx => hw x (.inr (.inr (.inl hx)))) (fun x hx => hs x (.inr (.inr (.inl hx))))).mono (h1.trans h3) (h2.trans h4)
        | false =>
          simp only [Bool.false_eq_true, if_false]
          exact (ihe he2 ha2 (fun x hx => hw x (.inr (.inr (.inr hx)))) (fun x hx => hs x (.inr (.inr (.inr hx))))).mono (h1.trans h3) (h2.trans h4)
  | .while_ i q b e => by
    have ihb := execs_promote n b
    have ihe := execs_promote n e
    intro s s' he ha hw hs
    simp only [Stmt.writes, List.mem_append] at hw
    simp only [Stmt.invocations, List.mem_append] at hs
    have h := evalInit_promote hc hk i hf he ha (fun x hx => hw x (.inl hx)) (fun x hx => hs x (.inl hx))
    simp only [exec]
    generalize evalInit c K env d i s = o at h
    generalize evalInit c' K' env' d i s' = o' at h
    cases h with
    | none => exact .none
    | exn ha1 h1 h2 => exact .exn ha1 h1 h2
    | @val v s1 s1' ha1 h1 h2 =>
      have he1 := hf.step he ha1 h1 h2
      exact (loop_promote hf (fun het hat => eval_promote hc hk q hf het hat (fun x hx => hw x (.inr (.inl hx))) (fun x hx => hs x (.inr (.inl hx))))
        (fun het hat => ihb het hat (fun x hx => hw x (.inr (.inr (.inl hx)))) (fun x hx => hs x (.inr (.inr (.inl hx)))))
        (fun het hat => ihe het hat (fun x hx => hw x (.inr (.inr (.inr hx)))) (fun x hx => hs x (.inr (.inr (.inr hx)))))
        n he1 ha1).mono h1 h2
  | .try_ b g => by
    have ihb := execs_promote n b
    have ihg := execs_promote n g
    intro s s' he ha hw hs
    simp only [Stmt.writes, List.mem_append] at hw
    simp only [Stmt.invocations, List.mem_append] at hs
    have h := ihb he ha (fun x hx => hw x (.inl hx)) (fun x hx => hs x (.inl hx))
    simp only [exec]
    generalize execs c K env d n b s = o at h
    generalize execs c' K' env' d n b s' = o' at h
    cases h with
    | none => exact .none
    | exn ha1 h1 h2 =>
      exact (ihg (hf.step he ha1 h1 h2) ha1 (fun x hx => hw x (.inr hx)) (fun x hx => hs x (.inr hx))).mono h1 h2
    | norm ha1 h1 h2 => exact .norm ha1 h1 h2
    | brk ha1 h1 h2 => exact .brk ha1 h1 h2
    | cont ha1 h1 h2 => exact .cont ha1 h1 h2
    | ret ha1 h1 h2 => exact .ret ha1 h1 h2
theorem execs_promote (n : Nat) : (b : Stmts) → ∀ ⦃s s' : St M⦄, Equal env env' s s' → Agree B s s' →
    (∀ x ∈ b.writes K', wr x) → (∀ x ∈ b.invocations, SafeCall K K' own x) →
    OutR B R s s' (execs c K env d n b s) (execs c' K' env' d n b s')
  | .nil => by
    intro s s' he ha hw hs
    simp only [execs]; exact .norm ha .refl .refl
  | .cons a r => by
    have iha := exec_promote n a
    have ihr := execs_promote n r
    intro s s' he ha hw hs
    simp only [Stmts.writes, List.mem_append] at hw
    simp only [Stmts.invocations, List.mem_append] at hs
    have h := iha he ha (fun x hx => hw x (.inl hx)) (fun x hx => hs x (.inl hx))
    simp only [execs]
    generalize exec c K env d n a s = o at h
    generalize exec c' K' env' d n a s' = o' at h
    cases h with
    | none => exact .none
    | norm ha1 h1 h2 =>
      exact (ihr (hf.step he ha1 h1 h2) ha1 (fun x hx => hw x (.inr hx)) (fun x hx => hs x (.inr hx))).mono h1 h2
    | exn ha1 h1 h2 => exact .exn ha1 h1 h2
    | brk ha1 h1 h2 => exact .brk ha1 h1 h2
    | cont ha1 h1 h2 => exact .cont ha1 h1 h2
    | ret ha1 h1 h2 => exact .ret ha1 h1 h2
end
end

end Verif.Opt.Whole
