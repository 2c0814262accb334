import Verif.Opt.ParamsPromoteMain

/-!
# Removing unused parameters keeps what programs do (C84)
-/

namespace Verif.Opt.Whole

variable {M : Sem}

/-! ## Lists -/

/-- The positions of the rest of a list. -/
def shift (r : Nat → Bool) : Nat → Bool := fun j => r (j + 1)

theorem dropAt_cons {α : Type} (r : Nat → Bool) (a : α) (l : List α) :
    dropAt r (a :: l) = if r 0 then dropAt (shift r) l else a :: dropAt (shift r) l := rfl

theorem dropAtE_cons (r : Nat → Bool) (e : Expr) (l : Exprs) :
    Exprs.dropAt r (.cons e l) = if r 0 then Exprs.dropAt (shift r) l else .cons e (Exprs.dropAt (shift r) l) := rfl

theorem dropAt_id {α : Type} : ∀ (l : List α) {r : Nat → Bool}, (∀ j, j < l.length → r j = false) → dropAt r l = l
  | [], _, _ => rfl
  | a :: l, r, h => by
    rw [dropAt_cons, h 0 (by simp), dropAt_id l (r := shift r) fun j hj => h (j + 1) (by simpa using hj)]
    rfl

theorem dropAtE_id : ∀ (l : Exprs) {r : Nat → Bool}, (∀ j, j < l.toList.length → r j = false) → Exprs.dropAt r l = l
  | .nil, _, _ => rfl
  | .cons a l, r, h => by
    rw [dropAtE_cons, h 0 (by simp [Exprs.toList]), dropAtE_id l (r := shift r) fun j hj => h (j + 1) (by simpa [Exprs.toList] using hj)]
    rfl

theorem dropAt_length_le {α : Type} : ∀ (l : List α) {r : Nat → Bool}, (dropAt r l).length ≤ l.length
  | [], _ => by simp [dropAt]
  | a :: l, r => by
    have := dropAt_length_le l (r := shift r)
    rw [dropAt_cons]
    split <;> simp <;> omega

theorem dropAt_full {α : Type} : ∀ (l : List α) {r : Nat → Bool}, (dropAt r l).length = l.length → ∀ j, j < l.length → r j = false
  | [], _, _, j, hj => by simp at hj
  | a :: l, r, h, j, hj => by
    have hle := dropAt_length_le l (r := shift r)
    rw [dropAt_cons] at h
    cases h0 : r 0 with
    | true => rw [h0] at h; simp only [if_true, List.length_cons] at h; omega
    | false =>
      rw [h0] at h
      simp only [Bool.false_eq_true, if_false, List.length_cons, Nat.add_right_cancel_iff] at h
      cases j with
      | zero => exact h0
      | succ j => exact dropAt_full l h j (by simpa using hj)

theorem pruneEs_length {r : Fn → Nat → Bool} {pr : Fn → Bool} {rank : Fn → Nat} : ∀ (as : Exprs) (out : List Fn),
    (pruneEs r pr rank out as).toList.length = as.toList.length
  | .nil, out => by simp [pruneEs, Exprs.toList]
  | .cons e l, out => by simp [pruneEs, Exprs.toList, pruneEs_length l out]

/-! ## Relations -/

/-- Outcomes of expressions. -/
inductive EvP (B : Loc → Prop) : Option (Ev M) → Option (Ev M) → Prop
  | none : EvP B none none
  | val {v s1 s1'} : Agree B s1 s1' → EvP B (some (.val v s1)) (some (.val v s1'))
  | exn {s1 s1'} : Agree B s1 s1' → EvP B (some (.exn s1)) (some (.exn s1'))

/-- Outcomes of statements. -/
inductive OutP (B : Loc → Prop) : Option (Out M) → Option (Out M) → Prop
  | none : OutP B none none
  | norm {s1 s1'} : Agree B s1 s1' → OutP B (some (.norm s1)) (some (.norm s1'))
  | brk {s1 s1'} : Agree B s1 s1' → OutP B (some (.brk s1)) (some (.brk s1'))
  | cont {s1 s1'} : Agree B s1 s1' → OutP B (some (.cont s1)) (some (.cont s1'))
  | ret {v s1 s1'} : Agree B s1 s1' → OutP B (some (.ret v s1)) (some (.ret v s1'))
  | exn {s1 s1'} : Agree B s1 s1' → OutP B (some (.exn s1)) (some (.exn s1'))

/-- References that are still passed are to places that agree. -/
def KeptOk (B : Loc → Prop) (d : Nat) : (Nat → Bool) → List Arg → Prop
  | _, [] => True
  | r, a :: as => (r 0 = false → ∀ l, a = .ref l → ¬ B l ∧ ∀ e x, l = .slot e x → e ≤ d) ∧ KeptOk B d (shift r) as

/-- Outcomes of lists of arguments. -/
inductive EvsP (B : Loc → Prop) (d : Nat) (r : Nat → Bool) (n : Nat) : Option (Evs M) → Option (Evs M) → Prop
  | none : EvsP B d r n none none
  | vals {as s1 s1'} : Agree B s1 s1' → KeptOk B d r as → as.length = n → EvsP B d r n (some (.vals as s1)) (some (.vals (dropAt r as) s1'))
  | exn {s1 s1'} : Agree B s1 s1' → EvsP B d r n (some (.exn s1)) (some (.exn s1'))

/-- What calls do. -/
def CallsP (K : Fn → List Kind) (r : Fn → Nat → Bool) (c c' : Calls M) : Prop :=
  ∀ f args d s s' (B : Loc → Prop), Low d B → Agree B s s' → KeptOk B d (r f) args → args.length = (K f).length →
    EvP B (c f args d s) (c' f (dropAt (r f) args) d s')

/-- The frames. -/
structure FrameP (B : Loc → Prop) (used : Nat → Prop) (d : Nat) (env env' : Nat → Loc) : Prop where
  lowB : Low d B
  name : ∀ x, used x → env x = env' x ∧ ¬ B (env x)
  far : ∀ x, used x → ∀ e y, env x = .slot e y → e ≤ d

/-- The arguments of a call that are dropped have no effects, and all are there. -/
def DropOk (M : Sem) (K : Fn → List Kind) (r : Fn → Nat → Bool) (c : Fn × Exprs) : Prop :=
  (∀ (j : Nat) e, c.2.toList[j]? = some e → r c.1 j = true → Harmless M e) ∧ c.2.toList.length = (K c.1).length

section
variable {c c' : Calls M} {K K' : Fn → List Kind} {r : Fn → Nat → Bool} {pr : Fn → Bool} {rank : Fn → Nat} {env env' : Nat → Loc} {d : Nat}
  {B : Loc → Prop} {used : Nat → Prop}

theorem FrameP.loc (hf : FrameP B used d env env') (n : Name) (hn : ∀ x, n = .loc x → used x) : locOf env n = locOf env' n ∧ ¬ B (locOf env n) ∧
    ∀ e y, locOf env n = .slot e y → e ≤ d := by
  cases n with
  | loc x => exact ⟨(hf.name x (hn x rfl)).1, (hf.name x (hn x rfl)).2, hf.far x (hn x rfl)⟩
  | glob g => exact ⟨rfl, hf.lowB.glob g, fun e y h => by simp [locOf] at h⟩

theorem map_get_kept {s s' : St M} (ha : Agree B s s') : ∀ {as : List Arg}, KeptOk B d (fun _ => false) as →
    as.map (Arg.get s) = as.map (Arg.get s')
  | [], _ => rfl
  | a :: as, h => by
    simp only [List.map_cons, map_get_kept ha (show KeptOk B d (fun _ => false) as from h.2), List.cons.injEq, and_true]
    cases a with
    | val v => rfl
    | ref l => exact ha.mem l (h.1 rfl l rfl).1

theorem pruneE_name {out : List Fn} {e : Expr} (h : ∀ n, e ≠ .name n) : ∀ n, pruneE r pr rank out e ≠ .name n := by
  intro n
  cases e with
  | name m => exact absurd rfl (h m)
  | call f as => simp only [pruneE]; split <;> (try split) <;> simp
  | _ => simp [pruneE]

/-- Calls keep the arguments that are kept, whatever encloses them. -/
theorem pruneE_call {f : Fn} {as : Exprs} (hK : ∀ f, K' f = dropAt (r f) (K f)) (hpr : ∀ f, pr f = false → ∀ j, j < (K f).length → r f j = false)
    (hl : as.toList.length = (K f).length) (out : List Fn)
    (ha : ∀ c ∈ (pruneE r pr rank out (.call f as)).invocations, c.2.toList.length = (K' c.1).length) :
    ∃ out', pruneE r pr rank out (.call f as) = .call f ((pruneEs r pr rank out' as).dropAt (r f)) := by
  simp only [pruneE] at ha ⊢
  by_cases h1 : (out.any fun g => rank g ≤ rank f) = true
  · rw [if_pos h1] at ha ⊢
    refine ⟨out, ?_⟩
    have h2 := ha (f, pruneEs r pr rank out as) (by simp [Expr.invocations])
    simp only [pruneEs_length, hK] at h2
    rw [dropAtE_id]
    intro j hj
    rw [pruneEs_length, hl] at hj
    exact dropAt_full (K f) (by rw [← h2, hl]) j hj
  · rw [if_neg h1]
    cases hp : pr f with
    | true => exact ⟨f :: out, by simp⟩
    | false =>
      refine ⟨out, ?_⟩
      simp only [Bool.false_eq_true, if_false]
      rw [dropAtE_id]
      intro j hj
      rw [pruneEs_length, hl] at hj
      exact hpr f hp j hj

theorem dropAtE_ks (r : Nat → Bool) (ks : List Kind) (h : r 0 = false) : (dropAt r ks).headD .copy = ks.headD .copy ∧ (dropAt r ks).tail = dropAt (shift r) ks.tail := by
  cases ks with
  | nil => exact ⟨rfl, rfl⟩
  | cons k ks => rw [dropAt_cons, h]; exact ⟨rfl, rfl⟩

theorem dropAtE_ks' (r : Nat → Bool) (ks : List Kind) (h : r 0 = true) : dropAt r ks = dropAt (shift r) ks.tail := by
  cases ks with
  | nil => rfl
  | cons k ks => rw [dropAt_cons, h]; rfl

variable (hc : CallsP K r c c') (hK : ∀ f, K' f = dropAt (r f) (K f)) (hpr : ∀ f, pr f = false → ∀ j, j < (K f).length → r f j = false)
  (hf : FrameP B used d env env')
include hc hK hpr hf

mutual
theorem eval_prune : (e : Expr) → ∀ (out : List Fn) ⦃s s' : St M⦄, Agree B s s' → (∀ x ∈ e.locs, used x) → (∀ c ∈ e.invocations, DropOk M K r c) →
    (∀ c ∈ (pruneE r pr rank out e).invocations, c.2.toList.length = (K' c.1).length) →
    EvP B (eval c K env d e s) (eval c' K' env' d (pruneE r pr rank out e) s')
  | .lit v => by
    intro out s s' ha hu hd hx
    simp only [eval, pruneE]; exact .val ha
  | .name n => by
    intro out s s' ha hu hd hx
    have hn := hf.loc n fun x hx => hu x (by subst hx; simp [Expr.locs])
    simp only [eval, pruneE, ← hn.1, ha.mem _ hn.2.1]; exact .val ha
  | .op o as => by
    have ih := evalArgs_prune as
    intro out s s' ha hu hd hx
    simp only [pruneE, Expr.invocations] at hx
    have h := ih out (fun _ => false) (ks := []) ha hu hd (fun j e _ h => by simp at h) (by rwa [dropAtE_id _ fun _ _ => rfl])
    rw [dropAtE_id _ fun _ _ => rfl] at h
    simp only [eval, pruneE, dropAt] at h ⊢
    generalize evalArgs c K env d [] as s = q at h
    generalize evalArgs c' K' env' d [] (pruneEs r pr rank out as) s' = q' at h
    cases h with
    | none => exact .none
    | exn ha1 => exact .exn ha1
    | vals ha1 hk _ =>
      rw [dropAt_id _ fun _ _ => rfl]
      simp only [map_get_kept ha1 hk]
      split
      · exact .val ha1
      · exact .exn ha1
  | .mod o n => by
    intro out s s' ha hu hd hx
    have hn := hf.loc n fun x hx => hu x (by subst hx; simp [Expr.locs])
    simp only [eval, pruneE, ← hn.1, ha.mem _ hn.2.1]
    split
    · exact .val (ha.set _ _)
    · exact .exn ha
  | .assign n e => by
    have ih := eval_prune e
    intro out s s' ha hu hd hx
    have hn := hf.loc n fun x hx => hu x (by subst hx; simp [Expr.locs])
    simp only [pruneE, Expr.invocations] at hx
    have h := ih out ha (fun x hx => hu x (by cases n <;> simp [Expr.locs, hx])) hd hx
    simp only [eval, pruneE]
    generalize eval c K env d e s = q at h
    generalize eval c' K' env' d (pruneE r pr rank out e) s' = q' at h
    cases h with
    | none => exact .none
    | exn ha1 => exact .exn ha1
    | val ha1 => simp only [← hn.1]; exact .val (ha1.set _ _)
  | .tern q a b => by
    have ihq := eval_prune q
    have iha := eval_prune a
    have ihb := eval_prune b
    intro out s s' ha hu hd hx
    simp only [Expr.locs, List.mem_append] at hu
    simp only [Expr.invocations, List.mem_append] at hd
    simp only [pruneE, Expr.invocations, List.mem_append] at hx
    have h := ihq out ha (fun x hx => hu x (.inl hx)) (fun x hx => hd x (.inl hx)) (fun c h => hx c (.inl h))
    simp only [eval, pruneE]
    generalize eval c K env d q s = o at h
    generalize eval c' K' env' d (pruneE r pr rank out q) s' = o' at h
    cases h with
    | none => exact .none
    | exn ha1 => exact .exn ha1
    | @val v s1 s1' ha1 =>
      dsimp only
      cases v.truth with
      | true =>
        simp only [if_true]
        exact iha out ha1 (fun x hx => hu x (.inr (.inl hx))) (fun x hx => hd x (.inr (.inl hx))) (fun c h => hx c (.inr (.inl h)))
      | false =>
        simp only [Bool.false_eq_true, if_false]
        exact ihb out ha1 (fun x hx => hu x (.inr (.inr hx))) (fun x hx => hd x (.inr (.inr hx))) (fun c h => hx c (.inr (.inr h)))
  | .call f as => by
    have ih := evalArgs_prune as
    intro out s s' ha hu hd hx
    simp only [Expr.invocations, List.mem_cons] at hd
    have hd1 := hd (f, as) (.inl rfl)
    obtain ⟨out', ho⟩ := pruneE_call hK hpr hd1.2 out hx
    rw [ho] at hx ⊢
    simp only [Expr.invocations, List.mem_cons] at hx
    have h := ih out' (r f) (ks := K f) ha hu (fun c h => hd c (.inr h)) (fun j e h1 h2 => hd1.1 j e h1 h2) (fun c h => hx c (.inr h))
    simp only [eval]
    rw [← hK] at h
    generalize evalArgs c K env d (K f) as s = q at h
    generalize evalArgs c' K' env' d (K' f) ((pruneEs r pr rank out' as).dropAt (r f)) s' = q' at h
    cases h with
    | none => exact .none
    | exn ha1 => exact .exn ha1
    | vals ha1 hk hl => exact hc f _ d _ _ B hf.lowB ha1 hk (hl.trans hd1.2)
theorem evalArgs_prune : (as : Exprs) → ∀ (out : List Fn) (t : Nat → Bool) ⦃s s' : St M⦄ ⦃ks : List Kind⦄, Agree B s s' → (∀ x ∈ as.locs, used x) →
    (∀ c ∈ as.invocations, DropOk M K r c) → (∀ (j : Nat) e, as.toList[j]? = some e → t j = true → Harmless M e) →
    (∀ c ∈ ((pruneEs r pr rank out as).dropAt t).invocations, c.2.toList.length = (K' c.1).length) →
    EvsP B d t as.toList.length (evalArgs c K env d ks as s) (evalArgs c' K' env' d (dropAt t ks) ((pruneEs r pr rank out as).dropAt t) s')
  | .nil => by
    intro out t s s' ks ha hu hd hh hx
    simp only [evalArgs, pruneEs, Exprs.dropAt, Exprs.toList, List.length_nil]; exact .vals ha trivial rfl
  | .cons e l => by
    have ihe := eval_prune e
    have ihl := evalArgs_prune l
    intro out t s s' ks ha hu hd hh hx
    simp only [Exprs.locs, List.mem_append] at hu
    simp only [Exprs.invocations, List.mem_append] at hd
    simp only [pruneEs, dropAtE_cons] at hx ⊢
    have hh' : ∀ (j : Nat) e, l.toList[j]? = some e → shift t j = true → Harmless M e := fun j e' h1 h2 =>
      hh (j + 1) e' (by simpa only [Exprs.toList, List.getElem?_cons_succ] using h1) h2
    cases h0 : t 0 with
    | true =>
      rw [h0] at hx
      simp only [if_true] at hx
      rw [dropAtE_ks' t ks h0]
      have he := hh 0 e (by simp [Exprs.toList]) h0
      have h := ihl out (shift t) (ks := ks.tail) ha (fun x h => hu x (.inr h)) (fun c h => hd c (.inr h)) hh' hx
      obtain ⟨v, hv⟩ := he c K env d s
      have aux : ∀ a : Arg, EvsP B d t (Exprs.cons e l).toList.length
          (match evalArgs c K env d ks.tail l s with
            | none => none
            | some (.exn s1) => some (.exn s1)
            | some (.vals as s1) => some (.vals (a :: as) s1))
          (evalArgs c' K' env' d (dropAt (shift t) ks.tail) ((pruneEs r pr rank out l).dropAt (shift t)) s') := by
        intro a
        generalize evalArgs c K env d ks.tail l s = q at h
        generalize evalArgs c' K' env' d (dropAt (shift t) ks.tail) ((pruneEs r pr rank out l).dropAt (shift t)) s' = q' at h
        cases h with
        | none => exact .none
        | exn ha1 => exact .exn ha1
        | @vals as s1 s1' ha1 hk hl =>
          have e1 : dropAt (shift t) as = dropAt t (a :: as) := by rw [dropAt_cons, h0]; rfl
          rw [e1]
          exact .vals ha1 ⟨fun h => (by rw [h0] at h; cases h), hk⟩ (by simp [Exprs.toList, hl])
      simp only [if_true, evalArgs]
      cases hb : byRef env (ks.headD .copy) e with
      | some l' => exact aux (.ref l')
      | none => simp only [hv]; exact aux (.val v)
    | false =>
      rw [h0] at hx
      simp only [Bool.false_eq_true, if_false, Exprs.invocations, List.mem_append] at hx
      obtain ⟨hk1, hk2⟩ := dropAtE_ks t ks h0
      have rest : ∀ {u u' : St M}, Agree B u u' → EvsP B d (shift t) l.toList.length (evalArgs c K env d ks.tail l u)
          (evalArgs c' K' env' d (dropAt (shift t) ks.tail) ((pruneEs r pr rank out l).dropAt (shift t)) u') := fun hau =>
        ihl out (shift t) (ks := ks.tail) hau (fun x h => hu x (.inr h)) (fun c h => hd c (.inr h)) hh' (fun c h => hx c (.inr h))
      have join : ∀ (a : Arg) {u u' : St M}, Agree B u u' → (∀ l, a = .ref l → ¬ B l ∧ ∀ e x, l = .slot e x → e ≤ d) →
          EvsP B d t (Exprs.cons e l).toList.length
          (match evalArgs c K env d ks.tail l u with
            | none => none
            | some (.exn s1) => some (.exn s1)
            | some (.vals as s1) => some (.vals (a :: as) s1))
          (match evalArgs c' K' env' d (dropAt (shift t) ks.tail) ((pruneEs r pr rank out l).dropAt (shift t)) u' with
            | none => none
            | some (.exn s1) => some (.exn s1)
            | some (.vals as s1) => some (.vals (a :: as) s1)) := by
        intro a u u' hau hal
        have h := rest hau
        generalize evalArgs c K env d ks.tail l u = q at h
        generalize evalArgs c' K' env' d (dropAt (shift t) ks.tail) ((pruneEs r pr rank out l).dropAt (shift t)) u' = q' at h
        cases h with
        | none => exact .none
        | exn ha1 => exact .exn ha1
        | @vals as s1 s1' ha1 hk hl =>
          have e1 : a :: dropAt (shift t) as = dropAt t (a :: as) := by rw [dropAt_cons, h0]; rfl
          simp only [e1]
          exact .vals ha1 ⟨fun _ => hal, hk⟩ (by simp [Exprs.toList, hl])
      simp only [Bool.false_eq_true, if_false, evalArgs, hk1, hk2]
      have both : byRef env (ks.headD .copy) e = none → byRef env' (ks.headD .copy) (pruneE r pr rank out e) = none → EvsP B d t (Exprs.cons e l).toList.length
          (match byRef env (ks.headD .copy) e with
            | some l' => match evalArgs c K env d ks.tail l s with
              | none => none
              | some (.exn s1) => some (.exn s1)
              | some (.vals as s1) => some (.vals (.ref l' :: as) s1)
            | none => match eval c K env d e s with
              | none => none
              | some (.exn s1) => some (.exn s1)
              | some (.val v s1) => match evalArgs c K env d ks.tail l s1 with
                | none => none
                | some (.exn s2) => some (.exn s2)
                | some (.vals as s2) => some (.vals (.val v :: as) s2))
          (match byRef env' (ks.headD .copy) (pruneE r pr rank out e) with
            | some l' => match evalArgs c' K' env' d (dropAt (shift t) ks.tail) ((pruneEs r pr rank out l).dropAt (shift t)) s' with
              | none => none
              | some (.exn s1) => some (.exn s1)
              | some (.vals as s1) => some (.vals (.ref l' :: as) s1)
            | none => match eval c' K' env' d (pruneE r pr rank out e) s' with
              | none => none
              | some (.exn s1) => some (.exn s1)
              | some (.val v s1) => match evalArgs c' K' env' d (dropAt (shift t) ks.tail) ((pruneEs r pr rank out l).dropAt (shift t)) s1 with
                | none => none
                | some (.exn s2) => some (.exn s2)
                | some (.vals as s2) => some (.vals (.val v :: as) s2)) := by
        intro hb hb'
        have h := ihe out ha (fun x h => hu x (.inl h)) (fun c h => hd c (.inl h)) (fun c h => hx c (.inl h))
        simp only [hb, hb']
        generalize eval c K env d e s = q at h
        generalize eval c' K' env' d (pruneE r pr rank out e) s' = q' at h
        cases h with
        | none => exact .none
        | exn ha1 => exact .exn ha1
        | val ha1 => exact join (.val _) ha1 (fun l h => by cases h)
      by_cases hn : ∃ n, e = .name n
      · obtain ⟨n, hn⟩ := hn
        have he' : pruneE r pr rank out e = .name n := by rw [hn]; simp only [pruneE]
        by_cases h1 : ks.headD .copy = .copy
        · exact both (by rw [h1]; rfl) (by rw [h1]; rfl)
        · have hloc := hf.loc n fun x hx => hu x (.inl (by rw [hn, hx]; simp [Expr.locs]))
          have hb : byRef env (ks.headD .copy) e = some (locOf env n) := by
            rw [hn]; cases hq : ks.headD Kind.copy <;> simp_all [byRef]
          have hb' : byRef env' (ks.headD .copy) (pruneE r pr rank out e) = some (locOf env n) := by
            rw [he', hloc.1]; cases hq : ks.headD Kind.copy <;> simp_all [byRef]
          simp only [hb, hb']
          exact join (.ref _) ha (fun l h => by injection h with h; subst h; exact hloc.2)
      · exact both (byRef_none (fun n h => hn ⟨n, h⟩) _ _) (byRef_none (pruneE_name fun n h => hn ⟨n, h⟩) _ _)
end

theorem evalInit_prune (i : Option (Nat × Expr)) {s s' : St M} (ha : Agree B s s') (hu : ∀ x ∈ initLocs i, used x)
    (hd : ∀ c ∈ initInvocations i, DropOk M K r c)
    (hx : ∀ c ∈ initInvocations (pruneI r pr rank i), c.2.toList.length = (K' c.1).length) :
    EvP B (evalInit c K env d i s) (evalInit c' K' env' d (pruneI r pr rank i) s') := by
  cases i with
  | none => exact .val ha
  | some p =>
    obtain ⟨x, e⟩ := p
    simp only [initLocs, List.mem_cons] at hu
    have h := eval_prune hc hK hpr hf e [] ha (fun y hy => hu y (.inr hy)) hd hx
    have h3 := (hf.name x (hu x (.inl rfl))).1
    simp only [evalInit, pruneI]
    generalize eval c K env d e s = q at h
    generalize eval c' K' env' d (pruneE r pr rank [] e) s' = q' at h
    cases h with
    | none => exact .none
    | exn ha1 => exact .exn ha1
    | val ha1 => simp only [← h3]; exact .val (ha1.set _ _)

omit hc hK hpr hf in
theorem loop_prune {q q' : St M → Option (Ev M)} {b b' e e' : St M → Option (Out M)}
    (hq : ∀ {s s'}, Agree B s s' → EvP B (q s) (q' s')) (hb : ∀ {s s'}, Agree B s s' → OutP B (b s) (b' s'))
    (hel : ∀ {s s'}, Agree B s s' → OutP B (e s) (e' s')) :
    ∀ n {s s'}, Agree B s s' → OutP B (loop q b e n s) (loop q' b' e' n s')
  | 0, s, s', _ => .none
  | n + 1, s, s', ha => by
    have h := hq ha
    simp only [loop]
    generalize q s = o at h
    generalize q' s' = o' at h
    cases h with
    | none => exact .none
    | exn ha1 => exact .exn ha1
    | @val v s1 s1' ha1 =>
      dsimp only
      cases v.truth with
      | false => simp only [Bool.false_eq_true, if_false]; exact hel ha1
      | true =>
        simp only [if_true]
        have h := hb ha1
        generalize b s1 = o at h
        generalize b' s1' = o' at h
        cases h with
        | none => exact .none
        | norm ha2 => exact loop_prune hq hb hel n ha2
        | cont ha2 => exact loop_prune hq hb hel n ha2
        | brk ha2 => exact .norm ha2
        | ret ha2 => exact .ret ha2
        | exn ha2 => exact .exn ha2

mutual
theorem exec_prune (n : Nat) : (a : Stmt) → ∀ ⦃s s' : St M⦄, Agree B s s' → (∀ x ∈ a.locs, used x) → (∀ c ∈ a.invocations, DropOk M K r c) →
    (∀ c ∈ (prune r pr rank a).invocations, c.2.toList.length = (K' c.1).length) →
    OutP B (exec c K env d n a s) (exec c' K' env' d n (prune r pr rank a) s')
  | .expr e => by
    intro s s' ha hu hd hx
    have h := eval_prune hc hK hpr hf e [] ha hu hd hx
    simp only [exec, prune]
    generalize eval c K env d e s = q at h
    generalize eval c' K' env' d (pruneE r pr rank [] e) s' = q' at h
    cases h with
    | none => exact .none
    | exn ha1 => exact .exn ha1
    | val ha1 => exact .norm ha1
  | .decl x e => by
    intro s s' ha hu hd hx
    have h := evalInit_prune hc hK hpr hf (some (x, e)) ha hu hd hx
    simp only [pruneI] at h
    simp only [exec, prune]
    generalize evalInit c K env d (some (x, e)) s = q at h
    generalize evalInit c' K' env' d (some (x, pruneE r pr rank [] e)) s' = q' at h
    cases h with
    | none => exact .none
    | exn ha1 => exact .exn ha1
    | val ha1 => exact .norm ha1
  | .ret none => by
    intro s s' ha hu hd hx
    simp only [exec, prune, pruneO]; exact .ret ha
  | .ret (some e) => by
    intro s s' ha hu hd hx
    have h := eval_prune hc hK hpr hf e [] ha hu hd hx
    simp only [exec, prune, pruneO]
    generalize eval c K env d e s = q at h
    generalize eval c' K' env' d (pruneE r pr rank [] e) s' = q' at h
    cases h with
    | none => exact .none
    | exn ha1 => exact .exn ha1
    | val ha1 => exact .ret ha1
  | .throw_ e => by
    intro s s' ha hu hd hx
    have h := eval_prune hc hK hpr hf e [] ha hu hd hx
    simp only [exec, prune]
    generalize eval c K env d e s = q at h
    generalize eval c' K' env' d (pruneE r pr rank [] e) s' = q' at h
    cases h with
    | none => exact .none
    | exn ha1 => exact .exn ha1
    | val ha1 => exact .exn ha1
  | .brk => by
    intro s s' ha hu hd hx
    simp only [exec, prune]; exact .brk ha
  | .cont => by
    intro s s' ha hu hd hx
    simp only [exec, prune]; exact .cont ha
  | .block b => by
    have ih := execs_prune n b
    intro s s' ha hu hd hx
    simp only [exec, prune]
    exact ih ha hu hd hx
  | .ite i q t e => by
    have iht := execs_prune n t
    have ihe := execs_prune n e
    intro s s' ha hu hd hx
    simp only [Stmt.locs, List.mem_append] at hu
    simp only [Stmt.invocations, List.mem_append] at hd
    simp only [prune, Stmt.invocations, List.mem_append] at hx
    have h := evalInit_prune hc hK hpr hf i ha (fun x h => hu x (.inl h)) (fun x h => hd x (.inl h)) (fun x h => hx x (.inl h))
    simp only [exec, prune]
    generalize evalInit c K env d i s = o at h
    generalize evalInit c' K' env' d (pruneI r pr rank i) s' = o' at h
    cases h with
    | none => exact .none
    | exn ha1 => exact .exn ha1
    | @val v s1 s1' ha1 =>
      have h := eval_prune hc hK hpr hf q [] ha1 (fun x h => hu x (.inr (.inl h))) (fun x h => hd x (.inr (.inl h))) (fun x h => hx x (.inr (.inl h)))
      dsimp only
      generalize eval c K env d q s1 = o at h
      generalize eval c' K' env' d (pruneE r pr rank [] q) s1' = o' at h
      cases h with
      | none => exact .none
      | exn ha2 => exact .exn ha2
      | @val v2 s2 s2' ha2 =>
        dsimp only
        cases v2.truth with
        | true =>
          simp only [if_true]
          exact iht ha2 (fun x h => hu x (.inr (.inr (.inl h)))) (fun x h => hd x (.inr (.inr (.inl h)))) (fun x h => hx x (.inr (.inr (.inl h))))
        | false =>
          simp only [Bool.false_eq_true, if_false]
          exact ihe ha2 (fun x h => hu x (.inr (.inr (.inr h)))) (fun x h => hd x (.inr (.inr (.inr h)))) (fun x h => hx x (.inr (.inr (.inr h))))
  | .while_ i q b e => by
    have ihb := execs_prune n b
    have ihe := execs_prune n e
    intro s s' ha hu hd hx
    simp only [Stmt.locs, List.mem_append] at hu
    simp only [Stmt.invocations, List.mem_append] at hd
    simp only [prune, Stmt.invocations, List.mem_append] at hx
    have h := evalInit_prune hc hK hpr hf i ha (fun x h => hu x (.inl h)) (fun x h => hd x (.inl h)) (fun x h => hx x (.inl h))
    simp only [exec, prune]
    generalize evalInit c K env d i s = o at h
    generalize evalInit c' K' env' d (pruneI r pr rank i) s' = o' at h
    cases h with
    | none => exact .none
    | exn ha1 => exact .exn ha1
    | @val v s1 s1' ha1 =>
      exact loop_prune (fun hau => eval_prune hc hK hpr hf q [] hau (fun x h => hu x (.inr (.inl h))) (fun x h => hd x (.inr (.inl h))) (fun x h => hx x (.inr (.inl h))))
        (fun hau => ihb hau (fun x h => hu x (.inr (.inr (.inl h)))) (fun x h => hd x (.inr (.inr (.inl h)))) (fun x h => hx x (.inr (.inr (.inl h)))))
        (fun hau => ihe hau (fun x h => hu x (.inr (.inr (.inr h)))) (fun x h => hd x (.inr (.inr (.inr h)))) (fun x h => hx x (.inr (.inr (.inr h)))))
        n ha1
  | .try_ b g => by
    have ihb := execs_prune n b
    have ihg := execs_prune n g
    intro s s' ha hu hd hx
    simp only [Stmt.locs, List.mem_append] at hu
    simp only [Stmt.invocations, List.mem_append] at hd
    simp only [prune, Stmt.invocations, List.mem_append] at hx
    have h := ihb ha (fun x h => hu x (.inl h)) (fun x h => hd x (.inl h)) (fun x h => hx x (.inl h))
    simp only [exec, prune]
    generalize execs c K env d n b s = o at h
    generalize execs c' K' env' d n (prunes' r pr rank b) s' = o' at h
    cases h with
    | none => exact .none
    | exn ha1 => exact ihg ha1 (fun x h => hu x (.inr h)) (fun x h => hd x (.inr h)) (fun x h => hx x (.inr h))
    | norm ha1 => exact .norm ha1
    | brk ha1 => exact .brk ha1
    | cont ha1 => exact .cont ha1
    | ret ha1 => exact .ret ha1
theorem execs_prune (n : Nat) : (b : Stmts) → ∀ ⦃s s' : St M⦄, Agree B s s' → (∀ x ∈ b.locs, used x) → (∀ c ∈ b.invocations, DropOk M K r c) →
    (∀ c ∈ (prunes' r pr rank b).invocations, c.2.toList.length = (K' c.1).length) →
    OutP B (execs c K env d n b s) (execs c' K' env' d n (prunes' r pr rank b) s')
  | .nil => by
    intro s s' ha hu hd hx
    simp only [execs, prunes']; exact .norm ha
  | .cons a l => by
    have iha := exec_prune n a
    have ihl := execs_prune n l
    intro s s' ha hu hd hx
    simp only [Stmts.locs, List.mem_append] at hu
    simp only [Stmts.invocations, List.mem_append] at hd
    simp only [prunes', Stmts.invocations, List.mem_append] at hx
    have h := iha ha (fun x h => hu x (.inl h)) (fun x h => hd x (.inl h)) (fun x h => hx x (.inl h))
    simp only [execs, prunes']
    generalize exec c K env d n a s = o at h
    generalize exec c' K' env' d n (prune r pr rank a) s' = o' at h
    cases h with
    | none => exact .none
    | norm ha1 => exact ihl ha1 (fun x h => hu x (.inr h)) (fun x h => hd x (.inr h)) (fun x h => hx x (.inr h))
    | exn ha1 => exact .exn ha1
    | brk ha1 => exact .brk ha1
    | cont ha1 => exact .cont ha1
    | ret ha1 => exact .ret ha1
end
end

end Verif.Opt.Whole
