import Verif.Opt.ParamsPromote
import Verif.Opt.WholeMono

/-!
# Promoting parameters to `in` keeps what programs do: programs (C84)
-/

namespace Verif.Opt.Whole

variable {M : Sem}

/-- The kind of a parameter. -/
def kindOf : List Nat → List Kind → Nat → Option Kind
  | p :: ps, k :: ks, x => if x = p then some k else kindOf ps ks x
  | _, _, _ => none

theorem kindOf_mem {x : Nat} {k : Kind} : ∀ {ps : List Nat} {ks : List Kind}, kindOf ps ks x = some k → (x, k) ∈ ps.zip ks
  | [], _, h => by simp [kindOf] at h
  | _ :: _, [], h => by simp [kindOf] at h
  | p :: ps, k' :: ks, h => by
    simp only [kindOf] at h
    by_cases hx : x = p
    · rw [if_pos hx] at h; injection h with h; subst h; subst hx; simp
    · rw [if_neg hx] at h; simp [kindOf_mem h]

/-- Parameters that get a value in one run and a reference in the other. -/
def promAt : List Nat → List Arg → List Arg → Nat → Prop
  | p :: ps, a :: as, a' :: as', x => (x = p ∧ ∃ v l, a = .val v ∧ a' = .ref l) ∨ promAt ps as as' x
  | _, _, _, _ => False

theorem promAt_mem {x : Nat} : ∀ {ps : List Nat} {as as' : List Arg}, promAt ps as as' x → x ∈ ps
  | [], _, _, h => by simp [promAt] at h
  | _ :: _, [], _, h => by simp [promAt] at h
  | _ :: _, _ :: _, [], h => by simp [promAt] at h
  | p :: ps, a :: as, a' :: as', h => by
    simp only [promAt] at h
    rcases h with ⟨h, _⟩ | h
    · simp [h]
    · simp [promAt_mem h]

theorem enter_nil (D : Nat) (as : List Arg) (s : St M) : enter D [] as s = s := by cases as <;> rfl
theorem enter_nil' (D : Nat) (ps : List Nat) (s : St M) : enter D ps [] s = s := by cases ps <;> rfl

theorem enter_far {D : Nat} {l : Loc} (h : ∀ x, l ≠ .slot D x) : ∀ (ps : List Nat) (as : List Arg) (s : St M), (enter D ps as s).mem l = s.mem l
  | [], as, s => by rw [enter_nil]
  | p :: ps, [], s => by rw [enter_nil']
  | p :: ps, .val v :: as, s => by simp only [enter, St.set, if_neg (h p)]; exact enter_far h ps as s
  | p :: ps, .ref _ :: as, s => by simp only [enter]; exact enter_far h ps as s

theorem enter_notin {D x : Nat} : ∀ (ps : List Nat) (as : List Arg) (s : St M), x ∉ ps → (enter D ps as s).mem (.slot D x) = s.mem (.slot D x)
  | [], as, s, _ => by rw [enter_nil]
  | p :: ps, [], s, _ => by rw [enter_nil']
  | p :: ps, .val v :: as, s, h => by
    simp only [List.mem_cons, not_or] at h
    simp only [enter, St.set]
    rw [if_neg (fun he => h.1 (by injection he)), enter_notin ps as s h.2]
  | p :: ps, .ref _ :: as, s, h => by
    simp only [List.mem_cons, not_or] at h
    simp only [enter]; exact enter_notin ps as s h.2

theorem enter_w {D : Nat} : ∀ (ps : List Nat) (as : List Arg) (s : St M), (enter D ps as s).w = s.w
  | [], as, s => by rw [enter_nil]
  | p :: ps, [], s => by rw [enter_nil']
  | p :: ps, .val v :: as, s => by simp only [enter, St.set]; exact enter_w ps as s
  | p :: ps, .ref _ :: as, s => by simp only [enter]; exact enter_w ps as s

theorem bindEnv_nil (D : Nat) (as : List Arg) (x : Nat) : bindEnv D [] as x = .slot D x := by cases as <;> rfl
theorem bindEnv_nil' (D : Nat) (ps : List Nat) (x : Nat) : bindEnv D ps [] x = .slot D x := by cases ps <;> rfl

theorem Agree.mono {B B' : Loc → Prop} {s s' : St M} (h : Agree B s s') (hb : ∀ l, B l → B' l) : Agree B' s s' :=
  ⟨fun l hl => h.mem l fun h' => hl (hb l h'), h.w⟩

variable {B R : Loc → Prop} {d : Nat} {s s' : St M}

theorem enter_agree {D : Nat} (ha : Agree B s s') : ∀ (ps : List Nat) {ks ks' : List Kind} {as as' : List Arg}, ArgsR B R d s s' ks ks' as as' →
    Agree (fun l => B l ∨ ∃ x, l = .slot D x ∧ promAt ps as as' x) (enter D ps as s) (enter D ps as' s')
  | [], ks, ks', as, as', h => by rw [enter_nil, enter_nil]; exact ha.mono fun l hl => .inl hl
  | p :: ps, ks, ks', _, _, .nil => by rw [enter_nil']; exact ha.mono fun l hl => .inl hl
  | p :: ps, ks, ks', _, _, .cons (a := a) (a' := a') (as := as) (as' := as') hx hr => by
    have ih := (enter_agree (D := D) ha ps hr).mono (B' := fun l => B l ∨ ∃ x, l = .slot D x ∧ promAt (p :: ps) (a :: as) (a' :: as') x)
      fun l hl => hl.imp id fun ⟨x, h1, h2⟩ => ⟨x, h1, by simp only [promAt]; exact .inr h2⟩
    cases hx with
    | val => simp only [enter]; exact ih.set _ _
    | same => simp only [enter]; exact ih
    | prot => simp only [enter]; exact ih
    | @prom l' =>
      simp only [enter]
      refine ⟨fun l hl => ?_, ?_⟩
      · simp only [St.set]
        rw [if_neg, ih.mem l hl]
        intro he
        exact hl (.inr ⟨p, he, by simp [promAt]⟩)
      · simp only [St.set]; exact ih.w

/-- Where names live in the two runs. -/
inductive Bound (B R : Loc → Prop) (d : Nat) (s s' : St M) (ks ks' : List Kind) (ps : List Nat) (as as' : List Arg) (x : Nat) : Loc → Loc → Prop
  | slot : ¬ promAt ps as as' x → Bound B R d s s' ks ks' ps as as' x (.slot (d + 1) x) (.slot (d + 1) x)
  | same {l k} : ¬ B l → (∀ e y, l = .slot e y → e ≤ d) → (kindOf ps ks' x = some .in_ ∨ (kindOf ps ks' x = some .inout ∧ ¬ R l)) →
      kindOf ps ks x = some k → k ≠ .copy → Bound B R d s s' ks ks' ps as as' x l l
  | prot {l l' k} : R l → R l' → s.mem l = s'.mem l' → kindOf ps ks' x = some .in_ → kindOf ps ks x = some k → k ≠ .copy →
      Bound B R d s s' ks ks' ps as as' x l l'
  | prom {l'} : R l' → promAt ps as as' x → (enter (d + 1) ps as s).mem (.slot (d + 1) x) = s'.mem l' → kindOf ps ks' x = some .in_ →
      Bound B R d s s' ks ks' ps as as' x (.slot (d + 1) x) l'

theorem head_eq {ks : List Kind} {k : Kind} (h : ks.headD .copy = k) (hk : k ≠ .copy) : ks = k :: ks.tail := by
  cases ks with
  | nil => exact absurd h.symm hk
  | cons a b => simp only [List.headD_cons] at h; subst h; rfl

theorem kindOf_head {p : Nat} {ps : List Nat} {ks : List Kind} {k : Kind} (h : ks.headD .copy = k) (hk : k ≠ .copy) :
    kindOf (p :: ps) ks p = some k := by
  rw [head_eq h hk]; simp [kindOf]

theorem kindOf_tail {p x : Nat} {ps : List Nat} {ks : List Kind} (h : x ≠ p) : kindOf (p :: ps) ks x = kindOf ps ks.tail x := by
  cases ks with
  | nil => cases ps <;> simp [kindOf]
  | cons k ks => simp [kindOf, h]

theorem bound (x : Nat) : ∀ (ps : List Nat) {ks ks' : List Kind} {as as' : List Arg}, ArgsR B R d s s' ks ks' as as' → ps.Nodup →
    Bound B R d s s' ks ks' ps as as' x (bindEnv (d + 1) ps as x) (bindEnv (d + 1) ps as' x)
  | [], ks, ks', as, as', h, _ => by rw [bindEnv_nil, bindEnv_nil]; exact .slot (by simp [promAt])
  | p :: ps, ks, ks', _, _, .nil, _ => by rw [bindEnv_nil']; exact .slot (by simp [promAt])
  | p :: ps, ks, ks', _, _, .cons (a := a) (a' := a') (as := as) (as' := as') hx hr, hnd => by
    simp only [List.nodup_cons] at hnd
    by_cases hp : x = p
    · subst hp
      have hn : ¬ promAt ps as as' x := fun h => hnd.1 (promAt_mem h)
      cases hx with
      | val =>
        simp only [bindEnv, if_true]
        refine .slot ?_
        simp only [promAt]
        rintro (⟨_, v, l, _, h⟩ | h)
        · cases h
        · exact hn h
      | same hb hd hk hc =>
        simp only [bindEnv, if_true]
        exact .same hb hd (hk.imp (fun h => kindOf_head h (by simp)) fun h => ⟨kindOf_head h.1 (by simp), h.2⟩)
          (kindOf_head rfl hc) hc
      | prot hl hl' he hk hc =>
        simp only [bindEnv, if_true]
        exact .prot hl hl' he (kindOf_head hk (by simp)) (kindOf_head rfl hc) hc
      | prom hl hk hk' =>
        simp only [bindEnv, if_true]
        exact .prom hl (by simp [promAt]) (by simp [enter, St.set]) (kindOf_head hk' (by simp))
    · have ih := bound x ps hr hnd.2
      have e1 : bindEnv (d + 1) (p :: ps) (a :: as) x = bindEnv (d + 1) ps as x := by cases a <;> simp [bindEnv, hp]
      have e2 : bindEnv (d + 1) (p :: ps) (a' :: as') x = bindEnv (d + 1) ps as' x := by cases a' <;> simp [bindEnv, hp]
      have e3 : promAt (p :: ps) (a :: as) (a' :: as') x ↔ promAt ps as as' x := by simp [promAt, hp]
      have e4 : (enter (d + 1) (p :: ps) (a :: as) s).mem (.slot (d + 1) x) = (enter (d + 1) ps as s).mem (.slot (d + 1) x) := by
        cases a <;> simp [enter, St.set, hp]
      rw [e1, e2]
      generalize bindEnv (d + 1) ps as x = l at ih
      generalize bindEnv (d + 1) ps as' x = l' at ih
      cases ih with
      | slot h => exact .slot (fun h' => h (e3.mp h'))
      | same hb hd hk h1 h2 =>
        rw [← kindOf_tail hp] at h1
        rw [← kindOf_tail hp] at hk
        exact .same hb hd hk h1 h2
      | prot hl hl' he hk h1 h2 =>
        rw [← kindOf_tail hp] at h1
        rw [← kindOf_tail hp] at hk
        exact .prot hl hl' he hk h1 h2
      | prom hl hm he hk =>
        rw [← kindOf_tail hp] at hk
        exact .prom hl (e3.mpr hm) (e4.trans he) hk

theorem Low.not {D : Nat} (h : Low d B) (x : Nat) (hD : d < D) : ¬ B (.slot D x) := fun hb => by
  obtain ⟨e, y, he, hl⟩ := h _ hb; cases he; omega

theorem entered (hB : Low d B) (hR : Low d R) (ps : List Nat) {ks ks' : List Kind} {as as' : List Arg}
    (h : ArgsR B R d s s' ks ks' as as') (hn : ps.Nodup) :
    Frame (fun l => B l ∨ ∃ x, l = .slot (d + 1) x ∧ promAt ps as as' x) (fun l => R l ∨ ∃ x, l = .slot (d + 1) x ∧ promAt ps as as' x)
      (fun x => kindOf ps ks' x ≠ some .in_) (fun x => kindOf ps ks x = none ∨ kindOf ps ks x = some .copy) (d + 1)
      (bindEnv (d + 1) ps as) (bindEnv (d + 1) ps as') := by
  have notP : ∀ {l : Loc}, (∀ e y, l = .slot e y → e ≤ d) → ¬ ∃ x, l = .slot (d + 1) x ∧ promAt ps as as' x := by
    rintro l hd ⟨y, hy, _⟩
    have := hd _ _ hy; omega
  have inD : ∀ {l : Loc}, R l → ∀ e y, l = .slot e y → e ≤ d := by
    intro l hl e y h
    obtain ⟨e', y', h', hle⟩ := hR _ hl
    rw [h'] at h; cases h; exact hle
  have slotP : ∀ {x}, ¬ promAt ps as as' x → ¬ ∃ y, Loc.slot (d + 1) x = .slot (d + 1) y ∧ promAt ps as as' y := by
    rintro x hx ⟨y, hy, h'⟩; injection hy with _ hy; subst hy; exact hx h'
  constructor
  · rintro l (h | ⟨x, h, _⟩)
    · obtain ⟨e, x, he, hle⟩ := hB l h; exact ⟨e, x, he, by omega⟩
    · exact ⟨d + 1, x, h, Nat.le_refl _⟩
  · rintro l (h | ⟨x, h, _⟩)
    · obtain ⟨e, x, he, hle⟩ := hR l h; exact ⟨e, x, he, by omega⟩
    · exact ⟨d + 1, x, h, Nat.le_refl _⟩
  · intro x
    have hb := bound x ps h hn
    generalize bindEnv (d + 1) ps as x = l at hb
    generalize bindEnv (d + 1) ps as' x = l' at hb
    cases hb with
    | slot h => exact .inl ⟨rfl, fun h' => h'.elim (hB.not x (by omega)) (slotP h)⟩
    | same hb hd hk h1 h2 => exact .inl ⟨rfl, fun h' => h'.elim hb (notP hd)⟩
    | prot hl hl' => exact .inr ⟨.inl hl, .inl hl'⟩
    | prom hl hm => exact .inr ⟨.inr ⟨x, rfl, hm⟩, .inl hl⟩
  · intro x hw
    have hb := bound x ps h hn
    generalize bindEnv (d + 1) ps as x = l at hb
    generalize bindEnv (d + 1) ps as' x = l' at hb
    cases hb with
    | slot h => exact ⟨rfl, fun h' => h'.elim (hB.not x (by omega)) (slotP h), fun h' => h'.elim (hR.not x (by omega)) (slotP h)⟩
    | same hb hd hk h1 h2 =>
      rcases hk with hk | ⟨_, hk⟩
      · exact absurd hk hw
      · exact ⟨rfl, fun h' => h'.elim hb (notP hd), fun h' => h'.elim hk (notP hd)⟩
    | prot _ _ _ hk => exact absurd hk hw
    | prom _ _ _ hk => exact absurd hk hw
  · intro x ho
    have hb := bound x ps h hn
    generalize bindEnv (d + 1) ps as x = l at hb
    generalize bindEnv (d + 1) ps as' x = l' at hb
    cases hb with
    | slot h => exact .inl ⟨rfl, rfl⟩
    | same _ _ _ h1 h2 => rw [h1] at ho; rcases ho with h | h <;> simp at h; exact absurd h h2
    | prot _ _ _ _ h1 h2 => rw [h1] at ho; rcases ho with h | h <;> simp at h; exact absurd h h2
    | prom hl hm => exact .inr ⟨.inr ⟨x, rfl, hm⟩, .inl hl⟩
  · intro x
    have hb := bound x ps h hn
    generalize bindEnv (d + 1) ps as x = l at hb
    generalize bindEnv (d + 1) ps as' x = l' at hb
    cases hb with
    | slot h => exact .inl rfl
    | same _ hd => exact .inr fun e y he => by have := hd e y he; omega
    | prot hl => exact .inr fun e y he => by have := inD hl e y he; omega
    | prom => exact .inl rfl

theorem entered_equal (hB : Low d B) (hR : Low d R) (ha : Agree B s s') (ps : List Nat) {ks ks' : List Kind} {as as' : List Arg}
    (h : ArgsR B R d s s' ks ks' as as') (hn : ps.Nodup) :
    Equal (bindEnv (d + 1) ps as) (bindEnv (d + 1) ps as') (enter (d + 1) ps as s) (enter (d + 1) ps as' s') := by
  intro x
  have hb := bound x ps h hn
  have hag := enter_agree (D := d + 1) ha ps h
  have far : ∀ {l : Loc}, (∀ e y, l = .slot e y → e ≤ d) → ∀ y, l ≠ .slot (d + 1) y := by
    intro l hd y hy; have := hd _ _ hy; omega
  have inD : ∀ {l : Loc}, R l → ∀ e y, l = .slot e y → e ≤ d := by
    intro l hl e y h
    obtain ⟨e', y', h', hle⟩ := hR _ hl
    rw [h'] at h; cases h; exact hle
  generalize bindEnv (d + 1) ps as x = l at hb
  generalize bindEnv (d + 1) ps as' x = l' at hb
  cases hb with
  | slot h => exact hag.mem _ fun h' => h'.elim (hB.not x (by omega)) (by rintro ⟨y, hy, h'⟩; injection hy with _ hy; subst hy; exact h h')
  | same hb hd => rw [enter_far (far hd), enter_far (far hd)]; exact ha.mem _ hb
  | prot hl hl' he => rw [enter_far (far (inD hl)), enter_far (far (inD hl'))]; exact he
  | prom hl _ he => rw [he, enter_far (far (inD hl))]

/-- Implementations before and after. -/
def ImplR (K K' : Fn → List Kind) (f : Fn) (i i' : Impl) : Prop :=
  i'.params = i.params ∧ i'.body = i.body ∧ i.kinds = K f ∧ i.params.Nodup ∧
    (∀ x, (x, Kind.in_) ∈ i.params.zip (K' f) → x ∉ i.body.writes K') ∧ ∀ c ∈ i.body.invocations, SafeCall K K' (OwnVariable i) c

theorem runImpls_promote {c c' : Calls M} {K K' : Fn → List Kind} (hc : CallsR K K' c c') (hk : ∀ f, KindsR (K f) (K' f)) (n : Nat) (dflt : Val)
    {f : Fn} {args args' : List Arg} (hB : Low d B) (hR : Low d R) {l l' : List Impl} (hl : Impls (ImplR K K' f) l l') :
    ∀ {s s' : St M}, Agree B s s' → ArgsR B R d s s' (K f) (K' f) args args' →
    EvR B R s s' (runImpls c K n dflt args d l s) (runImpls c' K' n dflt args' d l' s') := by
  induction hl with
  | nil => intro s s' ha hx; exact .val ha .refl .refl
  | @cons i i' l l' hi _ ih =>
    intro s s' ha hx
    obtain ⟨h1, h2, h3, h4, h5, h6⟩ := hi
    have hf := entered hB hR i.params hx h4
    have he := entered_equal hB hR ha i.params hx h4
    have hag := enter_agree (D := d + 1) ha i.params hx
    have h := execs_promote hc hk hf n i.body he hag
      (fun x hxw hin => h5 x (kindOf_mem hin) hxw)
      (fun c hcm j n e1 e2 e3 => by
        obtain ⟨x, hx1, hx2, hx3⟩ := h6 c hcm j n e1 e2 e3
        refine ⟨x, hx1, ?_, hx3⟩
        cases hko : kindOf i.params (K f) x with
        | none => exact .inl hko
        | some k => exact .inr (by rw [hko, hx2 k (by rw [h3]; exact kindOf_mem hko)]))
    rw [← h1, ← h2] at h
    simp only [runImpls]
    rw [h1] at h ⊢
    rw [h2] at h ⊢
    have hb0 : ∀ l, (∀ e x, l = Loc.slot e x → e ≤ d) → (B l ∨ ∃ x, l = .slot (d + 1) x ∧ promAt i.params args args' x) → B l := by
      rintro l hd (h | ⟨x, h, _⟩)
      · exact h
      · have := hd _ _ h; omega
    have hs0 : ∀ (as : List Arg) (t : St M) l, R l → (enter (d + 1) i.params as t).mem l = t.mem l := by
      intro as t l hl
      obtain ⟨e, y, he, hle⟩ := hR l hl
      exact enter_far (fun x hx => by rw [he] at hx; cases hx; omega) _ _ _
    generalize execs c K (bindEnv (d + 1) i.params args) (d + 1) n i.body (enter (d + 1) i.params args s) = o at h
    generalize execs c' K' (bindEnv (d + 1) i.params args') (d + 1) n i.body (enter (d + 1) i.params args' s') = o' at h
    have fin : ∀ {s1 s1' : St M}, Agree (fun l => B l ∨ ∃ x, l = .slot (d + 1) x ∧ promAt i.params args args' x) s1 s1' →
        Same (fun l => R l ∨ ∃ x, l = .slot (d + 1) x ∧ promAt i.params args args' x) (enter (d + 1) i.params args s) s1 →
        Same (fun l => R l ∨ ∃ x, l = .slot (d + 1) x ∧ promAt i.params args args' x) (enter (d + 1) i.params args' s') s1' →
        Agree B (s.back d s1) (s'.back d s1') ∧ Same R s (s.back d s1) ∧ Same R s' (s'.back d s1') := fun a1 a2 a3 =>
      ⟨ha.back a1 hb0, a2.back (fun _ h => .inl h) (hs0 _ _), a3.back (fun _ h => .inl h) (hs0 _ _)⟩
    have more : ∀ {s1 s1' : St M}, Agree (fun l => B l ∨ ∃ x, l = .slot (d + 1) x ∧ promAt i.params args args' x) s1 s1' →
        Same (fun l => R l ∨ ∃ x, l = .slot (d + 1) x ∧ promAt i.params args args' x) (enter (d + 1) i.params args s) s1 →
        Same (fun l => R l ∨ ∃ x, l = .slot (d + 1) x ∧ promAt i.params args args' x) (enter (d + 1) i.params args' s') s1' →
        EvR B R s s' (runImpls c K n dflt args d l (s.back d s1)) (runImpls c' K' n dflt args' d l' (s'.back d s1')) := by
      intro s1 s1' a1 a2 a3
      obtain ⟨b1, b2, b3⟩ := fin a1 a2 a3
      exact (ih b1 (hx.step b2 b3)).mono (fun _ h => h) b2 b3
    cases h with
    | none => exact .none
    | norm a1 a2 a3 => exact more a1 a2 a3
    | brk a1 a2 a3 => exact more a1 a2 a3
    | cont a1 a2 a3 => exact more a1 a2 a3
    | exn a1 a2 a3 => obtain ⟨b1, b2, b3⟩ := fin a1 a2 a3; exact .exn b1 b2 b3
    | @ret v s1 s1' a1 a2 a3 =>
      cases v with
      | none => exact more a1 a2 a3
      | some v => obtain ⟨b1, b2, b3⟩ := fin a1 a2 a3; exact .val b1 b2 b3

theorem writeBack_promote (hB : Low d B) : ∀ {ks : List Kind} {as as' : List Arg} (vs : List Val) {s s' : St M}, ArgsR B R d s s' ks ks as as' → Agree B s s' →
    Agree B (writeBack ks as vs s) (writeBack ks as' vs s') ∧ Same R s (writeBack ks as vs s) ∧ Same R s' (writeBack ks as' vs s')
  | ks, _, _, vs, s, s', .nil, ha => by
    have e : ∀ t : St M, writeBack ks [] vs t = t := fun t => by cases ks <;> simp [writeBack]
    rw [e, e]; exact ⟨ha, .refl, .refl⟩
  | [], _, _, vs, s, s', .cons _ _, ha => by simp only [writeBack]; exact ⟨ha, .refl, .refl⟩
  | k :: ks, _, _, [], s, s', .cons _ _, ha => by simp only [writeBack]; exact ⟨ha, .refl, .refl⟩
  | k :: ks, _, _, v :: vs, s, s', .cons (a := a) (a' := a') (as := as) (as' := as') hx hr, ha => by
    simp only [List.headD_cons] at hx
    have skip : (∀ t : St M, writeBack (k :: ks) (a :: as) (v :: vs) t = writeBack ks as vs t) →
        (∀ t : St M, writeBack (k :: ks) (a' :: as') (v :: vs) t = writeBack ks as' vs t) →
        Agree B (writeBack (k :: ks) (a :: as) (v :: vs) s) (writeBack (k :: ks) (a' :: as') (v :: vs) s') ∧
        Same R s (writeBack (k :: ks) (a :: as) (v :: vs) s) ∧ Same R s' (writeBack (k :: ks) (a' :: as') (v :: vs) s') := by
      intro h1 h2; rw [h1, h2]; exact writeBack_promote hB vs hr ha
    cases hx with
    | val => exact skip (fun t => by cases k <;> simp [writeBack]) (fun t => by cases k <;> simp [writeBack])
    | @same l hb hd hk hc =>
      rcases hk with hk | ⟨hk, hn⟩
      · subst hk; exact skip (fun t => by simp [writeBack]) (fun t => by simp [writeBack])
      · subst hk
        simp only [writeBack]
        have hs1 : Same R s (s.set l v) := .set hn v
        have hs2 : Same R s' (s'.set l v) := .set hn v
        obtain ⟨b1, b2, b3⟩ := writeBack_promote hB vs (hr.step hs1 hs2) (ha.set l v)
        exact ⟨b1, hs1.trans b2, hs2.trans b3⟩
    | prot _ _ _ hk => subst hk; exact skip (fun t => by simp [writeBack]) (fun t => by simp [writeBack])
    | prom _ hk hk' => rw [hk] at hk'; cases hk'

/-- Programs before and after. -/
def Promotes (P Q : Prog) : Prop :=
  ∀ f, (P.get f = none ∧ Q.get f = none) ∨ ∃ F G, P.get f = some F ∧ Q.get f = some G ∧ G.ext = F.ext ∧ G.dflt = F.dflt ∧
    (F.ext = true → G.kinds = F.kinds) ∧ KindsR F.kinds G.kinds ∧ Impls (ImplR P.kinds Q.kinds f) F.impls G.impls

theorem Promotes.kinds {P Q : Prog} (h : Promotes P Q) (f : Fn) : KindsR (P.kinds f) (Q.kinds f) := by
  rcases h f with ⟨h1, h2⟩ | ⟨F, G, h1, h2, _, _, _, h3, _⟩
  · simp only [Prog.kinds, h1, h2]; trivial
  · simp only [Prog.kinds, h1, h2]; exact h3

theorem callN_promote {P Q : Prog} (h : Promotes P Q) : ∀ n, CallsR P.kinds Q.kinds (callN M P n) (callN M Q n)
  | 0 => by
    intro f args args' d s s' B R hB hR ha hx
    simp only [callN]; exact .none
  | n + 1 => by
    intro f args args' d s s' B R hB hR ha hx
    simp only [callN]
    rcases h f with ⟨h1, h2⟩ | ⟨F, G, h1, h2, h3, h4, h5, h6, h7⟩
    · simp only [h1, h2]; exact .none
    · simp only [h1, h2, h3, h4]
      by_cases he : F.ext = true
      · simp only [if_pos he]
        have hk : Q.kinds f = P.kinds f := by simp only [Prog.kinds, h1, h2, h5 he]
        rw [hk] at hx
        have hk1 : P.kinds f = F.kinds := by simp only [Prog.kinds, h1]
        rw [hk1] at hx
        have hv := map_get ha hx
        simp only [callExt, h5 he, hv, ← ha.w]
        generalize M.ext f (args'.map (Arg.get s')) s.w = r
        have hx' : ArgsR B R d ({ s with w := r.2.2 } : St M) ({ s' with w := r.2.2 } : St M) F.kinds F.kinds args args' :=
          hx.step (fun _ _ => rfl) (fun _ _ => rfl)
        obtain ⟨b1, b2, b3⟩ := writeBack_promote hB r.2.1 hx' ⟨ha.mem, rfl⟩
        cases r.1 with
        | none => exact .exn b1 b2 b3
        | some v => exact .val b1 b2 b3
      · simp only [if_neg he]
        exact runImpls_promote (callN_promote h n) h.kinds (n + 1) F.dflt hB hR h7 ha hx

theorem fits_args {s : St M} : ∀ {ks ks' : List Kind} {args : List Arg}, Fits d ks args → KindsR ks ks' →
    ArgsR (fun _ => False) (fun _ => False) d s s ks ks' args args
  | [], ks', [], _, _ => .nil
  | [], ks', _ :: _, h, _ => by simp [Fits] at h
  | k :: ks, ks', [], h, _ => .nil
  | k :: ks, [], _ :: _, _, hk => by simp [KindsR] at hk
  | k :: ks, k' :: ks', .val v :: as, h, hk => by
    have : Fits d ks as := by cases k <;> simpa [Fits] using h
    exact .cons .val (fits_args this hk.2)
  | k :: ks, k' :: ks', .ref l :: as, h, hk => by
    have hc : k ≠ .copy := by rintro rfl; simp [Fits] at h
    have h' : (∀ e y, l = .slot e y → e ≤ d) ∧ Fits d ks as := by
      cases l with
      | glob g => cases k <;> simp [Fits] at h <;> exact ⟨(fun e y he => by cases he), h⟩
      | slot e y => cases k <;> simp [Fits] at h <;> exact ⟨(fun e' y' he => by cases he; exact h.1), h.2⟩
    refine .cons (.same (fun h => h) h'.1 ?_ hc) (fits_args h'.2 hk.2)
    simp only [List.headD_cons]
    rcases hk.1 with h | h
    · subst h; cases k' with
      | copy => exact absurd rfl hc
      | in_ => exact .inl rfl
      | inout => exact .inr ⟨rfl, fun h => h⟩
    · exact .inl h

theorem Agree.eq {s s' : St M} (h : Agree (fun _ => False) s s') : s = s' := by
  cases s; cases s'
  have h1 := h.w
  simp only at h1
  subst h1
  congr
  exact funext fun l => h.mem l (fun h => h)

/-- Calls do the same before and after. -/
theorem promotes_same {P Q : Prog} (h : Promotes P Q) (n : Nat) {f : Fn} {args : List Arg} {d : Nat} (s : St M) (hf : Fits d (P.kinds f) args) :
    callN M P n f args d s = callN M Q n f args d s := by
  have h := callN_promote (M := M) h n f args args d s s (fun _ => False) (fun _ => False) (fun _ h => h.elim) (fun _ h => h.elim) ⟨fun _ _ => rfl, rfl⟩
    (fits_args hf (h.kinds f))
  generalize callN M P n f args d s = o at h
  generalize callN M Q n f args d s = o' at h
  cases h with
  | none => rfl
  | val ha => rw [ha.eq]
  | exn ha => rw [ha.eq]

end Verif.Opt.Whole
