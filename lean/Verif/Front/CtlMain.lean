import Verif.Front.CtlJumps
/-! # The C++ for statements does what they say -/

namespace Verif.Front.Ctl

variable {V W : Type}

/-- A `break` is a `goto` in C++. -/
def conv (cur : Nat) : O V Empty → O V Nat
  | .norm => .norm
  | .brk => .goto cur
  | .cont => .cont
  | .goto l => nomatch l
  | .ret v => .ret v
  | .exn v => .exn v
  | .ub => .ub

/-- The same for a result. -/
def cv (cur : Nat) (r : Run V W Empty) : Run V W Nat := r.map fun (o, σ) => (conv cur o, σ)

theorem cv_leave (cur : Nat) (σ : St V W) (r : Run V W Empty) : cv cur (leave σ r) = leave σ (cv cur r) := by
  cases r <;> rfl

theorem cv_andThen (cur : Nat) (p : R V × St V W) (k : V → St V W → Run V W Empty) :
    cv cur (andThen p k) = andThen p fun v σ => cv cur (k v σ) := by
  rcases p with ⟨r, σ⟩
  cases r <;> rfl

theorem cv_local (cur : Nat) (L : Lib V W) (x : Nat) (e : Expr V) (σ : St V W) (k : St V W → Run V W Empty) :
    cv cur (local_ L x e σ k) = local_ L x e σ fun τ => cv cur (k τ) := cv_andThen cur _ _

theorem cv_noBrk (c d : Nat) {r : Run V W Empty} (h : NoBrk r) : cv c r = cv d r := by
  rcases r with _ | ⟨o, σ⟩
  · rfl
  · cases o <;> first | rfl | exact absurd rfl (h σ) | exact Empty.elim ‹Empty›

/-- A variable whose initial value does not mention it. -/
theorem declare_eq {G : Type} (L : Lib V W) (x : Nat) (e : Expr V) (σ : St V W) (k : St V W → Run V W G) (h : x ∉ e.names) :
    declare L x e σ k = local_ L x e σ k := by
  have := eval_ext L x none e σ h
  unfold declare local_
  change eval L e ((x, none) :: σ.1, σ.2) = _ at this
  rw [this]
  rcases eval L e σ with ⟨r, σ'⟩
  cases r <;> simp [ext, put, andThen, bind]

theorem leave_leave {G : Type} (σ τ : St V W) (r : Run V W G) (h : σ.1.length ≤ τ.1.length) : leave σ (leave τ r) = leave σ r := by
  rcases r with _ | ⟨o, ρ⟩
  · rfl
  · simp only [leave, Option.map_some, List.drop_drop, List.length_drop]
    have : ρ.1.length - τ.1.length + (ρ.1.length - (ρ.1.length - τ.1.length) - σ.1.length) = ρ.1.length - σ.1.length := by omega
    rw [this]

theorem len_eval (L : Lib V W) (e : Expr V) (σ : St V W) : (eval L e σ).2.1.length = σ.1.length := by
  have := congrArg List.length (eval_nm L e σ)
  rwa [nm_length, nm_length] at this

theorem leave_andThen {G : Type} (σ : St V W) (p : R V × St V W) (k : V → St V W → Run V W G) (h : nm p.2 = nm σ) :
    leave σ (andThen p k) = andThen p fun v τ => leave σ (k v τ) := by
  rcases p with ⟨r, σ'⟩
  cases r with
  | val v => rfl
  | exn v => exact leave_id (some_keeps _ h)
  | ub => exact leave_id (some_keeps _ h)

/-! ### Blocks -/

/-- What follows a part of a block. -/
def thenC (L : Lib V W) (n : Nat) (b : CB V) : Run V W Nat → Run V W Nat
  | some (.norm, σ) => cxxB L n b σ
  | some (.goto l, σ) => seek L n l b σ
  | r => r

theorem cxxB_cons (L : Lib V W) (n : Nat) (s : CS V) (b : CB V) (σ : St V W) : cxxB L n (.cons s b) σ = thenC L n b (cxx L n s σ) := by
  simp only [cxxB]
  rcases cxx L n s σ with _ | ⟨o, σ'⟩
  · rfl
  · cases o <;> rfl

theorem thenC_thenC (L : Lib V W) (n : Nat) (a b : CB V) (ha : ∀ σ, cxxB L n (a.append b) σ = thenC L n b (cxxB L n a σ))
    (hs : ∀ l σ, seek L n l (a.append b) σ = thenC L n b (seek L n l a σ)) (r : Run V W Nat) :
    thenC L n (a.append b) r = thenC L n b (thenC L n a r) := by
  rcases r with _ | ⟨o, σ'⟩
  · rfl
  · cases o <;> first | exact ha σ' | exact hs _ σ' | rfl

theorem append_run (L : Lib V W) (n : Nat) (b : CB V) : ∀ a : CB V,
    (∀ σ, cxxB L n (a.append b) σ = thenC L n b (cxxB L n a σ)) ∧
    (∀ l σ, seek L n l (a.append b) σ = thenC L n b (seek L n l a σ))
  | .nil => by
    refine ⟨fun σ => ?_, fun l σ => ?_⟩
    · simp [CB.append, cxxB, thenC]
    · simp [CB.append, seek, thenC]
  | .cons s a => by
    have ih := append_run L n b a
    refine ⟨fun σ => ?_, fun l σ => ?_⟩
    · rw [CB.append, cxxB_cons, cxxB_cons, thenC_thenC L n a b ih.1 ih.2]
    · cases s <;> try (simp only [CB.append, seek]; exact ih.2 l σ)
      simp only [CB.append, seek]
      split
      · exact ih.1 σ
      · exact ih.2 l σ

theorem one_run (L : Lib V W) (n : Nat) (s : CS V) (σ : St V W) : cxxB L n (.one s) σ = cxx L n s σ := by
  rw [CB.one, cxxB_cons]
  rcases cxx L n s σ with _ | ⟨o, σ'⟩
  · rfl
  · cases o <;> simp [thenC, cxxB, seek]

/-- There is no such label among the statements. -/
def NoLab (l : Nat) : CB V → Prop
  | .nil => True
  | .cons s b => (∀ l', s = .label l' → l' ≠ l) ∧ NoLab l b

theorem noLab_append (l : Nat) {b : CB V} (hb : NoLab l b) : ∀ {a : CB V}, NoLab l a → NoLab l (a.append b)
  | .nil, _ => hb
  | .cons _ _, h => ⟨h.1, noLab_append l hb h.2⟩

theorem seek_noLab (L : Lib V W) (n l : Nat) : ∀ (b : CB V) (σ : St V W), NoLab l b → seek L n l b σ = some (.goto l, σ)
  | .nil, _, _ => by simp [seek]
  | .cons s b, σ, h => by
    cases s <;> try (simp only [seek]; exact seek_noLab L n l b σ h.2)
    rename_i l'
    have := h.1 l' rfl
    simp only [seek, if_neg (fun e => this (Eq.symm e))]
    exact seek_noLab L n l b σ h.2

theorem noLab_one (l : Nat) {s : CS V} (h : ∀ l', s ≠ .label l') : NoLab l (.one s) := ⟨fun l' e => absurd e (h l'), trivial⟩

theorem noLab_done {l id : Nat} (h : id ≠ l) (nd : Bool) : NoLab l (done id nd : CB V) := by
  cases nd
  · exact trivial
  · exact ⟨fun l' e => (by cases e; exact h), trivial⟩

theorem noLab_addBlock (l : Nat) : ∀ b : CB V, NoLab l (addBlock b)
  | .nil => noLab_one l (fun _ e => by cases e)
  | .cons _ .nil => noLab_one l (fun _ e => by cases e)
  | .cons _ (.cons _ _) => noLab_one l (fun _ e => by cases e)

theorem noLab_gen (t : Bool) (cur : Nat) (s : Stmt V) (h : Ok t cur s) : NoLab cur (gen t cur s) := by
  cases s with
  | block b => exact noLab_addBlock _ _
  | loop id hd body hasElse els =>
    unfold gen
    split
    · cases hd <;> exact noLab_addBlock _ _
    · cases hd <;> exact ⟨fun l' e => (by cases e), noLab_done h.1 _⟩
  | each id x e lhs body =>
    unfold gen
    split <;> exact ⟨fun l' e => (by cases e), noLab_done h.1 _⟩
  | switch x e i cs hasDefault d =>
    unfold gen
    split
    · exact noLab_one _ (fun _ e => by cases e)
    · cases cs with
      | nil =>
        dsimp only
        split
        · exact noLab_addBlock _ _
        · exact noLab_one _ (fun _ e => by cases e)
      | cons es b cs => exact noLab_one _ (fun _ e => by cases e)
  | _ => exact noLab_one _ (fun _ e => by cases e)

theorem noLab_genB (t : Bool) (cur : Nat) : ∀ b : Stmts V, OkB t cur b → NoLab cur (genB t cur b)
  | .nil, _ => trivial
  | .cons s ss, h => by
    unfold genB
    refine noLab_append _ (noLab_append _ (noLab_genB t cur ss h.2) (noLab_gen t cur s h.1)) ?_
    split
    · exact noLab_one _ (fun _ e => by cases e)
    · exact trivial

theorem gen_ne (t : Bool) (cur : Nat) (s : Stmt V) : ∃ c b, gen t cur s = .cons c b := by
  have ha : ∀ b : CB V, ∃ c d, addBlock b = .cons c d := fun b => by
    cases b with
    | nil => exact ⟨_, _, rfl⟩
    | cons s b => cases b <;> exact ⟨_, _, rfl⟩
  cases s with
  | block b => exact ha _
  | loop id hd body hasElse els =>
    unfold gen
    split
    · cases hd <;> exact ha _
    · cases hd <;> exact ⟨_, _, rfl⟩
  | each id x e lhs body =>
    unfold gen
    split <;> exact ⟨_, _, rfl⟩
  | switch x e i cs hasDefault d =>
    unfold gen
    split
    · exact ⟨_, _, rfl⟩
    · cases cs with
      | nil =>
        dsimp only
        split
        · exact ha _
        · exact ⟨_, _, rfl⟩
      | cons es b cs => exact ⟨_, _, rfl⟩
  | _ => exact ⟨_, _, rfl⟩

/-- A block is printed without braces only if that makes no difference. -/
theorem addBlock_run (L : Lib V W) (n : Nat) (t : Bool) (cur : Nat) (b : Stmts V) (hl : t = true ∨ b.lone = false) (σ : St V W)
    (ih : cxxB L n (genB t cur b) σ = cv cur (srcB L n b σ)) :
    cxxB L n (addBlock (genB t cur b)) σ = cv cur (leave σ (srcB L n b σ)) := by
  have two : ∀ c d e : CB V, (∃ s d', c = .cons s d') → (∃ s d', d = .cons s d') → ∃ s s' f, c.append (d.append e) = .cons s (.cons s' f) := by
    rintro _ _ e ⟨s, d', rfl⟩ ⟨s', d'', rfl⟩
    cases d' with
    | nil => exact ⟨s, s', _, rfl⟩
    | cons s₂ d₂ => exact ⟨s, s₂, _, rfl⟩
  have braces : (∃ s s' f, genB t cur b = .cons s (.cons s' f)) →
      cxxB L n (addBlock (genB t cur b)) σ = cv cur (leave σ (srcB L n b σ)) := by
    rintro ⟨s, s', f, e⟩
    rw [cv_leave, ← ih, e]
    show cxxB L n (.one (.block _)) σ = _
    rw [one_run]
    rfl
  have plain : (∀ c d e, genB t cur b ≠ .cons c (.cons d e)) → Keeps (nm σ) (srcB L n b σ) →
      cxxB L n (addBlock (genB t cur b)) σ = cv cur (leave σ (srcB L n b σ)) := by
    intro h hk
    rw [leave_id hk, ← ih]
    cases hg : genB t cur b with
    | nil => show cxxB L n (.one (.bare _)) σ = _; rw [one_run]; rfl
    | cons s d => cases d with
      | nil => show cxxB L n (.one (.bare _)) σ = _; rw [one_run]; rfl
      | cons s' d' => exact absurd hg (h s s' d')
  cases b with
  | nil => exact plain (fun c d e h => by cases h) (some_keeps _ rfl)
  | cons s ss =>
    cases ss with
    | cons s' ss' =>
      refine braces ?_
      have e : genB t cur (.cons s (.cons s' ss')) = (if t && !s.isBlock then .one .loc else .nil : CB V).append
          ((gen t cur s).append ((if t && !s'.isBlock then .one .loc else .nil : CB V).append ((gen t cur s').append (genB t cur ss')))) := rfl
      rw [e]
      have h2 : ∃ c d, (if t && !s'.isBlock then .one .loc else .nil : CB V).append ((gen t cur s').append (genB t cur ss')) = .cons c d := by
        obtain ⟨c, d, e⟩ := gen_ne t cur s'
        rw [e]
        split <;> exact ⟨_, _, rfl⟩
      obtain ⟨c, d, h2⟩ := h2
      rw [h2]
      obtain ⟨c', d', e'⟩ := gen_ne t cur s
      rw [e']
      split
      · exact ⟨_, _, _, rfl⟩
      · cases d' <;> exact ⟨_, _, _, rfl⟩
    | nil =>
      have keep : s.isDecl = false → Keeps (nm σ) (srcB L n (.cons s .nil) σ) := by
        intro hs
        have hk := src_keeps L n s σ hs
        intro o σ' e
        simp only [srcB] at e
        rcases hr : src L n s σ with _ | ⟨o₁, σ₁⟩
        · rw [hr] at e; cases e
        · rw [hr] at e
          have := hk o₁ σ₁ hr
          cases o₁ <;> (cases e; exact this)
      by_cases hb : ∃ c d e, genB t cur (.cons s .nil) = .cons c (.cons d e)
      · exact braces hb
      · refine plain (fun c d e h => hb ⟨c, d, e, h⟩) (keep ?_)
        cases s <;> try rfl
        rename_i x e
        exfalso
        rcases hl with hl | hl
        · subst hl
          exact hb ⟨_, _, _, rfl⟩
        · cases hl

/-! ### Loops -/

/-- What a label does to a `goto`. -/
def caught (id : Nat) : Run V W Nat → Run V W Nat
  | some (.goto l, σ) => if l = id then some (.norm, σ) else some (.goto l, σ)
  | r => r

theorem caught_leave (id : Nat) (σ : St V W) (r : Run V W Nat) : caught id (leave σ r) = leave σ (caught id r) := by
  rcases r with _ | ⟨o, σ'⟩
  · rfl
  · cases o <;> try rfl
    simp only [leave, Option.map_some, caught]
    split <;> rfl

theorem caught_andThen (id : Nat) (p : R V × St V W) (k : V → St V W → Run V W Nat) :
    caught id (andThen p k) = andThen p fun v σ => caught id (k v σ) := by
  rcases p with ⟨r, σ⟩
  cases r <;> rfl

/-- A loop and the label behind it. -/
theorem done_run (L : Lib V W) (n cur id : Nat) (nd : Bool) (c : CS V) (σ : St V W) (r : Run V W Empty)
    (h1 : caught id (cxx L n c σ) = cv cur r) (h2 : nd = false → cxx L n c σ = cv cur r) :
    cxxB L n (.cons c (done id nd)) σ = cv cur r := by
  rw [cxxB_cons]
  cases nd with
  | false =>
    rw [← h2 rfl]
    rcases cxx L n c σ with _ | ⟨o, σ'⟩
    · rfl
    · cases o <;> simp [thenC, done, cxxB, seek]
  | true =>
    rw [← h1]
    rcases cxx L n c σ with _ | ⟨o, σ'⟩
    · rfl
    · cases o <;> simp [thenC, done, CB.one, cxxB, seek, caught, cxx]

/-- A loop without `else`. -/
theorem while_caught (L : Lib V W) (cur id : Nat) (test : St V W → R V × St V W) (cb : St V W → Run V W Nat)
    (sb : St V W → Run V W Empty) (hb : ∀ τ, cb τ = cv id (sb τ)) : ∀ n σ,
    caught id (whileN L test cb (fun σ => some (.norm, σ)) n σ) = cv cur (whileN L test sb (fun σ => some (.norm, σ)) n σ)
  | 0, _ => rfl
  | n + 1, σ => by
    unfold whileN
    rcases test σ with ⟨r, σ₁⟩
    cases r with
    | exn v => rfl
    | ub => rfl
    | val v =>
      dsimp only
      split
      · rw [hb, ← cv_leave]
        rcases leave σ (sb σ₁) with _ | ⟨o, σ₂⟩
        · rfl
        · cases o <;> first
            | exact while_caught L cur id test cb sb hb n σ₂
            | rfl
            | exact Empty.elim ‹Empty›
            | (simp [cv, conv, caught])
      · rfl

/-- A loop without `else` or `break`. -/
theorem while_noBrk (L : Lib V W) (cur id : Nat) (test : St V W → R V × St V W) (cb : St V W → Run V W Nat)
    (sb : St V W → Run V W Empty) (hb : ∀ τ, cb τ = cv id (sb τ)) (hn : ∀ τ, NoBrk (sb τ)) : ∀ n σ,
    whileN L test cb (fun σ => some (.norm, σ)) n σ = cv cur (whileN L test sb (fun σ => some (.norm, σ)) n σ)
  | 0, _ => rfl
  | n + 1, σ => by
    unfold whileN
    rcases test σ with ⟨r, σ₁⟩
    cases r with
    | exn v => rfl
    | ub => rfl
    | val v =>
      dsimp only
      split
      · rw [hb, ← cv_leave]
        have := noBrk_leave (σ := σ) (hn σ₁)
        rcases hr : leave σ (sb σ₁) with _ | ⟨o, σ₂⟩
        · rfl
        · rw [hr] at this
          cases o <;> first
            | exact while_noBrk L cur id test cb sb hb hn n σ₂
            | rfl
            | exact Empty.elim ‹Empty›
            | exact absurd rfl (this σ₂)
      · rfl

theorem each_caught (L : Lib V W) (cur id x : Nat) (cb : St V W → Run V W Nat)
    (sb : St V W → Run V W Empty) (hb : ∀ τ, cb τ = cv id (sb τ)) : ∀ n v σ,
    caught id (eachN L x cb n v σ) = cv cur (eachN L x sb n v σ)
  | 0, _, _ => rfl
  | n + 1, v, σ => by
    unfold eachN
    cases L.next v σ.2 with
    | none => rfl
    | some p =>
      dsimp only
      rw [hb, ← cv_leave]
      rcases leave σ (sb (bind x p.1 σ)) with _ | ⟨o, σ₂⟩
      · rfl
      · cases o <;> first
          | exact each_caught L cur id x cb sb hb n p.2 σ₂
          | rfl
          | exact Empty.elim ‹Empty›
          | (simp [cv, conv, caught])

theorem each_noBrk (L : Lib V W) (cur id x : Nat) (cb : St V W → Run V W Nat)
    (sb : St V W → Run V W Empty) (hb : ∀ τ, cb τ = cv id (sb τ)) (hn : ∀ τ, NoBrk (sb τ)) : ∀ n v σ,
    eachN L x cb n v σ = cv cur (eachN L x sb n v σ)
  | 0, _, _ => rfl
  | n + 1, v, σ => by
    unfold eachN
    cases L.next v σ.2 with
    | none => rfl
    | some p =>
      dsimp only
      rw [hb, ← cv_leave]
      have := noBrk_leave (σ := σ) (hn (bind x p.1 σ))
      rcases hr : leave σ (sb (bind x p.1 σ)) with _ | ⟨o, σ₂⟩
      · rfl
      · rw [hr] at this
        cases o <;> first
          | exact each_noBrk L cur id x cb sb hb hn n p.2 σ₂
          | rfl
          | exact Empty.elim ‹Empty›
          | exact absurd rfl (this σ₂)

/-- What a round does after the `else` part. -/
def elseOut (cur : Nat) : Run V W Empty → Run V W Nat
  | some (.norm, σ') => some (.brk, σ')
  | r => cv cur r

/-- The `else` part of a loop, and the `break` behind it. -/
theorem else_run (L : Lib V W) (n cur id : Nat) (b : CB V) (σ : St V W) (r : Run V W Empty)
    (hb : cxxB L n b σ = cv id r) (h1 : NoBrk r) :
    cxxB L n (b.append (.one .brk)) σ = elseOut cur r := by
  rw [(append_run L n _ b).1, hb]
  rcases r with _ | ⟨o, σ'⟩
  · rfl
  · cases o <;> first | rfl | exact absurd rfl (h1 σ') | exact Empty.elim ‹Empty›

/-- One round of a loop with an `else`. -/
theorem round_run (L : Lib V W) (hL : ∀ b, L.truth (L.bool b) = b) (n cur id : Nat) (c : Expr V) (body els : Stmts V) (t : Bool)
    (hb : ∀ τ, cxxB L n (genB t id body) τ = cv id (srcB L n body τ)) (he : ∀ τ, cxxB L n (genB t id els) τ = cv id (srcB L n els τ))
    (nb : ∀ τ, NoBrk (srcB L n body τ)) (ne : ∀ τ, NoBrk (srcB L n els τ)) (σ : St V W) :
    cxxB L n (.cons (.ite none (.neg c) ((genB t id els).append (.one .brk)) .nil) (genB t id body)) σ =
      andThen (eval L c σ) fun v σ₁ => if L.truth v then cv cur (srcB L n body σ₁) else elseOut cur (leave σ₁ (srcB L n els σ₁)) := by
  rw [cxxB_cons]
  simp only [cxx, eval]
  rcases eval L c σ with ⟨r, σ₁⟩
  cases r with
  | exn v => rfl
  | ub => rfl
  | val v =>
    simp only [andThen, hL]
    cases hv : L.truth v
    · simp only [Bool.not_false, if_true, Bool.false_eq_true, if_false]
      rw [else_run L n cur id _ σ₁ _ (he σ₁) (ne σ₁)]
      have := ne σ₁
      generalize srcB L n els σ₁ = q at this ⊢
      rcases q with _ | ⟨o, σ'⟩
      · rfl
      · cases o <;> first | rfl | exact absurd rfl (this σ') | exact Empty.elim ‹Empty›
    · simp only [Bool.not_true, Bool.false_eq_true, if_false, if_true, cxxB]
      rw [leave_id (some_keeps _ rfl)]
      show cxxB L n (genB t id body) σ₁ = _
      rw [hb σ₁, cv_noBrk id cur (nb σ₁)]

/-- A loop with an `else`. -/
theorem forever_run (L : Lib V W) (hL : ∀ b, L.truth (L.bool b) = b) (m cur : Nat) (c : Expr V) (cb : St V W → Run V W Nat)
    (sb se : St V W → Run V W Empty) (nb : ∀ τ, NoBrk (sb τ)) (ne : ∀ τ, NoBrk (se τ)) (nc : ∀ τ, NoCont (se τ))
    (hr : ∀ σ, cb σ = andThen (eval L c σ) fun v σ₁ => if L.truth v then cv cur (sb σ₁) else elseOut cur (leave σ₁ (se σ₁))) : ∀ σ,
    whileN L (fun σ => (.val (L.bool true), σ)) cb (fun σ => some (.norm, σ)) m σ = cv cur (whileN L (eval L c) sb se m σ) := by
  induction m with
  | zero => intro σ; rfl
  | succ m ih =>
    intro σ
    unfold whileN
    simp only [hL, if_true, hr]
    have hn := eval_nm L c σ
    rcases hc : eval L c σ with ⟨r, σ₁⟩
    rw [hc] at hn
    cases r with
    | exn v => rfl
    | ub => rfl
    | val v =>
      simp only [andThen]
      cases hv : L.truth v
      · simp only [Bool.false_eq_true, if_false]
        have hl : leave σ (leave σ₁ (se σ₁)) = leave σ (se σ₁) := leave_leave _ _ _ (by
          have := congrArg List.length hn
          rw [nm_length, nm_length] at this
          exact Nat.le_of_eq this.symm)
        rw [← hl]
        have h1 := noBrk_leave (σ := σ₁) (ne σ₁)
        have h2 := noCont_leave (σ := σ₁) (nc σ₁)
        clear hl
        generalize leave σ₁ (se σ₁) = q at h1 h2 ⊢
        rcases q with _ | ⟨o, σ'⟩
        · rfl
        · cases o <;> first | rfl | exact absurd rfl (h1 σ') | exact absurd rfl (h2 σ') | exact Empty.elim ‹Empty›
      · simp only [if_true]
        rw [← cv_leave]
        have h1 := noBrk_leave (σ := σ) (nb σ₁)
        generalize leave σ (sb σ₁) = q at h1 ⊢
        rcases q with _ | ⟨o, σ'⟩
        · rfl
        · cases o <;> first | exact ih σ' | rfl | exact absurd rfl (h1 σ') | exact Empty.elim ‹Empty›

/-- Two ways to leave the scope of a variable. -/
theorem leave_ext {G : Type} (x : Nat) (o : Option V) (σ : St V W) (r : Run V W G) (h : Grows (x :: nm σ) r) :
    r = none ∧ leave (ext x o σ) r = none ∧ leave σ r = none ∨
    ∃ out o' σ', leave (ext x o σ) r = some (out, ext x o' σ') ∧ leave σ r = some (out, σ') := by
  rcases r with _ | ⟨out, τ⟩
  · exact Or.inl ⟨rfl, rfl, rfl⟩
  · right
    obtain ⟨pre, hp⟩ := h out τ rfl
    have hl : τ.1.length = pre.length + (σ.1.length + 1) := by
      have := congrArg List.length hp
      rw [List.length_append, List.length_cons, nm_length, nm_length] at this
      exact this
    have e1 : τ.1.length - (ext x o σ).1.length = pre.length := by
      show τ.1.length - (σ.1.length + 1) = _
      omega
    have e2 : τ.1.length - σ.1.length = pre.length + 1 := by omega
    have hd : (τ.1.drop pre.length).map Prod.fst = x :: nm σ := by
      rw [List.map_drop]
      show List.drop pre.length (nm τ) = _
      rw [hp, List.drop_left]
    cases hq : τ.1.drop pre.length with
    | nil => rw [hq] at hd; cases hd
    | cons q rest =>
      rcases q with ⟨y, o'⟩
      rw [hq] at hd
      injection hd with hy hrest
      dsimp only at hy
      subst hy
      refine ⟨out, o', (rest, τ.2), ?_, ?_⟩
      · simp only [leave, Option.map_some, e1, hq]; rfl
      · simp only [leave, Option.map_some, e2]
        rw [← List.drop_drop, hq]
        rfl

/-- A loop with a variable for each round and an `else`: in C++ there is one variable for all rounds. -/
theorem forever_init (L : Lib V W) (hL : ∀ b, L.truth (L.bool b) = b) (m cur x : Nat) (e : Expr V) (hx : x ∉ e.names)
    (cb : St V W → Run V W Nat) (sb se : St V W → Run V W Empty) (nb : ∀ τ, NoBrk (sb τ)) (ne : ∀ τ, NoBrk (se τ))
    (nc : ∀ τ, NoCont (se τ)) (gb : ∀ τ, Grows (nm τ) (sb τ))
    (hr : ∀ σ, cb σ = andThen (eval L (.set x e) σ) fun _ σ₀ => andThen (get x σ₀.1, σ₀) fun v σ₁ =>
      if L.truth v then cv cur (sb σ₁) else elseOut cur (leave σ₁ (se σ₁))) : ∀ σ o,
    leave σ (whileN L (fun σ => (.val (L.bool true), σ)) cb (fun σ => some (.norm, σ)) m (ext x o σ)) =
      cv cur (whileN L (initTest L x e) sb se m σ) := by
  induction m with
  | zero => intro σ o; rfl
  | succ m ih =>
    intro σ o
    unfold whileN
    simp only [hL, if_true, hr, eval, initTest]
    rw [eval_ext L x o e σ hx]
    have hn := eval_nm L e σ
    generalize eval L e σ = q at hn ⊢
    rcases q with ⟨r, σ₁⟩
    have hle : σ.1.length ≤ (ext x o σ).1.length := Nat.le_succ _
    have hlen : σ₁.1.length = σ.1.length := by
      have := congrArg List.length hn
      rwa [nm_length, nm_length] at this
    cases r with
    | exn v =>
      simp only [andThen, leave, Option.map_some, ext, List.length_cons, hlen, Nat.sub_self, List.drop_zero]
      simp [cv, conv]
    | ub =>
      simp only [andThen, leave, Option.map_some, ext, List.length_cons, hlen, Nat.sub_self, List.drop_zero]
      simp [cv, conv]
    | val v =>
      have hp : (put x v (ext x o σ₁).1, (ext x o σ₁).2) = bind x v σ₁ := by simp [put, ext, bind]
      have hg : get x (put x v (ext x o σ₁).1) = .val v := by simp [get, put, ext]
      have hnm : nm (bind x v σ₁) = x :: nm σ := by show x :: nm σ₁ = _; rw [← hn]
      simp only [andThen, hp, hg]
      cases hv : L.truth v
      · simp only [Bool.false_eq_true, if_false]
        have hl : leave σ (leave (bind x v σ₁) (se (bind x v σ₁))) = leave σ (se (bind x v σ₁)) := leave_leave _ _ _ (by
          show _ ≤ σ₁.1.length + 1
          omega)
        rw [← hl]
        have h1 := noBrk_leave (σ := bind x v σ₁) (ne (bind x v σ₁))
        have h2 := noCont_leave (σ := bind x v σ₁) (nc (bind x v σ₁))
        clear hl
        generalize leave (bind x v σ₁) (se (bind x v σ₁)) = q at h1 h2 ⊢
        rcases q with _ | ⟨o', σ'⟩
        · rfl
        · have hll : ∀ out : O V Nat, leave σ (leave (ext x o σ) (some (out, σ'))) = leave σ (some (out, σ')) :=
            fun out => leave_leave _ _ _ hle
          cases o' <;> first
            | exact absurd rfl (h1 σ') | exact absurd rfl (h2 σ') | exact Empty.elim ‹Empty›
            | exact hll _
      · simp only [if_true]
        have h1 := noBrk_leave (σ := σ) (nb (bind x v σ₁))
        have hgr := gb (bind x v σ₁)
        rw [hnm] at hgr
        rw [← cv_leave]
        rcases leave_ext x o σ _ hgr with ⟨h0, h2, h3⟩ | ⟨out, o', σ', h2, h3⟩
        · rw [h2, h3]; rfl
        · rw [h2, h3]
          rw [h3] at h1
          have hsn : nm σ = nm σ' := (leave_keeps' rfl hgr.tail out σ' h3).symm
          have hk : leave σ (some (conv cur out, ext x o' σ')) = some (conv cur out, σ') := by
            have hlen' : σ'.1.length = σ.1.length := by
              have := congrArg List.length (leave_keeps' rfl hgr.tail out σ' h3)
              rwa [nm_length, nm_length] at this
            simp [leave, ext, hlen']
          cases out with
          | norm => exact (leave_congr hsn _).trans (ih σ' o')
          | cont => exact (leave_congr hsn _).trans (ih σ' o')
          | brk => exact absurd rfl (h1 σ')
          | goto l => exact l.elim
          | _ => exact hk

/-! ### `switch` -/

/-- The end of a C++ `switch`. -/
def unbrk : Run V W Nat → Run V W Nat
  | some (.brk, σ) => some (.norm, σ)
  | r => r

theorem unbrk_leave (σ : St V W) (r : Run V W Nat) : unbrk (leave σ r) = leave σ (unbrk r) := by
  rcases r with _ | ⟨o, σ'⟩
  · rfl
  · cases o <;> rfl

theorem unbrk_andThen (p : R V × St V W) (k : V → St V W → Run V W Nat) : unbrk (andThen p k) = andThen p fun v σ => unbrk (k v σ) := by
  rcases p with ⟨r, σ⟩
  cases r <;> rfl

theorem unbrk_cv (cur : Nat) (r : Run V W Empty) : unbrk (cv cur r) = cv cur r := by
  rcases r with _ | ⟨o, σ'⟩
  · rfl
  · cases o <;> first | rfl | exact Empty.elim ‹Empty›

theorem matches_bool (L : Lib V W) (x : Nat) : ∀ (es : List (CaseExpr V)) (σ : St V W) (v : V) (σ' : St V W),
    matches_ L x es σ = (.val v, σ') → ∃ b, v = L.bool b
  | [], σ, v, σ', h => by cases h; exact ⟨false, rfl⟩
  | e :: es, σ, v, σ', h => by
    unfold matches_ at h
    cases hg : get x σ.1 <;> rw [hg] at h <;> try (cases h)
    dsimp only at h
    rcases he : eval L e.expr σ with ⟨r, σ₁⟩
    rw [he] at h
    cases r <;> try (cases h)
    dsimp only at h
    split at h
    · cases h; exact ⟨true, rfl⟩
    · exact matches_bool L x es σ₁ v σ' h

/-- The condition of a case. -/
theorem anyOf_run (L : Lib V W) (hL : ∀ b, L.truth (L.bool b) = b) (x : Nat) : ∀ (es : List (CaseExpr V)) (σ : St V W), es ≠ [] →
    eval L (anyOf x es) σ = matches_ L x es σ
  | [], _, h => absurd rfl h
  | [e], σ, _ => by
    simp only [anyOf, eval, matches_]
    cases get x σ.1 <;> try rfl
    dsimp only
    rcases eval L e.expr σ with ⟨r, σ₁⟩
    cases r <;> try rfl
    rename_i v u
    dsimp only
    cases L.eqv v u <;> rfl
  | e :: e' :: es, σ, _ => by
    have ih := fun σ => anyOf_run L hL x (e' :: es) σ (by simp)
    rw [matches_]
    show eval L (.or (.eq (.var x) e.expr) (anyOf x (e' :: es))) σ = _
    simp only [eval, ih]
    cases get x σ.1 <;> try rfl
    dsimp only
    rcases eval L e.expr σ with ⟨r, σ₁⟩
    cases r <;> try rfl
    rename_i v u
    simp only [hL]
    cases L.eqv v u
    · simp only [Bool.false_eq_true, if_false]
      rcases hm : matches_ L x (e' :: es) σ₁ with ⟨r, σ₂⟩
      cases r <;> try rfl
      obtain ⟨b, hb⟩ := matches_bool L x _ _ _ _ hm
      subst hb
      simp [hL]
    · rfl

theorem ends_noNorm (L : Lib V W) (n : Nat) : ∀ (b : Stmts V) (σ σ' : St V W), b.ends = true → srcB L n b σ ≠ some (.norm, σ')
  | .nil, _, _, h => by cases h
  | .cons s .nil, σ, σ', h => by
    have hs : ∀ τ, src L n s σ ≠ some (.norm, τ) := by
      intro τ e
      cases s with
      | brk => cases e
      | cont => cases e
      | ret e' =>
        simp only [src] at e
        generalize eval L e' σ = q at e
        rcases q with ⟨r, σ₁⟩
        cases r <;> cases e
      | throw e' =>
        simp only [src] at e
        generalize eval L e' σ = q at e
        rcases q with ⟨r, σ₁⟩
        cases r <;> cases e
      | _ => cases h
    intro e
    simp only [srcB] at e
    rcases hr : src L n s σ with _ | ⟨o, σ₁⟩
    · rw [hr] at e; cases e
    · cases o with
      | norm => exact hs σ₁ hr
      | _ => rw [hr] at e; cases e
  | .cons s (.cons s' ss), σ, σ', h => by
    have he : (Stmts.cons s' ss).ends = true := by
      cases s <;> exact h
    intro e
    rw [srcB] at e
    rcases hr : src L n s σ with _ | ⟨o, σ₁⟩
    · rw [hr] at e; cases e
    · cases o with
      | norm => rw [hr] at e; exact ends_noNorm L n _ σ₁ σ' he e
      | _ => rw [hr] at e; cases e

/-- Constants are compared as in C++. -/
theorem labels_run (L : Lib V W) (x : Nat) (v : V) (σ : St V W) (hx : get x σ.1 = .val v) : ∀ es : List (CaseExpr V),
    es.all (fun | .const _ same => same | .dyn _ => false) = true →
    matches_ L x es σ = (.val (L.bool ((labels es).any (L.eqv v))), σ)
  | [], _ => rfl
  | .const u same :: es, h => by
    simp only [List.all_cons, Bool.and_eq_true] at h
    cases h.1
    have ih := labels_run L x v σ hx es h.2
    simp only [matches_, hx, CaseExpr.expr, eval, labels, List.any_cons]
    cases L.eqv v u
    · simp only [Bool.false_eq_true, if_false, Bool.false_or]; exact ih
    · rfl
  | .dyn e :: es, h => by
    simp only [List.all_cons, Bool.and_eq_true] at h
    cases h.1

/-! ### All statements -/

theorem decl_run (L : Lib V W) (n x : Nat) (e : Expr V) (b : CB V) (σ : St V W) :
    cxxB L n (.cons (.decl x e) b) σ = declare L x e σ (cxxB L n b) := by
  rw [cxxB_cons]
  simp only [cxx, declare]
  rcases eval L e ((x, none) :: σ.1, σ.2) with ⟨r, σ'⟩
  cases r <;> rfl

theorem expr_run (L : Lib V W) (n : Nat) (e : Expr V) (b : CB V) (σ : St V W) :
    cxxB L n (.cons (.expr e) b) σ = andThen (eval L e σ) fun _ σ' => cxxB L n b σ' := by
  rw [cxxB_cons]
  simp only [cxx]
  rcases eval L e σ with ⟨r, σ'⟩
  cases r <;> rfl

mutual
/-- The C++ for a statement. -/
theorem gen_run (L : Lib V W) (hL : ∀ b, L.truth (L.bool b) = b) (n : Nat) (t : Bool) : ∀ (s : Stmt V) (cur : Nat) (σ : St V W),
    Ok t cur s → cxxB L n (gen t cur s) σ = cv cur (src L n s σ)
  | .expr e, cur, σ, _ => by
    simp only [gen, one_run, cxx, src, cv_andThen]; rfl
  | .decl x e, cur, σ, h => by
    simp only [gen, one_run, cxx, src]
    rw [declare_eq L x e σ _ h, cv_local]; rfl
  | .block b, cur, σ, h => addBlock_run L n t cur b h.2 σ (genB_run L hL n t b cur σ h.1)
  | .assert e msg, cur, σ, _ => by
    simp only [gen, one_run, cxx, src, cv_andThen, eval]
    have hn := eval_nm L e σ
    generalize eval L e σ = q at hn ⊢
    rcases q with ⟨r, σ₁⟩
    cases r <;> try rfl
    rename_i v
    simp only [andThen, hL]
    cases L.truth v
    · simp only [Bool.not_false, if_true, Bool.false_eq_true, if_false]
      have hm := eval_nm L msg σ₁
      generalize eval L msg σ₁ = q at hm ⊢
      rcases q with ⟨r, σ₂⟩
      have hm : nm σ₂ = nm σ₁ := hm
      cases r <;> exact leave_id (some_keeps _ hm)
    · simp only [Bool.not_true, Bool.false_eq_true, if_false, if_true, cxxB]
      exact leave_id (some_keeps _ rfl)
  | .ite none c a b, cur, σ, h => by
    simp only [gen, one_run, cxx, src, cv_andThen, cv_leave]
    congr 1
    funext v σ'
    split
    · rw [genB_run L hL n t a cur σ' h.2.1]
    · rw [genB_run L hL n t b cur σ' h.2.2]
  | .ite (some (x, e)) c a b, cur, σ, h => by
    simp only [gen, one_run, cxx, src, cv_leave, cv_local, cv_andThen]
    rw [declare_eq L x e σ _ (h.1 x e rfl)]
    congr 2
    funext τ
    congr 1
    funext v σ'
    split
    · rw [genB_run L hL n t a cur σ' h.2.1]
    · rw [genB_run L hL n t b cur σ' h.2.2]
  | .loop id hd body hasElse els, cur, σ, h => by
    have hb := fun τ => genB_run L hL n t body id τ h.2.2.1
    cases hasElse with
    | true =>
      obtain ⟨he, nb, ne, nc⟩ := h.2.2.2 rfl
      have hb' := fun τ => srcB_noBrk L n t id body τ h.2.2.1 nb
      have he' := fun τ => srcB_noBrk L n t id els τ he ne
      have hc' := fun τ => srcB_noCont L n t id els τ he nc
      have hr := fun c => round_run L hL n cur id c body els t hb (fun τ => genB_run L hL n t els id τ he) hb' he'
      cases hd with
      | cond c =>
        show cxxB L n (.one (.bare (.one (.forever _)))) σ = _
        simp only [one_run, cxx, src, if_true]
        exact forever_run L hL n cur c _ _ _ hb' he' hc' (hr c) σ
      | init x e =>
        show cxxB L n (.one (.block (.cons (.declOnly x) (.one (.forever _))))) σ = _
        simp only [one_run, cxx, src, if_true]
        rw [cxxB_cons]
        show leave σ (cxxB L n (.one (.forever _)) (ext x none σ)) = _
        simp only [one_run, cxx]
        refine forever_init L hL n cur x e h.2.1 _ _ _ hb' he' hc' (srcB_grows L n body) (fun τ => ?_) σ none
        rw [expr_run]
        congr 1
        funext v τ'
        exact hr (.var x) τ'
      | both x e c =>
        show cxxB L n (.one (.block (.cons (.decl x e) (.one (.forever _))))) σ = _
        simp only [one_run, cxx, src, if_true, cv_leave, cv_local]
        rw [decl_run, declare_eq L x e σ _ h.2.1]
        congr 2
        funext τ
        simp only [one_run, cxx]
        exact forever_run L hL n cur c _ _ _ hb' he' hc' (hr c) τ
    | false =>
      have hn : body.breaks = false → ∀ τ, NoBrk (srcB L n body τ) := fun e τ => srcB_noBrk L n t id body τ h.2.2.1 e
      cases hd with
      | cond c =>
        simp only [gen, src, Bool.false_eq_true, if_false]
        refine done_run L n cur id _ _ σ _ ?_ (fun e => ?_)
        · exact while_caught L cur id _ _ _ hb n σ
        · exact while_noBrk L cur id _ _ _ hb (hn e) n σ
      | init x e =>
        have ht : declTest L x e = initTest L x e := by
          funext τ
          unfold declTest initTest
          have := eval_ext L x none e τ h.2.1
          change eval L e ((x, none) :: τ.1, τ.2) = _ at this
          rw [this]
          rcases eval L e τ with ⟨r, σ'⟩
          cases r <;> simp [ext, put, bind]
        simp only [gen, src, Bool.false_eq_true, if_false]
        refine done_run L n cur id _ _ σ _ ?_ (fun e' => ?_)
        · simp only [cxx, ht]
          exact while_caught L cur id _ _ _ hb n σ
        · simp only [cxx, ht]
          exact while_noBrk L cur id _ _ _ hb (hn e') n σ
      | both x e c =>
        simp only [gen, src, Bool.false_eq_true, if_false]
        refine done_run L n cur id _ _ σ _ ?_ (fun e' => ?_)
        · simp only [cxx, caught_leave, cv_leave, cv_local]
          rw [declare_eq L x e σ _ h.2.1]
          simp only [local_, caught_andThen]
          congr 2
          funext v τ
          exact while_caught L cur id _ _ _ hb n _
        · simp only [cxx, cv_leave, cv_local]
          rw [declare_eq L x e σ _ h.2.1]
          congr 2
          funext τ
          exact while_noBrk L cur id _ _ _ hb (hn e') n τ
  | .each id x e lhs body, cur, σ, h => by
    have hb := fun τ => genB_run L hL n t body id τ h.2
    have hn : body.breaks = false → ∀ τ, NoBrk (srcB L n body τ) := fun e τ => srcB_noBrk L n t id body τ h.2 e
    have h1 : caught id (cxx L n (.range x e (genB t id body)) σ) = cv cur (src L n (.each id x e lhs body) σ) := by
      simp only [cxx, src, caught_andThen, cv_andThen]
      congr 1
      funext v τ
      exact each_caught L cur id x _ _ hb n v τ
    have h2 : body.breaks = false → cxx L n (.range x e (genB t id body)) σ = cv cur (src L n (.each id x e lhs body) σ) := by
      intro e'
      simp only [cxx, src, cv_andThen]
      congr 1
      funext v τ
      exact each_noBrk L cur id x _ _ hb (hn e') n v τ
    have hk := leave_id (src_keeps L n (.each id x e lhs body) σ rfl)
    cases lhs with
    | true => exact done_run L n cur id _ _ σ _ h1 h2
    | false =>
      refine done_run L n cur id _ _ σ _ ?_ (fun e' => ?_)
      · simp only [cxx, one_run, caught_leave]
        rw [show andThen (eval L e σ) (fun v σ' => eachN L x (cxxB L n (genB t id body)) n v σ') =
          cxx L n (.range x e (genB t id body)) σ from by simp only [cxx], h1, ← cv_leave, hk]
      · simp only [cxx, one_run]
        rw [show andThen (eval L e σ) (fun v σ' => eachN L x (cxxB L n (genB t id body)) n v σ') =
          cxx L n (.range x e (genB t id body)) σ from by simp only [cxx], h2 e', ← cv_leave, hk]
  | .switch x e i cs hasDefault d, cur, σ, h => by
    have hdef : ∀ τ, leave τ (cxxB L n (if hasDefault then genB t cur d else .one (.throw (.un 0 (.var x)))) τ) =
        cv cur (if hasDefault then leave τ (srcB L n d τ) else andThen (get x τ.1, τ) fun v σ₃ => some (.exn (L.un 0 v), σ₃)) := by
      intro τ
      split
      · rename_i hc
        rw [genB_run L hL n t d cur τ (h.2.2.1 hc), cv_leave]
      · simp only [one_run, cxx, eval]
        cases get x τ.1 <;> exact leave_id (some_keeps _ rfl)
    unfold gen
    split
    · rename_i hc
      have hs := h.2.2.2
      rw [if_pos hc] at hs
      simp only [one_run, cxx, src, cv_leave, cv_local]
      show unbrk (leave σ _) = _
      rw [unbrk_leave, declare_eq L x e σ _ h.1]
      simp only [local_, unbrk_andThen]
      congr 2
      funext v τ
      have hg : get x (bind x v τ).1 = .val v := by simp [get, bind]
      simp only [hg, andThen]
      exact genC_run L hL n t x v cs cur _ _ h.2.1 hs (bind x v τ) hg (hdef _)
    · rename_i hc
      have hs := h.2.2.2
      rw [if_neg hc] at hs
      cases cs with
      | nil =>
        have := hs rfl
        subst this
        simp only [Bool.false_eq_true, if_false, one_run, cxx, src, eval, srcC, cv_leave, local_, cv_andThen]
        have hn := eval_nm L e σ
        generalize eval L e σ = q at hn ⊢
        rcases q with ⟨r, σ₁⟩
        have hlen : σ₁.1.length = σ.1.length := by
          have := congrArg List.length hn
          rwa [nm_length, nm_length] at this
        cases r <;> simp [andThen, leave, get, bind, cv, conv, hlen]
      | cons es b cs =>
        simp only [one_run, cxx, src, cv_leave, cv_local]
        rw [declare_eq L x e σ _ h.1]
        congr 2
        funext τ
        rw [anyOf_run L hL x es τ h.2.1.1, srcC, cv_andThen]
        congr 1
        funext v σ'
        split
        · rw [genB_run L hL n t b cur σ' h.2.1.2.1, cv_leave]
        · exact genI_run L hL n t x cs cur _ _ h.2.1.2.2 hdef σ'
  | .brk, cur, σ, _ => by simp only [gen, one_run, cxx, src]; rfl
  | .cont, cur, σ, _ => by simp only [gen, one_run, cxx, src]; rfl
  | .ret e, cur, σ, _ => by simp only [gen, one_run, cxx, src, cv_andThen]; rfl
  | .throw e, cur, σ, _ => by simp only [gen, one_run, cxx, src, cv_andThen]; rfl
  | .try_ b cs, cur, σ, h => by
    simp only [gen, one_run, cxx, src]
    rw [genB_run L hL n t b cur σ h.1, ← cv_leave]
    rcases leave σ (srcB L n b σ) with _ | ⟨o, σ'⟩
    · rfl
    · cases o <;> first | exact genH_run L hL n t cs cur _ σ' h.2 | rfl | exact Empty.elim ‹Empty›
/-- The C++ for a block. -/
theorem genB_run (L : Lib V W) (hL : ∀ b, L.truth (L.bool b) = b) (n : Nat) (t : Bool) : ∀ (b : Stmts V) (cur : Nat) (σ : St V W),
    OkB t cur b → cxxB L n (genB t cur b) σ = cv cur (srcB L n b σ)
  | .nil, cur, σ, _ => by simp only [genB, cxxB, srcB]; rfl
  | .cons s ss, cur, σ, h => by
    have e : cxxB L n (genB t cur (.cons s ss)) σ = cxxB L n ((gen t cur s).append (genB t cur ss)) σ := by
      simp only [genB]
      rw [(append_run L n _ _).1]
      split
      · rw [one_run]; rfl
      · rfl
    rw [e, (append_run L n _ _).1, gen_run L hL n t s cur σ h.1, srcB]
    rcases src L n s σ with _ | ⟨o, σ'⟩
    · rfl
    · cases o <;> first
        | exact genB_run L hL n t ss cur σ' h.2
        | exact seek_noLab L n cur _ σ' (noLab_genB t cur ss h.2)
        | rfl
        | exact Empty.elim ‹Empty›
/-- The cases of a C++ `switch`. -/
theorem genC_run (L : Lib V W) (hL : ∀ b, L.truth (L.bool b) = b) (n : Nat) (t : Bool) (x : Nat) (v : V) : ∀ (cs : Cases V) (cur : Nat)
    (dc : St V W → Run V W Nat) (ds : St V W → Run V W Empty), OkC t cur cs → cs.allSame = true → ∀ σ : St V W, get x σ.1 = .val v →
    leave σ (dc σ) = cv cur (ds σ) → unbrk (cxxC L n v (genC t cur cs) dc σ) = cv cur (srcC L n x cs ds σ)
  | .nil, cur, dc, ds, _, _, σ, _, hd => by
    simp only [genC, cxxC, srcC]
    rw [hd, unbrk_cv]
  | .cons es b cs, cur, dc, ds, h, hs, σ, hx, hd => by
    simp only [Cases.allSame, Bool.and_eq_true] at hs
    simp only [genC, cxxC, srcC, labels_run L x v σ hx es hs.1, andThen, hL]
    split
    · have hb := genB_run L hL n t b cur σ h.2.1
      by_cases he : b.ends = true
      · rw [if_pos he, hb, ← cv_leave]
        have := ends_noNorm L n b σ
        rcases hr : srcB L n b σ with _ | ⟨o, σ'⟩
        · rfl
        · cases o <;> first | exact absurd hr (this σ' he) | rfl | exact Empty.elim ‹Empty›
      · rw [if_neg he, (append_run L n _ _).1, hb, cv_leave]
        rcases srcB L n b σ with _ | ⟨o, σ'⟩
        · rfl
        · cases o <;> first | rfl | exact Empty.elim ‹Empty›
    · exact genC_run L hL n t x v cs cur dc ds h.2.2 hs.2 σ hx hd
/-- The chain of conditions for a `switch`. -/
theorem genI_run (L : Lib V W) (hL : ∀ b, L.truth (L.bool b) = b) (n : Nat) (t : Bool) (x : Nat) : ∀ (cs : Cases V) (cur : Nat)
    (dc : CB V) (ds : St V W → Run V W Empty), OkC t cur cs → (∀ τ, leave τ (cxxB L n dc τ) = cv cur (ds τ)) → ∀ σ : St V W,
    leave σ (cxxB L n (genI t cur x cs dc) σ) = cv cur (srcC L n x cs ds σ)
  | .nil, cur, dc, ds, _, hd, σ => by
    simp only [genI, srcC]
    exact hd σ
  | .cons es b cs, cur, dc, ds, h, hd, σ => by
    simp only [genI, one_run, cxx, srcC, cv_andThen]
    rw [anyOf_run L hL x es σ h.1]
    have hn := matches_nm L x es σ
    rw [leave_andThen σ _ _ hn]
    generalize matches_ L x es σ = q at hn ⊢
    rcases q with ⟨r, σ'⟩
    have hn : nm σ' = nm σ := hn
    cases r <;> try rfl
    rename_i v
    simp only [andThen]
    rw [leave_congr hn.symm, leave_leave _ _ _ (Nat.le_refl _)]
    split
    · rw [genB_run L hL n t b cur σ' h.2.1, cv_leave]
    · exact genI_run L hL n t x cs cur dc ds h.2.2 hd σ'
/-- Exception handlers. -/
theorem genH_run (L : Lib V W) (hL : ∀ b, L.truth (L.bool b) = b) (n : Nat) (t : Bool) : ∀ (cs : Catches V) (cur : Nat) (v : V)
    (σ : St V W), OkH t cur cs → cxxH L n (genH t cur cs) v σ = cv cur (srcH L n cs v σ)
  | .nil, cur, v, σ, _ => by simp only [genH, cxxH, srcH]; rfl
  | .cons none b cs, cur, v, σ, h => by
    simp only [genH, cxxH, srcH]
    rw [genB_run L hL n t b cur σ h.1, cv_leave]
  | .cons (some (ty, x)) b cs, cur, v, σ, h => by
    simp only [genH, cxxH, srcH]
    split
    · rw [genB_run L hL n t b cur _ h.1, cv_leave]
    · exact genH_run L hL n t cs cur v σ h.2
end

end Verif.Front.Ctl
