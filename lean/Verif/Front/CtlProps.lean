import Verif.Front.CtlSpec
/-! # Statements and the C++ for them: scopes -/

namespace Verif.Front.Ctl

variable {V W G : Type}

/-- A variable in front of the others. -/
def ext (x : Nat) (o : Option V) (σ : St V W) : St V W := ((x, o) :: σ.1, σ.2)

/-- An expression that does not mention a variable does not care for it. -/
theorem eval_ext (L : Lib V W) (x : Nat) (o : Option V) : ∀ (e : Expr V) (σ : St V W), x ∉ e.names →
    eval L e (ext x o σ) = ((eval L e σ).1, ext x o (eval L e σ).2)
  | .lit _, _, _ => rfl
  | .var y, σ, h => by
    simp only [Expr.names, List.mem_singleton] at h
    have : ¬ y = x := fun e => h e.symm
    simp [eval, get, ext, this]
  | .set y e, σ, h => by
    simp only [Expr.names, List.mem_cons, not_or] at h
    have hy : ¬ y = x := fun e => h.1 e.symm
    simp only [eval, eval_ext L x o e σ h.2]
    rcases eval L e σ with ⟨r, σ'⟩
    cases r <;> simp [ext, put, hy]
  | .app f a b, σ, h => by
    simp only [Expr.names, List.mem_append, not_or] at h
    simp only [eval, eval_ext L x o a σ h.1]
    rcases eval L a σ with ⟨r, σ'⟩
    cases r <;> try rfl
    simp only [eval_ext L x o b σ' h.2]
    rcases eval L b σ' with ⟨r, σ''⟩
    cases r <;> try rfl
    rename_i v u
    simp only [ext]
    rcases L.call f v u σ''.2 with ⟨r, w⟩
    cases r <;> rfl
  | .un f e, σ, h => by
    simp only [eval, eval_ext L x o e σ h]
    rcases eval L e σ with ⟨r, σ'⟩
    cases r <;> rfl
  | .neg e, σ, h => by
    simp only [eval, eval_ext L x o e σ h]
    rcases eval L e σ with ⟨r, σ'⟩
    cases r <;> rfl
  | .or a b, σ, h => by
    simp only [Expr.names, List.mem_append, not_or] at h
    simp only [eval, eval_ext L x o a σ h.1]
    rcases eval L a σ with ⟨r, σ'⟩
    cases r <;> try rfl
    rename_i v
    dsimp only
    by_cases hv : L.truth v = true
    · rw [if_pos hv, if_pos hv]
    · rw [if_neg hv, if_neg hv, eval_ext L x o b σ' h.2]
      rcases eval L b σ' with ⟨r, σ''⟩
      cases r <;> rfl
  | .eq a b, σ, h => by
    simp only [Expr.names, List.mem_append, not_or] at h
    simp only [eval, eval_ext L x o a σ h.1]
    rcases eval L a σ with ⟨r, σ'⟩
    cases r <;> try rfl
    simp only [eval_ext L x o b σ' h.2]
    rcases eval L b σ' with ⟨r, σ''⟩
    cases r <;> rfl

/-- The names of the variables. -/
def nm (σ : St V W) : List Nat := σ.1.map Prod.fst

theorem nm_put (x : Nat) (v : V) : ∀ env : List (Nat × Option V), (put x v env).map Prod.fst = env.map Prod.fst
  | [] => rfl
  | (y, o) :: env => by
    unfold put
    split
    · rfl
    · simp [nm_put x v env]

/-- Expressions declare nothing. -/
theorem eval_nm (L : Lib V W) : ∀ (e : Expr V) (σ : St V W), nm (eval L e σ).2 = nm σ
  | .lit _, _ => rfl
  | .var _, _ => rfl
  | .set x e, σ => by
    have := eval_nm L e σ
    unfold eval
    rcases h : eval L e σ with ⟨r, σ'⟩
    rw [h] at this
    cases r <;> simp only
    · simp only [nm, nm_put]; exact this
    · exact this
    · exact this
  | .app f a b, σ => by
    have h1 := eval_nm L a σ
    unfold eval
    rcases h : eval L a σ with ⟨r, σ'⟩
    rw [h] at h1
    cases r <;> try exact h1
    have h2 := eval_nm L b σ'
    dsimp only
    rcases h' : eval L b σ' with ⟨r, σ''⟩
    rw [h'] at h2
    cases r <;> try exact h2.trans h1
    dsimp only
    rename_i v u
    rcases L.call f v u σ''.2 with ⟨r, w⟩
    cases r <;> exact h2.trans h1
  | .un f e, σ => by
    have := eval_nm L e σ
    unfold eval
    rcases h : eval L e σ with ⟨r, σ'⟩
    rw [h] at this
    cases r <;> exact this
  | .neg e, σ => by
    have := eval_nm L e σ
    unfold eval
    rcases h : eval L e σ with ⟨r, σ'⟩
    rw [h] at this
    cases r <;> exact this
  | .or a b, σ => by
    have h1 := eval_nm L a σ
    unfold eval
    rcases h : eval L a σ with ⟨r, σ'⟩
    rw [h] at h1
    cases r <;> try exact h1
    dsimp only
    split
    · exact h1
    have h2 := eval_nm L b σ'
    rcases h' : eval L b σ' with ⟨r, σ''⟩
    rw [h'] at h2
    cases r <;> exact h2.trans h1
  | .eq a b, σ => by
    have h1 := eval_nm L a σ
    unfold eval
    rcases h : eval L a σ with ⟨r, σ'⟩
    rw [h] at h1
    cases r <;> try exact h1
    have h2 := eval_nm L b σ'
    dsimp only
    rcases h' : eval L b σ' with ⟨r, σ''⟩
    rw [h'] at h2
    cases r <;> exact h2.trans h1

/-- The result has the given variables, and maybe more in front of them. -/
def Grows (ns : List Nat) (r : Run V W G) : Prop := ∀ o σ', r = some (o, σ') → ∃ pre, nm σ' = pre ++ ns

/-- The result has the given variables. -/
def Keeps (ns : List Nat) (r : Run V W G) : Prop := ∀ o σ', r = some (o, σ') → nm σ' = ns

theorem Keeps.grows {ns : List Nat} {r : Run V W G} (h : Keeps ns r) : Grows ns r := fun o σ' e => ⟨[], h o σ' e⟩

theorem nm_length (σ : St V W) : (nm σ).length = σ.1.length := by simp [nm]

theorem leave_keeps {σ : St V W} {r : Run V W G} (h : Grows (nm σ) r) : Keeps (nm σ) (leave σ r) := by
  intro o σ' e
  cases r with
  | none => cases e
  | some p =>
    rcases p with ⟨o', σ''⟩
    obtain ⟨pre, hp⟩ := h o' σ'' rfl
    simp only [leave, Option.map_some, Option.some.injEq, Prod.mk.injEq] at e
    rw [← e.2]
    have hl : σ''.1.length - σ.1.length = pre.length := by
      have := congrArg List.length hp
      rw [List.length_append, nm_length, nm_length] at this
      omega
    rw [hl]
    show List.map Prod.fst (List.drop pre.length σ''.1) = _
    rw [List.map_drop]
    show List.drop pre.length (nm σ'') = _
    rw [hp, List.drop_left]

theorem leave_keeps' {σ : St V W} {ns : List Nat} {r : Run V W G} (he : nm σ = ns) (h : Grows ns r) : Keeps ns (leave σ r) := by
  subst he; exact leave_keeps h

/-- Nothing happens at the end of a scope without variables. -/
theorem leave_id {σ : St V W} {r : Run V W G} (h : Keeps (nm σ) r) : leave σ r = r := by
  cases r with
  | none => rfl
  | some p =>
    rcases p with ⟨o, σ'⟩
    have := congrArg List.length (h o σ' rfl)
    rw [nm_length, nm_length] at this
    simp [leave, this]

theorem leave_congr {σ τ : St V W} (h : nm σ = nm τ) (r : Run V W G) : leave σ r = leave τ r := by
  have := congrArg List.length h
  rw [nm_length, nm_length] at this
  simp [leave, this]

theorem Keeps.congr {ns ms : List Nat} {r : Run V W G} (h : Keeps ns r) (e : ns = ms) : Keeps ms r := e ▸ h

theorem andThen_keeps {ns : List Nat} {p : R V × St V W} {k : V → St V W → Run V W G} (hp : nm p.2 = ns)
    (hk : ∀ v, Keeps ns (k v p.2)) : Keeps ns (andThen p k) := by
  rcases p with ⟨r, σ⟩
  cases r with
  | val v => exact hk v
  | exn v => intro o σ' e; cases e; exact hp
  | ub => intro o σ' e; cases e; exact hp

theorem andThen_grows {ns : List Nat} {p : R V × St V W} {k : V → St V W → Run V W G} (hp : nm p.2 = ns)
    (hk : ∀ v, Grows ns (k v p.2)) : Grows ns (andThen p k) := by
  rcases p with ⟨r, σ⟩
  cases r with
  | val v => exact hk v
  | exn v => intro o σ' e; cases e; exact ⟨[], hp⟩
  | ub => intro o σ' e; cases e; exact ⟨[], hp⟩

theorem local_grows (L : Lib V W) (x : Nat) (e : Expr V) (σ : St V W) {k : St V W → Run V W G}
    (hk : ∀ τ, nm τ = x :: nm σ → Grows (nm σ) (k τ)) : Grows (nm σ) (local_ L x e σ k) :=
  andThen_grows (eval_nm L e σ) fun v => hk _ (by
    show x :: nm (eval L e σ).2 = _
    rw [eval_nm])

theorem Grows.tail {x : Nat} {ns : List Nat} {r : Run V W G} (h : Grows (x :: ns) r) : Grows ns r := fun o σ' e => by
  obtain ⟨pre, hp⟩ := h o σ' e
  exact ⟨pre ++ [x], by rw [hp, List.append_assoc]; rfl⟩

theorem some_keeps {σ : St V W} {ns : List Nat} (o : O V G) (h : nm σ = ns) : Keeps ns (some (o, σ) : Run V W G) := by
  intro o' σ' e
  cases e
  exact h

theorem whileN_keeps (L : Lib V W) (ns : List Nat) (test : St V W → R V × St V W) (body els : St V W → Run V W G)
    (ht : ∀ σ, nm σ = ns → ∃ pre, nm (test σ).2 = pre ++ ns)
    (hb : ∀ pre τ, nm τ = pre ++ ns → Grows (pre ++ ns) (body τ)) (he : ∀ pre τ, nm τ = pre ++ ns → Grows (pre ++ ns) (els τ)) :
    ∀ n σ, nm σ = ns → Keeps ns (whileN L test body els n σ)
  | 0, _, _ => fun o σ' e => by cases e
  | n + 1, σ, hσ => by
    have app : ∀ {pre : List Nat} {r : Run V W G}, Grows (pre ++ ns) r → Grows ns r := fun {pre r} h o σ' e => by
      obtain ⟨q, hq⟩ := h o σ' e
      exact ⟨q ++ pre, by rw [hq, List.append_assoc]⟩
    obtain ⟨pre, hp⟩ := ht σ hσ
    unfold whileN
    rcases h : test σ with ⟨r, σ₁⟩
    rw [h] at hp
    cases r with
    | exn v => exact leave_keeps' hσ (fun o σ' e => by cases e; exact ⟨pre, hp⟩)
    | ub => exact leave_keeps' hσ (fun o σ' e => by cases e; exact ⟨pre, hp⟩)
    | val v =>
      dsimp only
      split
      · have hk := leave_keeps' hσ (app (hb pre σ₁ hp))
        rcases hr : leave σ (body σ₁) with _ | ⟨o, σ₂⟩
        · intro o σ' e; cases e
        · have h2 := hk o σ₂ hr
          cases o <;> first | exact whileN_keeps L ns test body els ht hb he n σ₂ h2 | exact some_keeps _ h2
      · exact leave_keeps' hσ (app (he pre σ₁ hp))

theorem eachN_keeps (L : Lib V W) (ns : List Nat) (x : Nat) (body : St V W → Run V W G)
    (hb : ∀ τ, nm τ = x :: ns → Grows (x :: ns) (body τ)) :
    ∀ n v σ, nm σ = ns → Keeps ns (eachN L x body n v σ)
  | 0, _, _, _ => fun o σ' e => by cases e
  | n + 1, v, σ, hσ => by
    unfold eachN
    cases L.next v σ.2 with
    | none => exact some_keeps _ hσ
    | some p =>
      rcases p with ⟨a, v'⟩
      dsimp only
      have hk := leave_keeps' hσ (hb (bind x a σ) (by show x :: nm σ = _; rw [hσ])).tail
      rcases hr : leave σ (body (bind x a σ)) with _ | ⟨o, σ₂⟩
      · intro o σ' e; cases e
      · have h2 := hk o σ₂ hr
        cases o <;> first | exact eachN_keeps L ns x body hb n v' σ₂ h2 | exact some_keeps _ h2

theorem matches_nm (L : Lib V W) (x : Nat) : ∀ (es : List (CaseExpr V)) (σ : St V W), nm (matches_ L x es σ).2 = nm σ
  | [], _ => rfl
  | e :: es, σ => by
    unfold matches_
    cases get x σ.1 <;> try rfl
    rename_i v
    dsimp only
    have h1 := eval_nm L e.expr σ
    rcases h : eval L e.expr σ with ⟨r, σ'⟩
    rw [h] at h1
    cases r <;> try exact h1
    dsimp only
    split
    · exact h1
    · exact (matches_nm L x es σ').trans h1

/-- Is the statement a declaration? -/
def Stmt.isDecl : Stmt V → Bool
  | .decl _ _ => true
  | _ => false

mutual
theorem src_grows (L : Lib V W) (n : Nat) : ∀ (s : Stmt V) (σ : St V W), Grows (nm σ) (src L n s σ)
  | .decl x e, σ => local_grows L x e σ fun τ hτ => (some_keeps _ hτ).grows.tail
  | .expr e, σ => (src_keeps L n (.expr e) σ rfl).grows
  | .block b, σ => (src_keeps L n (.block b) σ rfl).grows
  | .assert e msg, σ => (src_keeps L n (.assert e msg) σ rfl).grows
  | .ite i c t f, σ => (src_keeps L n (.ite i c t f) σ rfl).grows
  | .loop id h b he els, σ => (src_keeps L n (.loop id h b he els) σ rfl).grows
  | .each id x e l b, σ => (src_keeps L n (.each id x e l b) σ rfl).grows
  | .switch x e i cs hd d, σ => (src_keeps L n (.switch x e i cs hd d) σ rfl).grows
  | .brk, σ => (some_keeps _ rfl).grows
  | .cont, σ => (some_keeps _ rfl).grows
  | .ret e, σ => (src_keeps L n (.ret e) σ rfl).grows
  | .throw e, σ => (src_keeps L n (.throw e) σ rfl).grows
  | .try_ b cs, σ => (src_keeps L n (.try_ b cs) σ rfl).grows
/-- Only a declaration declares a variable for the statements behind it. -/
theorem src_keeps (L : Lib V W) (n : Nat) : ∀ (s : Stmt V) (σ : St V W), s.isDecl = false → Keeps (nm σ) (src L n s σ)
  | .decl _ _, _, h => by cases h
  | .expr e, σ, _ => andThen_keeps (eval_nm L e σ) fun v => some_keeps _ (eval_nm L e σ)
  | .block b, σ, _ => leave_keeps (srcB_grows L n b σ)
  | .assert e msg, σ, _ => andThen_keeps (eval_nm L e σ) fun v => by
      split
      · exact some_keeps _ (eval_nm L e σ)
      · have h2 := (eval_nm L msg (eval L e σ).2).trans (eval_nm L e σ)
        exact andThen_keeps h2 fun m => some_keeps _ h2
  | .ite none c t f, σ, _ => andThen_keeps (eval_nm L c σ) fun v => by
      refine leave_keeps' (eval_nm L c σ) ?_
      rw [← eval_nm L c σ]
      split
      · exact srcB_grows L n t _
      · exact srcB_grows L n f _
  | .ite (some (x, e)) c t f, σ, _ => leave_keeps (local_grows L x e σ fun τ hτ => Grows.tail (x := x) (by
      rw [← hτ]
      refine andThen_grows (eval_nm L c τ) fun v => (leave_keeps' (eval_nm L c τ) ?_).grows
      rw [← eval_nm L c τ]
      split
      · exact srcB_grows L n t _
      · exact srcB_grows L n f _))
  | .loop _ h body hasElse els, σ, _ => by
      have hb : ∀ ns pre (τ : St V W), nm τ = pre ++ ns → Grows (pre ++ ns) (srcB L n body τ) := fun ns pre τ e => by
        rw [← e]; exact srcB_grows L n body τ
      have he : ∀ ns pre (τ : St V W), nm τ = pre ++ ns →
          Grows (pre ++ ns) (if hasElse then srcB L n els τ else some (.norm, τ)) := fun ns pre τ e => by
        rw [← e]
        split
        · exact srcB_grows L n els τ
        · exact (some_keeps _ rfl).grows
      cases h with
      | cond c => exact whileN_keeps L (nm σ) _ _ _ (fun τ hτ => ⟨[], by rw [eval_nm, hτ]; rfl⟩) (hb _) (he _) n σ rfl
      | init x e =>
        refine whileN_keeps L (nm σ) _ _ _ (fun τ hτ => ?_) (hb _) (he _) n σ rfl
        have h1 := eval_nm L e τ
        unfold initTest
        rcases h : eval L e τ with ⟨r, σ'⟩
        rw [h] at h1
        cases r with
        | val v => exact ⟨[x], by show x :: nm σ' = _; rw [h1, hτ]; rfl⟩
        | exn v => exact ⟨[], h1.trans hτ⟩
        | ub => exact ⟨[], h1.trans hτ⟩
      | both x e c =>
        exact leave_keeps (local_grows L x e σ fun τ hτ => Grows.tail (x := x) (by
          rw [← hτ]
          exact (whileN_keeps L (nm τ) _ _ _ (fun τ hτ => ⟨[], by rw [eval_nm, hτ]; rfl⟩) (hb _) (he _) n τ rfl).grows))
  | .each _ x e _ body, σ, _ => andThen_keeps (eval_nm L e σ) fun v =>
      eachN_keeps L (nm σ) x _ (fun τ hτ => by rw [← hτ]; exact srcB_grows L n body τ) n v _ (eval_nm L e σ)
  | .switch x e _ cs hd d, σ, _ => leave_keeps (local_grows L x e σ fun τ hτ => Grows.tail (x := x) (by
      rw [← hτ]
      refine (srcC_keeps L n x cs _ (nm τ) (fun σ₂ h2 => ?_) τ rfl).grows
      split
      · exact leave_keeps' h2 (by rw [← h2]; exact srcB_grows L n d σ₂)
      · exact andThen_keeps h2 fun v => some_keeps _ h2))
  | .brk, _, _ => some_keeps _ rfl
  | .cont, _, _ => some_keeps _ rfl
  | .ret e, σ, _ => andThen_keeps (eval_nm L e σ) fun v => some_keeps _ (eval_nm L e σ)
  | .throw e, σ, _ => andThen_keeps (eval_nm L e σ) fun v => some_keeps _ (eval_nm L e σ)
  | .try_ b cs, σ, _ => by
      have hk := leave_keeps (srcB_grows L n b σ)
      unfold src
      rcases hr : leave σ (srcB L n b σ) with _ | ⟨o, σ₂⟩
      · intro o σ' e; cases e
      · have h2 := hk o σ₂ hr
        cases o <;> first | exact (srcH_keeps L n cs _ σ₂).congr h2 | exact some_keeps _ h2
theorem srcB_grows (L : Lib V W) (n : Nat) : ∀ (b : Stmts V) (σ : St V W), Grows (nm σ) (srcB L n b σ)
  | .nil, _ => (some_keeps _ rfl).grows
  | .cons s ss, σ => by
    have h1 := src_grows L n s σ
    intro o σ' e
    simp only [srcB] at e
    rcases hr : src L n s σ with _ | ⟨o₁, σ₁⟩
    · rw [hr] at e; cases e
    · obtain ⟨p, hp⟩ := h1 o₁ σ₁ hr
      rw [hr] at e
      cases o₁ with
      | norm =>
        obtain ⟨q, hq⟩ := srcB_grows L n ss σ₁ o σ' e
        exact ⟨q ++ p, by rw [hq, hp, List.append_assoc]⟩
      | _ => cases e; exact ⟨p, hp⟩
theorem srcC_keeps (L : Lib V W) (n : Nat) (x : Nat) : ∀ (cs : Cases V) (d : St V W → Run V W Empty) (ns : List Nat),
    (∀ τ, nm τ = ns → Keeps ns (d τ)) → ∀ σ, nm σ = ns → Keeps ns (srcC L n x cs d σ)
  | .nil, d, ns, hd, σ, hσ => hd σ hσ
  | .cons es b cs, d, ns, hd, σ, hσ => by
    have h1 := (matches_nm L x es σ).trans hσ
    refine andThen_keeps h1 fun v => ?_
    split
    · exact leave_keeps' h1 (by rw [← h1]; exact srcB_grows L n b _)
    · exact srcC_keeps L n x cs d ns hd _ h1
theorem srcH_keeps (L : Lib V W) (n : Nat) : ∀ (cs : Catches V) (v : V) (σ : St V W), Keeps (nm σ) (srcH L n cs v σ)
  | .nil, _, _ => some_keeps _ rfl
  | .cons none b _, _, σ => leave_keeps (srcB_grows L n b σ)
  | .cons (some (t, x)) b cs, v, σ => by
    unfold srcH
    split
    · exact leave_keeps (srcB_grows L n b (bind x v σ)).tail
    · exact srcH_keeps L n cs v σ
end

end Verif.Front.Ctl
