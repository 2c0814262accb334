import Verif.Front.CtlProps
/-! # Statements without `break` or `continue` -/

namespace Verif.Front.Ctl

variable {V W : Type}

/-- The statement does not end with `brk`. -/
def NoBrk (r : Run V W Empty) : Prop := ∀ σ', r ≠ some (.brk, σ')

theorem noBrk_leave {σ : St V W} {r : Run V W Empty} (h : NoBrk r) : NoBrk (leave σ r) := by
  intro σ' e
  rcases r with _ | ⟨o, σ₁⟩
  · cases e
  · cases o <;> cases e
    exact h σ₁ rfl

theorem noBrk_andThen {p : R V × St V W} {k : V → St V W → Run V W Empty} (hk : ∀ v σ, NoBrk (k v σ)) : NoBrk (andThen p k) := by
  rcases p with ⟨r, σ⟩
  cases r with
  | val v => exact hk v σ
  | exn v => intro σ' e; cases e
  | ub => intro σ' e; cases e

theorem noBrk_norm (σ : St V W) : NoBrk (some (.norm, σ) : Run V W Empty) := fun σ' e => by cases e

theorem noBrk_exn (v : V) (σ : St V W) : NoBrk (some (.exn v, σ) : Run V W Empty) := fun σ' e => by cases e

theorem noBrk_while (L : Lib V W) (test : St V W → R V × St V W) (body els : St V W → Run V W Empty) (he : ∀ τ, NoBrk (els τ)) :
    ∀ n σ, NoBrk (whileN L test body els n σ)
  | 0, _ => fun σ' e => by cases e
  | n + 1, σ => by
    unfold whileN
    rcases test σ with ⟨r, σ₁⟩
    cases r with
    | exn v => exact noBrk_leave (noBrk_exn v σ₁)
    | ub => exact noBrk_leave (fun σ' e => by cases e)
    | val v =>
      dsimp only
      split
      · rcases leave σ (body σ₁) with _ | ⟨o, σ₂⟩
        · exact fun σ' e => by cases e
        · cases o <;> first | exact noBrk_while L test body els he n σ₂ | exact noBrk_norm σ₂ | exact fun σ' e => by cases e
      · exact noBrk_leave (he σ₁)

theorem noBrk_each (L : Lib V W) (x : Nat) (body : St V W → Run V W Empty) :
    ∀ n v σ, NoBrk (eachN L x body n v σ)
  | 0, _, _ => fun σ' e => by cases e
  | n + 1, v, σ => by
    unfold eachN
    cases L.next v σ.2 with
    | none => exact noBrk_norm σ
    | some p =>
      dsimp only
      rcases leave σ (body (bind x p.1 σ)) with _ | ⟨o, σ₂⟩
      · exact fun σ' e => by cases e
      · cases o <;> first | exact noBrk_each L x body n p.2 σ₂ | exact noBrk_norm σ₂ | exact fun σ' e => by cases e

mutual
/-- A statement without `brk` for the loop around it does not end with one. -/
theorem src_noBrk (L : Lib V W) (n : Nat) (t : Bool) (cur : Nat) : ∀ (s : Stmt V) (σ : St V W), Ok t cur s → s.breaks = false →
    NoBrk (src L n s σ)
  | .decl x e, σ, _, _ => noBrk_andThen fun _ _ => noBrk_norm _
  | .expr e, σ, _, _ => noBrk_andThen fun _ _ => noBrk_norm _
  | .block b, σ, h, hb => noBrk_leave (srcB_noBrk L n t cur b σ h.1 hb)
  | .assert e msg, σ, _, _ => noBrk_andThen fun v σ' => by
      split
      · exact noBrk_norm _
      · exact noBrk_andThen fun _ _ => noBrk_exn _ _
  | .ite none c a b, σ, h, hb => noBrk_andThen fun v σ' => noBrk_leave (by
      simp only [Stmt.breaks, Bool.or_eq_false_iff] at hb
      split
      · exact srcB_noBrk L n t cur a σ' h.2.1 hb.1
      · exact srcB_noBrk L n t cur b σ' h.2.2 hb.2)
  | .ite (some (x, e)) c a b, σ, h, hb => noBrk_leave (noBrk_andThen fun _ τ => noBrk_andThen fun v σ' => noBrk_leave (by
      simp only [Stmt.breaks, Bool.or_eq_false_iff] at hb
      split
      · exact srcB_noBrk L n t cur a σ' h.2.1 hb.1
      · exact srcB_noBrk L n t cur b σ' h.2.2 hb.2))
  | .loop id hd body hasElse els, σ, h, hb => by
      have he : ∀ τ : St V W, NoBrk (if hasElse then srcB L n els τ else some (.norm, τ)) := fun τ => by
        split
        · rename_i hc
          exact srcB_noBrk L n t id els τ (h.2.2.2 hc).1 (h.2.2.2 hc).2.2.1
        · exact noBrk_norm τ
      cases hd with
      | cond c => exact noBrk_while L _ _ _ he n σ
      | init x e => exact noBrk_while L _ _ _ he n σ
      | both x e c => exact noBrk_leave (noBrk_andThen fun v τ => noBrk_while L _ _ _ he n _)
  | .each _ x e _ body, σ, _, _ => noBrk_andThen fun v τ => noBrk_each L x _ n v τ
  | .switch x e i cs hasDefault d, σ, h, hb => noBrk_leave (noBrk_andThen fun v τ => by
      simp only [Stmt.breaks, Bool.or_eq_false_iff] at hb
      refine srcC_noBrk L n t cur x cs _ h.2.1 hb.1 (fun σ₂ => ?_) _
      split
      · rename_i hc
        exact noBrk_leave (srcB_noBrk L n t cur d σ₂ (h.2.2.1 hc) hb.2)
      · exact noBrk_andThen fun _ _ => noBrk_exn _ _)
  | .brk, _, _, hb => by cases hb
  | .cont, σ, _, _ => fun σ' e => by cases e
  | .ret e, σ, _, _ => noBrk_andThen fun _ _ σ' e => by cases e
  | .throw e, σ, _, _ => noBrk_andThen fun _ _ => noBrk_exn _ _
  | .try_ b cs, σ, h, hb => by
      simp only [Stmt.breaks, Bool.or_eq_false_iff] at hb
      have hk := noBrk_leave (σ := σ) (srcB_noBrk L n t cur b σ h.1 hb.1)
      unfold src
      rcases hr : leave σ (srcB L n b σ) with _ | ⟨o, σ₂⟩
      · exact fun σ' e => by cases e
      · rw [hr] at hk
        cases o <;> first | exact srcH_noBrk L n t cur cs _ σ₂ h.2 hb.2 | exact hk
theorem srcB_noBrk (L : Lib V W) (n : Nat) (t : Bool) (cur : Nat) : ∀ (b : Stmts V) (σ : St V W), OkB t cur b → b.breaks = false →
    NoBrk (srcB L n b σ)
  | .nil, σ, _, _ => noBrk_norm σ
  | .cons s ss, σ, h, hb => by
    simp only [Stmts.breaks, Bool.or_eq_false_iff] at hb
    have hk := src_noBrk L n t cur s σ h.1 hb.1
    unfold srcB
    rcases hr : src L n s σ with _ | ⟨o, σ₂⟩
    · exact fun σ' e => by cases e
    · rw [hr] at hk
      cases o <;> first | exact srcB_noBrk L n t cur ss σ₂ h.2 hb.2 | exact hk
theorem srcC_noBrk (L : Lib V W) (n : Nat) (t : Bool) (cur : Nat) (x : Nat) : ∀ (cs : Cases V) (d : St V W → Run V W Empty),
    OkC t cur cs → cs.breaks = false → (∀ τ, NoBrk (d τ)) → ∀ σ, NoBrk (srcC L n x cs d σ)
  | .nil, d, _, _, hd, σ => hd σ
  | .cons es b cs, d, h, hb, hd, σ => by
    simp only [Cases.breaks, Bool.or_eq_false_iff] at hb
    refine noBrk_andThen fun v σ' => ?_
    split
    · exact noBrk_leave (srcB_noBrk L n t cur b σ' h.2.1 hb.1)
    · exact srcC_noBrk L n t cur x cs d h.2.2 hb.2 hd σ'
theorem srcH_noBrk (L : Lib V W) (n : Nat) (t : Bool) (cur : Nat) : ∀ (cs : Catches V) (v : V) (σ : St V W), OkH t cur cs →
    cs.breaks = false → NoBrk (srcH L n cs v σ)
  | .nil, v, σ, _, _ => noBrk_exn v σ
  | .cons none b cs, _, σ, h, hb => by
    simp only [Catches.breaks, Bool.or_eq_false_iff] at hb
    exact noBrk_leave (srcB_noBrk L n t cur b σ h.1 hb.1)
  | .cons (some (ty, x)) b cs, v, σ, h, hb => by
    simp only [Catches.breaks, Bool.or_eq_false_iff] at hb
    unfold srcH
    split
    · exact noBrk_leave (srcB_noBrk L n t cur b _ h.1 hb.1)
    · exact srcH_noBrk L n t cur cs v σ h.2 hb.2
end

/-- The statement does not end with `cont`. -/
def NoCont (r : Run V W Empty) : Prop := ∀ σ', r ≠ some (.cont, σ')

theorem noCont_leave {σ : St V W} {r : Run V W Empty} (h : NoCont r) : NoCont (leave σ r) := by
  intro σ' e
  rcases r with _ | ⟨o, σ₁⟩
  · cases e
  · cases o <;> cases e
    exact h σ₁ rfl

theorem noCont_andThen {p : R V × St V W} {k : V → St V W → Run V W Empty} (hk : ∀ v σ, NoCont (k v σ)) : NoCont (andThen p k) := by
  rcases p with ⟨r, σ⟩
  cases r with
  | val v => exact hk v σ
  | exn v => intro σ' e; cases e
  | ub => intro σ' e; cases e

theorem noCont_norm (σ : St V W) : NoCont (some (.norm, σ) : Run V W Empty) := fun σ' e => by cases e

theorem noCont_exn (v : V) (σ : St V W) : NoCont (some (.exn v, σ) : Run V W Empty) := fun σ' e => by cases e

theorem noCont_while (L : Lib V W) (test : St V W → R V × St V W) (body els : St V W → Run V W Empty) (he : ∀ τ, NoCont (els τ)) :
    ∀ n σ, NoCont (whileN L test body els n σ)
  | 0, _ => fun σ' e => by cases e
  | n + 1, σ => by
    unfold whileN
    rcases test σ with ⟨r, σ₁⟩
    cases r with
    | exn v => exact noCont_leave (noCont_exn v σ₁)
    | ub => exact noCont_leave (fun σ' e => by cases e)
    | val v =>
      dsimp only
      split
      · rcases leave σ (body σ₁) with _ | ⟨o, σ₂⟩
        · exact fun σ' e => by cases e
        · cases o <;> first | exact noCont_while L test body els he n σ₂ | exact noCont_norm σ₂ | exact fun σ' e => by cases e
      · exact noCont_leave (he σ₁)

theorem noCont_each (L : Lib V W) (x : Nat) (body : St V W → Run V W Empty) :
    ∀ n v σ, NoCont (eachN L x body n v σ)
  | 0, _, _ => fun σ' e => by cases e
  | n + 1, v, σ => by
    unfold eachN
    cases L.next v σ.2 with
    | none => exact noCont_norm σ
    | some p =>
      dsimp only
      rcases leave σ (body (bind x p.1 σ)) with _ | ⟨o, σ₂⟩
      · exact fun σ' e => by cases e
      · cases o <;> first | exact noCont_each L x body n p.2 σ₂ | exact noCont_norm σ₂ | exact fun σ' e => by cases e

mutual
/-- A statement without `cont` for the loop around it does not end with one. -/
theorem src_noCont (L : Lib V W) (n : Nat) (t : Bool) (cur : Nat) : ∀ (s : Stmt V) (σ : St V W), Ok t cur s → s.conts = false →
    NoCont (src L n s σ)
  | .decl x e, σ, _, _ => noCont_andThen fun _ _ => noCont_norm _
  | .expr e, σ, _, _ => noCont_andThen fun _ _ => noCont_norm _
  | .block b, σ, h, hb => noCont_leave (srcB_noCont L n t cur b σ h.1 hb)
  | .assert e msg, σ, _, _ => noCont_andThen fun v σ' => by
      split
      · exact noCont_norm _
      · exact noCont_andThen fun _ _ => noCont_exn _ _
  | .ite none c a b, σ, h, hb => noCont_andThen fun v σ' => noCont_leave (by
      simp only [Stmt.conts, Bool.or_eq_false_iff] at hb
      split
      · exact srcB_noCont L n t cur a σ' h.2.1 hb.1
      · exact srcB_noCont L n t cur b σ' h.2.2 hb.2)
  | .ite (some (x, e)) c a b, σ, h, hb => noCont_leave (noCont_andThen fun _ τ => noCont_andThen fun v σ' => noCont_leave (by
      simp only [Stmt.conts, Bool.or_eq_false_iff] at hb
      split
      · exact srcB_noCont L n t cur a σ' h.2.1 hb.1
      · exact srcB_noCont L n t cur b σ' h.2.2 hb.2))
  | .loop id hd body hasElse els, σ, h, hb => by
      have he : ∀ τ : St V W, NoCont (if hasElse then srcB L n els τ else some (.norm, τ)) := fun τ => by
        split
        · rename_i hc
          exact srcB_noCont L n t id els τ (h.2.2.2 hc).1 (h.2.2.2 hc).2.2.2
        · exact noCont_norm τ
      cases hd with
      | cond c => exact noCont_while L _ _ _ he n σ
      | init x e => exact noCont_while L _ _ _ he n σ
      | both x e c => exact noCont_leave (noCont_andThen fun v τ => noCont_while L _ _ _ he n _)
  | .each _ x e _ body, σ, _, _ => noCont_andThen fun v τ => noCont_each L x _ n v τ
  | .switch x e i cs hasDefault d, σ, h, hb => noCont_leave (noCont_andThen fun v τ => by
      simp only [Stmt.conts, Bool.or_eq_false_iff] at hb
      refine srcC_noCont L n t cur x cs _ h.2.1 hb.1 (fun σ₂ => ?_) _
      split
      · rename_i hc
        exact noCont_leave (srcB_noCont L n t cur d σ₂ (h.2.2.1 hc) hb.2)
      · exact noCont_andThen fun _ _ => noCont_exn _ _)
  | .cont, _, _, hb => by cases hb
  | .brk, σ, _, _ => fun σ' e => by cases e
  | .ret e, σ, _, _ => noCont_andThen fun _ _ σ' e => by cases e
  | .throw e, σ, _, _ => noCont_andThen fun _ _ => noCont_exn _ _
  | .try_ b cs, σ, h, hb => by
      simp only [Stmt.conts, Bool.or_eq_false_iff] at hb
      have hk := noCont_leave (σ := σ) (srcB_noCont L n t cur b σ h.1 hb.1)
      unfold src
      rcases hr : leave σ (srcB L n b σ) with _ | ⟨o, σ₂⟩
      · exact fun σ' e => by cases e
      · rw [hr] at hk
        cases o <;> first | exact srcH_noCont L n t cur cs _ σ₂ h.2 hb.2 | exact hk
theorem srcB_noCont (L : Lib V W) (n : Nat) (t : Bool) (cur : Nat) : ∀ (b : Stmts V) (σ : St V W), OkB t cur b → b.conts = false →
    NoCont (srcB L n b σ)
  | .nil, σ, _, _ => noCont_norm σ
  | .cons s ss, σ, h, hb => by
    simp only [Stmts.conts, Bool.or_eq_false_iff] at hb
    have hk := src_noCont L n t cur s σ h.1 hb.1
    unfold srcB
    rcases hr : src L n s σ with _ | ⟨o, σ₂⟩
    · exact fun σ' e => by cases e
    · rw [hr] at hk
      cases o <;> first | exact srcB_noCont L n t cur ss σ₂ h.2 hb.2 | exact hk
theorem srcC_noCont (L : Lib V W) (n : Nat) (t : Bool) (cur : Nat) (x : Nat) : ∀ (cs : Cases V) (d : St V W → Run V W Empty),
    OkC t cur cs → cs.conts = false → (∀ τ, NoCont (d τ)) → ∀ σ, NoCont (srcC L n x cs d σ)
  | .nil, d, _, _, hd, σ => hd σ
  | .cons es b cs, d, h, hb, hd, σ => by
    simp only [Cases.conts, Bool.or_eq_false_iff] at hb
    refine noCont_andThen fun v σ' => ?_
    split
    · exact noCont_leave (srcB_noCont L n t cur b σ' h.2.1 hb.1)
    · exact srcC_noCont L n t cur x cs d h.2.2 hb.2 hd σ'
theorem srcH_noCont (L : Lib V W) (n : Nat) (t : Bool) (cur : Nat) : ∀ (cs : Catches V) (v : V) (σ : St V W), OkH t cur cs →
    cs.conts = false → NoCont (srcH L n cs v σ)
  | .nil, v, σ, _, _ => noCont_exn v σ
  | .cons none b cs, _, σ, h, hb => by
    simp only [Catches.conts, Bool.or_eq_false_iff] at hb
    exact noCont_leave (srcB_noCont L n t cur b σ h.1 hb.1)
  | .cons (some (ty, x)) b cs, v, σ, h, hb => by
    simp only [Catches.conts, Bool.or_eq_false_iff] at hb
    unfold srcH
    split
    · exact noCont_leave (srcB_noCont L n t cur b _ h.1 hb.1)
    · exact srcH_noCont L n t cur cs v σ h.2 hb.2
end

end Verif.Front.Ctl
