import Verif.Opt.Lang

/-!
# Variables are new at their declaration

An execution that starts with none of a piece of code's variables in scope declares each of them while it is not in scope.
-/

namespace Verif.Opt

section
variable {M : Sem}

theorem then_val {r : Ev M} {k : Int → State M → Ev M} {v : Int} {s : State M} (h : r.then k = .val v s) :
    ∃ v1 s1, r = .val v1 s1 ∧ k v1 s1 = .val v s := by
  cases r with
  | val v1 s1 => exact ⟨v1, s1, rfl, h⟩
  | exn s1 => cases h
  | stuck => cases h

theorem then_exn {r : Ev M} {k : Int → State M → Ev M} {s : State M} (h : r.then k = .exn s) :
    r = .exn s ∨ ∃ v1 s1, r = .val v1 s1 ∧ k v1 s1 = .exn s := by
  cases r with
  | val v1 s1 => exact .inr ⟨v1, s1, rfl, h⟩
  | exn s1 => cases h; exact .inl rfl
  | stuck => cases h

theorem set_env (s : State M) (x : Var) (v : Int) (y : Var) : (s.set x v).env y = if y = x then some v else s.env y := rfl

theorem drop_env (s : State M) (vs : List Var) (y : Var) : (s.drop vs).env y = if y ∈ vs then none else s.env y := rfl

theorem back_env (s : State M) (w : M.W) (g : Var → Option Int) {y : Var} (h : M.vis y = false) : (s.back w g).env y = s.env y := by
  simp only [State.back, h, Bool.false_eq_true, if_false]

/-- The state an evaluation ends in. -/
def Ev.state : Ev M → Option (State M)
  | .val _ s => some s
  | .exn s => some s
  | .stuck => none

theorem then_state {r : Ev M} {k : Int → State M → Ev M} {P : State M → Prop} (h1 : ∀ s, r.state = some s → P s)
    (h2 : ∀ v s, P s → ∀ s1, (k v s).state = some s1 → P s1) (s1 : State M) (h : (r.then k).state = some s1) : P s1 := by
  cases r with
  | val v s => exact h2 v s (h1 s rfl) s1 h
  | exn s => cases h; exact h1 _ rfl
  | stuck => cases h

/-- Evaluations change nothing but what callees see. -/
theorem eval_hidden {y : Var} (hy : M.vis y = false) : ∀ (e : Expr) (s s1 : State M), (eval e s).state = some s1 → s1.env y = s.env y
  | .lit .., s, s1, h => by cases h; rfl
  | .name p x, s, s1, h => by
    simp only [eval] at h
    split at h <;> cases h
    rfl
  | .bin o a b, s, s1, h => by
    refine then_state (P := fun t => t.env y = s.env y) (eval_hidden hy a s) (fun va sa ha s1 h => ?_) s1 h
    refine then_state (P := fun t => t.env y = s.env y) (fun t ht => (eval_hidden hy b sa t ht).trans ha) (fun vb sb hb s1 h => ?_) s1 h
    split at h <;> cases h <;> exact hb
  | .logic k a b, s, s1, h => by
    refine then_state (P := fun t => t.env y = s.env y) (eval_hidden hy a s) (fun va sa ha s1 h => ?_) s1 h
    have hb : ∀ s1, ((eval b sa).then fun vb s2 => Ev.val (if vb = 0 then 0 else 1) s2).state = some s1 → s1.env y = s.env y :=
      fun s1 h => then_state (P := fun t => t.env y = s.env y) (fun t ht => (eval_hidden hy b sa t ht).trans ha)
        (fun vb sb hb s1 h => by cases h; exact hb) s1 h
    split at h
    · split at h
      · cases h; exact ha
      · exact hb s1 h
    · split at h
      · exact hb s1 h
      · cases h; exact ha
  | .call o a, s, s1, h => by
    refine then_state (P := fun t => t.env y = s.env y) (eval_hidden hy a s) (fun va sa ha s1 h => ?_) s1 h
    dsimp only at h
    split at h <;> cases h <;> exact (back_env _ _ _ hy).trans ha

theorem eval_keep {y : Var} (hy : M.vis y = false) {e : Expr} {s s1 : State M} {v : Int} (h : eval e s = .val v s1) :
    s1.env y = s.env y := eval_hidden hy e s s1 (by rw [h]; rfl)

theorem eval_keepX {y : Var} (hy : M.vis y = false) {e : Expr} {s s1 : State M} (h : eval e s = .exn s1) :
    s1.env y = s.env y := eval_hidden hy e s s1 (by rw [h]; rfl)

/-- A plain statement brings only the variables it declares into scope. -/
theorem atom_none {y : Var} (hy : M.vis y = false) {st : Stmt} (hd : y ∉ st.decls) {s s1 : State M}
    (h : (atom st s).state = some s1) (hn : s.env y = none) : s1.env y = none := by
  cases st with
  | decl l x i =>
    have hxy : y ≠ x := fun hh => hd (List.mem_singleton.2 hh)
    cases i with
    | none => cases h; rw [set_env, if_neg hxy]; exact hn
    | some e =>
      refine then_state (P := fun t => t.env y = none) (fun t ht => (eval_hidden hy e s t ht).trans hn) (fun v s hs s1 h => ?_) s1 h
      cases h; rw [set_env, if_neg hxy]; exact hs
  | assign l x e =>
    refine then_state (P := fun t => t.env y = none) (fun t ht => (eval_hidden hy e s t ht).trans hn) (fun v s hs s1 h => ?_) s1 h
    cases hx : s.env x with
    | none => rw [hx] at h; cases h
    | some w =>
      rw [hx] at h
      cases h
      rw [set_env, if_neg]
      · exact hs
      · rintro rfl; rw [hs] at hx; cases hx
  | expr l e => exact (eval_hidden hy e s s1 h).trans hn
  | callRef l f x =>
    simp only [atom] at h
    cases hx : s.env x with
    | none => rw [hx] at h; cases h
    | some w =>
      rw [hx] at h
      have hxy : y ≠ x := by rintro rfl; rw [hn] at hx; cases hx
      dsimp only at h
      split at h <;> cases h <;> (rw [set_env, if_neg hxy, back_env _ _ _ hy]; exact hn)
  | _ => cases h

theorem init_none {y : Var} (hy : M.vis y = false) {i : Option (Label × Var × Expr)} (hd : y ∉ initVars i) {s s1 : State M}
    (h : (initStep i s).state = some s1) (hn : s.env y = none) : s1.env y = none := by
  cases i with
  | none => cases h; exact hn
  | some i =>
    obtain ⟨l, x, e⟩ := i
    have hxy : y ≠ x := fun hh => hd (List.mem_singleton.2 hh)
    refine then_state (P := fun t => t.env y = none) (fun t ht => (eval_hidden hy e s t ht).trans hn) (fun v s hs s1 h => ?_) s1 h
    cases h; rw [set_env, if_neg hxy]; exact hs

/-- The variables a piece of code may bring into scope. -/
def Code.all : Code → List Var
  | .one st => st.decls
  | .many b => declsOf b
  | .loop _ _ b h e => declsOf b ++ if h then declsOf e else []
  | .iter _ x _ b => x :: declsOf b

theorem drop_none {s : State M} {vs : List Var} {y : Var} (h : s.env y = none) : (s.drop vs).env y = none := by
  rw [drop_env]; split
  · rfl
  · exact h

/-- Code brings only its own variables into scope. -/
theorem exec_none {y : Var} (hy : M.vis y = false) {c : Code} {s s' : State M} {o : Out} (h : Exec c s o s') :
    y ∉ c.all → s.env y = none → s'.env y = none := by
  induction h with
  | @atomOk st s v s' ha hv => intro hd hn; exact atom_none hy hd (by rw [hv]; rfl) hn
  | @atomExn st s s' ha hv => intro hd hn; exact atom_none hy hd (by rw [hv]; rfl) hn
  | retNone => exact fun _ hn => hn
  | retSome hv => exact fun _ hn => (eval_keep hy hv).trans hn
  | retExn hv => exact fun _ hn => (eval_keepX hy hv).trans hn
  | throwOk hv => exact fun _ hn => (eval_keep hy hv).trans hn
  | throwExn hv => exact fun _ hn => (eval_keepX hy hv).trans hn
  | brk => exact fun _ hn => hn
  | cont => exact fun _ hn => hn
  | block _ ih => exact fun hd hn => drop_none (ih hd hn)
  | iteInitExn hi =>
    intro hd hn
    simp only [Code.all, Stmt.decls, List.mem_append, not_or] at hd
    exact init_none hy hd.1.1 (by rw [hi]; rfl) hn
  | iteExn hi hc =>
    intro hd hn
    simp only [Code.all, Stmt.decls, List.mem_append, not_or] at hd
    exact drop_none ((eval_keepX hy hc).trans (init_none hy hd.1.1 (by rw [hi]; rfl) hn))
  | iteTrue hi hc _ _ ih =>
    intro hd hn
    simp only [Code.all, Stmt.decls, List.mem_append, not_or] at hd
    exact drop_none (drop_none (ih hd.1.2 ((eval_keep hy hc).trans (init_none hy hd.1.1 (by rw [hi]; rfl) hn))))
  | iteElse hi hc _ ih =>
    intro hd hn
    simp only [Code.all, Stmt.decls, List.mem_append, not_or, if_true] at hd
    exact drop_none (drop_none (ih hd.2 ((eval_keep hy hc).trans (init_none hy hd.1.1 (by rw [hi]; rfl) hn))))
  | iteSkip hi hc =>
    intro hd hn
    simp only [Code.all, Stmt.decls, List.mem_append, not_or] at hd
    exact drop_none ((eval_keep hy hc).trans (init_none hy hd.1.1 (by rw [hi]; rfl) hn))
  | whileInitExn hi =>
    intro hd hn
    simp only [Code.all, Stmt.decls, List.mem_append, not_or] at hd
    exact init_none hy hd.1.1 (by rw [hi]; rfl) hn
  | while_ hi _ ih =>
    intro hd hn
    simp only [Code.all, Stmt.decls, List.mem_append, not_or] at hd
    refine drop_none (ih ?_ (init_none hy hd.1.1 (by rw [hi]; rfl) hn))
    simp only [Code.all, List.mem_append, not_or]
    exact ⟨hd.1.2, hd.2⟩
  | loopExn hc => exact fun _ hn => (eval_keepX hy hc).trans hn
  | loopDone hc => exact fun _ hn => (eval_keep hy hc).trans hn
  | loopElse hc _ ih =>
    intro hd hn
    simp only [Code.all, List.mem_append, not_or, if_true] at hd
    exact drop_none (ih hd.2 ((eval_keep hy hc).trans hn))
  | loopAgain hc _ _ _ _ ih1 ih2 =>
    intro hd hn
    have hd' := hd
    simp only [Code.all, List.mem_append, not_or] at hd'
    exact ih2 hd (drop_none (ih1 hd'.1 ((eval_keep hy hc).trans hn)))
  | loopBrk hc _ _ ih =>
    intro hd hn
    simp only [Code.all, List.mem_append, not_or] at hd
    exact drop_none (ih hd.1 ((eval_keep hy hc).trans hn))
  | loopLeave hc _ _ _ ih =>
    intro hd hn
    simp only [Code.all, List.mem_append, not_or] at hd
    exact drop_none (ih hd.1 ((eval_keep hy hc).trans hn))
  | forExn hc => exact fun _ hn => (eval_keepX hy hc).trans hn
  | for_ hc _ ih => exact fun hd hn => drop_none (ih hd ((eval_keep hy hc).trans hn))
  | iterDone => exact fun _ hn => hn
  | iterAgain _ _ _ ih1 ih2 =>
    intro hd hn
    have hd' := hd
    simp only [Code.all, List.mem_cons, not_or] at hd'
    refine ih2 hd (drop_none (ih1 hd'.2 ?_))
    rw [set_env, if_neg hd'.1]; exact hn
  | iterBrk _ ih =>
    intro hd hn
    simp only [Code.all, List.mem_cons, not_or] at hd
    refine drop_none (ih hd.2 ?_)
    rw [set_env, if_neg hd.1]; exact hn
  | iterLeave _ _ ih =>
    intro hd hn
    simp only [Code.all, List.mem_cons, not_or] at hd
    refine drop_none (ih hd.2 ?_)
    rw [set_env, if_neg hd.1]; exact hn
  | tryOk _ _ ih =>
    intro hd hn
    simp only [Code.all, Stmt.decls, List.mem_append, not_or] at hd
    exact drop_none (ih hd.1 hn)
  | tryCatch _ _ ih1 ih2 =>
    intro hd hn
    simp only [Code.all, Stmt.decls, List.mem_append, not_or] at hd
    exact drop_none (ih2 hd.2 (drop_none (ih1 hd.1 hn)))
  | nil => exact fun _ hn => hn
  | cons _ _ ih1 ih2 =>
    intro hd hn
    simp only [Code.all, declsOf, List.mem_append, not_or] at hd
    exact ih2 hd.2 (ih1 hd.1 hn)
  | stop _ _ ih =>
    intro hd hn
    simp only [Code.all, declsOf, List.mem_append, not_or] at hd
    exact ih hd.1 hn

/-- The variables a piece of code has not yet brought into scope when it starts. -/
def Code.later : Code → List Var
  | .iter _ _ _ b => declsOf b
  | c => c.all

/-- None of the code's variables is in scope, and callees see none of them (if `n`). -/
def NewC (n : Bool) (c : Code) (s : State M) : Prop :=
  n = true → c.all.Nodup ∧ (∀ x ∈ c.all, M.vis x = false) ∧ ∀ x ∈ c.later, s.env x = none

theorem NewC.to {n : Bool} {c c' : Code} {s s' : State M} (h : NewC n c s) (hs : c'.all.Sublist c.all)
    (hn : c.all.Nodup → ∀ x ∈ c'.later, M.vis x = false → (x ∈ c.later → s.env x = none) → s'.env x = none) : NewC n c' s' := by
  intro hh
  obtain ⟨h1, h2, h3⟩ := h hh
  have hla : ∀ x ∈ c'.later, x ∈ c'.all := by
    cases c' with
    | iter => exact fun x hx => List.mem_cons_of_mem _ hx
    | _ => exact fun x hx => hx
  exact ⟨h1.sublist hs, fun x hx => h2 x (hs.subset hx), fun x hx => hn h1 x hx (h2 x (hs.subset (hla x hx))) (h3 x)⟩

theorem nodup_append_not {a b : List Var} (h : (a ++ b).Nodup) {x : Var} (hb : x ∈ b) : x ∉ a :=
  fun ha => (List.nodup_append.1 h).2.2 x ha x hb rfl

theorem NewC.atom {n : Bool} {st : Stmt} {s : State M} (h : NewC n (.one st) s) (hn : n = true) : ∀ x ∈ st.decls, s.env x = none :=
  (h hn).2.2

/-- Nothing is said if `n` is not set. -/
theorem NewC.off (c : Code) (s : State M) : NewC false c s := fun h => by cases h

theorem NewC.block {n : Bool} {b : List Stmt} {s : State M} (h : NewC n (.one (.block b)) s) : NewC n (.many b) s := h

theorem NewC.thenB {n : Bool} {l : Label} {i : Option (Label × Var × Expr)} {c : Expr} {t e : List Stmt} {hh : Bool} {s s0 s1 : State M}
    {v0 v : Int} (h : NewC n (.one (.ite l i c t hh e)) s) (hi : initStep i s = .val v0 s0) (hc : eval c s0 = .val v s1) :
    NewC n (.many t) s1 := by
  refine h.to ?_ (fun hnd x hx hv hn => ?_)
  · simp only [Code.all, Stmt.decls]
    rw [List.append_assoc]
    exact (List.sublist_append_left _ _).trans (List.sublist_append_right _ _)
  · simp only [Code.all, Stmt.decls, Code.later] at hnd hx hn
    rw [List.append_assoc] at hnd
    rw [eval_keep hv hc]
    refine init_none hv (nodup_append_not hnd (List.mem_append_left _ hx)) (by rw [hi]; rfl) (hn ?_)
    exact List.mem_append_left _ (List.mem_append_right _ hx)

theorem NewC.elseB {n : Bool} {l : Label} {i : Option (Label × Var × Expr)} {c : Expr} {t e : List Stmt} {s s0 s1 : State M}
    {v0 v : Int} (h : NewC n (.one (.ite l i c t true e)) s) (hi : initStep i s = .val v0 s0) (hc : eval c s0 = .val v s1) :
    NewC n (.many e) s1 := by
  refine h.to ?_ (fun hnd x hx hv hn => ?_)
  · simp only [Code.all, Stmt.decls, if_true]
    exact List.sublist_append_right _ _
  · simp only [Code.all, Stmt.decls, Code.later, if_true] at hnd hx hn
    rw [List.append_assoc] at hnd
    rw [eval_keep hv hc]
    refine init_none hv (nodup_append_not hnd (List.mem_append_right _ hx)) (by rw [hi]; rfl) (hn ?_)
    exact List.mem_append_right _ hx

theorem NewC.whileB {n : Bool} {l : Label} {i : Option (Label × Var × Expr)} {c : Expr} {t e : List Stmt} {hh : Bool} {s s0 : State M}
    {v0 : Int} (h : NewC n (.one (.while_ l i c t hh e)) s) (hi : initStep i s = .val v0 s0) : NewC n (.loop l c t hh e) s0 := by
  refine h.to ?_ (fun hnd x hx hv hn => ?_)
  · simp only [Code.all, Stmt.decls]
    rw [List.append_assoc]
    exact List.sublist_append_right _ _
  · simp only [Code.all, Stmt.decls, Code.later] at hnd hx hn
    rw [List.append_assoc] at hnd hn
    exact init_none hv (nodup_append_not hnd hx) (by rw [hi]; rfl) (hn (List.mem_append_right _ hx))

theorem NewC.loopB {n : Bool} {l : Label} {c : Expr} {b e : List Stmt} {hh : Bool} {s s1 : State M} {v : Int}
    (h : NewC n (.loop l c b hh e) s) (hc : eval c s = .val v s1) : NewC n (.many b) s1 := by
  refine h.to (List.sublist_append_left _ _) (fun hnd x hx hv hn => ?_)
  rw [eval_keep hv hc]
  exact hn (List.mem_append_left _ hx)

theorem NewC.loopE {n : Bool} {l : Label} {c : Expr} {b e : List Stmt} {s s1 : State M} {v : Int}
    (h : NewC n (.loop l c b true e) s) (hc : eval c s = .val v s1) : NewC n (.many e) s1 := by
  refine h.to ?_ (fun hnd x hx hv hn => ?_)
  · simp only [Code.all, if_true]
    exact List.sublist_append_right _ _
  · rw [eval_keep hv hc]
    exact hn (by simp only [Code.later, Code.all, if_true]; exact List.mem_append_right _ hx)

theorem NewC.loopL {n : Bool} {l : Label} {c : Expr} {b e : List Stmt} {hh : Bool} {s s1 s2 : State M} {v : Int} {o : Out}
    (h : NewC n (.loop l c b hh e) s) (hc : eval c s = .val v s1) (hb : Exec (.many b) s1 o s2) :
    NewC n (.loop l c b hh e) (s2.drop (declsOf b)) := by
  refine h.to (List.Sublist.refl _) (fun hnd x hx hv hn => ?_)
  rw [drop_env]
  split
  · rfl
  · rename_i hxb
    exact exec_none hv hb hxb ((eval_keep hv hc).trans (hn hx))

theorem NewC.forB {n : Bool} {l lx : Label} {x : Var} {q : Expr} {b : List Stmt} {s s1 : State M} {v : Int} {vs : List Int}
    (h : NewC n (.one (.for_ l lx x q b)) s) (hc : eval q s = .val v s1) : NewC n (.iter lx x vs b) s1 := by
  refine h.to (List.Sublist.refl _) (fun hnd y hy hv hn => ?_)
  rw [eval_keep hv hc]
  exact hn (List.mem_cons_of_mem _ hy)

theorem NewC.iterB {n : Bool} {lx : Label} {x : Var} {b : List Stmt} {s : State M} {v : Int} {vs : List Int}
    (h : NewC n (.iter lx x vs b) s) : NewC n (.many b) (s.set x v) := by
  refine h.to (List.sublist_cons_self _ _) (fun hnd y hy hv hn => ?_)
  simp only [Code.all, List.nodup_cons] at hnd
  rw [set_env, if_neg (fun hh : y = x => hnd.1 (by rw [← hh]; exact hy))]
  exact hn hy

theorem NewC.iterL {n : Bool} {lx : Label} {x : Var} {b : List Stmt} {s s1 : State M} {vs vs' : List Int}
    (h : NewC n (.iter lx x vs b) s) : NewC n (.iter lx x vs' b) (s1.drop (declsOf b)) := by
  refine h.to (List.Sublist.refl _) (fun hnd y hy hv hn => ?_)
  simp only [Code.later] at hy
  rw [drop_env, if_pos hy]

theorem NewC.first {n : Bool} {st : Stmt} {r : List Stmt} {s : State M} (h : NewC n (.many (st :: r)) s) : NewC n (.one st) s :=
  h.to (List.sublist_append_left _ _) (fun _ _ hx _ hn => hn (List.mem_append_left _ hx))

theorem NewC.rest {n : Bool} {st : Stmt} {r : List Stmt} {s s1 : State M} {o : Out} (h : NewC n (.many (st :: r)) s)
    (hx : Exec (.one st) s o s1) : NewC n (.many r) s1 := by
  refine h.to (List.sublist_append_right _ _) (fun hnd y hy hv hn => ?_)
  exact exec_none hv hx (nodup_append_not hnd hy) (hn (List.mem_append_right _ hy))

end
end Verif.Opt
