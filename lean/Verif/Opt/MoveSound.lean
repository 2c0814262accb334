import Verif.Opt.Liveness

/-!
# Moving last uses preserves behaviour

For a body without `break`, `continue` and `try`: whatever values a move leaves behind, nobody sees them. See
`Verif/Opt/MoveWitness.lean` for what happens otherwise.
-/

namespace Verif.Opt

section
variable {M : Sem}

/-! ## Two states that agree on some variables -/

/-- The states have the same world and the same variables in scope, and agree on the variables of `K`. -/
structure Ag (K : Var → Prop) (s t : State M) : Prop where
  w : s.w = t.w
  eq : ∀ x, K x → s.env x = t.env x
  dom : ∀ x, s.env x = none ↔ t.env x = none

theorem Ag.refl (K : Var → Prop) (s : State M) : Ag K s s := ⟨rfl, fun _ _ => rfl, fun _ => Iff.rfl⟩

theorem Ag.weaken {K K' : Var → Prop} {s t : State M} (h : Ag K s t) (hk : ∀ x, K' x → K x) : Ag K' s t :=
  ⟨h.w, fun x hx => h.eq x (hk x hx), h.dom⟩

theorem Ag.set {K : Var → Prop} {s t : State M} (h : Ag K s t) (x : Var) (v : Int) :
    Ag (fun y => K y ∨ y = x) (s.set x v) (t.set x v) := by
  refine ⟨h.w, fun y hy => ?_, fun y => ?_⟩
  · rw [set_env, set_env]
    by_cases hyx : y = x
    · rw [if_pos hyx, if_pos hyx]
    · rw [if_neg hyx, if_neg hyx]; exact h.eq y (hy.resolve_right hyx)
  · rw [set_env, set_env]
    by_cases hyx : y = x
    · rw [if_pos hyx, if_pos hyx]
    · rw [if_neg hyx, if_neg hyx]; exact h.dom y

theorem Ag.drop {K : Var → Prop} {s t : State M} (h : Ag K s t) (vs : List Var) : Ag K (s.drop vs) (t.drop vs) := by
  refine ⟨h.w, fun y hy => ?_, fun y => ?_⟩
  · rw [drop_env, drop_env]; split
    · rfl
    · exact h.eq y hy
  · rw [drop_env, drop_env]; split
    · exact Iff.rfl
    · exact h.dom y

/-- The second evaluation does what the first does, up to variables outside `K`. -/
def Ev.ag (K : Var → Prop) : Ev M → Ev M → Prop
  | .val v s, q => ∃ t, q = .val v t ∧ Ag K s t
  | .exn s, q => ∃ t, q = .exn t ∧ Ag K s t
  | .stuck, _ => True

theorem Ev.ag.then {K K' : Var → Prop} {r q : Ev M} {k j : Int → State M → Ev M} (h : r.ag K q) (hK : ∀ x, K' x → K x)
    (hk : ∀ v s t, Ag K s t → (k v s).ag K' (j v t)) : (r.then k).ag K' (q.then j) := by
  cases r with
  | val v s => obtain ⟨t, rfl, ht⟩ := h; exact hk v s t ht
  | exn s => obtain ⟨t, rfl, ht⟩ := h; exact ⟨t, rfl, ht.weaken hK⟩
  | stuck => exact trivial

theorem Ev.ag.toVal {K : Var → Prop} {r q : Ev M} (h : r.ag K q) {v : Int} {s : State M} (hr : r = .val v s) :
    ∃ t, q = .val v t ∧ Ag K s t := by subst hr; exact h

theorem Ev.ag.toExn {K : Var → Prop} {r q : Ev M} (h : r.ag K q) {s : State M} (hr : r = .exn s) :
    ∃ t, q = .exn t ∧ Ag K s t := by subst hr; exact h

theorem Ev.ag.weaken {K K' : Var → Prop} {r q : Ev M} (h : r.ag K q) (hk : ∀ x, K' x → K x) : r.ag K' q := by
  cases r with
  | val v s => obtain ⟨t, h1, ht⟩ := h; exact ⟨t, h1, ht.weaken hk⟩
  | exn s => obtain ⟨t, h1, ht⟩ := h; exact ⟨t, h1, ht.weaken hk⟩
  | stuck => exact trivial

/-! ## Evaluation -/

variable {kind : Var → Kind} {mv : Var → Nat}

theorem seen_global {K : Var → Prop} {s t : State M} (h : Ag K s t) (hK : ∀ x, kind x ≠ .local_ → K x) :
    ∀ y, kind y ≠ .local_ → s.seen y = t.seen y := by
  intro y hy
  unfold State.seen
  split
  · exact h.eq y (hK y hy)
  · rfl

/-- What a function that does not access locals changes. -/
theorem ag_back {K : Var → Prop} {s t : State M} (h : Ag K s t) {w w' : M.W}
    {g g' : Var → Option Int} (hw : w = w') (hg : ∀ y, kind y ≠ .local_ → g y = g' y)
    (hl : ∀ y, kind y = .local_ → g y = s.seen y) (hl' : ∀ y, kind y = .local_ → g' y = t.seen y) :
    Ag K (s.back w g) (t.back w' g') := by
  have key : ∀ y, ((s.back w g).env y = (t.back w' g').env y) ∨
      ((s.back w g).env y = s.env y ∧ (t.back w' g').env y = t.env y) := by
    intro y
    unfold State.back
    dsimp only
    by_cases hv : M.vis y = true
    · rw [if_pos hv, if_pos hv]
      by_cases hk : kind y = .local_
      · refine .inr ?_
        rw [hl y hk, hl' y hk]
        unfold State.seen
        rw [if_pos hv, if_pos hv]
        exact ⟨rfl, rfl⟩
      · exact .inl (hg y hk)
    · rw [if_neg hv, if_neg hv]; exact .inr ⟨rfl, rfl⟩
  refine ⟨hw, fun y hy => ?_, fun y => ?_⟩
  · rcases key y with hh | ⟨h1, h2⟩
    · exact hh
    · rw [h1, h2]; exact h.eq y hy
  · rcases key y with hh | ⟨h1, h2⟩
    · rw [hh]
    · rw [h1, h2]; exact h.dom y

/-- Evaluation of an expression in which some variables have been moved. -/
theorem eval_move (hM : Moving M kind mv) {D : Var → Bool} (hD : ∀ x, D x = true → kind x = .local_) :
    ∀ (e : Expr) {K : Var → Prop} {s t : State M}, (∀ x, D x = true → e.names.count x ≤ 1) →
      (∀ f ∈ e.callees, ∀ x, kind x = .local_ → f ≠ mv x) → Ag K s t → (∀ x ∈ e.names, K x) → (∀ x, kind x ≠ .local_ → K x) →
      (eval e s).ag (fun x => K x ∧ ¬ (D x = true ∧ x ∈ e.names)) (eval (e.moved mv D) t)
  | .lit p n, K, s, t, _, _, h, _, _ => ⟨t, rfl, h.weaken fun _ hx => hx.1⟩
  | .name p x, K, s, t, _, _, h, hn, hK => by
    have hx := h.eq x (hn x (List.mem_singleton.2 rfl))
    unfold Expr.moved
    by_cases hd : D x = true
    · rw [if_pos hd]
      simp only [eval]
      rw [← hx]
      cases hs : s.env x with
      | none => exact trivial
      | some v =>
        obtain ⟨hv, hm⟩ := hM.move x (hD x hd)
        obtain ⟨left, hl⟩ := hm v t.w t.seen
        have he : ∀ y, (t.back t.w (fun y => if y = x then some left else t.seen y)).env y = if y = x then some left else t.env y := by
          intro y
          unfold State.back
          dsimp only
          by_cases hvy : M.vis y = true
          · rw [if_pos hvy]
            split
            · rfl
            · unfold State.seen; rw [if_pos hvy]
          · rw [if_neg hvy]
            split
            · rename_i hyx; subst hyx; exact absurd hv hvy
            · rfl
        refine ⟨t.back t.w (fun y => if y = x then some left else t.seen y), ?_, ?_⟩
        · simp only [Ev.then, hl]
        · refine ⟨h.w, fun y hy => ?_, fun y => ?_⟩
          · rw [he y, if_neg (fun hyx => hy.2 ⟨by rw [hyx]; exact hd, by rw [hyx]; exact List.mem_singleton.2 rfl⟩)]
            exact h.eq y hy.1
          · rw [he y]
            by_cases hyx : y = x
            · rw [if_pos hyx, hyx, hs]
              constructor <;> intro hh <;> cases hh
            · rw [if_neg hyx]; exact h.dom y
    · rw [if_neg hd]
      simp only [eval]
      rw [← hx]
      cases hs : s.env x with
      | none => exact trivial
      | some v => exact ⟨t, rfl, h.weaken fun _ hx => hx.1⟩
  | .bin f a b, K, s, t, hc, hf, h, hn, hK => by
    simp only [Expr.names, List.mem_append, List.count_append] at hc hn ⊢
    simp only [Expr.callees, List.mem_append] at hf
    simp only [eval, Expr.moved]
    refine (eval_move hM hD a (K := K) (fun x hx => by have := hc x hx; omega) (fun g hg => hf g (.inl hg)) h
      (fun x hx => hn x (.inl hx)) hK).then (fun x hx => ⟨hx.1, fun hh => hx.2 ⟨hh.1, .inl hh.2⟩⟩) ?_
    intro va s1 t1 h1
    refine (eval_move hM hD b (fun x hx => by have := hc x hx; omega) (fun g hg => hf g (.inr hg)) h1
      (fun x hx => ⟨hn x (.inr hx), fun hh => ?_⟩) (fun x hx => ⟨hK x hx, fun hh => hx (hD x hh.1)⟩)).then
      (K' := fun x => K x ∧ ¬ (D x = true ∧ (x ∈ a.names ∨ x ∈ b.names)))
      (fun x hx => ⟨⟨hx.1, fun hh => hx.2 ⟨hh.1, .inl hh.2⟩⟩, fun hh => hx.2 ⟨hh.1, .inr hh.2⟩⟩) ?_
    · have h1 := hc x hh.1
      have h2 := List.count_pos_iff.2 hh.2
      have h3 := List.count_pos_iff.2 hx
      omega
    · intro vb s2 t2 h2
      have h2 := h2.weaken (K' := fun x => K x ∧ ¬ (D x = true ∧ (x ∈ a.names ∨ x ∈ b.names)))
        (fun x hx => ⟨⟨hx.1, fun hh => hx.2 ⟨hh.1, .inl hh.2⟩⟩, fun hh => hx.2 ⟨hh.1, .inr hh.2⟩⟩)
      cases M.op f va vb with
      | none => exact ⟨t2, rfl, h2⟩
      | some v => exact ⟨t2, rfl, h2⟩
  | .logic k a b, K, s, t, hc, hf, h, hn, hK => by
    simp only [Expr.names, List.mem_append, List.count_append] at hc hn ⊢
    simp only [Expr.callees, List.mem_append] at hf
    simp only [eval, Expr.moved]
    refine (eval_move hM hD a (K := K) (fun x hx => by have := hc x hx; omega) (fun g hg => hf g (.inl hg)) h
      (fun x hx => hn x (.inl hx)) hK).then (fun x hx => ⟨hx.1, fun hh => hx.2 ⟨hh.1, .inl hh.2⟩⟩) ?_
    intro va s1 t1 h1
    have hrest : ((eval b s1).then fun vb s2 => .val (if vb = 0 then 0 else 1) s2).ag
        (fun x => K x ∧ ¬ (D x = true ∧ (x ∈ a.names ∨ x ∈ b.names)))
        ((eval (b.moved mv D) t1).then fun vb s2 => .val (if vb = 0 then 0 else 1) s2) := by
      refine (eval_move hM hD b (fun x hx => by have := hc x hx; omega) (fun g hg => hf g (.inr hg)) h1
        (fun x hx => ⟨hn x (.inr hx), fun hh => ?_⟩) (fun x hx => ⟨hK x hx, fun hh => hx (hD x hh.1)⟩)).then
        (fun x hx => ⟨⟨hx.1, fun hh => hx.2 ⟨hh.1, .inl hh.2⟩⟩, fun hh => hx.2 ⟨hh.1, .inr hh.2⟩⟩) ?_
      · have h1 := hc x hh.1
        have h2 := List.count_pos_iff.2 hh.2
        have h3 := List.count_pos_iff.2 hx
        omega
      · intro vb s2 t2 h2
        exact ⟨t2, rfl, h2.weaken
          (fun x hx => ⟨⟨hx.1, fun hh => hx.2 ⟨hh.1, .inl hh.2⟩⟩, fun hh => hx.2 ⟨hh.1, .inr hh.2⟩⟩)⟩
    have hstop : ∀ v, (Ev.val v s1).ag (fun x => K x ∧ ¬ (D x = true ∧ (x ∈ a.names ∨ x ∈ b.names))) (.val v t1) :=
      fun v => ⟨t1, rfl, h1.weaken (fun x hx => ⟨hx.1, fun hh => hx.2 ⟨hh.1, .inl hh.2⟩⟩)⟩
    cases k with
    | true =>
      simp only [if_true]
      by_cases hz : va = 0
      · rw [if_pos hz, if_pos hz]; exact hstop 0
      · rw [if_neg hz, if_neg hz]; exact hrest
    | false =>
      simp only [Bool.false_eq_true, if_false]
      by_cases hz : va = 0
      · rw [if_pos hz, if_pos hz]; exact hrest
      · rw [if_neg hz, if_neg hz]; exact hstop 1
  | .call f a, K, s, t, hc, hf, h, hn, hK => by
    simp only [eval, Expr.moved]
    refine (eval_move hM hD a (K := K) hc (fun g hg => hf g (List.mem_cons_of_mem _ hg)) h hn hK).then (fun x hx => hx) ?_
    intro va s1 t1 h1
    have hK' : ∀ x, kind x ≠ .local_ → K x ∧ ¬ (D x = true ∧ x ∈ a.names) := fun x hx => ⟨hK x hx, fun hh => hx (hD x hh.1)⟩
    have hcs := hM.call f (hf f List.mem_cons_self) va s1.w s1.seen t1.seen (seen_global h1 hK')
    have hct := hM.call f (hf f List.mem_cons_self) va s1.w t1.seen t1.seen (fun _ _ => rfl)
    have hb := ag_back (g := (M.call f va s1.w s1.seen).2.2) (g' := (M.call f va s1.w t1.seen).2.2) h1 hcs.2.1 hcs.2.2.1
      hcs.2.2.2 hct.2.2.2
    rw [← h1.w, ← hcs.1]
    cases (M.call f va s1.w s1.seen).1 with
    | none => exact ⟨_, rfl, hb⟩
    | some v => exact ⟨_, rfl, hb⟩

theorem moved_none (mv : Var → Nat) : ∀ e : Expr, e.moved mv (fun _ => false) = e
  | .lit .. => rfl
  | .name .. => by simp [Expr.moved]
  | .bin f a b => by simp only [Expr.moved, moved_none mv a, moved_none mv b]
  | .logic k a b => by simp only [Expr.moved, moved_none mv a, moved_none mv b]
  | .call f a => by simp only [Expr.moved, moved_none mv a]

/-- Evaluation of an expression in which nothing has been moved. -/
theorem eval_same (hM : Moving M kind mv) (e : Expr) {K : Var → Prop} {s t : State M}
    (hf : ∀ f ∈ e.callees, ∀ x, kind x = .local_ → f ≠ mv x) (h : Ag K s t) (hn : ∀ x ∈ e.names, K x)
    (hK : ∀ x, kind x ≠ .local_ → K x) : (eval e s).ag K (eval e t) := by
  have := eval_move hM (D := fun _ => false) (fun _ hx => by cases hx) e (fun _ hx => by cases hx) hf h hn hK
  rw [moved_none] at this
  exact this.weaken fun x hx => ⟨hx, fun hh => by cases hh.1⟩

/-! ## Declarations stay -/

variable (kind mv)

theorem move_initVars (S : LV) (its : List (Label × Item)) (i : Option (Label × Var × Expr)) :
    initVars (i.bind (moveRw kind mv S its).init) = initVars i := by
  cases i with
  | none => rfl
  | some i => rfl

mutual
theorem move_decls_stmt (S : LV) (its : List (Label × Item)) : ∀ st : Stmt, declsOf ((moveRw kind mv S its).stmt st) = st.decls
  | .decl .. => by simp [Rw.stmt, moveRw, declsOf, Stmt.decls]
  | .assign .. => by simp [Rw.stmt, moveRw, declsOf, Stmt.decls]
  | .expr .. => by simp [Rw.stmt, moveRw, declsOf, Stmt.decls]
  | .callRef .. => by simp [Rw.stmt, moveRw, declsOf, Stmt.decls]
  | .ret .. => by simp [Rw.stmt, moveRw, declsOf, Stmt.decls]
  | .throw_ .. => by simp [Rw.stmt, moveRw, declsOf, Stmt.decls]
  | .brk => by simp [Rw.stmt, declsOf, Stmt.decls]
  | .cont => by simp [Rw.stmt, declsOf, Stmt.decls]
  | .block b => by simp only [Rw.stmt, declsOf, Stmt.decls, List.append_nil]; exact move_decls_list S its b
  | .ite l i c t h e => by
    have : (moveRw kind mv S its).gone l = false := rfl
    simp only [Rw.stmt, this, Bool.false_eq_true, if_false, declsOf, Stmt.decls, List.append_nil, move_initVars]
    rw [move_decls_list S its t, move_decls_list S its e]
  | .while_ l i c t h e => by
    have : (moveRw kind mv S its).gone l = false := rfl
    simp only [Rw.stmt, this, Bool.false_eq_true, if_false, declsOf, Stmt.decls, List.append_nil, move_initVars]
    rw [move_decls_list S its t, move_decls_list S its e]
  | .for_ l lx x q b => by
    have : (moveRw kind mv S its).gone l = false := rfl
    simp only [Rw.stmt, this, Bool.false_eq_true, if_false, declsOf, Stmt.decls, List.append_nil]
    rw [move_decls_list S its b]
  | .try_ b c => by
    simp only [Rw.stmt, declsOf, Stmt.decls, List.append_nil]
    rw [move_decls_list S its b, move_decls_list S its c]
theorem move_decls_list (S : LV) (its : List (Label × Item)) : ∀ b : List Stmt, declsOf ((moveRw kind mv S its).list b) = declsOf b
  | [] => rfl
  | s :: r => by
    simp only [Rw.list, declsOf_append, declsOf]
    rw [move_decls_stmt S its s, move_decls_list S its r]
end

variable {kind mv}

/-! ## The relation -/

variable {body : List Stmt} {S : LV}

/-- What must agree: everything but locals, and the locals of a set. -/
def Needs (kind : Var → Kind) (A : List Var) (x : Var) : Prop := kind x ≠ .local_ ∨ x ∈ A

/-- After a node, the two runs agree on what is live there. -/
structure MR (kind : Var → Kind) (body : List Stmt) (S : LV) (u : Node) (s t : State M) : Prop where
  live : Live (build body).edges u
  ag : Ag (Needs kind (S.out u)) s t

/-- What the analysis guarantees at the nodes control can reach. -/
def Done (body : List Stmt) (S : LV) : Prop :=
  ∀ n, Live (build body).edges n → Settled (edges body) (readAt (itemsOf body)) (writeAt (itemsOf body)) S n

theorem MR.arrive (hS : Done body S) {v : Node} {s t : State M} (h : Arrives (build body) (MR kind body S) v s t) :
    Live (build body).edges v ∧ Ag (Needs kind (S.inn v)) s t := by
  obtain ⟨u, -, he, hr⟩ := h
  refine ⟨.step hr.live he, hr.ag.weaken fun x hx => hx.imp_right fun h1 => ?_⟩
  exact (hS u hr.live).succ v x (live_edge hr.live he) h1

theorem readAt_eq (hv : Valid kind body) {l : Label} {i : Item} (h : (l, i) ∈ itemsOf body) :
    readAt (itemsOf body) (.stmt l) = i.read := by
  simp only [readAt, nodeItem, itemAt_eq hv.labels h]

theorem writeAt_eq (hv : Valid kind body) {l : Label} {i : Item} (h : (l, i) ∈ itemsOf body) :
    writeAt (itemsOf body) (.stmt l) = i.write := by
  simp only [writeAt, nodeItem, itemAt_eq hv.labels h]

/-- What is live after a node is live before, unless the node writes and does not read it. -/
theorem out_inn (hv : Valid kind body) (hS : Done body S) {l : Label} {i : Item} (hi : (l, i) ∈ itemsOf body)
    (hl : Live (build body).edges (.stmt l)) {x : Var} (hx : x ∈ S.out (.stmt l)) : x ∈ S.inn (.stmt l) ∨ x ∈ i.write := by
  by_cases hw : x ∈ i.write
  · exact .inr hw
  · exact .inl ((hS _ hl).back x hx (by rw [writeAt_eq hv hi]; exact hw))

theorem read_inn (hv : Valid kind body) (hS : Done body S) {l : Label} {i : Item} (hi : (l, i) ∈ itemsOf body)
    (hl : Live (build body).edges (.stmt l)) {x : Var} (hx : x ∈ i.read) : x ∈ S.inn (.stmt l) :=
  (hS _ hl).read x (by rw [readAt_eq hv hi]; exact hx)

theorem out_meta (hS : Done body S) {n : Node} (hn : ∀ l, n ≠ .stmt l) (hl : Live (build body).edges n) {x : Var} (hx : x ∈ S.out n) :
    x ∈ S.inn n := by
  refine (hS _ hl).back x hx ?_
  unfold writeAt nodeItem
  cases n with
  | stmt l => exact absurd rfl (hn l)
  | _ => intro h; cases h

theorem nested_names : ∀ e : Expr, ∀ x ∈ e.nested, x ∈ e.names
  | .lit .. => fun _ h => h
  | .name .. => fun _ h => by cases h
  | .logic .. => fun _ h => by cases h
  | .bin _ a b => by
    intro x hx
    simp only [Expr.nested, Expr.names, List.mem_append] at hx ⊢
    rcases hx with hx | hx
    · split at hx
      · cases hx
      · exact .inl hx
    · split at hx
      · cases hx
      · exact .inr hx
  | .call _ a => by
    intro x hx
    simp only [Expr.nested, Expr.names] at hx ⊢
    split at hx
    · cases hx
    · exact hx

/-- A node that only evaluates an expression. -/
theorem mark_eval (hv : Valid kind body) (hS : Done body S) (hM : Moving M kind mv) (hN : NoMoves kind mv body) {l : Label} {i : Item}
    {e : Expr} (hi : (l, i) ∈ itemsOf body) (he : i.expr? = some e) (hr : i.read = e.names) {s t : State M}
    (h : Arrives (build body) (MR kind body S) (.stmt l) s t) :
    (eval e s).ag (fun x => Needs kind (S.inn (.stmt l)) x ∧ ¬ (movable kind (S.out (.stmt l)) e x = true ∧ x ∈ e.names))
      (eval (S.mark kind mv l e) t) := by
  obtain ⟨hl, hag⟩ := MR.arrive hS h
  unfold LV.mark
  refine eval_move hM (fun x hx => ?_) e (fun x hx => ?_) (hN l i e hi he) hag
    (fun x hx => .inr (read_inn hv hS hi hl (by rw [hr]; exact hx))) (fun x hx => .inl hx)
  · unfold movable at hx
    rw [Bool.and_eq_true, Bool.and_eq_true] at hx
    exact of_decide_eq_true hx.1.1
  · unfold movable at hx
    rw [Bool.and_eq_true, Bool.and_eq_true] at hx
    exact Nat.le_of_eq (of_decide_eq_true hx.2)

/-- What is live after the node and was so before has not been moved. -/
theorem live_kept_here {l : Label} {e : Expr} {x : Var} (h : Needs kind (S.out (.stmt l)) x) :
    ¬ (movable kind (S.out (.stmt l)) e x = true ∧ x ∈ e.names) := by
  rintro ⟨h1, -⟩
  unfold movable at h1
  rw [Bool.and_eq_true, Bool.and_eq_true] at h1
  rcases h with h | h
  · exact h (of_decide_eq_true h1.1.1)
  · exact of_decide_eq_true h1.1.2 h

/-- After evaluating the expression of a node that writes nothing but names of the expression. -/
theorem mark_out (hv : Valid kind body) (hS : Done body S) {l : Label} {i : Item} {e : Expr} (hi : (l, i) ∈ itemsOf body)
    (hr : i.read = e.names) {x : Var} (hl : Live (build body).edges (.stmt l)) (hw : x ∈ i.write → x ∈ e.names)
    (h : Needs kind (S.out (.stmt l)) x) :
    Needs kind (S.inn (.stmt l)) x ∧ ¬ (movable kind (S.out (.stmt l)) e x = true ∧ x ∈ e.names) := by
  refine ⟨?_, live_kept_here h⟩
  rcases h with h | h
  · exact .inl h
  · rcases out_inn hv hS hi hl h with h1 | h1
    · exact .inr h1
    · exact .inr (read_inn hv hS hi hl (by rw [hr]; exact hw h1))

/-- What is compared at the end. -/
theorem ag_outside {K : Var → Prop} {s t : State M} (h : Ag K s t) (hK : ∀ x, kind x ≠ .local_ → K x) : SameOutside kind s t :=
  ⟨h.w, fun x hx => h.eq x (hK x fun hk => by rw [hk] at hx; cases hx)⟩

theorem needs_global {A : List Var} : ∀ x, kind x ≠ .local_ → Needs kind A x := fun _ h => .inl h

theorem kept_global {A : List Var} {out : List Var} {e : Expr} : ∀ x, kind x ≠ .local_ →
    Needs kind A x ∧ ¬ (movable kind out e x = true ∧ x ∈ e.names) := by
  intro x hx
  refine ⟨.inl hx, fun hh => ?_⟩
  have h1 := hh.1
  unfold movable at h1
  rw [Bool.and_eq_true, Bool.and_eq_true] at h1
  exact hx (of_decide_eq_true h1.1.1)

/-- A plain statement. -/
theorem move_atom (hv : Valid kind body) (hS : Done body S) (hM : Moving M kind mv) (hN : NoMoves kind mv body) (st : Stmt)
    {s t : State M} (ha : st.isAtom = true) (hi : ∀ i ∈ st.items, i ∈ itemsOf body)
    (h : Arrives (build body) (MR kind body S) (.stmt st.label) s t) :
    ∃ st', (moveRw kind mv S (itemsOf body)).atom st = some st' ∧ st'.isAtom = true ∧
      (∀ v s', atom st s = .val v s' → ∃ v' t', atom st' t = .val v' t' ∧ MR kind body S (.stmt st.label) s' t') ∧
      (∀ s', atom st s = .exn s' → ∃ t', atom st' t = .exn t' ∧ SameOutside kind s' t') := by
  obtain ⟨hl, hag⟩ := MR.arrive hS h
  cases st with
  | decl l x i =>
    have hit : (l, Item.decl x i) ∈ itemsOf body := hi _ (List.mem_singleton.2 rfl)
    refine ⟨_, rfl, rfl, ?_, ?_⟩
    · intro v s' hs
      cases i with
      | none =>
        simp only [atom] at hs
        cases hs
        refine ⟨0, t.set x 0, rfl, hl, (hag.set x 0).weaken fun y hy => ?_⟩
        rcases hy with hy | hy
        · exact .inl (.inl hy)
        · rcases out_inn hv hS hit hl hy with h1 | h1
          · exact .inl (.inr h1)
          · cases h1
      | some e =>
        simp only [atom] at hs
        obtain ⟨v1, s1, hev, hs⟩ := then_val hs
        cases hs
        obtain ⟨t1, h1, h2⟩ := (mark_eval hv hS hM hN hit rfl rfl h).toVal hev
        refine ⟨0, t1.set x v1, ?_, hl, (h2.set x v1).weaken fun y hy => .inl ?_⟩
        · simp only [Option.map, atom, h1, Ev.then]
        · exact mark_out hv hS hit rfl hl (fun hh => by cases hh) hy
    · intro s' hs
      cases i with
      | none => cases hs
      | some e =>
        simp only [atom] at hs
        rcases then_exn hs with hs | ⟨v1, s1, hev, hs⟩
        · obtain ⟨t1, h1, h2⟩ := (mark_eval hv hS hM hN hit rfl rfl h).toExn hs
          exact ⟨t1, by simp only [Option.map, atom, h1, Ev.then], ag_outside h2 kept_global⟩
        · cases hs
  | assign l x e =>
    have hit : (l, Item.assign x e) ∈ itemsOf body := hi _ (List.mem_singleton.2 rfl)
    refine ⟨_, rfl, rfl, ?_, ?_⟩
    · intro v s' hs
      simp only [atom] at hs
      obtain ⟨v1, s1, hev, hs⟩ := then_val hs
      obtain ⟨t1, h1, h2⟩ := (mark_eval hv hS hM hN hit rfl rfl h).toVal hev
      cases hx : s1.env x with
      | none => rw [hx] at hs; cases hs
      | some old =>
        rw [hx] at hs
        cases hs
        refine ⟨0, t1.set x v1, ?_, hl, (h2.set x v1).weaken fun y hy => ?_⟩
        · simp only [atom, h1, Ev.then]
          cases ht : t1.env x with
          | none => rw [(h2.dom x).2 ht] at hx; cases hx
          | some _ => rfl
        · by_cases hyx : y = x
          · exact .inr hyx
          · exact .inl (mark_out hv hS hit rfl hl (fun hh => absurd (List.mem_singleton.1 hh) hyx) hy)
    · intro s' hs
      simp only [atom] at hs
      rcases then_exn hs with hs | ⟨v1, s1, hev, hs⟩
      · obtain ⟨t1, h1, h2⟩ := (mark_eval hv hS hM hN hit rfl rfl h).toExn hs
        exact ⟨t1, by simp only [atom, h1, Ev.then], ag_outside h2 kept_global⟩
      · cases hx : s1.env x with
        | none => rw [hx] at hs; cases hs
        | some old => rw [hx] at hs; cases hs
  | expr l e =>
    have hit : (l, Item.expr e) ∈ itemsOf body := hi _ (List.mem_singleton.2 rfl)
    refine ⟨_, rfl, rfl, ?_, ?_⟩
    · intro v s' hs
      obtain ⟨t1, h1, h2⟩ := (mark_eval hv hS hM hN hit rfl rfl h).toVal hs
      exact ⟨v, t1, h1, hl, h2.weaken fun y hy => mark_out hv hS hit rfl hl (fun hh => nested_names e y hh) hy⟩
    · intro s' hs
      obtain ⟨t1, h1, h2⟩ := (mark_eval hv hS hM hN hit rfl rfl h).toExn hs
      exact ⟨t1, h1, ag_outside h2 kept_global⟩
  | callRef l f x =>
    have hit : (l, Item.callRef x) ∈ itemsOf body := hi _ (List.mem_singleton.2 rfl)
    have hx := hag.eq x (.inr (read_inn hv hS hit hl (List.mem_singleton.2 rfl)))
    refine ⟨_, rfl, rfl, ?_, ?_⟩
    · intro v s' hs
      simp only [atom] at hs ⊢
      rw [← hx]
      cases hsx : s.env x with
      | none => rw [hsx] at hs; cases hs
      | some o =>
        rw [hsx] at hs
        dsimp only at hs ⊢
        have hcs := hM.cref f o s.w s.seen t.seen (seen_global hag needs_global)
        have hct := hM.cref f o s.w t.seen t.seen (fun _ _ => rfl)
        have hb := ag_back (g := (M.cref f o s.w s.seen).2.2.2) (g' := (M.cref f o s.w t.seen).2.2.2) hag hcs.2.2.1
          hcs.2.2.2.1 hcs.2.2.2.2 hct.2.2.2.2
        rw [← hag.w, ← hcs.1, ← hcs.2.1]
        split at hs
        · rename_i hok
          cases hs
          rw [if_pos hok]
          refine ⟨0, _, rfl, hl, (hb.set x _).weaken fun y hy => ?_⟩
          by_cases hyx : y = x
          · exact .inr hyx
          · refine .inl ?_
            rcases hy with hy | hy
            · exact .inl hy
            · rcases out_inn hv hS hit hl hy with h1 | h1
              · exact .inr h1
              · exact absurd (List.mem_singleton.1 h1) hyx
        · cases hs
    · intro s' hs
      simp only [atom] at hs ⊢
      rw [← hx]
      cases hsx : s.env x with
      | none => rw [hsx] at hs; cases hs
      | some o =>
        rw [hsx] at hs
        dsimp only at hs ⊢
        have hcs := hM.cref f o s.w s.seen t.seen (seen_global hag needs_global)
        have hct := hM.cref f o s.w t.seen t.seen (fun _ _ => rfl)
        have hb := ag_back (g := (M.cref f o s.w s.seen).2.2.2) (g' := (M.cref f o s.w t.seen).2.2.2) hag hcs.2.2.1
          hcs.2.2.2.1 hcs.2.2.2.2 hct.2.2.2.2
        rw [← hag.w, ← hcs.1, ← hcs.2.1]
        split at hs
        · cases hs
        · rename_i hok
          cases hs
          rw [if_neg hok]
          exact ⟨_, rfl, ag_outside (hb.set x _) fun y hy => .inl (.inl hy)⟩
  | _ => cases ha

theorem move_decls_atom {its : List (Label × Item)} (st st' : Stmt) (h : (moveRw kind mv S its).atom st = some st') :
    ∀ x ∈ st'.decls, x ∈ st.decls := by
  cases st <;> (simp only [moveRw] at h; injection h with h; subst h; intro x hx; exact hx)

theorem move_simulates (hv : Valid kind body) (hS : Done body S) (hM : Moving M kind mv) (hN : NoMoves kind mv body) :
    Simulates true false false body (build body) (moveRw kind mv S (itemsOf body)) (MR (M := M) kind body S) (SameOutside kind)
      (fun _ _ => False) where
  atom := by
    intro st v s s' t ha hi harr _ h
    obtain ⟨st', h1, h2, h3, -⟩ := move_atom hv hS hM hN st ha hi harr
    rw [h1]
    exact ⟨h2, h3 v s' h⟩
  cond := by
    intro l c v s s' t hit harr h
    have hl := (MR.arrive hS harr).1
    obtain ⟨t1, h1, h2⟩ := (mark_eval hv hS hM hN hit rfl rfl harr).toVal h
    have hrw : (moveRw kind mv S (itemsOf body)).expr l c = S.mark kind mv l c := by
      simp only [moveRw, itemAt_eq hv.labels hit]
    rw [hrw]
    exact ⟨t1, h1, hl, h2.weaken fun y hy => mark_out hv hS hit rfl hl (fun hh => nested_names c y hh) hy⟩
  ret := by
    intro l e v s s' t hit harr h
    obtain ⟨hl, hag⟩ := MR.arrive hS harr
    have hrw : (moveRw kind mv S (itemsOf body)).expr l e = e := by simp only [moveRw, itemAt_eq hv.labels hit]
    rw [hrw]
    obtain ⟨t1, h1, h2⟩ := (eval_same hM e (hN l _ e hit rfl) hag (fun x hx => .inr (read_inn hv hS hit hl hx)) needs_global).toVal h
    refine ⟨t1, h1, hl, h2.weaken fun y hy => hy.imp_right fun h3 => ?_⟩
    rcases out_inn hv hS hit hl h3 with h4 | h4
    · exact h4
    · cases h4
  retNone := by
    intro l s t hit harr
    obtain ⟨hl, hag⟩ := MR.arrive hS harr
    refine ⟨hl, hag.weaken fun y hy => hy.imp_right fun h3 => ?_⟩
    rcases out_inn hv hS hit hl h3 with h4 | h4
    · exact h4
    · cases h4
  gone := fun _ _ _ _ => rfl
  init := by
    intro l x e v s s' t hit harr h
    have hl := (MR.arrive hS harr).1
    simp only [initStep] at h
    obtain ⟨v1, s1, hev, h⟩ := then_val h
    cases h
    obtain ⟨t1, h1, h2⟩ := (mark_eval hv hS hM hN hit rfl rfl harr).toVal hev
    refine ⟨0, t1.set x v1, ?_, hl, (h2.set x v1).weaken fun y hy => .inl ?_⟩
    · simp only [moveRw, initStep, h1, Ev.then]
    · exact mark_out hv hS hit rfl hl (fun hh => by cases hh) hy
  initDrop := fun u l x e s t _ hr => ⟨hr.live, hr.ag.drop [x]⟩
  forVar := by
    intro l x v s t hit harr
    obtain ⟨hl, hag⟩ := MR.arrive hS harr
    refine ⟨hl, (hag.set x v).weaken fun y hy => .inl (hy.imp_right fun h3 => ?_)⟩
    rcases out_inn hv hS hit hl h3 with h4 | h4
    · exact h4
    · cases h4
  pass := by
    intro l c s t hit harr
    obtain ⟨hl, hag⟩ := MR.arrive hS harr
    refine ⟨hl, hag.weaken fun y hy => ?_⟩
    exact (mark_out hv hS hit rfl hl (fun hh => nested_names c y hh) hy).1
  scopeEnd := by
    intro k sc s t hk harr
    obtain ⟨hl, hag⟩ := MR.arrive hS harr
    rw [move_decls_list]
    refine ⟨hl, (hag.drop _).weaken fun y hy => hy.imp_right (out_meta hS ?_ hl)⟩
    intro l hkl
    subst hkl
    rcases (build_sc body).idx _ hk with hh | ⟨n, -, hh⟩ <;> cases hh
  flow := by
    intro k s t harr
    obtain ⟨hl, hag⟩ := MR.arrive hS harr
    exact ⟨hl, hag.weaken fun y hy => hy.imp_right (out_meta hS (fun _ hh => by cases hh) hl)⟩
  obsFin := fun s t harr => ag_outside (MR.arrive hS harr).2 needs_global
  obsThrow := fun k sc s t _ harr => ag_outside (MR.arrive hS harr).2 needs_global
  obsDrop := by
    intro vs ws s t h1 h2 h
    refine ⟨h.1, fun x hx => ?_⟩
    have hnd : x ∉ declsOf body := fun hh => by rw [hv.locals x hh] at hx; cases hx
    rw [drop_env, drop_env, if_neg (fun hh => hnd (h1 x hh)), if_neg (fun hh => hnd (h2 x hh))]
    exact h.2 x hx
  atomDecls := move_decls_atom
  initDecls := fun _ _ h => h
  esc := by intro h; cases h
  escScope := fun _ _ _ _ _ h => h
  escInit := fun _ _ _ _ _ _ h => h
  jump := fun _ _ _ _ _ _ h => h.elim
  atomX := by
    intro _ st s s' t ha hi harr h
    obtain ⟨st', h1, h2, -, h4⟩ := move_atom hv hS hM hN st ha hi harr
    obtain ⟨t', h5, h6⟩ := h4 s' h
    exact ⟨st', t', h1, h2, h5, h6⟩
  condX := by
    intro _ l c s s' t hit harr h
    obtain ⟨t1, h1, h2⟩ := (mark_eval hv hS hM hN hit rfl rfl harr).toExn h
    have hrw : (moveRw kind mv S (itemsOf body)).expr l c = S.mark kind mv l c := by
      simp only [moveRw, itemAt_eq hv.labels hit]
    rw [hrw]
    exact ⟨t1, h1, ag_outside h2 kept_global⟩
  retX := by
    intro _ l e s s' t hit harr h
    obtain ⟨hl, hag⟩ := MR.arrive hS harr
    have hrw : (moveRw kind mv S (itemsOf body)).expr l e = e := by simp only [moveRw, itemAt_eq hv.labels hit]
    rw [hrw]
    obtain ⟨t1, h1, h2⟩ := (eval_same hM e (hN l _ e hit rfl) hag (fun x hx => .inr (read_inn hv hS hit hl hx)) needs_global).toExn h
    exact ⟨t1, h1, ag_outside h2 needs_global⟩
  initX := by
    intro _ l x e s s' t hit harr h
    simp only [initStep] at h
    rcases then_exn h with h | ⟨v1, s1, hev, h⟩
    · obtain ⟨t1, h1, h2⟩ := (mark_eval hv hS hM hN hit rfl rfl harr).toExn h
      exact ⟨t1, _, rfl, by simp only [initStep, h1, Ev.then], ag_outside h2 kept_global⟩
    · cases h
  goneX := fun _ _ _ _ _ _ _ => rfl

/-- **Moving last uses preserves behaviour**: however a body ends - normally, with `return`, `throw`, or an exception out of an
    operator or a callee - the body after the pass ends the same way, with the same effects on the world, parameters and globals;
    whatever a move leaves in its variable. The liveness of variables may have been computed in any order of the nodes. -/
theorem move_last_uses_partial (hv : Valid kind body) (hp : plainAll false body = true) (hM : Moving M kind mv)
    (hN : NoMoves kind mv body) (order : List Node) (ho : ∀ n, Live (build body).edges n → n ∈ order) (k : Nat)
    (hS : liveness body order k = some S) (s s' : State M) (o : Out) (h : Runs body s o s') :
    ∃ t', Runs (moveLast kind mv S body) s o t' ∧ SameOutside kind s' t' := by
  have hD : Done body S := fun n hn => liveWork_settled hS n (ho n hn)
  obtain ⟨t', h1, h2⟩ := simulation_run (t := s) (move_simulates hv hD hM hN) hp h (fun _ => rfl) ⟨.start, Ag.refl _ _⟩ (NewC.off _ _)
  refine ⟨t', h1, ?_⟩
  cases o with
  | normal => exact h2
  | brk => exact h2.elim
  | cont => exact h2.elim
  | ret v => exact h2
  | exn v => exact h2

/-- **What is moved**: exactly the locals that occur once in the expression and that nothing reads later before they are written. -/
theorem moved_iff_last_use {order : List Node} {k : Nat} (hS : liveness body order k = some S)
    (hcl : ∀ n m, n ∈ order → (n, m) ∈ edges body → m ∈ order) {l : Label} (hl : .stmt l ∈ order) (e : Expr) (x : Var) :
    movable kind (S.out (.stmt l)) e x = true ↔ kind x = .local_ ∧ e.names.count x = 1 ∧
      ¬ ∃ m, (.stmt l, m) ∈ edges body ∧ UsedFrom (edges body) (readAt (itemsOf body)) (writeAt (itemsOf body)) m x := by
  unfold movable
  rw [Bool.and_eq_true, Bool.and_eq_true, decide_eq_true_iff, decide_eq_true_iff, decide_eq_true_iff,
    ((liveness_exact hS hcl (.stmt l) hl x).2)]
  exact ⟨fun h => ⟨h.1.1, h.2, h.1.2⟩, fun h => ⟨⟨h.1, h.2.2⟩, h.2.1⟩⟩

end
end Verif.Opt
