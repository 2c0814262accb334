import Verif.Opt.Cfg
import Verif.Opt.New

/-!
# Executions follow the control flow graph

The bridge between the meaning of a body (`Lang.lean`) and its control flow graph (`Cfg.lean`): for a body without `break`,
`continue` and `try`, control moves along the edges of the graph. It is stated as a simulation: if a rewriting of the body
preserves a relation between the states of the original and of the rewritten body at every *node*, and the relation is handed on
along every *edge*, then the two bodies have the same outcome. Two switches extend it: with `jumps` the body may contain `break`
and `continue`, provided the relation at a loop head survives them although the graph has no edge for them; with `faults`
exceptions raised by operators and callees are compared, too; with `news` variables are known not to be in scope at their declaration (`New.lean`).
-/

namespace Verif.Opt

/-! ## Growing graphs -/

/-- Every edge and scope of `g` is in `g'`. -/
def G.le (g g' : G) : Prop := (∀ e ∈ g.edges, e ∈ g'.edges) ∧ ∀ e ∈ g.scopes, e ∈ g'.scopes

theorem G.le_refl (g : G) : g.le g := ⟨fun _ h => h, fun _ h => h⟩

theorem G.le.le_trans {a b c : G} (h : a.le b) (h' : b.le c) : a.le c :=
  ⟨fun e he => h'.1 e (h.1 e he), fun e he => h'.2 e (h.2 e he)⟩

theorem G.le_edge (g : G) (u : Option Node) (v : Node) : g.le (g.edge u v) := by
  unfold G.edge
  split
  · exact g.le_refl
  · split
    · exact g.le_refl
    · split
      · exact g.le_refl
      · exact ⟨fun e he => List.mem_append_left _ he, fun _ h => h⟩

theorem G.le_newEnd (g : G) (sc : List Stmt) : g.le (g.newEnd sc) :=
  ⟨fun _ h => h, fun _ he => List.mem_append_left _ he⟩

theorem G.le_newFlow (g : G) : g.le g.newFlow := ⟨fun _ h => h, fun _ h => h⟩

theorem G.edge_mem (g : G) {u : Node} (hu : u ≠ .fin) (v : Node) : (u, v) ∈ (g.edge (some u) v).edges := by
  unfold G.edge
  dsimp only
  rw [if_neg hu]
  split
  · assumption
  · exact List.mem_append_right _ (List.mem_singleton.2 rfl)

theorem addInit_le (g : G) (p : Option Node) (i : Option (Label × Var × Expr)) : g.le (addInit g p i).1 := by
  unfold addInit
  split
  · exact g.le_refl
  · exact g.le_edge _ _

theorem G.le.edge {g a : G} (h : g.le a) (u : Option Node) (v : Node) : g.le (a.edge u v) := h.le_trans (a.le_edge u v)

theorem G.le.newEnd {g a : G} (h : g.le a) (sc : List Stmt) : g.le (a.newEnd sc) := h.le_trans (a.le_newEnd sc)

theorem G.le.newFlow {g a : G} (h : g.le a) : g.le a.newFlow := h.le_trans a.le_newFlow

theorem G.le.ofEdge {g a : G} {u : Option Node} {v : Node} (h : (g.edge u v).le a) : g.le a := (g.le_edge u v).le_trans h

theorem G.le.ofNewEnd {g a : G} {sc : List Stmt} (h : (g.newEnd sc).le a) : g.le a := (g.le_newEnd sc).le_trans h

theorem G.le.ofNewFlow {g a : G} (h : g.newFlow.le a) : g.le a := g.le_newFlow.le_trans h

theorem G.le.edgeMem {g a : G} {u : Node} {v : Node} (h : (g.edge (some u) v).le a) (hu : u ≠ .fin) : (u, v) ∈ a.edges :=
  h.1 _ (g.edge_mem hu v)

theorem G.le.scopeMem {g a : G} {sc : List Stmt} (h : (g.newEnd sc).le a) : (Node.scopeEnd g.next, sc) ∈ a.scopes :=
  h.2 _ (List.mem_append_right _ (List.mem_singleton.2 rfl))

mutual
theorem addStmt_le (g : G) (p : Option Node) (se : Node) : ∀ st, g.le (addStmt g p se st).1
  | .decl .. => by unfold addStmt; exact g.le_edge _ _
  | .assign .. => by unfold addStmt; exact g.le_edge _ _
  | .expr .. => by unfold addStmt; exact g.le_edge _ _
  | .callRef .. => by unfold addStmt; exact g.le_edge _ _
  | .ret .. => by unfold addStmt; exact (g.le_edge _ _).edge _ _
  | .throw_ .. => by unfold addStmt; exact (g.le_edge _ _).edge _ _
  | .brk => by unfold addStmt; exact g.le_refl
  | .cont => by unfold addStmt; exact g.le_refl
  | .block b => by
    unfold addStmt
    exact (((G.le_newEnd g b).le_trans (addSeq_le _ _ _ _ b))).edge _ _
  | .ite l i c t h e => by
    unfold addStmt
    dsimp only
    have h3 := fun k => (((((addInit_le g p i).edge (addInit g p i).2 (.stmt l)).newFlow).newEnd t).le_trans
      (addSeq_le _ (some (.stmt l)) k t t))
    split
    · exact ((((((h3 _).edge _ _).edge _ _).newEnd e).le_trans (addSeq_le _ _ _ _ e)).edge _ _).edge _ _
    · exact (((h3 _).edge _ _).edge _ _).edge _ _
  | .while_ l i c b h e => by
    unfold addStmt
    dsimp only
    have h3 := fun k => (((((addInit_le g p i).edge (addInit g p i).2 (.stmt l))).newEnd b).le_trans
      (addSeq_le _ (some (.stmt l)) k b b))
    split
    · exact ((((((((h3 _).edge _ _).edge _ _).newFlow).edge _ _).newEnd e).le_trans (addSeq_le _ _ _ _ e)).edge _ _).edge _ _
    · exact ((((h3 _).edge _ _).edge _ _).newFlow).edge _ _
  | .for_ l lx x q b => by
    unfold addStmt
    dsimp only
    exact (((((((G.le_edge g p (.stmt l)).edge _ _).newEnd b).le_trans (addSeq_le _ _ _ _ b)).edge _ _).edge _ _).newEnd
      _).edge _ _
  | .try_ b c => by
    unfold addStmt
    dsimp only
    exact (((((((((((G.le_newEnd g b).le_trans (addSeq_le _ _ _ _ b)).edge _ _).newFlow).edge _ _).newFlow).edge _ _).newEnd
      c).le_trans (addSeq_le _ _ _ _ c)).edge _ _).edge _ _)
theorem addSeq_le (g : G) (p : Option Node) (se : Node) (sc : List Stmt) : ∀ b, g.le (addSeq g p se sc b).1
  | [] => by unfold addSeq; exact g.le_refl
  | s :: r => by
    unfold addSeq
    dsimp only
    split
    · split
      · exact addStmt_le g p se s
      · exact ((((((addStmt_le g p se s).newEnd sc).le_trans (addSeq_le _ _ _ _ r)).edge _ _).newFlow).edge _ _).edge _ _
    · exact (addStmt_le g p se s).le_trans (addSeq_le _ _ _ _ r)
end

/-! ## Rewriting a body -/

/-- What a pass does to a body: replace or remove plain statements, replace the expressions of conditions, sequences, `return`
    and `throw`, replace or remove head declarations, and remove statements altogether (`gone`). -/
structure Rw where
  atom : Stmt → Option Stmt
  expr : Label → Expr → Expr
  init : Label × Var × Expr → Option (Label × Var × Expr)
  gone : Label → Bool

mutual
/-- The rewritten statement: one statement, or nothing. -/
def Rw.stmt (rw : Rw) : Stmt → List Stmt
  | .decl l x i => (rw.atom (.decl l x i)).toList
  | .assign l x e => (rw.atom (.assign l x e)).toList
  | .expr l e => (rw.atom (.expr l e)).toList
  | .callRef l f x => (rw.atom (.callRef l f x)).toList
  | .ret l e => if rw.gone l then [] else [.ret l (e.map (rw.expr l))]
  | .throw_ l e => if rw.gone l then [] else [.throw_ l (rw.expr l e)]
  | .brk => [.brk]
  | .cont => [.cont]
  | .block b => [.block (rw.list b)]
  | .ite l i c t h e =>
    if rw.gone l then [] else [.ite l (i.bind rw.init) (rw.expr l c) (rw.list t) h (rw.list e)]
  | .while_ l i c b h e =>
    if rw.gone l then [] else [.while_ l (i.bind rw.init) (rw.expr l c) (rw.list b) h (rw.list e)]
  | .for_ l lx x q b => if rw.gone l then [] else [.for_ l lx x (rw.expr l q) (rw.list b)]
  | .try_ b c => [.try_ (rw.list b) (rw.list c)]
/-- The rewritten statement list. -/
def Rw.list (rw : Rw) : List Stmt → List Stmt
  | [] => []
  | s :: r => rw.stmt s ++ rw.list r
end

mutual
/-- No `try`, and `break` and `continue` only if `j`. -/
def Stmt.plain (j : Bool) : Stmt → Bool
  | .brk | .cont => j
  | .try_ .. => false
  | .block b => plainAll j b
  | .ite _ _ _ t _ e => plainAll j t && plainAll j e
  | .while_ _ _ _ b _ e => plainAll j b && plainAll j e
  | .for_ _ _ _ _ b => plainAll j b
  | .decl .. | .assign .. | .expr .. | .callRef .. | .ret .. | .throw_ .. => true
/-- No `try` anywhere in the list, and `break` and `continue` only if `j`. -/
def plainAll (j : Bool) : List Stmt → Bool
  | [] => true
  | s :: r => s.plain j && plainAll j r
end

/-- The label of a plain statement. -/
def Stmt.label : Stmt → Label
  | .decl l _ _ | .assign l _ _ | .expr l _ | .callRef l _ _ => l
  | _ => 0

section
variable {M : Sem}

/-- The relation holds on some way into the node. -/
def Arrives (GF : G) (R : Node → State M → State M → Prop) (v : Node) (s t : State M) : Prop :=
  ∃ u, u ≠ .fin ∧ (u, v) ∈ GF.edges ∧ R u s t

/-- What a pass has to show, node by node. `body` is the original body, `GF` its graph, `R u s t` relates the states of the
    two bodies after node `u`, `Obs` what is left to compare when the function ends, `Esc` what holds between a `break` or
    `continue` and the loop it belongs to (`False` if there are none). -/
structure Simulates (faults jumps news : Bool) (body : List Stmt) (GF : G) (rw : Rw) (R : Node → State M → State M → Prop)
    (Obs Esc : State M → State M → Prop) : Prop where
  atom : ∀ st v s s' t, st.isAtom = true → (∀ i ∈ st.items, i ∈ itemsOf body) → Arrives GF R (.stmt st.label) s t →
    (news = true → ∀ x ∈ st.decls, s.env x = none) → atom st s = .val v s' → match rw.atom st with
      | some st' => st'.isAtom = true ∧ ∃ v' t', Opt.atom st' t = .val v' t' ∧ R (.stmt st.label) s' t'
      | none => R (.stmt st.label) s' t
  cond : ∀ l c v s s' t, (l, .cond c) ∈ itemsOf body → Arrives GF R (.stmt l) s t → eval c s = .val v s' →
    ∃ t', eval (rw.expr l c) t = .val v t' ∧ R (.stmt l) s' t'
  ret : ∀ l e v s s' t, (l, .ret (some e)) ∈ itemsOf body → Arrives GF R (.stmt l) s t → eval e s = .val v s' →
    ∃ t', eval (rw.expr l e) t = .val v t' ∧ R (.stmt l) s' t'
  retNone : ∀ l s t, (l, .ret none) ∈ itemsOf body → Arrives GF R (.stmt l) s t → R (.stmt l) s t
  gone : ∀ l s t, Arrives GF R (.stmt l) s t → rw.gone l = false
  init : ∀ l x e v s s' t, (l, .init x e) ∈ itemsOf body → Arrives GF R (.stmt l) s t →
    initStep (some (l, x, e)) s = .val v s' → ∃ v' t', initStep (rw.init (l, x, e)) t = .val v' t' ∧ R (.stmt l) s' t'
  initDrop : ∀ u l x e s t, (l, .init x e) ∈ itemsOf body → R u s t →
    R u (s.drop [x]) (t.drop (initVars (rw.init (l, x, e))))
  forVar : ∀ l x v s t, (l, .forVar x) ∈ itemsOf body → Arrives GF R (.stmt l) s t →
    R (.stmt l) (s.set x v) (t.set x v)
  pass : ∀ l c s t, (l, .cond c) ∈ itemsOf body → Arrives GF R (.stmt l) s t → R (.stmt l) s t
  scopeEnd : ∀ k sc s t, (k, sc) ∈ GF.scopes → Arrives GF R k s t → R k (s.drop (declsOf sc)) (t.drop (declsOf (rw.list sc)))
  flow : ∀ k s t, Arrives GF R (.flow k) s t → R (.flow k) s t
  obsFin : ∀ s t, Arrives GF R .fin s t → Obs s t
  obsThrow : ∀ k sc s t, (k, sc) ∈ GF.scopes → Arrives GF R k s t → Obs s t
  obsDrop : ∀ vs ws s t, (∀ x ∈ vs, x ∈ declsOf body) → (∀ x ∈ ws, x ∈ declsOf body) → Obs s t →
    Obs (s.drop vs) (t.drop ws)
  atomDecls : ∀ st st', rw.atom st = some st' → ∀ x ∈ st'.decls, x ∈ st.decls
  initDecls : ∀ i, ∀ x ∈ initVars (rw.init i), x ∈ initVars (some i)
  esc : jumps = true → ∀ u s t, R u s t → Esc s t
  escScope : ∀ k sc s t, (k, sc) ∈ GF.scopes → Esc s t →
    Esc (s.drop (declsOf sc)) (t.drop (declsOf (rw.list sc)))
  escInit : ∀ l x e s t, (l, .init x e) ∈ itemsOf body → Esc s t →
    Esc (s.drop [x]) (t.drop (initVars (rw.init (l, x, e))))
  jump : ∀ u s0 t0 s t, R u s0 t0 → Esc s t → R u s t
  atomX : faults = true → ∀ st s s' t, st.isAtom = true → (∀ i ∈ st.items, i ∈ itemsOf body) →
    Arrives GF R (.stmt st.label) s t → Opt.atom st s = .exn s' →
    ∃ st' t', rw.atom st = some st' ∧ st'.isAtom = true ∧ Opt.atom st' t = .exn t' ∧ Obs s' t'
  condX : faults = true → ∀ l c s s' t, (l, .cond c) ∈ itemsOf body → Arrives GF R (.stmt l) s t → eval c s = .exn s' →
    ∃ t', eval (rw.expr l c) t = .exn t' ∧ Obs s' t'
  retX : faults = true → ∀ l e s s' t, (l, .ret (some e)) ∈ itemsOf body → Arrives GF R (.stmt l) s t → eval e s = .exn s' →
    ∃ t', eval (rw.expr l e) t = .exn t' ∧ Obs s' t'
  initX : faults = true → ∀ l x e s s' t, (l, .init x e) ∈ itemsOf body → Arrives GF R (.stmt l) s t →
    initStep (some (l, x, e)) s = .exn s' →
    ∃ t' i', rw.init (l, x, e) = some i' ∧ initStep (some i') t = .exn t' ∧ Obs s' t'
  goneX : faults = true → ∀ k l s t, Arrives GF R (.stmt k) s t → (.stmt k, .stmt l) ∈ GF.edges → rw.gone l = false

/-! ## The simulation -/

variable {body : List Stmt} {GF : G} {rw : Rw} {R : Node → State M → State M → Prop}
  {Obs Esc : State M → State M → Prop} {faults jumps news : Bool}

/-- The relation holds at the place control is at. -/
def At (R : Node → State M → State M → Prop) (p : Option Node) (s t : State M) : Prop :=
  ∃ u, p = some u ∧ u ≠ .fin ∧ R u s t

theorem At.arrives {p : Option Node} {s t : State M} (h : At R p s t) {g : G} {v : Node} (hg : (g.edge p v).le GF) :
    Arrives GF R v s t := by
  obtain ⟨u, rfl, hu, hr⟩ := h
  exact ⟨u, hu, hg.1 _ (g.edge_mem hu v), hr⟩

mutual
theorem Rw.stmt_decls (rw : Rw) (ha : ∀ st st', rw.atom st = some st' → ∀ x ∈ st'.decls, x ∈ st.decls)
    (hi : ∀ i, ∀ x ∈ initVars (rw.init i), x ∈ initVars (some i)) : ∀ st, ∀ x ∈ declsOf (rw.stmt st), x ∈ st.decls
  | .decl l x i => by
    unfold Rw.stmt
    cases h : rw.atom (.decl l x i) with
    | none => intro y hy; cases hy
    | some st' => intro y hy; simp only [Option.toList, declsOf, List.append_nil] at hy; exact ha _ _ h y hy
  | .assign l x i => by
    unfold Rw.stmt
    cases h : rw.atom (.assign l x i) with
    | none => intro y hy; cases hy
    | some st' => intro y hy; simp only [Option.toList, declsOf, List.append_nil] at hy; exact ha _ _ h y hy
  | .expr l x => by
    unfold Rw.stmt
    cases h : rw.atom (.expr l x) with
    | none => intro y hy; cases hy
    | some st' => intro y hy; simp only [Option.toList, declsOf, List.append_nil] at hy; exact ha _ _ h y hy
  | .callRef l x i => by
    unfold Rw.stmt
    cases h : rw.atom (.callRef l x i) with
    | none => intro y hy; cases hy
    | some st' => intro y hy; simp only [Option.toList, declsOf, List.append_nil] at hy; exact ha _ _ h y hy
  | .ret l e => by
    unfold Rw.stmt; intro y hy; split at hy <;> simp [declsOf, Stmt.decls] at hy
  | .throw_ l e => by
    unfold Rw.stmt; intro y hy; split at hy <;> simp [declsOf, Stmt.decls] at hy
  | .brk => by unfold Rw.stmt; intro y hy; simp [declsOf, Stmt.decls] at hy
  | .cont => by unfold Rw.stmt; intro y hy; simp [declsOf, Stmt.decls] at hy
  | .block b => by
    unfold Rw.stmt; intro y hy
    simp only [declsOf, Stmt.decls, List.append_nil] at hy ⊢
    exact Rw.list_decls rw ha hi b y hy
  | .ite l i c t h e => by
    unfold Rw.stmt; intro y hy
    split at hy
    · cases hy
    · simp only [declsOf, Stmt.decls, List.append_nil, List.mem_append] at hy ⊢
      rcases hy with (hy | hy) | hy
      · refine .inl (.inl ?_)
        cases i with
        | none => cases hy
        | some i => exact hi i y hy
      · exact .inl (.inr (Rw.list_decls rw ha hi t y hy))
      · cases h with
        | false => cases hy
        | true => exact .inr (Rw.list_decls rw ha hi e y hy)
  | .while_ l i c b h e => by
    unfold Rw.stmt; intro y hy
    split at hy
    · cases hy
    · simp only [declsOf, Stmt.decls, List.append_nil, List.mem_append] at hy ⊢
      rcases hy with (hy | hy) | hy
      · refine .inl (.inl ?_)
        cases i with
        | none => cases hy
        | some i => exact hi i y hy
      · exact .inl (.inr (Rw.list_decls rw ha hi b y hy))
      · cases h with
        | false => cases hy
        | true => exact .inr (Rw.list_decls rw ha hi e y hy)
  | .for_ l lx x q b => by
    unfold Rw.stmt; intro y hy
    split at hy
    · cases hy
    · simp only [declsOf, Stmt.decls, List.append_nil, List.mem_cons] at hy ⊢
      rcases hy with hy | hy
      · exact .inl hy
      · exact .inr (Rw.list_decls rw ha hi b y hy)
  | .try_ b c => by
    unfold Rw.stmt; intro y hy
    simp only [declsOf, Stmt.decls, List.append_nil, List.mem_append] at hy ⊢
    rcases hy with hy | hy
    · exact .inl (Rw.list_decls rw ha hi b y hy)
    · exact .inr (Rw.list_decls rw ha hi c y hy)
theorem Rw.list_decls (rw : Rw) (ha : ∀ st st', rw.atom st = some st' → ∀ x ∈ st'.decls, x ∈ st.decls)
    (hi : ∀ i, ∀ x ∈ initVars (rw.init i), x ∈ initVars (some i)) : ∀ b, ∀ x ∈ declsOf (rw.list b), x ∈ declsOf b
  | [] => by unfold Rw.list; intro y hy; exact hy
  | s :: r => by
    unfold Rw.list; intro y hy
    have : y ∈ declsOf (rw.stmt s) ∨ y ∈ declsOf (rw.list r) := by
      generalize rw.stmt s = a at hy ⊢
      induction a with
      | nil => exact .inr hy
      | cons z a ih =>
        simp only [List.cons_append, declsOf, List.mem_append] at hy ⊢
        rcases hy with hy | hy
        · exact .inl (.inl hy)
        · rcases ih hy with h | h
          · exact .inl (.inr h)
          · exact .inr h
    simp only [declsOf, List.mem_append]
    rcases this with h | h
    · exact .inl (Rw.stmt_decls rw ha hi s y h)
    · exact .inr (Rw.list_decls rw ha hi r y h)
end

theorem exec_append {a b : List Stmt} {s s1 s2 : State M} {o : Out} (h : Exec (.many a) s .normal s1)
    (h' : Exec (.many b) s1 o s2) : Exec (.many (a ++ b)) s o s2 := by
  generalize hc : Code.many a = c at h
  generalize ho : Out.normal = oo at h
  induction h generalizing a with
  | nil => injection hc with hc; subst hc; exact h'
  | @cons st r s sa o' sb e1 e2 ih1 ih2 =>
    injection hc with hc; subst hc; subst ho
    exact .cons e1 (ih2 h' rfl rfl)
  | stop _ hne => exact absurd ho.symm hne
  | _ => cases hc

theorem exec_append_stop {a b : List Stmt} {s s1 : State M} {o : Out} (h : Exec (.many a) s o s1) (hne : o ≠ .normal) :
    Exec (.many (a ++ b)) s o s1 := by
  generalize hc : Code.many a = c at h
  induction h generalizing a with
  | nil => exact absurd rfl hne
  | @cons st r s sa o' sb e1 e2 ih1 ih2 =>
    injection hc with hc; subst hc
    exact .cons e1 (ih2 hne rfl)
  | @stop st r s o sa e1 hne' ih =>
    injection hc with hc; subst hc
    exact .stop e1 hne'
  | _ => cases hc

theorem exec_one {st : Stmt} {s s' : State M} {o : Out} (h : Exec (.one st) s o s') : Exec (.many [st]) s o s' := by
  by_cases ho : o = .normal
  · subst ho; exact .cons h .nil
  · exact .stop h ho

/-- The part of the graph that belongs to a scope with statements `b`, entered from `u`. -/
structure Part (GF : G) (u : Node) (b : List Stmt) (g : G) (k : Node) : Prop where
  le : ((addSeq g (some u) k b b).1.edge (addSeq g (some u) k b b).2 k).le GF
  ne : k ≠ .fin
  scope : (k, b) ∈ GF.scopes

theorem Part.intro {GF : G} {u : Node} {b : List Stmt} {g : G}
    (h : ((addSeq (g.newEnd b) (some u) (.scopeEnd g.next) b b).1.edge
      (addSeq (g.newEnd b) (some u) (.scopeEnd g.next) b b).2 (.scopeEnd g.next)).le GF) :
    Part GF u b (g.newEnd b) (.scopeEnd g.next) :=
  ⟨h, (by intro h; cases h), (G.le.le_trans (addSeq_le _ _ _ _ _) h.ofEdge).scopeMem⟩

/-- What holds when a piece of code has ended with outcome `o`, `P` being what holds when it ended normally. -/
def Post (Obs Esc : State M → State M → Prop) (P : State M → State M → Prop) : Out → State M → State M → Prop
  | .normal => P
  | .brk | .cont => Esc
  | .ret _ | .exn _ => Obs

/-- What is to be shown about an execution of a piece of code. -/
def Goal (faults jumps news : Bool) (GF : G) (body : List Stmt) (rw : Rw) (R : Node → State M → State M → Prop)
    (Obs Esc : State M → State M → Prop) : Code → State M → Out → State M → Prop
  | .one st, s, o, s' => ∀ g p se sc t, (addStmt g p se st).1.le GF → (∀ i ∈ st.items, i ∈ itemsOf body) →
      (∀ x ∈ st.decls, x ∈ declsOf body) → st.plain jumps = true → (se, sc) ∈ GF.scopes → (o = .exn false → faults = true) →
      At R p s t → NewC news (.one st) s →
      ∃ t', Exec (.many (rw.stmt st)) t o t' ∧ Post Obs Esc (At R (addStmt g p se st).2) o s' t'
  | .many b, s, o, s' => ∀ g p se sc sc' t, (addSeq g p se sc b).1.le GF → (∀ i ∈ itemsOf b, i ∈ itemsOf body) →
      (∀ x ∈ declsOf b, x ∈ declsOf body) → plainAll jumps b = true → (se, sc') ∈ GF.scopes →
      (o = .exn false → faults = true) → At R p s t → NewC news (.many b) s →
      ∃ t', Exec (.many (rw.list b)) t o t' ∧ Post Obs Esc (At R (addSeq g p se sc b).2) o s' t'
  | .loop l c b h e, s, o, s' => ∀ gb kb mix t, Part GF (.stmt l) b gb kb →
      (kb, .stmt l) ∈ GF.edges → (.stmt l, mix) ∈ GF.edges →
      (h = true → (∃ ge ke, Part GF (.stmt l) e ge ke ∧ (ke, mix) ∈ GF.edges) ∧ (∀ i ∈ itemsOf e, i ∈ itemsOf body) ∧
        (∀ x ∈ declsOf e, x ∈ declsOf body)) →
      (l, .cond c) ∈ itemsOf body → (∀ i ∈ itemsOf b, i ∈ itemsOf body) →
      (∀ x ∈ declsOf b, x ∈ declsOf body) → plainAll jumps b = true → plainAll jumps e = true →
      (o = .exn false → faults = true) → Arrives GF R (.stmt l) s t → NewC news (.loop l c b h e) s →
      ∃ t', Exec (.loop l (rw.expr l c) (rw.list b) h (rw.list e)) t o t' ∧ Post Obs Esc (Arrives GF R mix) o s' t'
  | .iter lx x vs b, s, o, s' => ∀ l q gb kb t, Part GF (.stmt lx) b gb kb →
      (kb, .stmt l) ∈ GF.edges → (.stmt l, .stmt lx) ∈ GF.edges →
      (l, .cond q) ∈ itemsOf body → (lx, .forVar x) ∈ itemsOf body → (∀ i ∈ itemsOf b, i ∈ itemsOf body) →
      (∀ x ∈ declsOf b, x ∈ declsOf body) → plainAll jumps b = true → (o = .exn false → faults = true) → R (.stmt l) s t →
      NewC news (.iter lx x vs b) s →
      ∃ t', Exec (.iter lx x vs (rw.list b)) t o t' ∧ Post Obs Esc (R (.stmt l)) o s' t'

theorem drop_nil (s : State M) : s.drop [] = s := by
  cases s with
  | mk w env =>
    unfold State.drop
    simp only [List.not_mem_nil, if_false]

theorem ends_not_normal {st : Stmt} {s s' : State M} (h : Exec (.one st) s .normal s') : st.ends = false := by
  generalize hc : Code.one st = c at h
  generalize ho : Out.normal = o at h
  cases h with
  | @atomOk st' _ _ _ h1 h2 => cases hc; cases st <;> first | rfl | cases h1
  | _ => first
    | (cases hc; done)
    | (cases ho; done)
    | (cases hc; rfl)

theorem ite_graph {GF g : G} {p : Option Node} {se : Node} {l : Label} {i : Option (Label × Var × Expr)} {c : Expr}
    {t e : List Stmt} {h : Bool} (hle : (addStmt g p se (.ite l i c t h e)).1.le GF) :
    ((addInit g p i).1.edge (addInit g p i).2 (.stmt l)).le GF ∧
    ∃ gt kt n, Part GF (.stmt l) t gt kt ∧ (kt, .flow n) ∈ GF.edges ∧
      (addStmt g p se (.ite l i c t h e)).2 = some (.flow n) ∧
      (h = true → ∃ ge ke, Part GF (.stmt l) e ge ke ∧ (ke, .flow n) ∈ GF.edges) ∧
      (h = false → (.stmt l, .flow n) ∈ GF.edges) := by
  cases h with
  | true =>
    simp only [addStmt, if_true] at hle ⊢
    have pe := Part.intro hle.ofEdge
    have h2 := (G.le.le_trans (addSeq_le _ _ _ _ _) hle.ofEdge.ofEdge).ofNewEnd
    have pt := Part.intro h2.ofEdge
    have h1 := (G.le.le_trans (addSeq_le _ _ _ _ _) h2.ofEdge.ofEdge).ofNewEnd.ofNewFlow
    exact ⟨h1, _, _, _, pt, h2.edgeMem pt.ne, rfl, fun _ => ⟨_, _, pe, hle.edgeMem pe.ne⟩, (by intro h; cases h)⟩
  | false =>
    simp only [addStmt, Bool.false_eq_true, if_false] at hle ⊢
    have h2 := hle.ofEdge
    have pt := Part.intro h2.ofEdge
    have h1 := (G.le.le_trans (addSeq_le _ _ _ _ _) h2.ofEdge.ofEdge).ofNewEnd.ofNewFlow
    exact ⟨h1, _, _, _, pt, h2.edgeMem pt.ne, rfl, (by intro h; cases h), fun _ => hle.edgeMem (by intro h; cases h)⟩

theorem while_graph {GF g : G} {p : Option Node} {se : Node} {l : Label} {i : Option (Label × Var × Expr)} {c : Expr}
    {b e : List Stmt} {h : Bool} (hle : (addStmt g p se (.while_ l i c b h e)).1.le GF) :
    ((addInit g p i).1.edge (addInit g p i).2 (.stmt l)).le GF ∧
    ∃ gb kb n, Part GF (.stmt l) b gb kb ∧ (kb, .stmt l) ∈ GF.edges ∧ (.stmt l, .flow n) ∈ GF.edges ∧
      (addStmt g p se (.while_ l i c b h e)).2 = some (.flow n) ∧
      (h = true → ∃ ge ke, Part GF (.stmt l) e ge ke ∧ (ke, .flow n) ∈ GF.edges) := by
  cases h with
  | true =>
    simp only [addStmt, if_true] at hle ⊢
    have pe := Part.intro hle.ofEdge
    have h3 := (G.le.le_trans (addSeq_le _ _ _ _ _) hle.ofEdge.ofEdge).ofNewEnd
    have h2 := h3.ofEdge.ofNewFlow
    have pt := Part.intro h2.ofEdge
    have h1 := (G.le.le_trans (addSeq_le _ _ _ _ _) h2.ofEdge.ofEdge).ofNewEnd
    exact ⟨h1, _, _, _, pt, h2.edgeMem pt.ne, h3.edgeMem (by intro h; cases h), rfl,
      fun _ => ⟨_, _, pe, hle.edgeMem pe.ne⟩⟩
  | false =>
    simp only [addStmt, Bool.false_eq_true, if_false] at hle ⊢
    have h2 := hle.ofEdge.ofNewFlow
    have pt := Part.intro h2.ofEdge
    have h1 := (G.le.le_trans (addSeq_le _ _ _ _ _) h2.ofEdge.ofEdge).ofNewEnd
    exact ⟨h1, _, _, _, pt, h2.edgeMem pt.ne, hle.edgeMem (by intro h; cases h), rfl, (by intro h; cases h)⟩

theorem for_graph {GF g : G} {p : Option Node} {se : Node} {l lx : Label} {x : Var} {q : Expr} {b : List Stmt}
    (hle : (addStmt g p se (.for_ l lx x q b)).1.le GF) :
    (g.edge p (.stmt l)).le GF ∧ (.stmt l, .stmt lx) ∈ GF.edges ∧
    ∃ gb kb n, Part GF (.stmt lx) b gb kb ∧ (kb, .stmt l) ∈ GF.edges ∧ (.stmt l, .scopeEnd n) ∈ GF.edges ∧
      (Node.scopeEnd n, [.for_ l lx x q b]) ∈ GF.scopes ∧
      (addStmt g p se (.for_ l lx x q b)).2 = some (.scopeEnd n) := by
  simp only [addStmt] at hle ⊢
  have h3 := hle.ofEdge
  have h2 := h3.ofNewEnd
  have pt := Part.intro h2.ofEdge
  have h1 := (G.le.le_trans (addSeq_le _ _ _ _ _) h2.ofEdge.ofEdge).ofNewEnd
  exact ⟨h1.ofEdge, h1.edgeMem (by intro h; cases h), _, _, _, pt, h2.edgeMem pt.ne, hle.edgeMem (by intro h; cases h),
    h3.scopeMem, rfl⟩

theorem addStmt_atom (g : G) (p : Option Node) (se : Node) {st : Stmt} (h : st.isAtom = true) :
    addStmt g p se st = (g.edge p (.stmt st.label), some (.stmt st.label)) := by
  cases st <;> first
    | (simp only [addStmt, Stmt.label]; done)
    | cases h

theorem stmt_atom (rw : Rw) {st : Stmt} (h : st.isAtom = true) : rw.stmt st = (rw.atom st).toList := by
  cases st <;> first
    | (simp only [Rw.stmt]; done)
    | cases h

theorem inScope (hS : Simulates faults jumps news body GF rw R Obs Esc) {gb : G} {p : Option Node} {kb : Node} {b : List Stmt}
    {o : Out} {s t : State M}
    (hle : ((addSeq gb p kb b b).1.edge (addSeq gb p kb b b).2 kb).le GF) (hsc : (kb, b) ∈ GF.scopes)
    (hd : ∀ x ∈ declsOf b, x ∈ declsOf body) (h : Post Obs Esc (At R (addSeq gb p kb b b).2) o s t) :
    Post Obs Esc (R kb) o (s.drop (declsOf b)) (t.drop (declsOf (rw.list b))) := by
  cases o with
  | normal => exact hS.scopeEnd kb b s t hsc (At.arrives h hle)
  | brk => exact hS.escScope kb b s t hsc h
  | cont => exact hS.escScope kb b s t hsc h
  | ret v => exact hS.obsDrop _ _ _ _ hd (fun x hx => hd x (rw.list_decls hS.atomDecls hS.initDecls b x hx)) h
  | exn b => exact hS.obsDrop _ _ _ _ hd (fun x hx => hd x (rw.list_decls hS.atomDecls hS.initDecls _ x hx)) h

theorem Post.map {P Q : State M → State M → Prop} {o : Out} {s t : State M} (f : P s t → Q s t) (h : Post Obs Esc P o s t) :
    Post Obs Esc Q o s t := by
  cases o with
  | normal => exact f h
  | _ => exact h

theorem initArrives (hS : Simulates faults jumps news body GF rw R Obs Esc) {g : G} {p : Option Node} {l : Label}
    {i : Option (Label × Var × Expr)} {s s0 t : State M} {v : Int}
    (hle : ((addInit g p i).1.edge (addInit g p i).2 (.stmt l)).le GF) (hi : ∀ j ∈ initItems i, j ∈ itemsOf body)
    (hat : At R p s t) (h : initStep i s = .val v s0) :
    ∃ v' t0, initStep (i.bind rw.init) t = .val v' t0 ∧ Arrives GF R (.stmt l) s0 t0 := by
  cases i with
  | none =>
    cases h
    exact ⟨0, t, rfl, hat.arrives hle⟩
  | some i =>
    obtain ⟨li, x, e⟩ := i
    have hle' : (g.edge p (.stmt li)).le GF := hle.ofEdge
    obtain ⟨v', t0, h1, h2⟩ := hS.init li x e v s s0 t (hi _ (List.mem_singleton.2 rfl)) (hat.arrives hle') h
    exact ⟨v', t0, h1, .stmt li, (by intro h; cases h), hle.edgeMem (by intro h; cases h), h2⟩

theorem initFault (hS : Simulates faults jumps news body GF rw R Obs Esc) (hx : faults = true) {g : G} {p : Option Node} {l : Label}
    {i : Option (Label × Var × Expr)} {s s0 t : State M}
    (hle : ((addInit g p i).1.edge (addInit g p i).2 (.stmt l)).le GF) (hi : ∀ j ∈ initItems i, j ∈ itemsOf body)
    (hat : At R p s t) (h : initStep i s = .exn s0) :
    ∃ t0, initStep (i.bind rw.init) t = .exn t0 ∧ Obs s0 t0 ∧ rw.gone l = false := by
  cases i with
  | none => cases h
  | some i =>
    obtain ⟨li, x, e⟩ := i
    have hle' : (g.edge p (.stmt li)).le GF := hle.ofEdge
    obtain ⟨t0, i', h1, h2, h3⟩ := hS.initX hx li x e s s0 t (hi _ (List.mem_singleton.2 rfl)) (hat.arrives hle') h
    refine ⟨t0, ?_, h3, hS.goneX hx li l s t (hat.arrives hle') (hle.edgeMem (by intro h; cases h))⟩
    simp only [Option.bind, h1]
    exact h2

theorem initDropped (hS : Simulates faults jumps news body GF rw R Obs Esc) {u : Node} {i : Option (Label × Var × Expr)} {o : Out}
    {s t : State M} (hi : ∀ j ∈ initItems i, j ∈ itemsOf body) (hd : ∀ x ∈ initVars i, x ∈ declsOf body)
    (h : Post Obs Esc (R u) o s t) :
    Post Obs Esc (R u) o (s.drop (initVars i)) (t.drop (initVars (i.bind rw.init))) := by
  cases i with
  | none =>
    change Post Obs Esc (R u) o (s.drop []) (t.drop [])
    rw [drop_nil, drop_nil]; exact h
  | some i =>
    obtain ⟨li, x, e⟩ := i
    have hm := hi _ (List.mem_singleton.2 rfl)
    cases o with
    | normal => exact hS.initDrop u li x e s t hm h
    | brk => exact hS.escInit li x e s t hm h
    | cont => exact hS.escInit li x e s t hm h
    | ret v => exact hS.obsDrop _ _ _ _ hd (fun y hy => hd y (hS.initDecls (li, x, e) y hy)) h
    | exn v => exact hS.obsDrop _ _ _ _ hd (fun y hy => hd y (hS.initDecls (li, x, e) y hy)) h

theorem again_ne {o : Out} (h : o.again = true) : ¬ (o = .exn false) := by
  intro ho; subst ho; cases h

theorem Post.leave {P Q : State M → State M → Prop} {o : Out} {s t : State M} (ho : o.leaves = true)
    (h : Post Obs Esc P o s t) : Post Obs Esc Q o s t := by
  cases o with
  | normal => cases ho
  | _ => exact h

theorem Post.again {P Q : State M → State M → Prop} {o : Out} {s t : State M} (ho : o.again = true)
    (f : P s t → Q s t) (f' : Esc s t → Q s t) (h : Post Obs Esc P o s t) : Q s t := by
  cases o with
  | normal => exact f h
  | cont => exact f' h
  | _ => cases ho

/-- Executions follow the graph: a rewriting that is right node by node is right for every execution. -/
theorem simulation (hS : Simulates faults jumps news body GF rw R Obs Esc) {c : Code} {s : State M} {o : Out} {s' : State M}
    (h : Exec c s o s') : Goal faults jumps news GF body rw R Obs Esc c s o s' := by
  induction h with
  | @atomOk st s v s' ha hv =>
    intro g p se sc t hle hit hde hpl hse ho hat hnw
    rw [addStmt_atom g p se ha] at hle ⊢
    rw [stmt_atom rw ha]
    have hS' := hS.atom st v s s' t ha hit (hat.arrives hle) hnw.atom hv
    revert hS'
    cases rw.atom st with
    | none => exact fun hS' => ⟨t, .nil, _, rfl, (by intro h; cases h), hS'⟩
    | some st' =>
      rintro ⟨h1, v', t', h2, h3⟩
      exact ⟨t', exec_one (.atomOk h1 h2), _, rfl, (by intro h; cases h), h3⟩
  | @atomExn st s s' ha hv =>
    intro g p se sc t hle hit hde hpl hse ho hat hnw
    rw [addStmt_atom g p se ha] at hle ⊢
    rw [stmt_atom rw ha]
    obtain ⟨st', t', h1, h2, h3, h4⟩ := hS.atomX (ho rfl) st s s' t ha hit (hat.arrives hle) hv
    rw [h1]
    exact ⟨t', exec_one (.atomExn h2 h3), h4⟩
  | @retNone l s =>
    intro g p se sc t hle hit hde hpl hse ho hat hnw
    simp only [addStmt] at hle
    have ha := hat.arrives hle.ofEdge
    simp only [Rw.stmt, hS.gone _ _ _ ha, Bool.false_eq_true, if_false]
    have hr := hS.retNone l s t (hit _ (List.mem_singleton.2 rfl)) ha
    exact ⟨t, exec_one .retNone, hS.obsFin _ _ ⟨_, (by intro h; cases h), hle.edgeMem (by intro h; cases h), hr⟩⟩
  | @retSome l e s v s' hv =>
    intro g p se sc t hle hit hde hpl hse ho hat hnw
    simp only [addStmt] at hle
    have ha := hat.arrives hle.ofEdge
    simp only [Rw.stmt, hS.gone _ _ _ ha, Bool.false_eq_true, if_false]
    obtain ⟨t', h1, hr⟩ := hS.ret l e v s s' t (hit _ (List.mem_singleton.2 rfl)) ha hv
    exact ⟨t', exec_one (.retSome h1),
      hS.obsFin _ _ ⟨_, (by intro h; cases h), hle.edgeMem (by intro h; cases h), hr⟩⟩
  | @retExn l e s s' hv =>
    intro g p se sc t hle hit hde hpl hse ho hat hnw
    simp only [addStmt] at hle
    have ha := hat.arrives hle.ofEdge
    simp only [Rw.stmt, hS.gone _ _ _ ha, Bool.false_eq_true, if_false]
    obtain ⟨t', h1, hr⟩ := hS.retX (ho rfl) l e s s' t (hit _ (List.mem_singleton.2 rfl)) ha hv
    exact ⟨t', exec_one (.retExn h1), hr⟩
  | @throwOk l e s v s' hv =>
    intro g p se sc t hle hit hde hpl hse ho hat hnw
    simp only [addStmt] at hle
    have ha := hat.arrives hle.ofEdge
    simp only [Rw.stmt, hS.gone _ _ _ ha, Bool.false_eq_true, if_false]
    obtain ⟨t', h1, hr⟩ := hS.cond l e v s s' t (hit _ (List.mem_singleton.2 rfl)) ha hv
    exact ⟨t', exec_one (.throwOk h1),
      hS.obsThrow _ _ _ _ hse ⟨_, (by intro h; cases h), hle.edgeMem (by intro h; cases h), hr⟩⟩
  | @throwExn l e s s' hv =>
    intro g p se sc t hle hit hde hpl hse ho hat hnw
    simp only [addStmt] at hle
    have ha := hat.arrives hle.ofEdge
    simp only [Rw.stmt, hS.gone _ _ _ ha, Bool.false_eq_true, if_false]
    obtain ⟨t', h1, hr⟩ := hS.condX (ho rfl) l e s s' t (hit _ (List.mem_singleton.2 rfl)) ha hv
    exact ⟨t', exec_one (.throwExn h1), hr⟩
  | brk =>
    intro g p se sc t hle hit hde hpl hse ho hat hnw
    simp only [Rw.stmt]
    obtain ⟨u, -, -, hr⟩ := hat
    exact ⟨t, exec_one .brk, hS.esc hpl u _ _ hr⟩
  | cont =>
    intro g p se sc t hle hit hde hpl hse ho hat hnw
    simp only [Rw.stmt]
    obtain ⟨u, -, -, hr⟩ := hat
    exact ⟨t, exec_one .cont, hS.esc hpl u _ _ hr⟩
  | tryOk | tryCatch =>
    intro g p se sc t hle hit hde hpl; cases hpl
  | @block b s o s' hb ih =>
    intro g p se sc t hle hit hde hpl hse ho hat hnw
    simp only [addStmt] at hle
    have hsc : (Node.scopeEnd g.next, b) ∈ GF.scopes := (G.le.le_trans (addSeq_le _ _ _ _ _) hle.ofEdge).scopeMem
    obtain ⟨t', h1, h2⟩ := ih _ _ _ _ _ t hle.ofEdge hit hde hpl hsc ho hat hnw.block
    have h3 := inScope hS hle hsc hde h2
    refine ⟨t'.drop (declsOf (rw.list b)), ?_, ?_⟩
    · simp only [Rw.stmt]; exact exec_one (.block h1)
    · simp only [addStmt]
      exact h3.map fun h4 => ⟨_, rfl, (by intro h; cases h), h4⟩
  | @iteInitExn l i c tb h e s s' hi =>
    intro g p se sc t hle hit hde hpl hse ho hat hnw
    simp only [Stmt.items, List.mem_append, List.mem_cons] at hit
    obtain ⟨hle1, gt, kt, n, pt, hmix, hp2, -, -⟩ := ite_graph hle
    obtain ⟨t0, h1, h2, hg⟩ := initFault hS (ho rfl) hle1 (fun j hj => hit j (.inl hj)) hat hi
    refine ⟨t0, ?_, h2⟩
    simp only [Rw.stmt, hg, Bool.false_eq_true, if_false]
    exact exec_one (.iteInitExn h1)
  | @iteExn l i c tb h e s v0 s0 s' hi hc =>
    intro g p se sc t hle hit hde hpl hse ho hat hnw
    simp only [Stmt.items, List.mem_append, List.mem_cons] at hit
    simp only [Stmt.decls, List.mem_append] at hde
    obtain ⟨hle1, -, -, n, -, -, hp2, -, -⟩ := ite_graph hle
    have hii : ∀ j ∈ initItems i, j ∈ itemsOf body := fun j hj => hit j (.inl hj)
    obtain ⟨v0', t0, h1, ha⟩ := initArrives hS hle1 hii hat hi
    obtain ⟨t1, h2, hr⟩ := hS.condX (ho rfl) l c s0 s' t0 (hit _ (.inr (.inl rfl))) ha hc
    refine ⟨t1.drop (initVars (i.bind rw.init)), ?_, ?_⟩
    · simp only [Rw.stmt, hS.gone _ _ _ ha, Bool.false_eq_true, if_false]
      exact exec_one (.iteExn h1 h2)
    · exact initDropped (u := .start) (o := .exn false) hS hii (fun x hx => hde x (.inl (.inl hx))) hr
  | @iteTrue l i c tb h e s v0 s0 v s1 o s2 hi hc hv hb ih =>
    intro g p se sc t hle hit hde hpl hse ho hat hnw
    simp only [Stmt.items, List.mem_append, List.mem_cons] at hit
    simp only [Stmt.decls, List.mem_append] at hde
    simp only [Stmt.plain, Bool.and_eq_true] at hpl
    obtain ⟨hle1, gt, kt, n, pt, hmix, hp2, -, -⟩ := ite_graph hle
    have hii : ∀ j ∈ initItems i, j ∈ itemsOf body := fun j hj => hit j (.inl hj)
    obtain ⟨v0', t0, h1, ha⟩ := initArrives hS hle1 hii hat hi
    obtain ⟨t1, h2, hr⟩ := hS.cond l c v s0 s1 t0 (hit _ (.inr (.inl rfl))) ha hc
    have hd : ∀ x ∈ declsOf tb, x ∈ declsOf body := fun x hx => hde x (.inl (.inr hx))
    obtain ⟨t2, h3, h4⟩ := ih _ _ _ _ _ t1 pt.le.ofEdge (fun j hj => hit j (.inr (.inr (.inl hj)))) hd hpl.1 pt.scope ho
      ⟨_, rfl, (by intro h; cases h), hr⟩ (hnw.thenB hi hc)
    refine ⟨(t2.drop (declsOf (rw.list tb))).drop (initVars (i.bind rw.init)), ?_, ?_⟩
    · simp only [Rw.stmt, hS.gone _ _ _ ha, Bool.false_eq_true, if_false]
      exact exec_one (.iteTrue h1 h2 hv h3)
    · rw [hp2]
      have h5 := (inScope hS pt.le pt.scope hd h4).map fun h6 => hS.flow n _ _ ⟨_, pt.ne, hmix, h6⟩
      exact (initDropped hS hii (fun x hx => hde x (.inl (.inl hx))) h5).map fun h6 => ⟨_, rfl, (by intro h; cases h), h6⟩
  | @iteElse l i c tb e s v0 s0 s1 o s2 hi hc hb ih =>
    intro g p se sc t hle hit hde hpl hse ho hat hnw
    simp only [Stmt.items, List.mem_append, List.mem_cons, if_true] at hit
    simp only [Stmt.decls, List.mem_append, if_true] at hde
    simp only [Stmt.plain, Bool.and_eq_true] at hpl
    obtain ⟨hle1, -, -, n, -, -, hp2, hel, -⟩ := ite_graph hle
    obtain ⟨ge, ke, pt, hmix⟩ := hel rfl
    have hii : ∀ j ∈ initItems i, j ∈ itemsOf body := fun j hj => hit j (.inl hj)
    obtain ⟨v0', t0, h1, ha⟩ := initArrives hS hle1 hii hat hi
    obtain ⟨t1, h2, hr⟩ := hS.cond l c 0 s0 s1 t0 (hit _ (.inr (.inl rfl))) ha hc
    have hd : ∀ x ∈ declsOf e, x ∈ declsOf body := fun x hx => hde x (.inr hx)
    obtain ⟨t2, h3, h4⟩ := ih _ _ _ _ _ t1 pt.le.ofEdge (fun j hj => hit j (.inr (.inr (.inr hj)))) hd hpl.2 pt.scope ho
      ⟨_, rfl, (by intro h; cases h), hr⟩ (hnw.elseB hi hc)
    refine ⟨(t2.drop (declsOf (rw.list e))).drop (initVars (i.bind rw.init)), ?_, ?_⟩
    · simp only [Rw.stmt, hS.gone _ _ _ ha, Bool.false_eq_true, if_false]
      exact exec_one (.iteElse h1 h2 h3)
    · rw [hp2]
      have h5 := (inScope hS pt.le pt.scope hd h4).map fun h6 => hS.flow n _ _ ⟨_, pt.ne, hmix, h6⟩
      exact (initDropped hS hii (fun x hx => hde x (.inl (.inl hx))) h5).map fun h6 => ⟨_, rfl, (by intro h; cases h), h6⟩
  | @iteSkip l i c tb e s v0 s0 s1 hi hc =>
    intro g p se sc t hle hit hde hpl hse ho hat hnw
    simp only [Stmt.items, List.mem_append, List.mem_cons] at hit
    simp only [Stmt.decls, List.mem_append] at hde
    obtain ⟨hle1, -, -, n, -, -, hp2, -, hsk⟩ := ite_graph hle
    have hii : ∀ j ∈ initItems i, j ∈ itemsOf body := fun j hj => hit j (.inl hj)
    obtain ⟨v0', t0, h1, ha⟩ := initArrives hS hle1 hii hat hi
    obtain ⟨t1, h2, hr⟩ := hS.cond l c 0 s0 s1 t0 (hit _ (.inr (.inl rfl))) ha hc
    refine ⟨t1.drop (initVars (i.bind rw.init)), ?_, ?_⟩
    · simp only [Rw.stmt, hS.gone _ _ _ ha, Bool.false_eq_true, if_false]
      exact exec_one (.iteSkip h1 h2)
    · rw [hp2]
      exact ⟨_, rfl, (by intro h; cases h), initDropped (u := .flow n) (o := .normal) hS hii
        (fun x hx => hde x (.inl (.inl hx))) (hS.flow _ _ _ ⟨_, (by intro h; cases h), hsk rfl, hr⟩)⟩
  | @whileInitExn l i c b h e s s' hi =>
    intro g p se sc t hle hit hde hpl hse ho hat hnw
    simp only [Stmt.items, List.mem_append, List.mem_cons] at hit
    obtain ⟨hle1, gb, kb, n, pb, hback, hmix, hp2, hel⟩ := while_graph hle
    obtain ⟨t0, h1, h2, hg⟩ := initFault hS (ho rfl) hle1 (fun j hj => hit j (.inl hj)) hat hi
    refine ⟨t0, ?_, h2⟩
    simp only [Rw.stmt, hg, Bool.false_eq_true, if_false]
    exact exec_one (.whileInitExn h1)
  | @while_ l i c b h e s v0 s0 o s' hi hb ih =>
    intro g p se sc t hle hit hde hpl hse ho hat hnw
    simp only [Stmt.items, List.mem_append, List.mem_cons] at hit
    simp only [Stmt.decls, List.mem_append] at hde
    simp only [Stmt.plain, Bool.and_eq_true] at hpl
    obtain ⟨hle1, gb, kb, n, pb, hback, hmix, hp2, hel⟩ := while_graph hle
    have hii : ∀ j ∈ initItems i, j ∈ itemsOf body := fun j hj => hit j (.inl hj)
    obtain ⟨v0', t0, h1, ha⟩ := initArrives hS hle1 hii hat hi
    have hel' : h = true → (∃ ge ke, Part GF (.stmt l) e ge ke ∧ (ke, .flow n) ∈ GF.edges) ∧
        (∀ i ∈ itemsOf e, i ∈ itemsOf body) ∧ (∀ x ∈ declsOf e, x ∈ declsOf body) := by
      intro ht
      subst ht
      refine ⟨hel rfl, fun j hj => hit j (.inr (.inr (.inr ?_))), fun x hx => hde x (.inr ?_)⟩
      · rw [if_pos rfl]; exact hj
      · rw [if_pos rfl]; exact hx
    obtain ⟨t2, h3, h4⟩ := ih gb kb _ t0 pb hback hmix hel' (hit _ (.inr (.inl rfl)))
      (fun j hj => hit j (.inr (.inr (.inl hj)))) (fun x hx => hde x (.inl (.inr hx)))
      hpl.1 hpl.2 ho ha (hnw.whileB hi)
    refine ⟨t2.drop (initVars (i.bind rw.init)), ?_, ?_⟩
    · simp only [Rw.stmt, hS.gone _ _ _ ha, Bool.false_eq_true, if_false]
      exact exec_one (.while_ h1 h3)
    · rw [hp2]
      have h5 := h4.map fun h6 => hS.flow n _ _ h6
      exact (initDropped hS hii (fun x hx => hde x (.inl (.inl hx))) h5).map fun h6 => ⟨_, rfl, (by intro h; cases h), h6⟩
  | @loopExn l c b h e s s' hc =>
    intro gb kb mix t pb hback hmix hel hit hib hdb hpb hpe ho ha hnw
    obtain ⟨t1, h2, hr⟩ := hS.condX (ho rfl) l c s s' t hit ha hc
    exact ⟨t1, .loopExn h2, hr⟩
  | @loopDone l c b e s s' hc =>
    intro gb kb mix t pb hback hmix hel hit hib hdb hpb hpe ho ha hnw
    obtain ⟨t1, h2, hr⟩ := hS.cond l c 0 s s' t hit ha hc
    exact ⟨t1, .loopDone h2, _, (by intro h; cases h), hmix, hr⟩
  | @loopElse l c b e s s1 o s2 hc hb ih =>
    intro gb kb mix t pb hback hmix hel hit hib hdb hpb hpe ho ha hnw
    obtain ⟨t1, h2, hr⟩ := hS.cond l c 0 s s1 t hit ha hc
    obtain ⟨⟨ge, ke, pe, hem⟩, hie, hde⟩ := hel rfl
    obtain ⟨t2, h3, h4⟩ := ih _ _ _ _ _ t1 pe.le.ofEdge hie hde hpe pe.scope ho ⟨_, rfl, (by intro h; cases h), hr⟩ (hnw.loopE hc)
    exact ⟨t2.drop (declsOf (rw.list e)), .loopElse h2 h3,
      (inScope hS pe.le pe.scope hde h4).map fun h6 => ⟨_, pe.ne, hem, h6⟩⟩
  | @loopAgain l c b h e s v s1 o s2 o' s3 hc hv hb hag hl ih1 ih2 =>
    intro gb kb mix t pb hback hmix hel hit hib hdb hpb hpe ho ha hnw
    obtain ⟨t1, h2, hr⟩ := hS.cond l c v s s1 t hit ha hc
    obtain ⟨t2, h3, h4⟩ := ih1 _ _ _ _ _ t1 pb.le.ofEdge hib hdb hpb pb.scope (fun h => absurd h (again_ne hag))
      ⟨_, rfl, (by intro h; cases h), hr⟩ (hnw.loopB hc)
    have h5 : Arrives GF R (.stmt l) (s2.drop (declsOf b)) (t2.drop (declsOf (rw.list b))) :=
      Post.again hag (fun h6 => ⟨_, pb.ne, hback, h6⟩)
        (fun h6 => by
          obtain ⟨u, hu, hm, hr'⟩ := ha
          exact ⟨u, hu, hm, hS.jump u _ _ _ _ hr' h6⟩)
        (inScope hS pb.le pb.scope hdb h4)
    obtain ⟨t3, h7, h8⟩ := ih2 gb kb mix _ pb hback hmix hel hit hib hdb hpb hpe ho h5 (hnw.loopL hc hb)
    exact ⟨t3, .loopAgain h2 hv h3 hag h7, h8⟩
  | @loopBrk l c b h e s v s1 s2 hc hv hb ih =>
    intro gb kb mix t pb hback hmix hel hit hib hdb hpb hpe ho ha hnw
    obtain ⟨t1, h2, hr⟩ := hS.cond l c v s s1 t hit ha hc
    obtain ⟨t2, h3, h4⟩ := ih _ _ _ _ _ t1 pb.le.ofEdge hib hdb hpb pb.scope (by intro h; cases h)
      ⟨_, rfl, (by intro h; cases h), hr⟩ (hnw.loopB hc)
    have h5 : Esc (s2.drop (declsOf b)) (t2.drop (declsOf (rw.list b))) := inScope (o := .brk) hS pb.le pb.scope hdb h4
    exact ⟨_, .loopBrk h2 hv h3, _, (by intro h; cases h), hmix, hS.jump _ _ _ _ _ hr h5⟩
  | @loopLeave l c b h e s v s1 o s2 hc hv hb hlv ih =>
    intro gb kb mix t pb hback hmix hel hit hib hdb hpb hpe ho ha hnw
    obtain ⟨t1, h2, hr⟩ := hS.cond l c v s s1 t hit ha hc
    obtain ⟨t2, h3, h4⟩ := ih _ _ _ _ _ t1 pb.le.ofEdge hib hdb hpb pb.scope ho ⟨_, rfl, (by intro h; cases h), hr⟩ (hnw.loopB hc)
    exact ⟨_, .loopLeave h2 hv h3 hlv, Post.leave hlv (inScope hS pb.le pb.scope hdb h4)⟩
  | @forExn l lx x q b s s' hc =>
    intro g p se sc t hle hit hde hpl hse ho hat hnw
    simp only [Stmt.items, List.mem_cons] at hit
    obtain ⟨hle1, hlx, gb, kb, n, pb, hback, hout, hsc, hp2⟩ := for_graph hle
    have ha := hat.arrives hle1
    obtain ⟨t1, h2, hr⟩ := hS.condX (ho rfl) l q s s' t (hit _ (.inl rfl)) ha hc
    simp only [Rw.stmt, hS.gone _ _ _ ha, Bool.false_eq_true, if_false]
    exact ⟨t1, exec_one (.forExn h2), hr⟩
  | @for_ l lx x q b s v s1 o s2 hc hb ih =>
    intro g p se sc t hle hit hde hpl hse ho hat hnw
    simp only [Stmt.items, List.mem_cons] at hit
    simp only [Stmt.decls, List.mem_cons] at hde
    simp only [Stmt.plain] at hpl
    obtain ⟨hle1, hlx, gb, kb, n, pb, hback, hout, hsc, hp2⟩ := for_graph hle
    have ha := hat.arrives hle1
    obtain ⟨t1, h2, hr⟩ := hS.cond l q v s s1 t (hit _ (.inl rfl)) ha hc
    obtain ⟨t2, h3, h4⟩ := ih l q gb kb t1 pb hback hlx (hit _ (.inl rfl)) (hit _ (.inr (.inl rfl)))
      (fun j hj => hit j (.inr (.inr hj))) (fun y hy => hde y (.inr hy)) hpl ho hr (hnw.forB hc)
    have hg := hS.gone _ _ _ ha
    have hdo : declsOf [Stmt.for_ l lx x q b] = x :: declsOf b := by simp only [declsOf, Stmt.decls, List.append_nil]
    have hdn : declsOf (rw.list [Stmt.for_ l lx x q b]) = x :: declsOf (rw.list b) := by
      simp only [Rw.list, Rw.stmt, hg, Bool.false_eq_true, if_false, declsOf, Stmt.decls, List.append_nil]
    refine ⟨t2.drop (x :: declsOf (rw.list b)), ?_, ?_⟩
    · simp only [Rw.stmt, hg, Bool.false_eq_true, if_false]
      exact exec_one (.for_ h2 h3)
    · rw [hp2]
      rw [← hdo, ← hdn]
      have hob : ∀ s t : State M, Obs s t → Obs (s.drop (declsOf [Stmt.for_ l lx x q b]))
          (t.drop (declsOf (rw.list [Stmt.for_ l lx x q b]))) := by
        intro s t h6
        refine hS.obsDrop _ _ _ _ ?_ ?_ h6
        · intro y hy; rw [hdo] at hy; exact hde y (List.mem_cons.1 hy)
        · intro y hy
          rw [hdn] at hy
          rcases List.mem_cons.1 hy with hy | hy
          · exact hde y (.inl hy)
          · exact hde y (.inr (rw.list_decls hS.atomDecls hS.initDecls b y hy))
      cases o with
      | normal => exact ⟨_, rfl, (by intro h; cases h), hS.scopeEnd _ _ _ _ hsc ⟨_, (by intro h; cases h), hout, h4⟩⟩
      | brk => exact hS.escScope _ _ _ _ hsc h4
      | cont => exact hS.escScope _ _ _ _ hsc h4
      | ret v => exact hob _ _ h4
      | exn v => exact hob _ _ h4
  | @iterDone lx x b s =>
    intro l q gb kb t pb hback hlx hil hix hib hdb hpb ho hr hnw
    exact ⟨t, .iterDone, hr⟩
  | @iterAgain lx x v vs b s o s1 o' s2 hb hag hl ih1 ih2 =>
    intro l q gb kb t pb hback hlx hil hix hib hdb hpb ho hr hnw
    have h1 := hS.forVar lx x v s t hix ⟨_, (by intro h; cases h), hlx, hr⟩
    obtain ⟨t2, h3, h4⟩ := ih1 _ _ _ _ _ _ pb.le.ofEdge hib hdb hpb pb.scope (fun h => absurd h (again_ne hag))
      ⟨_, rfl, (by intro h; cases h), h1⟩ hnw.iterB
    have h5 : R (.stmt l) (s1.drop (declsOf b)) (t2.drop (declsOf (rw.list b))) :=
      Post.again hag (fun h6 => hS.pass l q _ _ hil ⟨_, pb.ne, hback, h6⟩) (fun h6 => hS.jump _ _ _ _ _ hr h6)
        (inScope hS pb.le pb.scope hdb h4)
    obtain ⟨t3, h7, h8⟩ := ih2 l q gb kb _ pb hback hlx hil hix hib hdb hpb ho h5 hnw.iterL
    exact ⟨t3, .iterAgain h3 hag h7, h8⟩
  | @iterBrk lx x v vs b s s1 hb ih =>
    intro l q gb kb t pb hback hlx hil hix hib hdb hpb ho hr hnw
    have h1 := hS.forVar lx x v s t hix ⟨_, (by intro h; cases h), hlx, hr⟩
    obtain ⟨t2, h3, h4⟩ := ih _ _ _ _ _ _ pb.le.ofEdge hib hdb hpb pb.scope (by intro h; cases h)
      ⟨_, rfl, (by intro h; cases h), h1⟩ hnw.iterB
    have h5 : Esc (s1.drop (declsOf b)) (t2.drop (declsOf (rw.list b))) := inScope (o := .brk) hS pb.le pb.scope hdb h4
    exact ⟨_, .iterBrk h3, hS.jump _ _ _ _ _ hr h5⟩
  | @iterLeave lx x v vs b s o s1 hb hlv ih =>
    intro l q gb kb t pb hback hlx hil hix hib hdb hpb ho hr hnw
    have h1 := hS.forVar lx x v s t hix ⟨_, (by intro h; cases h), hlx, hr⟩
    obtain ⟨t2, h3, h4⟩ := ih _ _ _ _ _ _ pb.le.ofEdge hib hdb hpb pb.scope ho ⟨_, rfl, (by intro h; cases h), h1⟩ hnw.iterB
    exact ⟨_, .iterLeave h3 hlv, Post.leave hlv (inScope hS pb.le pb.scope hdb h4)⟩
  | @nil s =>
    intro g p se sc sc' t hle hit hde hpl hse ho hat hnw
    simp only [addSeq, Rw.list]
    exact ⟨t, .nil, hat⟩
  | @cons st r s s1 o s2 h1 h2 ih1 ih2 =>
    intro g p se sc sc' t hle hit hde hpl hse ho hat hnw
    simp only [itemsOf, List.mem_append] at hit
    simp only [declsOf, List.mem_append] at hde
    simp only [plainAll, Bool.and_eq_true] at hpl
    have hne := ends_not_normal h1
    simp only [addSeq, hne, Bool.false_eq_true, if_false] at hle ⊢
    obtain ⟨t1, h3, h4⟩ := ih1 g p se sc' t (G.le.le_trans (addSeq_le _ _ _ _ _) hle) (fun j hj => hit j (.inl hj))
      (fun x hx => hde x (.inl hx)) hpl.1 hse (by intro h; cases h) hat hnw.first
    obtain ⟨t2, h5, h6⟩ := ih2 _ _ se sc sc' t1 hle (fun j hj => hit j (.inr hj)) (fun x hx => hde x (.inr hx)) hpl.2
      hse ho h4 (hnw.rest h1)
    refine ⟨t2, ?_, h6⟩
    simp only [Rw.list]
    exact exec_append h3 h5
  | @stop st r s o s1 h1 hne ih =>
    intro g p se sc sc' t hle hit hde hpl hse ho hat hnw
    simp only [itemsOf, List.mem_append] at hit
    simp only [declsOf, List.mem_append] at hde
    simp only [plainAll, Bool.and_eq_true] at hpl
    have hle1 : (addStmt g p se st).1.le GF := by
      simp only [addSeq] at hle
      split at hle
      · split at hle
        · exact hle
        · exact (G.le.le_trans (addSeq_le _ _ _ _ _) hle.ofEdge.ofEdge.ofNewFlow.ofEdge).ofNewEnd
      · exact G.le.le_trans (addSeq_le _ _ _ _ _) hle
    obtain ⟨t1, h3, h4⟩ := ih g p se sc' t hle1 (fun j hj => hit j (.inl hj)) (fun x hx => hde x (.inl hx)) hpl.1 hse ho hat hnw.first
    refine ⟨t1, ?_, ?_⟩
    · simp only [Rw.list]
      exact exec_append_stop h3 hne
    · cases o with
      | normal => exact absurd rfl hne
      | _ => exact h4

/-- The same for a whole function body, which ends normally, by `return` or with an exception. -/
theorem simulation_run (hS : Simulates faults jumps news body (build body) rw R Obs Esc) (hpl : plainAll jumps body = true)
    {s : State M} {o : Out} {s' t : State M} (h : Runs body s o s') (hf : o = .exn false → faults = true)
    (h0 : R .start s t) (hn : NewC news (.many body) s) : ∃ t', Runs (rw.list body) t o t' ∧ Post Obs Esc Obs o s' t' := by
  have hle : (((addSeq (G.newEnd { next := 0, edges := [], scopes := [(.fin, body)] } body) (some .start) (.scopeEnd 0) body
      body).1.edge (addSeq (G.newEnd { next := 0, edges := [], scopes := [(.fin, body)] } body) (some .start) (.scopeEnd 0) body
      body).2 (.scopeEnd 0)).edge (some (.scopeEnd 0)) .fin).le (build body) := G.le_refl _
  have hp : Part (build body) .start body _ (.scopeEnd 0) := Part.intro hle.ofEdge
  obtain ⟨t', h1, h2⟩ := simulation hS h _ _ _ _ _ t hle.ofEdge.ofEdge (fun _ h => h) (fun _ h => h) hpl hp.scope hf
    ⟨_, rfl, (by intro h; cases h), h0⟩ hn
  refine ⟨t', h1, ?_⟩
  cases o with
  | normal => exact hS.obsThrow _ _ _ _ hp.scope (At.arrives h2 hle.ofEdge)
  | _ => exact h2

end
end Verif.Opt
