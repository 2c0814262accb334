import Verif.Opt.Sim

/-!
# Facts about the control flow graph

Reachable nodes keep their edges when the graph is pruned; every `End` node has one scope, made of statements of the body; the
declarations of a body are those of its graph nodes.
-/

namespace Verif.Opt

/-! ## Reachable nodes and pruning -/

/-- Reachable from the start node. -/
inductive Live (E : List (Node × Node)) : Node → Prop where
  | start : Live E .start
  | step {u v} : Live E u → (u, v) ∈ E → Live E v

theorem entered_iff {E : List (Node × Node)} {v : Node} : entered E v = true ↔ ∃ u, (u, v) ∈ E := by
  unfold entered
  rw [List.any_eq_true]
  constructor
  · rintro ⟨⟨u, w⟩, he, h⟩
    have h' : w = v := of_decide_eq_true h
    subst h'; exact ⟨u, he⟩
  · rintro ⟨u, hu⟩; exact ⟨(u, v), hu, decide_eq_true rfl⟩

theorem live_kept {E : List (Node × Node)} {u v : Node} (h : Live E u) (he : (u, v) ∈ E) : (u, v) ∈ pruneStep E := by
  unfold pruneStep
  rw [List.mem_filter]
  refine ⟨he, ?_⟩
  cases h with
  | start => simp
  | step _ hw =>
    have : entered E u = true := entered_iff.2 ⟨_, hw⟩
    simp [this]

theorem live_pruneStep {E : List (Node × Node)} {u : Node} (h : Live E u) : Live (pruneStep E) u := by
  induction h with
  | start => exact .start
  | step h he ih => exact .step ih (live_kept h he)

theorem pruneStep_sub {E : List (Node × Node)} {e : Node × Node} (h : e ∈ pruneStep E) : e ∈ E :=
  (List.mem_filter.1 h).1

theorem prune_fold (ns : List Nat) : ∀ E : List (Node × Node),
    (∀ u, Live E u → Live (ns.foldl (fun es _ => pruneStep es) E) u) ∧
    (∀ u v, Live E u → (u, v) ∈ E → (u, v) ∈ ns.foldl (fun es _ => pruneStep es) E) ∧
    (∀ e, e ∈ ns.foldl (fun es _ => pruneStep es) E → e ∈ E) := by
  induction ns with
  | nil => intro E; exact ⟨fun _ h => h, fun _ _ _ h => h, fun _ h => h⟩
  | cons n ns ih =>
    intro E
    obtain ⟨h1, h2, h3⟩ := ih (pruneStep E)
    exact ⟨fun u h => h1 u (live_pruneStep h), fun u v h he => h2 u v (live_pruneStep h) (live_kept h he),
      fun e h => pruneStep_sub (h3 e h)⟩

/-- Pruning removes no edge control can take. -/
theorem live_edge {body : List Stmt} {u v : Node} (h : Live (build body).edges u) (he : (u, v) ∈ (build body).edges) :
    (u, v) ∈ edges body := (prune_fold _ _).2.1 u v h he

theorem edge_sub {body : List Stmt} {e : Node × Node} (h : e ∈ edges body) : e ∈ (build body).edges := (prune_fold _ _).2.2 e h

/-! ## Scopes -/

/-- Every `End` node has one scope, made of statements of the body. -/
structure ScOk (body : List Stmt) (g : G) : Prop where
  idx : ∀ p ∈ g.scopes, p.1 = .fin ∨ ∃ n, n < g.next ∧ p.1 = .scopeEnd n
  nodup : (g.scopes.map Prod.fst).Nodup
  items : ∀ p ∈ g.scopes, ∀ i ∈ itemsOf p.2, i ∈ itemsOf body

theorem ScOk.edge {body : List Stmt} {g : G} (h : ScOk body g) (u : Option Node) (v : Node) : ScOk body (g.edge u v) := by
  have : (g.edge u v).scopes = g.scopes ∧ (g.edge u v).next = g.next := by
    unfold G.edge; split
    · exact ⟨rfl, rfl⟩
    · split
      · exact ⟨rfl, rfl⟩
      · split <;> exact ⟨rfl, rfl⟩
  exact ⟨by rw [this.1, this.2]; exact h.idx, by rw [this.1]; exact h.nodup, by rw [this.1]; exact h.items⟩

theorem ScOk.newFlow {body : List Stmt} {g : G} (h : ScOk body g) : ScOk body g.newFlow := by
  refine ⟨fun p hp => ?_, h.nodup, h.items⟩
  rcases h.idx p hp with h1 | ⟨n, h1, h2⟩
  · exact .inl h1
  · exact .inr ⟨n, Nat.lt_succ_of_lt h1, h2⟩

theorem ScOk.newEnd {body : List Stmt} {g : G} (h : ScOk body g) {sc : List Stmt} (hi : ∀ i ∈ itemsOf sc, i ∈ itemsOf body) :
    ScOk body (g.newEnd sc) := by
  refine ⟨fun p hp => ?_, ?_, fun p hp => ?_⟩
  · rcases List.mem_append.1 hp with hp | hp
    · rcases h.idx p hp with h1 | ⟨n, h1, h2⟩
      · exact .inl h1
      · exact .inr ⟨n, Nat.lt_succ_of_lt h1, h2⟩
    · cases List.mem_singleton.1 hp
      exact .inr ⟨g.next, Nat.lt_succ_self _, rfl⟩
  · unfold G.newEnd
    dsimp only
    rw [List.map_append, List.nodup_append]
    refine ⟨h.nodup, by simp, ?_⟩
    intro a ha b hb hab
    subst hab
    simp only [List.map_cons, List.map_nil, List.mem_singleton] at hb
    obtain ⟨p, hp, rfl⟩ := List.mem_map.1 ha
    rcases h.idx p hp with h1 | ⟨n, h1, h2⟩
    · rw [h1] at hb; cases hb
    · rw [h2] at hb
      injection hb with hb
      omega
  · rcases List.mem_append.1 hp with hp | hp
    · exact h.items p hp
    · cases List.mem_singleton.1 hp
      exact hi

theorem ScOk.init {body : List Stmt} {g : G} (h : ScOk body g) (p : Option Node) (i : Option (Label × Var × Expr)) :
    ScOk body (addInit g p i).1 := by
  unfold addInit
  split
  · exact h
  · exact h.edge _ _

mutual
theorem addStmt_sc {body : List Stmt} (g : G) (p : Option Node) (se : Node) (h : ScOk body g) :
    ∀ st, (∀ i ∈ st.items, i ∈ itemsOf body) → ScOk body (addStmt g p se st).1
  | .decl .. => fun _ => by unfold addStmt; exact h.edge _ _
  | .assign .. => fun _ => by unfold addStmt; exact h.edge _ _
  | .expr .. => fun _ => by unfold addStmt; exact h.edge _ _
  | .callRef .. => fun _ => by unfold addStmt; exact h.edge _ _
  | .ret .. => fun _ => by unfold addStmt; dsimp only; apply ScOk.edge; apply ScOk.edge; exact h
  | .throw_ .. => fun _ => by unfold addStmt; dsimp only; apply ScOk.edge; apply ScOk.edge; exact h
  | .brk => fun _ => by unfold addStmt; exact h
  | .cont => fun _ => by unfold addStmt; exact h
  | .block b => fun hi => by
    unfold addStmt; dsimp only; apply ScOk.edge
    exact addSeq_sc _ _ _ _ (h.newEnd hi) hi b hi
  | .ite l i c t hh e => fun hi => by
    simp only [Stmt.items, List.mem_append, List.mem_cons] at hi
    have ht : ∀ i ∈ itemsOf t, i ∈ itemsOf body := fun j hj => hi j (.inr (.inr (.inl hj)))
    unfold addStmt
    dsimp only
    have h1 := fun k => addSeq_sc _ (some (.stmt l)) k t ((((h.init p i).edge (addInit g p i).2 (.stmt l)).newFlow).newEnd ht)
      ht t ht
    split
    · rename_i hc
      have he : ∀ i ∈ itemsOf e, i ∈ itemsOf body := fun j hj => hi j (.inr (.inr (.inr (by rw [if_pos hc]; exact hj))))
      dsimp only; apply ScOk.edge; apply ScOk.edge; apply addSeq_sc _ _ _ _ _ he e he
      apply ScOk.newEnd _ he; apply ScOk.edge; apply ScOk.edge; exact h1 _
    · dsimp only; apply ScOk.edge; apply ScOk.edge; apply ScOk.edge; exact h1 _
  | .while_ l i c b hh e => fun hi => by
    simp only [Stmt.items, List.mem_append, List.mem_cons] at hi
    have ht : ∀ i ∈ itemsOf b, i ∈ itemsOf body := fun j hj => hi j (.inr (.inr (.inl hj)))
    unfold addStmt
    dsimp only
    have h1 := fun k => addSeq_sc _ (some (.stmt l)) k b (((h.init p i).edge (addInit g p i).2 (.stmt l)).newEnd ht)
      ht b ht
    split
    · rename_i hc
      have he : ∀ i ∈ itemsOf e, i ∈ itemsOf body := fun j hj => hi j (.inr (.inr (.inr (by rw [if_pos hc]; exact hj))))
      dsimp only; apply ScOk.edge; apply ScOk.edge; apply addSeq_sc _ _ _ _ _ he e he
      apply ScOk.newEnd _ he; apply ScOk.edge; apply ScOk.newFlow; apply ScOk.edge; apply ScOk.edge; exact h1 _
    · dsimp only; apply ScOk.edge; apply ScOk.newFlow; apply ScOk.edge; apply ScOk.edge; exact h1 _
  | .for_ l lx x q b => fun hi => by
    have hb : ∀ i ∈ itemsOf b, i ∈ itemsOf body := fun j hj => hi j (by
      simp only [Stmt.items, List.mem_cons]; exact .inr (.inr hj))
    have hf : ∀ i ∈ itemsOf [Stmt.for_ l lx x q b], i ∈ itemsOf body := by
      intro j hj
      simp only [itemsOf, List.append_nil] at hj
      exact hi j hj
    unfold addStmt
    dsimp only
    apply ScOk.edge; apply ScOk.newEnd _ hf; apply ScOk.edge; apply ScOk.edge
    apply addSeq_sc _ _ _ _ _ hb b hb
    apply ScOk.newEnd _ hb; apply ScOk.edge; apply ScOk.edge; exact h
  | .try_ b c => fun hi => by
    simp only [Stmt.items, List.mem_append] at hi
    have hb : ∀ i ∈ itemsOf b, i ∈ itemsOf body := fun j hj => hi j (.inl hj)
    have hc : ∀ i ∈ itemsOf c, i ∈ itemsOf body := fun j hj => hi j (.inr hj)
    unfold addStmt
    dsimp only
    apply ScOk.edge; apply ScOk.edge; apply addSeq_sc _ _ _ _ _ hc c hc
    apply ScOk.newEnd _ hc; apply ScOk.edge; apply ScOk.newFlow; apply ScOk.edge; apply ScOk.newFlow; apply ScOk.edge
    apply addSeq_sc _ _ _ _ _ hb b hb
    apply ScOk.newEnd _ hb; exact h
theorem addSeq_sc {body : List Stmt} (g : G) (p : Option Node) (se : Node) (sc : List Stmt) (h : ScOk body g)
    (hs : ∀ i ∈ itemsOf sc, i ∈ itemsOf body) :
    ∀ b, (∀ i ∈ itemsOf b, i ∈ itemsOf body) → ScOk body (addSeq g p se sc b).1
  | [] => fun _ => by unfold addSeq; exact h
  | s :: r => fun hi => by
    simp only [itemsOf, List.mem_append] at hi
    have h1 := addStmt_sc g p se h s (fun j hj => hi j (.inl hj))
    have hr : ∀ i ∈ itemsOf r, i ∈ itemsOf body := fun j hj => hi j (.inr hj)
    unfold addSeq
    dsimp only
    split
    · split
      · exact h1
      · dsimp only; apply ScOk.edge; apply ScOk.edge; apply ScOk.newFlow; apply ScOk.edge
        exact addSeq_sc _ _ _ _ (h1.newEnd hs) hs r hr
    · exact addSeq_sc _ _ _ _ h1 hs r hr
end

theorem build_sc (body : List Stmt) : ScOk body (build body) := by
  unfold build
  have h0 : ScOk body { next := 0, edges := [], scopes := [(.fin, body)] } :=
    ⟨fun p hp => .inl (by cases List.mem_singleton.1 hp; rfl), by simp,
     fun p hp => by cases List.mem_singleton.1 hp; exact fun _ h => h⟩
  dsimp only; apply ScOk.edge; apply ScOk.edge
  exact addSeq_sc _ _ _ _ (h0.newEnd (fun _ h => h)) (fun _ h => h) body (fun _ h => h)

theorem nodup_fst_unique {l : List (Node × List Stmt)} (h : (l.map Prod.fst).Nodup) {k : Node} {a b : List Stmt}
    (ha : (k, a) ∈ l) (hb : (k, b) ∈ l) : a = b := by
  induction l with
  | nil => cases ha
  | cons p l ih =>
    simp only [List.map_cons, List.nodup_cons] at h
    rcases List.mem_cons.1 ha with ha | ha
    · rcases List.mem_cons.1 hb with hb | hb
      · rw [← ha] at hb; cases hb; rfl
      · exfalso; apply h.1; rw [← ha]; exact List.mem_map.2 ⟨_, hb, rfl⟩
    · rcases List.mem_cons.1 hb with hb | hb
      · exfalso; apply h.1; rw [← hb]; exact List.mem_map.2 ⟨_, ha, rfl⟩
      · exact ih h.2 ha hb

/-! ## Declarations -/

/-- The declaration a graph node stands for. -/
def Item.declares : Item → Option Var
  | .decl x _ | .init x _ | .forVar x => some x
  | _ => none

/-- The declaration of a graph node with its label. -/
def declares (p : Label × Item) : Option Var := p.2.declares

theorem initItems_decls (i : Option (Label × Var × Expr)) : (initItems i).filterMap declares = initVars i := by
  cases i with
  | none => rfl
  | some i => obtain ⟨l, x, e⟩ := i; rfl

mutual
theorem items_decls : ∀ st : Stmt, st.items.filterMap declares = st.decls
  | .decl .. => by simp [Stmt.items, Stmt.decls, declares, Item.declares]
  | .assign .. => by simp [Stmt.items, Stmt.decls, declares, Item.declares]
  | .expr .. => by simp [Stmt.items, Stmt.decls, declares, Item.declares]
  | .callRef .. => by simp [Stmt.items, Stmt.decls, declares, Item.declares]
  | .ret .. => by simp [Stmt.items, Stmt.decls, declares, Item.declares]
  | .throw_ .. => by simp [Stmt.items, Stmt.decls, declares, Item.declares]
  | .brk => by simp [Stmt.items, Stmt.decls]
  | .cont => by simp [Stmt.items, Stmt.decls]
  | .block b => by simp only [Stmt.items, Stmt.decls]; exact itemsOf_decls b
  | .ite l i c t h e => by
    simp only [Stmt.items, Stmt.decls, List.filterMap_append, initItems_decls]
    rw [List.filterMap_cons_none rfl, List.filterMap_append, itemsOf_decls t, List.append_assoc]
    cases h with
    | true => simp only [if_true]; rw [itemsOf_decls e]
    | false => rfl
  | .while_ l i c t h e => by
    simp only [Stmt.items, Stmt.decls, List.filterMap_append, initItems_decls]
    rw [List.filterMap_cons_none rfl, List.filterMap_append, itemsOf_decls t, List.append_assoc]
    cases h with
    | true => simp only [if_true]; rw [itemsOf_decls e]
    | false => rfl
  | .for_ l lx x q b => by
    simp only [Stmt.items, Stmt.decls]
    rw [List.filterMap_cons_none rfl]
    have : declares (lx, Item.forVar x) = some x := rfl
    rw [List.filterMap_cons_some this, itemsOf_decls b]
  | .try_ b c => by
    simp only [Stmt.items, Stmt.decls, List.filterMap_append]
    rw [itemsOf_decls b, itemsOf_decls c]
theorem itemsOf_decls : ∀ b : List Stmt, (itemsOf b).filterMap declares = declsOf b
  | [] => rfl
  | s :: r => by
    simp only [itemsOf, declsOf, List.filterMap_append]
    rw [items_decls s, itemsOf_decls r]
end

theorem mem_decls {b : List Stmt} {x : Var} : x ∈ declsOf b ↔ ∃ l i, (l, i) ∈ itemsOf b ∧ i.declares = some x := by
  rw [← itemsOf_decls, List.mem_filterMap]
  constructor
  · rintro ⟨⟨l, i⟩, h1, h2⟩; exact ⟨l, i, h1, h2⟩
  · rintro ⟨l, i, h1, h2⟩; exact ⟨(l, i), h1, h2⟩

theorem nodup_filterMap_inj {α β : Type} {f : α → Option β} {l : List α} (h : (l.filterMap f).Nodup) {a b : α} {x : β}
    (ha : a ∈ l) (hb : b ∈ l) (fa : f a = some x) (fb : f b = some x) : a = b := by
  induction l with
  | nil => cases ha
  | cons c l ih =>
    rcases List.mem_cons.1 ha with ha1 | ha2
    · rcases List.mem_cons.1 hb with hb1 | hb2
      · rw [ha1, hb1]
      · subst ha1
        rw [List.filterMap_cons_some fa, List.nodup_cons] at h
        exact absurd (List.mem_filterMap.2 ⟨b, hb2, fb⟩) h.1
    · rcases List.mem_cons.1 hb with hb1 | hb2
      · subst hb1
        rw [List.filterMap_cons_some fb, List.nodup_cons] at h
        exact absurd (List.mem_filterMap.2 ⟨a, ha2, fa⟩) h.1
      · have h' : (l.filterMap f).Nodup := by
          cases hc : f c with
          | none => rw [List.filterMap_cons_none hc] at h; exact h
          | some y => rw [List.filterMap_cons_some hc, List.nodup_cons] at h; exact h.2
        exact ih h' ha2 hb2

/-- Every declaration occurs once. -/
theorem decl_unique {b : List Stmt} (h : (declsOf b).Nodup) {l1 l2 : Label} {i1 i2 : Item} {x : Var}
    (h1 : (l1, i1) ∈ itemsOf b) (h2 : (l2, i2) ∈ itemsOf b) (d1 : i1.declares = some x) (d2 : i2.declares = some x) :
    l1 = l2 ∧ i1 = i2 := by
  rw [← itemsOf_decls] at h
  have := nodup_filterMap_inj h h1 h2 (f := declares) d1 d2
  cases this
  exact ⟨rfl, rfl⟩

theorem label_unique {its : List (Label × Item)} (h : (its.map Prod.fst).Nodup) {l : Label} {i j : Item}
    (hi : (l, i) ∈ its) (hj : (l, j) ∈ its) : i = j := by
  induction its with
  | nil => cases hi
  | cons p its ih =>
    simp only [List.map_cons, List.nodup_cons] at h
    rcases List.mem_cons.1 hi with ha | ha
    · rcases List.mem_cons.1 hj with hb | hb
      · rw [← ha] at hb; cases hb; rfl
      · exfalso; apply h.1; rw [← ha]; exact List.mem_map.2 ⟨_, hb, rfl⟩
    · rcases List.mem_cons.1 hj with hb | hb
      · exfalso; apply h.1; rw [← hb]; exact List.mem_map.2 ⟨_, ha, rfl⟩
      · exact ih h.2 ha hb

end Verif.Opt
