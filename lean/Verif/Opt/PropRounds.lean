import Verif.Opt.PropSound

/-!
# Value propagation, round after round

The pass runs until nothing changes (`.iterate = true`, `value-propagation.cc:406-407`). What the soundness of one round relies
on still holds after a round, so any number of rounds is sound.
-/

namespace Verif.Opt

/-! ## What a round does to the nodes of the graph -/

/-- Replace names in what a node evaluates. -/
def Item.subst (f : Var → Option Expr) : Item → Item
  | .decl x i => .decl x (i.map (Expr.subst f))
  | .assign x e => .assign x (e.subst f)
  | .expr e => .expr (e.subst f)
  | .callRef x => .callRef x
  | .ret e => .ret (e.map (Expr.subst f))
  | .cond e => .cond (e.subst f)
  | .init x e => .init x (e.subst f)
  | .forVar x => .forVar x

/-- One entry of `itemsOf`. -/
def propItem (S : VP) (p : Label × Item) : Label × Item := (p.1, p.2.subst (S.value (.stmt p.1)))

theorem prop_initItems (S : VP) (i : Option (Label × Var × Expr)) :
    initItems (i.bind (propRw S).init) = (initItems i).map (propItem S) := by
  cases i with
  | none => rfl
  | some i => rfl

mutual
theorem prop_items_stmt (S : VP) : ∀ st : Stmt, itemsOf ((propRw S).stmt st) = st.items.map (propItem S)
  | .decl .. => by simp [Rw.stmt, propRw, itemsOf, Stmt.items, propItem, Item.subst]
  | .assign .. => by simp [Rw.stmt, propRw, itemsOf, Stmt.items, propItem, Item.subst]
  | .expr .. => by simp [Rw.stmt, propRw, itemsOf, Stmt.items, propItem, Item.subst]
  | .callRef .. => by simp [Rw.stmt, propRw, itemsOf, Stmt.items, propItem, Item.subst]
  | .ret l e => by
    simp only [Rw.stmt, propRw, itemsOf, Stmt.items, propItem, Item.subst, Bool.false_eq_true, if_false, List.append_nil, List.map]
  | .throw_ .. => by simp [Rw.stmt, propRw, itemsOf, Stmt.items, propItem, Item.subst]
  | .brk => by simp [Rw.stmt, itemsOf, Stmt.items]
  | .cont => by simp [Rw.stmt, itemsOf, Stmt.items]
  | .block b => by simp only [Rw.stmt, itemsOf, Stmt.items, List.append_nil]; exact prop_items_list S b
  | .ite l i c t h e => by
    have : (propRw S).gone l = false := rfl
    simp only [Rw.stmt, this, Bool.false_eq_true, if_false, itemsOf, Stmt.items, List.append_nil, prop_initItems, List.map_append,
      List.map_cons]
    rw [prop_items_list S t, prop_items_list S e]
    cases h <;> rfl
  | .while_ l i c t h e => by
    have : (propRw S).gone l = false := rfl
    simp only [Rw.stmt, this, Bool.false_eq_true, if_false, itemsOf, Stmt.items, List.append_nil, prop_initItems, List.map_append,
      List.map_cons]
    rw [prop_items_list S t, prop_items_list S e]
    cases h <;> rfl
  | .for_ l lx x q b => by
    have : (propRw S).gone l = false := rfl
    simp only [Rw.stmt, this, Bool.false_eq_true, if_false, itemsOf, Stmt.items, List.append_nil, List.map_cons]
    rw [prop_items_list S b]
    rfl
  | .try_ b c => by
    simp only [Rw.stmt, itemsOf, Stmt.items, List.append_nil, List.map_append]
    rw [prop_items_list S b, prop_items_list S c]
theorem prop_items_list (S : VP) : ∀ b : List Stmt, itemsOf ((propRw S).list b) = (itemsOf b).map (propItem S)
  | [] => rfl
  | s :: r => by
    simp only [Rw.list, itemsOf_append, itemsOf, List.map_append]
    rw [prop_items_stmt S s, prop_items_list S r]
end

mutual
theorem prop_plain_stmt (S : VP) (j : Bool) : ∀ st : Stmt, plainAll j ((propRw S).stmt st) = st.plain j
  | .decl .. => by simp [Rw.stmt, propRw, plainAll, Stmt.plain]
  | .assign .. => by simp [Rw.stmt, propRw, plainAll, Stmt.plain]
  | .expr .. => by simp [Rw.stmt, propRw, plainAll, Stmt.plain]
  | .callRef .. => by simp [Rw.stmt, propRw, plainAll, Stmt.plain]
  | .ret .. => by simp [Rw.stmt, propRw, plainAll, Stmt.plain]
  | .throw_ .. => by simp [Rw.stmt, propRw, plainAll, Stmt.plain]
  | .brk => by simp [Rw.stmt, plainAll, Stmt.plain]
  | .cont => by simp [Rw.stmt, plainAll, Stmt.plain]
  | .block b => by simp only [Rw.stmt, plainAll, Stmt.plain, Bool.and_true]; exact prop_plain_list S j b
  | .ite l i c t h e => by
    have : (propRw S).gone l = false := rfl
    simp only [Rw.stmt, this, Bool.false_eq_true, if_false, plainAll, Stmt.plain, Bool.and_true]
    rw [prop_plain_list S j t, prop_plain_list S j e]
  | .while_ l i c t h e => by
    have : (propRw S).gone l = false := rfl
    simp only [Rw.stmt, this, Bool.false_eq_true, if_false, plainAll, Stmt.plain, Bool.and_true]
    rw [prop_plain_list S j t, prop_plain_list S j e]
  | .for_ l lx x q b => by
    have : (propRw S).gone l = false := rfl
    simp only [Rw.stmt, this, Bool.false_eq_true, if_false, plainAll, Stmt.plain, Bool.and_true]
    exact prop_plain_list S j b
  | .try_ b c => by simp [Rw.stmt, plainAll, Stmt.plain]
theorem prop_plain_list (S : VP) (j : Bool) : ∀ b : List Stmt, plainAll j ((propRw S).list b) = plainAll j b
  | [] => rfl
  | s :: r => by
    have happ : ∀ a b : List Stmt, plainAll j (a ++ b) = (plainAll j a && plainAll j b) := by
      intro a b
      induction a with
      | nil => simp [plainAll]
      | cons x a ih => simp only [List.cons_append, plainAll, ih, Bool.and_assoc]
    simp only [Rw.list, happ, plainAll]
    rw [prop_plain_stmt S j s, prop_plain_list S j r]
end

/-! ## The premises still hold -/

theorem subst_calls {f : Var → Option Expr} (hf : ∀ y e, f y = some e → e.leaf = true) :
    ∀ e : Expr, (e.subst f).hasCall = e.hasCall
  | .lit .. => rfl
  | .name p x => by
    simp only [Expr.subst]
    cases h : f x with
    | none => rfl
    | some e =>
      have := hf x e h
      cases e <;> first | rfl | cases this
  | .bin o a b => by simp only [Expr.subst, Expr.hasCall, subst_calls hf a, subst_calls hf b]
  | .logic k a b => by simp only [Expr.subst, Expr.hasCall, subst_calls hf a, subst_calls hf b]
  | .call .. => rfl

theorem Item.subst_calls {f : Var → Option Expr} (hf : ∀ y e, f y = some e → e.leaf = true) (i : Item) :
    (i.subst f).calls = i.calls := by
  cases i with
  | decl x e => cases e with
    | none => rfl
    | some e => exact Opt.subst_calls hf e
  | ret e => cases e with
    | none => rfl
    | some e => exact Opt.subst_calls hf e
  | assign x e => exact Opt.subst_calls hf e
  | expr e => exact Opt.subst_calls hf e
  | cond e => exact Opt.subst_calls hf e
  | init x e => exact Opt.subst_calls hf e
  | callRef x => rfl
  | forVar x => rfl

theorem Item.subst_source {f : Var → Option Expr} {i : Item} {x : Var} {e : Expr} (h : (i.subst f).source = some (x, e)) :
    ∃ e0, i.source = some (x, e0) ∧ e = e0.subst f := by
  cases i with
  | decl y o => cases o with
    | none => cases h
    | some e0 => cases h; exact ⟨e0, rfl, rfl⟩
  | assign y e0 => cases h; exact ⟨e0, rfl, rfl⟩
  | init y e0 => cases h; exact ⟨e0, rfl, rfl⟩
  | _ => cases h

section
variable {M : Sem} {params : List Var} {body : List Stmt} {D : Flow} {S : VP}

theorem sourced_prop {x : Var} (h : Sourced (propagate S body) x) : Sourced body x := by
  obtain ⟨l, i, e, hi, hs⟩ := h
  rw [propagate, prop_items_list] at hi
  obtain ⟨⟨l0, i0⟩, h1, h2⟩ := List.mem_map.1 hi
  cases h2
  obtain ⟨e0, h3, -⟩ := Item.subst_source hs
  exact ⟨_, _, _, h1, h3⟩

theorem copied_prop (hg : ∀ v, Good body (S.inn v)) {z : Var} (h : Copied (propagate S body) z) : Copied body z := by
  obtain ⟨l, i, x, p, hi, hs⟩ := h
  rw [propagate, prop_items_list] at hi
  obtain ⟨⟨l0, i0⟩, h1, h2⟩ := List.mem_map.1 hi
  cases h2
  obtain ⟨e0, h3, h4⟩ := Item.subst_source hs
  cases e0 with
  | name q y =>
    simp only [Expr.subst] at h4
    cases hv : S.value (.stmt l0) y with
    | none =>
      rw [hv] at h4
      cases h4
      exact ⟨_, _, _, _, h1, h3⟩
    | some e =>
      rw [hv] at h4
      simp only [Option.getD] at h4
      exact (hg _ y e (PMap.get_mem (value_inn hv))).2.1 p z h4.symm
  | _ => cases h4

/-- What a round relies on still holds after it. -/
theorem Tidy.prop (hT : Tidy M params body) (hg : ∀ v, Good body (S.inn v)) : Tidy M params (propagate S body) where
  labels := by
    rw [propagate, prop_items_list, List.map_map]
    exact hT.labels
  owned := by
    intro x hx
    rw [propagate, prop_decls_list]
    exact hT.owned x (sourced_prop hx)
  noInit := by
    intro l x hi hs
    rw [propagate, prop_items_list] at hi
    obtain ⟨⟨l0, i0⟩, h1, h2⟩ := List.mem_map.1 hi
    cases i0 with
    | decl y o =>
      cases o with
      | none => cases h2; exact hT.noInit _ _ h1 (sourced_prop hs)
      | some e => cases h2
    | _ => cases h2
  loopVar := by
    intro l x hi
    rw [propagate, prop_items_list] at hi
    obtain ⟨⟨l0, i0⟩, h1, h2⟩ := List.mem_map.1 hi
    cases i0 with
    | forVar y => cases h2; exact ⟨fun h => (hT.loopVar _ _ h1).1 (sourced_prop h), fun h => (hT.loopVar _ _ h1).2 (copied_prop hg h)⟩
    | _ => cases h2
  head := by
    intro l x e hi hc
    rw [propagate, prop_items_list] at hi
    obtain ⟨⟨l0, i0⟩, h1, h2⟩ := List.mem_map.1 hi
    cases i0 with
    | init y e0 => cases h2; exact hT.head _ _ _ h1 (copied_prop hg hc)
    | _ => cases h2
  quiet := by
    intro l i hi hc y hy
    rw [propagate, prop_items_list] at hi
    obtain ⟨⟨l0, i0⟩, h1, h2⟩ := List.mem_map.1 hi
    cases h2
    dsimp only at hc
    rw [Item.subst_calls (fun y e he => (hg _ y e (PMap.get_mem (value_inn he))).2.2)] at hc
    refine hT.quiet _ _ h1 hc y ?_
    rcases hy with h | h | h
    · exact .inl (sourced_prop h)
    · exact .inr (.inl (copied_prop hg h))
    · rw [propagate, prop_decls_list] at h; exact .inr (.inr h)

/-- Any number of rounds, each with analyses of its own. -/
inductive PropRounds (params : List Var) : List Stmt → List Stmt → Prop where
  | done {b : List Stmt} : PropRounds params b b
  | round {b c : List Stmt} {order vorder : List Node} {k kv depth : Nat} {D : Flow} {S : VP}
      (hc : Covers (edges b) (genAt (itemsOf b)) order) (hD : dataflow b order k = some D)
      (hv : ∀ n, Live (build b).edges n → n ≠ .start → n ∈ vorder) (hs : Node.start ∉ vorder)
      (h : analyse params b D vorder depth kv = some S) (r : PropRounds params (propagate S b) c) : PropRounds params b c

/-- **Any number of rounds of value propagation preserves behaviour**; see `value_propagation_partial` for what is not covered. -/
theorem value_propagation_rounds_partial {body' : List Stmt} (hr : PropRounds params body body') (hT : Tidy M params body)
    (hp : plainAll false body = true) (hd : (declsOf body).Nodup) (hvis : ∀ x ∈ declsOf body, M.vis x = false)
    (s s' : State M) (o : Out) (h0 : ∀ x ∈ declsOf body, s.env x = none) (h : Runs body s o s') :
    ∃ t', Runs body' s o t' ∧ Apart (declsOf body) s' t' := by
  induction hr generalizing s' with
  | done => exact ⟨s', h, Apart.refl _ _⟩
  | @round b c order vorder k kv depth D S hc hD hv hs hA _ ih =>
    obtain ⟨t1, h1, h2⟩ := value_propagation_partial hT hp hd hvis hc hD hv hs hA s s' o h0 h
    have hde : declsOf (propagate S b) = declsOf b := prop_decls_list S b
    obtain ⟨t2, h3, h4⟩ := ih (hT.prop (fun v => (analyse_good hA v).1)) ((prop_plain_list S false b).trans hp)
      (by rw [hde]; exact hd) (by rw [hde]; exact hvis) t1 (by rw [hde]; exact h0) h1
    rw [hde] at h4
    exact ⟨t2, h3, h2.1.trans h4.1, fun x hx => (h2.2 x hx).trans (h4.2 x hx)⟩

end
end Verif.Opt
