import Verif.Opt.Dce

/-!
# Removing unused statements preserves behaviour

For a body without `break`, `continue` and `try`. See `Verif/Opt/Witness.lean` for what happens without the other premises.
-/

namespace Verif.Opt

/-! ## Premises -/

/-- Properties of every body the resolver lets through: identities are unique, a variable is declared once, what is declared in a
    body is a local, an initializer does not use the variable it initializes. -/
structure Valid (kind : Var → Kind) (body : List Stmt) : Prop where
  labels : ((itemsOf body).map Prod.fst).Nodup
  once : (declsOf body).Nodup
  locals : ∀ x ∈ declsOf body, kind x = .local_
  noSelf : ∀ l x e, ((l, Item.decl x (some e)) ∈ itemsOf body ∨ (l, Item.init x e) ∈ itemsOf body) → x ∉ e.names

/-- The node calls a function. -/
def Item.calls : Item → Bool
  | .decl _ (some e) | .assign _ e | .expr e | .ret (some e) | .cond e | .init _ e => e.hasCall
  | .callRef _ => true
  | .decl _ none | .ret none | .forVar _ => false

/-- An expression that cannot fail: only operators defined everywhere. -/
def Expr.total (M : Sem) : Expr → Prop
  | .lit .. => True
  | .name .. => True
  | .bin f a b => (∀ u v, M.op f u v ≠ none) ∧ a.total M ∧ b.total M
  | .logic .. => False
  | .call .. => False

/-- What the pass silently relies on: if the body calls functions, these do not see the variables the body updates; and
    assignments that use the variable they assign cannot fail. -/
structure Tame (M : Sem) (body : List Stmt) : Prop where
  hidden : (∃ l i, (l, i) ∈ itemsOf body ∧ i.calls = true) → ∀ l i, (l, i) ∈ itemsOf body → ∀ x ∈ i.gen, M.vis x = false
  total : ∀ l x e, (l, Item.assign x e) ∈ itemsOf body → x ∈ e.names → e.total M

section
variable {M : Sem}

/-! ## Evaluation in two states -/

/-- Every variable is unchanged in both states, or is a visible one that a call set to the same value. -/
def Moved (c : Bool) (s t s1 t1 : State M) : Prop :=
  ∀ y, (s1.env y = s.env y ∧ t1.env y = t.env y) ∨ (M.vis y = true ∧ c = true ∧ s1.env y = t1.env y)

theorem Moved.refl (c : Bool) (s t : State M) : Moved c s t s t := fun _ => .inl ⟨rfl, rfl⟩

theorem Moved.trans {c1 c2 c : Bool} {s t s1 t1 s2 t2 : State M} (h1 : Moved c1 s t s1 t1) (h2 : Moved c2 s1 t1 s2 t2)
    (hc1 : c1 = true → c = true) (hc2 : c2 = true → c = true) : Moved c s t s2 t2 := by
  intro y
  rcases h2 y with ⟨a, b⟩ | ⟨a, b, d⟩
  · rcases h1 y with ⟨a', b'⟩ | ⟨a', b', d'⟩
    · exact .inl ⟨a.trans a', b.trans b'⟩
    · exact .inr ⟨a', hc1 b', by rw [a, b]; exact d'⟩
  · exact .inr ⟨a, hc2 b, d⟩

theorem Moved.eq {c : Bool} {s t s1 t1 : State M} (h : Moved c s t s1 t1) {y : Var} (hy : s.env y = t.env y) :
    s1.env y = t1.env y := by
  rcases h y with ⟨a, b⟩ | ⟨_, _, d⟩
  · rw [a, b]; exact hy
  · exact d

theorem seen_eq {s t : State M} (h : ∀ y, M.vis y = true → s.env y = t.env y) : s.seen = t.seen := by
  funext y
  unfold State.seen
  split
  · rename_i hv; exact h y hv
  · rfl

theorem moved_back {s t : State M} (w w' : M.W) (g : Var → Option Int) : Moved true s t (s.back w g) (t.back w' g) := by
  intro y
  unfold State.back
  dsimp only
  by_cases hv : M.vis y = true
  · rw [if_pos hv, if_pos hv]; exact .inr ⟨hv, rfl, rfl⟩
  · rw [if_neg hv, if_neg hv]; exact .inl ⟨rfl, rfl⟩

/-- Evaluation depends only on the world, the names in the expression and, if it calls a function, the visible variables. -/
theorem eval_agree : ∀ (e : Expr) {s t : State M} {v : Int} {s1 : State M}, s.w = t.w → (∀ y ∈ e.names, s.env y = t.env y) →
    (e.hasCall = true → ∀ y, M.vis y = true → s.env y = t.env y) → eval e s = .val v s1 →
    ∃ t1, eval e t = .val v t1 ∧ s1.w = t1.w ∧ Moved e.hasCall s t s1 t1
  | .lit _ n, s, t, v, s1, hw, hn, hc, h => by
    cases h; exact ⟨t, rfl, hw, Moved.refl _ _ _⟩
  | .name _ x, s, t, v, s1, hw, hn, hc, h => by
    have hx := hn x (List.mem_singleton.2 rfl)
    simp only [eval] at h ⊢
    rw [← hx]
    cases hs : s.env x with
    | none => rw [hs] at h; cases h
    | some u => rw [hs] at h; cases h; exact ⟨t, rfl, hw, Moved.refl _ _ _⟩
  | .bin f a b, s, t, v, s1, hw, hn, hc, h => by
    simp only [Expr.names, List.mem_append] at hn
    simp only [Expr.hasCall, Bool.or_eq_true] at hc
    simp only [eval] at h ⊢
    obtain ⟨va, sa, ha, h⟩ := then_val h
    obtain ⟨vb, sb, hb, h⟩ := then_val h
    obtain ⟨ta, ea, wa, ma⟩ := eval_agree a hw (fun y hy => hn y (.inl hy)) (fun hh => hc (.inl hh)) ha
    obtain ⟨tb, eb, wb, mb⟩ := eval_agree b wa (fun y hy => ma.eq (hn y (.inr hy))) (fun hh y hy => ma.eq (hc (.inr hh) y hy)) hb
    rw [ea]
    simp only [Ev.then]
    rw [eb]
    dsimp only [Ev.then]
    cases ho : M.op f va vb with
    | none => rw [ho] at h; cases h
    | some u =>
      rw [ho] at h; cases h
      exact ⟨tb, rfl, wb, ma.trans mb (by intro hh; simp [Expr.hasCall, hh]) (by intro hh; simp [Expr.hasCall, hh])⟩
  | .logic k a b, s, t, v, s1, hw, hn, hc, h => by
    simp only [Expr.names, List.mem_append] at hn
    simp only [Expr.hasCall, Bool.or_eq_true] at hc
    simp only [eval] at h ⊢
    obtain ⟨va, sa, ha, h⟩ := then_val h
    obtain ⟨ta, ea, wa, ma⟩ := eval_agree a hw (fun y hy => hn y (.inl hy)) (fun hh => hc (.inl hh)) ha
    rw [ea]
    simp only [Ev.then]
    have hrest : ∀ u (s' : State M), (eval b sa).then (fun vb s2 => .val (if vb = 0 then 0 else 1) s2) = .val u s' →
        ∃ t1, (eval b ta).then (fun vb s2 => .val (if vb = 0 then 0 else 1) s2) = .val u t1 ∧ s'.w = t1.w ∧
          Moved (Expr.logic k a b).hasCall s t s' t1 := by
      intro u s' hu
      obtain ⟨vb, sb, hb, hu⟩ := then_val hu
      obtain ⟨tb, eb, wb, mb⟩ := eval_agree b wa (fun y hy => ma.eq (hn y (.inr hy))) (fun hh y hy => ma.eq (hc (.inr hh) y hy)) hb
      cases hu
      rw [eb]
      exact ⟨tb, rfl, wb, ma.trans mb (by intro hh; simp [Expr.hasCall, hh]) (by intro hh; simp [Expr.hasCall, hh])⟩
    have hstop : Moved (Expr.logic k a b).hasCall s t sa ta :=
      ma.trans (Moved.refl false _ _) (by intro hh; simp [Expr.hasCall, hh]) (by intro hh; cases hh)
    cases k with
    | true =>
      simp only [if_true] at h ⊢
      split at h
      · rename_i hz; rw [if_pos hz]; cases h; exact ⟨ta, rfl, wa, hstop⟩
      · rename_i hz; rw [if_neg hz]; exact hrest _ _ h
    | false =>
      simp only [Bool.false_eq_true, if_false] at h ⊢
      split at h
      · rename_i hz; rw [if_pos hz]; exact hrest _ _ h
      · rename_i hz; rw [if_neg hz]; cases h; exact ⟨ta, rfl, wa, hstop⟩
  | .call f a, s, t, v, s1, hw, hn, hc, h => by
    simp only [eval] at h ⊢
    obtain ⟨va, sa, ha, h⟩ := then_val h
    have hv := hc rfl
    obtain ⟨ta, ea, wa, ma⟩ := eval_agree a hw hn (fun _ => hv) ha
    rw [ea]
    simp only [Ev.then]
    have hseen : sa.seen = ta.seen := seen_eq fun y hy => ma.eq (hv y hy)
    rw [← wa, ← hseen]
    cases ho : (M.call f va sa.w sa.seen).1 with
    | none => rw [ho] at h; cases h
    | some u =>
      rw [ho] at h; cases h
      exact ⟨_, rfl, rfl, ma.trans (moved_back _ _ _) (fun _ => rfl) (fun _ => rfl)⟩

/-- An expression without calls changes nothing. -/
theorem eval_pure : ∀ (e : Expr) {s : State M} {v : Int} {s1 : State M}, e.hasCall = false → eval e s = .val v s1 → s1 = s
  | .lit _ n, s, v, s1, _, h => by cases h; rfl
  | .name _ x, s, v, s1, _, h => by
    simp only [eval] at h
    cases hs : s.env x with
    | none => rw [hs] at h; cases h
    | some u => rw [hs] at h; cases h; rfl
  | .bin f a b, s, v, s1, hc, h => by
    simp only [Expr.hasCall, Bool.or_eq_false_iff] at hc
    simp only [eval] at h
    obtain ⟨va, sa, ha, h⟩ := then_val h
    obtain ⟨vb, sb, hb, h⟩ := then_val h
    cases eval_pure a hc.1 ha
    cases eval_pure b hc.2 hb
    cases ho : M.op f va vb with
    | none => rw [ho] at h; cases h
    | some u => rw [ho] at h; cases h; rfl
  | .logic k a b, s, v, s1, hc, h => by
    simp only [Expr.hasCall, Bool.or_eq_false_iff] at hc
    simp only [eval] at h
    obtain ⟨va, sa, ha, h⟩ := then_val h
    cases eval_pure a hc.1 ha
    have hrest : ∀ u (s' : State M), (eval b s).then (fun vb s2 => .val (if vb = 0 then 0 else 1) s2) = .val u s' → s' = s := by
      intro u s' hu
      obtain ⟨vb, sb, hb, hu⟩ := then_val hu
      cases eval_pure b hc.2 hb
      cases hu; rfl
    cases k with
    | true =>
      simp only [if_true] at h
      split at h
      · cases h; rfl
      · exact hrest _ _ h
    | false =>
      simp only [Bool.false_eq_true, if_false] at h
      split at h
      · exact hrest _ _ h
      · cases h; rfl
  | .call f a, _, _, _, hc, _ => by cases hc

/-- An expression that cannot fail has a value as soon as its names have one, and only then. -/
theorem eval_total : ∀ (e : Expr), e.total M → (∀ (s : State M) v s1, eval e s = .val v s1 → s1 = s ∧ ∀ y ∈ e.names, s.env y ≠ none) ∧
    (∀ t : State M, (∀ y ∈ e.names, t.env y ≠ none) → ∃ v, eval e t = .val v t)
  | .lit _ n, _ => ⟨fun s v s1 h => by cases h; exact ⟨rfl, fun y hy => by cases hy⟩, fun t _ => ⟨n, rfl⟩⟩
  | .name _ x, _ => by
    refine ⟨fun s v s1 h => ?_, fun t ht => ?_⟩
    · simp only [eval] at h
      cases hs : s.env x with
      | none => rw [hs] at h; cases h
      | some u =>
        rw [hs] at h; cases h
        refine ⟨rfl, fun y hy => ?_⟩
        cases List.mem_singleton.1 hy
        rw [hs]; intro hh; cases hh
    · simp only [eval]
      cases hs : t.env x with
      | none => exact absurd hs (ht x (List.mem_singleton.2 rfl))
      | some u => exact ⟨u, rfl⟩
  | .bin f a b, ht => by
    obtain ⟨hf, hta, htb⟩ := ht
    obtain ⟨a1, a2⟩ := eval_total a hta
    obtain ⟨b1, b2⟩ := eval_total b htb
    refine ⟨fun s v s1 h => ?_, fun t htn => ?_⟩
    · simp only [eval] at h
      obtain ⟨va, sa, ha, h1⟩ := then_val h
      obtain ⟨vb, sb, hb, h2⟩ := then_val h1
      obtain ⟨e1, na⟩ := a1 s va sa ha
      subst e1
      obtain ⟨e2, nb⟩ := b1 sa vb sb hb
      subst e2
      refine ⟨?_, fun y hy => ?_⟩
      · cases ho : M.op f va vb with
        | none => rw [ho] at h2; cases h2
        | some u => rw [ho] at h2; cases h2; rfl
      · simp only [Expr.names, List.mem_append] at hy
        rcases hy with hy | hy
        · exact na y hy
        · exact nb y hy
    · simp only [Expr.names, List.mem_append] at htn
      obtain ⟨va, ea⟩ := a2 t (fun y hy => htn y (.inl hy))
      obtain ⟨vb, eb⟩ := b2 t (fun y hy => htn y (.inr hy))
      simp only [eval]
      rw [ea]
      simp only [Ev.then]
      rw [eb]
      dsimp only [Ev.then]
      cases ho : M.op f va vb with
      | none => exact absurd ho (hf va vb)
      | some u => exact ⟨u, rfl⟩

/-! ## The relation between the two bodies -/

variable {kind : Var → Kind} {body : List Stmt} {D : Flow}

theorem itemAt_mem {its : List (Label × Item)} {l : Label} {i : Item} (h : itemAt its l = some i) : (l, i) ∈ its := by
  unfold itemAt at h
  cases hf : its.find? (fun p => p.1 = l) with
  | none => rw [hf] at h; cases h
  | some p =>
    rw [hf] at h
    have h1 := List.mem_of_find?_eq_some hf
    have h2 := List.find?_some hf
    cases h
    obtain ⟨l', i⟩ := p
    have : l' = l := of_decide_eq_true h2
    subst this; exact h1

theorem itemAt_eq {its : List (Label × Item)} (hn : (its.map Prod.fst).Nodup) {l : Label} {i : Item} (h : (l, i) ∈ its) :
    itemAt its l = some i := by
  cases hi : itemAt its l with
  | none =>
    unfold itemAt at hi
    rw [Option.map_eq_none_iff, List.find?_eq_none] at hi
    exact absurd (decide_eq_true rfl) (hi (l, i) h)
  | some j => rw [label_unique hn h (itemAt_mem hi)]

/-- The pass removes the declaration of `x`. -/
def Removed (un : Label → Bool) (its : List (Label × Item)) (x : Var) : Prop :=
  ∃ l i, (l, i) ∈ its ∧ ((∃ e, i = Item.decl x e) ∨ ∃ e, i = Item.init x e ∧ e.harmless = true) ∧ un l = true

/-- States of the two bodies after node `u`: they differ only in variables whose last update the pass dropped. -/
structure DR (kind : Var → Kind) (body : List Stmt) (D : Flow) (u : Node) (s t : State M) : Prop where
  live : Live (build body).edges u
  w : s.w = t.w
  diff : ∀ x, s.env x ≠ t.env x → ∃ l, unused kind (itemsOf body) ((build body).scopes.map Prod.fst) D l = true ∧
    x ∈ genAt (itemsOf body) (.stmt l) ∧
    ReachOut (edges body) (genAt (itemsOf body)) (cutAt (build body).scopes) u (x, .stmt l)
  gone : ∀ x, Removed (unused kind (itemsOf body) ((build body).scopes.map Prod.fst) D) (itemsOf body) x → t.env x = none
  dom : ∀ x, ¬ Removed (unused kind (itemsOf body) ((build body).scopes.map Prod.fst) D) (itemsOf body) x →
    (s.env x = none ↔ t.env x = none)

/-- The dataflow facts the pass uses are there. -/
def Complete (body : List Stmt) (D : Flow) : Prop :=
  ∀ n f, ReachIn (edges body) (genAt (itemsOf body)) (cutAt (build body).scopes) n f → f ∈ D.inn n

set_option quotPrecheck false in
/-- Short name. -/
local notation "UN" => unused kind (itemsOf body) ((build body).scopes.map Prod.fst) D

theorem unused_keep {l : Label} {i : Item} (hv : Valid kind body) (hi : (l, i) ∈ itemsOf body) (h : UN l = true) :
    i.keep = false := by
  unfold unused at h
  rw [itemAt_eq hv.labels hi] at h
  simp only [Bool.and_eq_true, Bool.not_eq_true'] at h
  exact h.1

theorem unused_end {l : Label} (h : UN l = true) : usedAtEnd kind ((build body).scopes.map Prod.fst) D l = false := by
  unfold unused at h
  simp only [Bool.and_eq_true, Bool.not_eq_true', Bool.or_eq_false_iff] at h
  exact h.2.1.1

theorem unused_decl {l : Label} (h : UN l = true) : declWritten (itemsOf body) l = false := by
  unfold unused at h
  simp only [Bool.and_eq_true, Bool.not_eq_true', Bool.or_eq_false_iff] at h
  exact h.2.1.2

theorem unused_read {l : Label} (h : UN l = true) : updateRead (itemsOf body) D l = false := by
  unfold unused at h
  simp only [Bool.and_eq_true, Bool.not_eq_true', Bool.or_eq_false_iff] at h
  exact h.2.2

theorem gen_item {l : Label} {x : Var} (h : x ∈ genAt (itemsOf body) (.stmt l)) :
    ∃ i, (l, i) ∈ itemsOf body ∧ x ∈ i.gen := by
  simp only [genAt] at h
  cases hi : itemAt (itemsOf body) l with
  | none => rw [hi] at h; cases h
  | some i => rw [hi] at h; exact ⟨i, itemAt_mem hi, h⟩

theorem genAt_eq (hv : Valid kind body) {l : Label} {i : Item} (h : (l, i) ∈ itemsOf body) :
    genAt (itemsOf body) (.stmt l) = i.gen := by
  simp only [genAt, itemAt_eq hv.labels h]

theorem cut_stmt (l : Label) (x : Var) : cutAt (build body).scopes (.stmt l) x = false := by
  unfold cutAt
  rw [List.any_eq_false]
  intro p hp
  have : p.1 ≠ .stmt l := by
    rcases (build_sc body).idx p hp with h | ⟨n, _, h⟩ <;> rw [h] <;> intro hh <;> cases hh
  simp [this]

theorem cut_flow (k : Nat) (x : Var) : cutAt (build body).scopes (.flow k) x = false := by
  unfold cutAt
  rw [List.any_eq_false]
  intro p hp
  have : p.1 ≠ .flow k := by
    rcases (build_sc body).idx p hp with h | ⟨n, _, h⟩ <;> rw [h] <;> intro hh <;> cases hh
  simp [this]

theorem cut_scope {k : Node} {sc : List Stmt} (hk : (k, sc) ∈ (build body).scopes) {x : Var} (hx : x ∉ declsOf sc) :
    cutAt (build body).scopes k x = false := by
  unfold cutAt
  rw [List.any_eq_false]
  intro p hp
  by_cases h : p.1 = k
  · obtain ⟨k', sc'⟩ := p
    dsimp only at h
    subst h
    cases nodup_fst_unique (build_sc body).nodup hk hp
    simp [hx]
  · simp [h]

theorem gen_scope {k : Node} {sc : List Stmt} (hk : (k, sc) ∈ (build body).scopes) : genAt (itemsOf body) k = [] := by
  rcases (build_sc body).idx _ hk with h | ⟨n, _, h⟩ <;> dsimp only at h <;> rw [h] <;> rfl

/-- What a node reads is the same in both bodies. -/
theorem DR.agree (hv : Valid kind body) (hD : Complete body D) {u : Node} {s t : State M} (h : DR kind body D u s t)
    {l : Label} {i : Item} (hi : (l, i) ∈ itemsOf body) (he : (u, .stmt l) ∈ (build body).edges) {y : Var} (hy : y ∈ i.read)
    (hk : UN l = false ∨ y ∉ i.gen) : s.env y = t.env y := by
  apply Classical.byContradiction
  intro hne
  obtain ⟨l', h1, h2, h3⟩ := h.diff y hne
  obtain ⟨i', hi', hg'⟩ := gen_item h2
  by_cases hl : l' = l
  · subst hl
    cases label_unique hv.labels hi hi'
    rcases hk with hk | hk
    · rw [h1] at hk; cases hk
    · exact hk hg'
  · have hin : (y, Node.stmt l') ∈ D.inn (.stmt l) := hD _ _ ⟨u, live_edge h.live he, h3⟩
    have hu := unused_read h1
    have : updateRead (itemsOf body) D l' = true := by
      unfold updateRead
      rw [List.any_eq_true]
      refine ⟨(l', i'), hi', ?_⟩
      simp only [decide_true, Bool.true_and]
      rw [List.any_eq_true]
      refine ⟨y, hg', ?_⟩
      rw [List.any_eq_true]
      refine ⟨(l, i), hi, ?_⟩
      simp only [Bool.and_eq_true, decide_eq_true_eq]
      refine ⟨⟨fun hh => hl hh.symm, hy⟩, ?_⟩
      rw [List.any_eq_true]
      exact ⟨_, hin, decide_eq_true rfl⟩
    rw [this] at hu; cases hu

/-- What callees see is the same in both bodies. -/
theorem DR.visible (ht : Tame M body) {u : Node} {s t : State M} (h : DR kind body D u s t)
    {l : Label} {i : Item} (hi : (l, i) ∈ itemsOf body) (hc : i.calls = true) (y : Var) (hy : M.vis y = true) :
    s.env y = t.env y := by
  apply Classical.byContradiction
  intro hne
  obtain ⟨l', _, h2, _⟩ := h.diff y hne
  obtain ⟨i', hi', hg'⟩ := gen_item h2
  have := ht.hidden ⟨l, i, hi, hc⟩ l' i' hi' y hg'
  rw [hy] at this; cases this

theorem not_removed (hv : Valid kind body) {l : Label} {i : Item} (hi : (l, i) ∈ itemsOf body) {x : Var} (hx : x ∈ i.write) :
    ¬ Removed (UN) (itemsOf body) x := by
  rintro ⟨l0, i0, hi0, hd, hu⟩
  have hw : x ∈ i0.gen ∧ i0.declares = some x ∧ i0.write = [] := by
    rcases hd with ⟨e, rfl⟩ | ⟨e, rfl, _⟩ <;> exact ⟨List.mem_singleton.2 rfl, rfl, rfl⟩
  have hl : l ≠ l0 := by
    intro hl; subst hl
    cases label_unique hv.labels hi hi0
    rw [hw.2.2] at hx; cases hx
  have h1 := unused_decl hu
  have : declWritten (itemsOf body) l0 = true := by
    unfold declWritten
    rw [List.any_eq_true]
    refine ⟨(l0, i0), hi0, ?_⟩
    rw [List.any_eq_true]
    refine ⟨x, hw.1, ?_⟩
    rw [List.any_eq_true]
    refine ⟨(l, i), hi, ?_⟩
    simp only [Bool.and_eq_true, decide_eq_true_eq]
    refine ⟨⟨hl, hx⟩, ?_⟩
    rw [List.any_eq_true]
    exact ⟨(l0, i0), hi0, by simp [hw.2.1]⟩
  rw [this] at h1; cases h1

/-- Passing a statement node. -/
theorem DR.step (hv : Valid kind body) {u : Node} {s t s' t' : State M} (h : DR kind body D u s t)
    {l : Label} {i : Item} (hi : (l, i) ∈ itemsOf body) (he : (u, .stmt l) ∈ (build body).edges) (hw : s'.w = t'.w)
    (hd : ∀ y, s'.env y ≠ t'.env y → (s.env y ≠ t.env y ∧ y ∉ i.gen) ∨ (UN l = true ∧ y ∈ i.gen))
    (hg : ∀ x, Removed (UN) (itemsOf body) x → t'.env x = none)
    (hdom : ∀ x, ¬ Removed (UN) (itemsOf body) x → (s'.env x = none ↔ t'.env x = none)) :
    DR kind body D (.stmt l) s' t' where
  live := .step h.live he
  w := hw
  gone := hg
  dom := hdom
  diff := by
    intro y hy
    rcases hd y hy with ⟨h1, h2⟩ | ⟨h1, h2⟩
    · obtain ⟨l', a, b, c⟩ := h.diff y h1
      refine ⟨l', a, b, .through (live_edge h.live he) c ?_ (cut_stmt l y)⟩
      rw [genAt_eq hv hi]; exact h2
    · rw [← genAt_eq hv hi] at h2
      exact ⟨l, h1, h2, .here h2⟩

/-- A removed declaration stays out of the other body's state. -/
theorem removed_hidden (ht : Tame M body) {x : Var} (hr : Removed (UN) (itemsOf body) x) {l : Label} {i : Item}
    (hi : (l, i) ∈ itemsOf body) (hc : i.calls = true) : M.vis x = false := by
  obtain ⟨l0, i0, hi0, hd, _⟩ := hr
  refine ht.hidden ⟨l, i, hi, hc⟩ l0 i0 hi0 x ?_
  rcases hd with ⟨e, rfl⟩ | ⟨e, rfl, _⟩ <;> exact List.mem_singleton.2 rfl

/-- Evaluating an expression of a node that stays. -/
theorem DR.eval (hv : Valid kind body) (ht : Tame M body) (hD : Complete body D) {u : Node} {s t : State M}
    (h : DR kind body D u s t) {l : Label} {i : Item} (hi : (l, i) ∈ itemsOf body) (he : (u, .stmt l) ∈ (build body).edges)
    {e : Expr} (hn : ∀ y ∈ e.names, y ∈ i.read) (hc : e.hasCall = true → i.calls = true)
    (hk : UN l = false ∨ ∀ y ∈ e.names, y ∉ i.gen) {v : Int} {s1 : State M} (hev : Opt.eval e s = .val v s1) :
    ∃ t1, Opt.eval e t = .val v t1 ∧ s1.w = t1.w ∧ (∀ y, s1.env y ≠ t1.env y → s.env y ≠ t.env y) ∧
      (∀ x, Removed (UN) (itemsOf body) x → t1.env x = none) ∧
      (∀ x, ¬ Removed (UN) (itemsOf body) x → (s1.env x = none ↔ t1.env x = none)) := by
  obtain ⟨t1, h1, h2, h3⟩ := eval_agree e h.w
    (fun y hy => h.agree hv hD hi he (hn y hy) (hk.elim .inl fun hk => .inr (hk y hy)))
    (fun hcc y hy => h.visible ht hi (hc hcc) y hy) hev
  refine ⟨t1, h1, h2, fun y hy hh => hy (h3.eq hh), fun x hx => ?_, fun x hx => ?_⟩
  · rcases h3 x with ⟨_, b⟩ | ⟨a, b, _⟩
    · rw [b]; exact h.gone x hx
    · rw [removed_hidden ht hx hi (hc b)] at a; cases a
  · rcases h3 x with ⟨a, b⟩ | ⟨_, _, d⟩
    · rw [a, b]; exact h.dom x hx
    · rw [d]

/-- Both bodies write the variable. -/
theorem DR.both (hv : Valid kind body) {u : Node} {s t s1 t1 : State M} (h : DR kind body D u s t)
    {l : Label} {i : Item} (hi : (l, i) ∈ itemsOf body) (he : (u, .stmt l) ∈ (build body).edges) (hw : s1.w = t1.w)
    (hd : ∀ y, s1.env y ≠ t1.env y → s.env y ≠ t.env y)
    (hg : ∀ x, Removed (UN) (itemsOf body) x → t1.env x = none)
    (hdom : ∀ x, ¬ Removed (UN) (itemsOf body) x → (s1.env x = none ↔ t1.env x = none))
    {x : Var} (hx : i.gen = [x]) (hr : ¬ Removed (UN) (itemsOf body) x) (v : Int) :
    DR kind body D (.stmt l) (s1.set x v) (t1.set x v) := by
  refine h.step hv hi he hw ?_ ?_ ?_
  · intro y hy
    rw [set_env, set_env] at hy
    by_cases hyx : y = x
    · rw [if_pos hyx, if_pos hyx] at hy; exact absurd rfl hy
    · rw [if_neg hyx, if_neg hyx] at hy
      exact .inl ⟨hd y hy, by rw [hx, List.mem_singleton]; exact hyx⟩
  · intro y hy
    rw [set_env]
    by_cases hyx : y = x
    · subst hyx; exact absurd hy hr
    · rw [if_neg hyx]; exact hg y hy
  · intro y hy
    rw [set_env, set_env]
    by_cases hyx : y = x
    · rw [if_pos hyx, if_pos hyx]
    · rw [if_neg hyx, if_neg hyx]; exact hdom y hy

/-- Only the original body writes the variable. -/
theorem DR.lost (hv : Valid kind body) {u : Node} {s t : State M} (h : DR kind body D u s t)
    {l : Label} {i : Item} (hi : (l, i) ∈ itemsOf body) (he : (u, .stmt l) ∈ (build body).edges)
    {x : Var} (hx : i.gen = [x]) (hu : UN l = true) (hr : ¬ Removed (UN) (itemsOf body) x → s.env x ≠ none) (v : Int) :
    DR kind body D (.stmt l) (s.set x v) t := by
  refine h.step hv hi he h.w ?_ h.gone ?_
  · intro y hy
    rw [set_env] at hy
    by_cases hyx : y = x
    · exact .inr ⟨hu, by rw [hx, List.mem_singleton]; exact hyx⟩
    · rw [if_neg hyx] at hy
      exact .inl ⟨hy, by rw [hx, List.mem_singleton]; exact hyx⟩
  · intro y hy
    rw [set_env]
    by_cases hyx : y = x
    · subst hyx
      rw [if_pos rfl]
      constructor
      · intro hh; cases hh
      · intro hh; exact absurd ((h.dom y hy).2 hh) (hr hy)
    · rw [if_neg hyx]; exact h.dom y hy

/-- Nothing written. -/
theorem DR.none (hv : Valid kind body) {u : Node} {s t s1 t1 : State M} (h : DR kind body D u s t)
    {l : Label} {i : Item} (hi : (l, i) ∈ itemsOf body) (he : (u, .stmt l) ∈ (build body).edges) (hw : s1.w = t1.w)
    (hd : ∀ y, s1.env y ≠ t1.env y → s.env y ≠ t.env y)
    (hg : ∀ x, Removed (UN) (itemsOf body) x → t1.env x = Option.none)
    (hdom : ∀ x, ¬ Removed (UN) (itemsOf body) x → (s1.env x = Option.none ↔ t1.env x = Option.none))
    (hx : i.gen = []) : DR kind body D (.stmt l) s1 t1 := by
  refine h.step hv hi he hw (fun y hy => .inl ⟨hd y hy, ?_⟩) hg hdom
  rw [hx]; intro hh; cases hh

/-- The declaration of a node that stays is not removed. -/
theorem declared_not_removed (hv : Valid kind body) {l : Label} {i : Item} (hi : (l, i) ∈ itemsOf body) {x : Var}
    (hx : i.declares = some x) (hn : ¬ (((∃ e, i = Item.decl x e) ∨ ∃ e, i = Item.init x e ∧ e.harmless = true) ∧ UN l = true)) :
    ¬ Removed (UN) (itemsOf body) x := by
  rintro ⟨l0, i0, hi0, hd, hu⟩
  have h0 : i0.declares = some x := by
    rcases hd with ⟨e, rfl⟩ | ⟨e, rfl, _⟩ <;> rfl
  obtain ⟨rfl, rfl⟩ := decl_unique hv.once hi hi0 hx h0
  exact hn ⟨hd, hu⟩

/-! ## Node by node -/

theorem dce_decls_stmt (un : Label → Bool) (st st' : Stmt) (h : (dceRw un).atom st = some st') : ∀ x ∈ st'.decls, x ∈ st.decls := by
  intro x hx
  cases st with
  | decl l y i =>
    simp only [dceRw] at h
    split at h
    · cases i with
      | none => cases h
      | some e => cases h; simp [Stmt.decls] at hx
    · cases h; exact hx
  | assign l y e =>
    simp only [dceRw] at h
    split at h <;> cases h
    · simp [Stmt.decls] at hx
    · exact hx
  | expr l e =>
    simp only [dceRw] at h
    split at h <;> cases h
    exact hx
  | _ => simp only [dceRw] at h; cases h; exact hx

theorem dce_decls_init (un : Label → Bool) (i : Label × Var × Expr) : ∀ x ∈ initVars ((dceRw un).init i), x ∈ initVars (some i) := by
  intro x hx
  simp only [dceRw] at hx
  split at hx
  · cases hx
  · exact hx

mutual
/-- A declaration that disappears was removed. -/
theorem dce_lost_stmt (un : Label → Bool) (its : List (Label × Item)) : ∀ st : Stmt, (∀ i ∈ st.items, i ∈ its) → ∀ x ∈ st.decls,
    x ∈ declsOf ((dceRw un).stmt st) ∨ Removed un its x
  | .decl l y i => fun hi x hx => by
    simp only [Stmt.decls, List.mem_singleton] at hx
    subst hx
    by_cases hu : un l = true
    · exact .inr ⟨l, _, hi _ (List.mem_singleton.2 rfl), .inl ⟨i, rfl⟩, hu⟩
    · left; simp [Rw.stmt, dceRw, hu, declsOf, Stmt.decls]
  | .assign .. => fun _ x hx => by simp [Stmt.decls] at hx
  | .expr .. => fun _ x hx => by simp [Stmt.decls] at hx
  | .callRef .. => fun _ x hx => by simp [Stmt.decls] at hx
  | .ret .. => fun _ x hx => by simp [Stmt.decls] at hx
  | .throw_ .. => fun _ x hx => by simp [Stmt.decls] at hx
  | .brk => fun _ x hx => by simp [Stmt.decls] at hx
  | .cont => fun _ x hx => by simp [Stmt.decls] at hx
  | .block b => fun hi x hx => by
    rcases dce_lost_list un its b hi x hx with h | h
    · left; simp only [Rw.stmt, declsOf, Stmt.decls, List.append_nil]; exact h
    · exact .inr h
  | .ite l i c t h e => fun hi x hx => by
    simp only [Stmt.items, List.mem_append, List.mem_cons] at hi
    simp only [Stmt.decls, List.mem_append] at hx
    have hr : ∀ y, y ∈ initVars (i.bind (dceRw un).init) ∨ y ∈ declsOf ((dceRw un).list t) ∨
        y ∈ (if h then declsOf ((dceRw un).list e) else []) → y ∈ declsOf ((dceRw un).stmt (.ite l i c t h e)) := by
      intro y hy
      have : (dceRw un).gone l = false := rfl
      simp only [Rw.stmt, this, Bool.false_eq_true, if_false, declsOf, Stmt.decls, List.append_nil, List.mem_append]
      rcases hy with hy | hy | hy
      · exact .inl (.inl hy)
      · exact .inl (.inr hy)
      · exact .inr hy
    rcases hx with (hx | hx) | hx
    · cases i with
      | none => cases hx
      | some i =>
        obtain ⟨li, y, ei⟩ := i
        cases List.mem_singleton.1 hx
        by_cases hu : (un li && ei.harmless) = true
        · rw [Bool.and_eq_true] at hu
          exact .inr ⟨li, _, hi _ (.inl (List.mem_singleton.2 rfl)), .inr ⟨ei, rfl, hu.2⟩, hu.1⟩
        · left; apply hr; left
          rw [Bool.not_eq_true] at hu
          simp only [dceRw, Option.bind, hu, Bool.false_eq_true, if_false, initVars, List.mem_singleton]
    · rcases dce_lost_list un its t (fun j hj => hi j (.inr (.inr (.inl hj)))) x hx with h' | h'
      · exact .inl (hr x (.inr (.inl h')))
      · exact .inr h'
    · cases h with
      | false => cases hx
      | true =>
        rcases dce_lost_list un its e (fun j hj => hi j (.inr (.inr (.inr hj)))) x hx with h' | h'
        · exact .inl (hr x (.inr (.inr h')))
        · exact .inr h'
  | .while_ l i c t h e => fun hi x hx => by
    simp only [Stmt.items, List.mem_append, List.mem_cons] at hi
    simp only [Stmt.decls, List.mem_append] at hx
    have hr : ∀ y, y ∈ initVars (i.bind (dceRw un).init) ∨ y ∈ declsOf ((dceRw un).list t) ∨
        y ∈ (if h then declsOf ((dceRw un).list e) else []) → y ∈ declsOf ((dceRw un).stmt (.while_ l i c t h e)) := by
      intro y hy
      have : (dceRw un).gone l = false := rfl
      simp only [Rw.stmt, this, Bool.false_eq_true, if_false, declsOf, Stmt.decls, List.append_nil, List.mem_append]
      rcases hy with hy | hy | hy
      · exact .inl (.inl hy)
      · exact .inl (.inr hy)
      · exact .inr hy
    rcases hx with (hx | hx) | hx
    · cases i with
      | none => cases hx
      | some i =>
        obtain ⟨li, y, ei⟩ := i
        cases List.mem_singleton.1 hx
        by_cases hu : (un li && ei.harmless) = true
        · rw [Bool.and_eq_true] at hu
          exact .inr ⟨li, _, hi _ (.inl (List.mem_singleton.2 rfl)), .inr ⟨ei, rfl, hu.2⟩, hu.1⟩
        · left; apply hr; left
          rw [Bool.not_eq_true] at hu
          simp only [dceRw, Option.bind, hu, Bool.false_eq_true, if_false, initVars, List.mem_singleton]
    · rcases dce_lost_list un its t (fun j hj => hi j (.inr (.inr (.inl hj)))) x hx with h' | h'
      · exact .inl (hr x (.inr (.inl h')))
      · exact .inr h'
    · cases h with
      | false => cases hx
      | true =>
        rcases dce_lost_list un its e (fun j hj => hi j (.inr (.inr (.inr hj)))) x hx with h' | h'
        · exact .inl (hr x (.inr (.inr h')))
        · exact .inr h'
  | .for_ l lx y q b => fun hi x hx => by
    simp only [Stmt.items, List.mem_cons] at hi
    simp only [Stmt.decls, List.mem_cons] at hx
    have hr : ∀ z, z = y ∨ z ∈ declsOf ((dceRw un).list b) → z ∈ declsOf ((dceRw un).stmt (.for_ l lx y q b)) := by
      intro z hz
      have : (dceRw un).gone l = false := rfl
      simp only [Rw.stmt, this, Bool.false_eq_true, if_false, declsOf, Stmt.decls, List.append_nil, List.mem_cons]
      exact hz
    rcases hx with hx | hx
    · exact .inl (hr x (.inl hx))
    · rcases dce_lost_list un its b (fun j hj => hi j (.inr (.inr hj))) x hx with h' | h'
      · exact .inl (hr x (.inr h'))
      · exact .inr h'
  | .try_ b c => fun hi x hx => by
    simp only [Stmt.items, List.mem_append] at hi
    simp only [Stmt.decls, List.mem_append] at hx
    simp only [Rw.stmt, declsOf, Stmt.decls, List.append_nil, List.mem_append]
    rcases hx with hx | hx
    · rcases dce_lost_list un its b (fun j hj => hi j (.inl hj)) x hx with h' | h'
      · exact .inl (.inl h')
      · exact .inr h'
    · rcases dce_lost_list un its c (fun j hj => hi j (.inr hj)) x hx with h' | h'
      · exact .inl (.inr h')
      · exact .inr h'
theorem dce_lost_list (un : Label → Bool) (its : List (Label × Item)) : ∀ b : List Stmt, (∀ i ∈ itemsOf b, i ∈ its) →
    ∀ x ∈ declsOf b, x ∈ declsOf ((dceRw un).list b) ∨ Removed un its x
  | [] => fun _ x hx => by cases hx
  | s :: r => fun hi x hx => by
    simp only [itemsOf, List.mem_append] at hi
    simp only [declsOf, List.mem_append] at hx
    simp only [Rw.list]
    have happ : ∀ a b : List Stmt, declsOf (a ++ b) = declsOf a ++ declsOf b := by
      intro a b
      induction a with
      | nil => rfl
      | cons z a ih => simp only [List.cons_append, declsOf, ih, List.append_assoc]
    rw [happ, List.mem_append]
    rcases hx with hx | hx
    · rcases dce_lost_stmt un its s (fun j hj => hi j (.inl hj)) x hx with h | h
      · exact .inl (.inl h)
      · exact .inr h
    · rcases dce_lost_list un its r (fun j hj => hi j (.inr hj)) x hx with h | h
      · exact .inl (.inr h)
      · exact .inr h
end

theorem DR.drop {u : Node} {s t : State M} (h : DR kind body D u s t) (vs ws : List Var)
    (h1 : ∀ x ∈ vs, x ∈ ws ∨ Removed (UN) (itemsOf body) x) (h2 : ∀ x ∈ ws, x ∈ vs) :
    DR kind body D u (s.drop vs) (t.drop ws) where
  live := h.live
  w := h.w
  diff := by
    intro x hx
    rw [drop_env, drop_env] at hx
    by_cases hv : x ∈ vs
    · rw [if_pos hv] at hx
      rcases h1 x hv with hw | hr
      · rw [if_pos hw] at hx; exact absurd rfl hx
      · split at hx
        · exact absurd rfl hx
        · rw [h.gone x hr] at hx; exact absurd rfl hx
    · rw [if_neg hv, if_neg (fun hh => hv (h2 x hh))] at hx
      exact h.diff x hx
  gone := by
    intro x hx
    rw [drop_env]
    split
    · rfl
    · exact h.gone x hx
  dom := by
    intro x hx
    rw [drop_env, drop_env]
    by_cases hv : x ∈ vs
    · rcases h1 x hv with hw | hr
      · rw [if_pos hv, if_pos hw]
      · exact absurd hr hx
    · rw [if_neg hv, if_neg (fun hh => hv (h2 x hh))]; exact h.dom x hx

/-- Variables that live on are the same at every `End` node. -/
theorem DR.outside (hD : Complete body D) {u k : Node} {sc : List Stmt} {s t : State M} (h : DR kind body D u s t)
    (he : (u, k) ∈ (build body).edges) (hk : (k, sc) ∈ (build body).scopes) : SameOutside kind s t := by
  refine ⟨h.w, fun x hx => ?_⟩
  apply Classical.byContradiction
  intro hne
  obtain ⟨l, h1, _, h3⟩ := h.diff x hne
  have hin := hD k (x, .stmt l) ⟨u, live_edge h.live he, h3⟩
  have hu := unused_end h1
  have : usedAtEnd kind ((build body).scopes.map Prod.fst) D l = true := by
    unfold usedAtEnd
    rw [List.any_eq_true]
    refine ⟨k, List.mem_map.2 ⟨_, hk, rfl⟩, ?_⟩
    rw [List.any_eq_true]
    exact ⟨_, hin, by simp [hx]⟩
  rw [this] at hu; cases hu

theorem fin_scope (body : List Stmt) : (Node.fin, body) ∈ (build body).scopes := by
  unfold build
  dsimp only
  refine ((addSeq_le _ _ _ _ _).edge _ _ |>.edge _ _).2 _ ?_
  exact List.mem_append_left _ (List.mem_singleton.2 rfl)

theorem dce_atom (hv : Valid kind body) (ht : Tame M body) (hD : Complete body D) (st : Stmt) (v : Int) (s s' t : State M)
    (ha : st.isAtom = true) (hi : ∀ i ∈ st.items, i ∈ itemsOf body)
    (harr : Arrives (build body) (DR kind body D) (.stmt st.label) s t) (h : atom st s = .val v s') :
    match (dceRw (UN)).atom st with
      | some st' => st'.isAtom = true ∧ ∃ v' t', Opt.atom st' t = .val v' t' ∧ DR kind body D (.stmt st.label) s' t'
      | none => DR kind body D (.stmt st.label) s' t := by
  obtain ⟨u, -, he, hr⟩ := harr
  cases st with
  | decl l x i =>
    have hit : (l, Item.decl x i) ∈ itemsOf body := hi _ (List.mem_singleton.2 rfl)
    cases i with
    | none =>
      simp only [atom] at h
      cases h
      cases hu : UN l with
      | true =>
        simp only [dceRw, hu, if_true, Option.map]
        exact hr.lost hv hit he rfl hu (fun hh => absurd ⟨l, _, hit, .inl ⟨_, rfl⟩, hu⟩ hh) 0
      | false =>
        simp only [dceRw, hu, Bool.false_eq_true, if_false]
        exact ⟨rfl, 0, _, rfl, hr.both hv hit he hr.w (fun _ hh => hh) hr.gone hr.dom rfl
          (declared_not_removed hv hit rfl (fun hh => by rw [hu] at hh; cases hh.2)) 0⟩
    | some e =>
      simp only [atom] at h
      obtain ⟨v1, s1, hev, h⟩ := then_val h
      cases h
      have hns := hv.noSelf l x e (.inl hit)
      obtain ⟨t1, g1, g2, g3, g4, g5⟩ := hr.eval hv ht hD hit he (fun y hy => hy) (fun hh => hh)
        (.inr fun y hy hh => hns (by cases List.mem_singleton.1 hh; exact hy)) hev
      cases hu : UN l with
      | true =>
        simp only [dceRw, hu, if_true, Option.map]
        have hp : e.hasCall = false := unused_keep hv hit hu
        cases eval_pure e hp hev
        cases eval_pure e hp g1
        exact ⟨rfl, v1, _, g1, hr.lost hv hit he rfl hu (fun hh => absurd ⟨l, _, hit, .inl ⟨_, rfl⟩, hu⟩ hh) v1⟩
      | false =>
        simp only [dceRw, hu, Bool.false_eq_true, if_false]
        refine ⟨rfl, 0, t1.set x v1, ?_, hr.both hv hit he g2 g3 g4 g5 rfl
          (declared_not_removed hv hit rfl (fun hh => by rw [hu] at hh; cases hh.2)) v1⟩
        simp only [atom, g1, Ev.then]
  | assign l x e =>
    have hit : (l, Item.assign x e) ∈ itemsOf body := hi _ (List.mem_singleton.2 rfl)
    have hnr : ¬ Removed (UN) (itemsOf body) x := not_removed hv hit (List.mem_singleton.2 rfl)
    simp only [atom] at h
    obtain ⟨v1, s1, hev, h⟩ := then_val h
    cases hx : s1.env x with
    | none => rw [hx] at h; cases h
    | some old =>
      rw [hx] at h
      cases h
      cases hu : UN l with
      | true =>
        simp only [dceRw, hu, if_true]
        have hp : e.hasCall = false := unused_keep hv hit hu
        cases eval_pure e hp hev
        have hl := hr.lost hv hit he rfl hu (fun _ => by rw [hx]; intro hh; cases hh) v1
        by_cases hself : x ∈ e.names
        · obtain ⟨a1, a2⟩ := eval_total e (ht.total l x e hit hself)
          obtain ⟨-, hdef⟩ := a1 _ _ _ hev
          have hdef' : ∀ y ∈ e.names, t.env y ≠ none := by
            intro y hy
            by_cases hyx : y = x
            · subst hyx
              intro hh
              rw [(hr.dom y hnr).2 hh] at hx; cases hx
            · have := hr.agree hv hD hit he (y := y) hy (.inr (by
                show y ∉ [x]
                rw [List.mem_singleton]; exact hyx))
              rw [← this]; exact hdef y hy
          obtain ⟨v2, hev2⟩ := a2 t hdef'
          exact ⟨rfl, v2, t, hev2, hl⟩
        · obtain ⟨t1, g1, -⟩ := hr.eval hv ht hD hit he (e := e) (fun y hy => hy) (fun hh => hh)
            (.inr fun y hy hh => hself (by cases List.mem_singleton.1 hh; exact hy)) hev
          cases eval_pure e hp g1
          exact ⟨rfl, v1, _, g1, hl⟩
      | false =>
        simp only [dceRw, hu, Bool.false_eq_true, if_false]
        obtain ⟨t1, g1, g2, g3, g4, g5⟩ := hr.eval hv ht hD hit he (e := e) (fun y hy => hy) (fun hh => hh) (.inl hu) hev
        have htx : t1.env x ≠ none := fun hh => by rw [(g5 x hnr).2 hh] at hx; cases hx
        refine ⟨rfl, 0, t1.set x v1, ?_, hr.both hv hit he g2 g3 g4 g5 rfl hnr v1⟩
        simp only [atom, g1, Ev.then]
        cases ht1 : t1.env x with
        | none => exact absurd ht1 htx
        | some _ => rfl
  | expr l e =>
    have hit : (l, Item.expr e) ∈ itemsOf body := hi _ (List.mem_singleton.2 rfl)
    simp only [atom] at h
    cases hu : UN l with
    | true =>
      simp only [dceRw, hu, if_true]
      have hk := unused_keep hv hit hu
      simp only [Item.keep, Bool.or_eq_false_iff] at hk
      cases eval_pure e hk.1 h
      exact hr.none hv hit he hr.w (fun _ hh => hh) hr.gone hr.dom rfl
    | false =>
      simp only [dceRw, hu, Bool.false_eq_true, if_false]
      obtain ⟨t1, g1, g2, g3, g4, g5⟩ := hr.eval hv ht hD hit he (e := e) (fun y hy => hy) (fun hh => hh) (.inl hu) h
      exact ⟨rfl, v, t1, g1, hr.none hv hit he g2 g3 g4 g5 rfl⟩
  | callRef l f x =>
    have hit : (l, Item.callRef x) ∈ itemsOf body := hi _ (List.mem_singleton.2 rfl)
    have hnr : ¬ Removed (UN) (itemsOf body) x := not_removed hv hit (List.mem_singleton.2 rfl)
    have hu : UN l = false := by
      cases hu : UN l with
      | false => rfl
      | true => have := unused_keep hv hit hu; cases this
    have hx := hr.agree hv hD hit he (y := x) (List.mem_singleton.2 rfl) (.inl hu)
    have hseen : s.seen = t.seen := seen_eq fun y hy => hr.visible ht hit rfl y hy
    simp only [dceRw]
    simp only [atom] at h ⊢
    rw [← hx, ← hr.w, ← hseen]
    cases hs : s.env x with
    | none => rw [hs] at h; cases h
    | some o =>
      rw [hs] at h
      dsimp only at h ⊢
      have hm := moved_back (s := s) (t := t) (M.cref f o s.w s.seen).2.2.1 (M.cref f o s.w s.seen).2.2.1
        (M.cref f o s.w s.seen).2.2.2
      split at h
      · rename_i hok
        cases h
        rw [if_pos hok]
        refine ⟨rfl, 0, _, rfl, hr.both (s1 := s.back _ _) (t1 := t.back _ _) hv hit he rfl ?_ ?_ ?_ rfl hnr _⟩
        · exact fun y hy hh => hy (hm.eq hh)
        · intro y hy
          rcases hm y with ⟨_, b⟩ | ⟨a, _, _⟩
          · rw [b]; exact hr.gone y hy
          · rw [removed_hidden ht hy hit rfl] at a; cases a
        · intro y hy
          rcases hm y with ⟨a, b⟩ | ⟨_, _, d⟩
          · rw [a, b]; exact hr.dom y hy
          · rw [d]
      · cases h
  | _ => cases ha

theorem dce_simulates (hv : Valid kind body) (ht : Tame M body) (hD : Complete body D) :
    Simulates false false false body (build body) (dceRw (UN)) (DR (M := M) kind body D) (SameOutside kind) (fun _ _ => False) where
  atom := fun st v s s' t ha hi harr _ h => dce_atom hv ht hD st v s s' t ha hi harr h
  cond := by
    rintro l c v s s' t hit ⟨u, -, he, hr⟩ h
    have hu : UN l = false := by
      cases hu : UN l with
      | false => rfl
      | true => have := unused_keep hv hit hu; cases this
    obtain ⟨t1, g1, g2, g3, g4, g5⟩ := hr.eval hv ht hD hit he (e := c) (fun y hy => hy) (fun hh => hh) (.inl hu) h
    exact ⟨t1, g1, hr.none hv hit he g2 g3 g4 g5 rfl⟩
  ret := by
    rintro l c v s s' t hit ⟨u, -, he, hr⟩ h
    have hu : UN l = false := by
      cases hu : UN l with
      | false => rfl
      | true => have := unused_keep hv hit hu; cases this
    obtain ⟨t1, g1, g2, g3, g4, g5⟩ := hr.eval hv ht hD hit he (e := c) (fun y hy => hy) (fun hh => hh) (.inl hu) h
    exact ⟨t1, g1, hr.none hv hit he g2 g3 g4 g5 rfl⟩
  retNone := by
    rintro l s t hit ⟨u, -, he, hr⟩
    exact hr.none hv hit he hr.w (fun _ hh => hh) hr.gone hr.dom rfl
  gone := fun _ _ _ _ => rfl
  init := by
    rintro l x e v s s' t hit ⟨u, -, he, hr⟩ h
    simp only [initStep] at h
    obtain ⟨v1, s1, hev, h⟩ := then_val h
    cases h
    have hns := hv.noSelf l x e (.inr hit)
    obtain ⟨t1, g1, g2, g3, g4, g5⟩ := hr.eval hv ht hD hit he (fun y hy => hy) (fun hh => hh)
      (.inr fun y hy hh => hns (by cases List.mem_singleton.1 hh; exact hy)) hev
    cases hu : (UN l && e.harmless) with
    | true =>
      simp only [dceRw, hu, if_true, initStep]
      rw [Bool.and_eq_true] at hu
      have hp : e.hasCall = false := unused_keep hv hit hu.1
      cases eval_pure e hp hev
      exact ⟨0, t, rfl, hr.lost hv hit he rfl hu.1 (fun hh => absurd ⟨l, _, hit, .inr ⟨_, rfl, hu.2⟩, hu.1⟩ hh) v1⟩
    | false =>
      simp only [dceRw, hu, Bool.false_eq_true, if_false, initStep]
      refine ⟨0, t1.set x v1, ?_, hr.both hv hit he g2 g3 g4 g5 rfl
        (declared_not_removed hv hit rfl ?_) v1⟩
      · simp only [g1, Ev.then]
      · rintro ⟨hh | ⟨e', hh, hh2⟩, hh3⟩
        · obtain ⟨e', hh⟩ := hh; cases hh
        · cases hh; rw [hh2, hh3] at hu; cases hu
  initDrop := by
    intro u l x e s t hit hr
    simp only [dceRw]
    split
    · rename_i hu
      rw [Bool.and_eq_true] at hu
      refine hr.drop _ _ (fun y hy => .inr ?_) (fun y hy => by cases hy)
      cases List.mem_singleton.1 hy
      exact ⟨l, _, hit, .inr ⟨_, rfl, hu.2⟩, hu.1⟩
    · exact hr.drop _ _ (fun y hy => .inl hy) (fun y hy => hy)
  forVar := by
    rintro l x v s t hit ⟨u, -, he, hr⟩
    exact hr.both hv hit he hr.w (fun _ hh => hh) hr.gone hr.dom rfl (declared_not_removed hv hit rfl (by
      rintro ⟨⟨e, hh⟩ | ⟨e, hh, _⟩, _⟩ <;> cases hh)) v
  pass := by
    rintro l c s t hit ⟨u, -, he, hr⟩
    exact hr.none hv hit he hr.w (fun _ hh => hh) hr.gone hr.dom rfl
  scopeEnd := by
    rintro k sc s t hk ⟨u, -, he, hr⟩
    have hsub := (build_sc body).items _ hk
    have hd := hr.drop (declsOf sc) (declsOf ((dceRw (UN)).list sc)) (dce_lost_list _ _ sc hsub)
      (Rw.list_decls _ (dce_decls_stmt _) (dce_decls_init _) sc)
    refine ⟨.step hr.live he, hd.w, fun x hx => ?_, hd.gone, hd.dom⟩
    obtain ⟨l, a, b, c⟩ := hd.diff x hx
    refine ⟨l, a, b, .through (live_edge hr.live he) c ?_ (cut_scope hk ?_)⟩
    · rw [gen_scope hk]; intro hh; cases hh
    · intro hxs
      rw [drop_env, drop_env, if_pos hxs] at hx
      rcases dce_lost_list (UN) _ sc hsub x hxs with hw | hw
      · rw [if_pos hw] at hx; exact hx rfl
      · split at hx
        · exact hx rfl
        · rw [hr.gone x hw] at hx; exact hx rfl
  flow := by
    rintro k s t ⟨u, -, he, hr⟩
    refine ⟨.step hr.live he, hr.w, fun x hx => ?_, hr.gone, hr.dom⟩
    obtain ⟨l, a, b, c⟩ := hr.diff x hx
    exact ⟨l, a, b, .through (live_edge hr.live he) c (by intro hh; cases hh) (cut_flow k x)⟩
  obsFin := by
    rintro s t ⟨u, -, he, hr⟩
    exact hr.outside hD he (fin_scope body)
  obsThrow := by
    rintro k sc s t hk ⟨u, -, he, hr⟩
    exact hr.outside hD he hk
  obsDrop := by
    intro vs ws s t h1 h2 h
    refine ⟨h.1, fun x hx => ?_⟩
    have hnd : x ∉ declsOf body := fun hh => by rw [hv.locals x hh] at hx; cases hx
    rw [drop_env, drop_env, if_neg (fun hh => hnd (h1 x hh)), if_neg (fun hh => hnd (h2 x hh))]
    exact h.2 x hx
  atomDecls := dce_decls_stmt _
  initDecls := dce_decls_init _
  esc := by intro h; cases h
  escScope := fun _ _ _ _ _ h => h
  escInit := fun _ _ _ _ _ _ h => h
  jump := fun _ _ _ _ _ _ h => h.elim
  atomX := by intro h; cases h
  condX := by intro h; cases h
  retX := by intro h; cases h
  initX := by intro h; cases h
  goneX := by intro h; cases h

/-- The dataflow loop finds every fact. -/
theorem dataflow_complete {order : List Node} (hc : Covers (edges body) (genAt (itemsOf body)) order) {k : Nat}
    (h : dataflow body order k = some D) : Complete body D := by
  intro n f hr
  obtain ⟨u, hu, hf⟩ := hr
  exact ((flow_exact _ _ _ order hc k D h n f).1 (hc.1 _ _ hu).2).2 ⟨u, hu, hf⟩

/-- **Removing unused statements preserves behaviour**: whatever a body does - end normally, `return` a value, throw - the body
    after the pass does the same, with the same effects on the world, `inout` parameters and globals. The dataflow may have been
    computed in any order of the nodes. Not covered: exceptions out of operators and callees, `break`, `continue`, `try`. -/
theorem dead_store_removal_partial (hv : Valid kind body) (hp : plainAll false body = true) (ht : Tame M body)
    (order : List Node) (hc : Covers (edges body) (genAt (itemsOf body)) order) (k : Nat) (hD : dataflow body order k = some D)
    (s s' : State M) (o : Out) (hs : ∀ x ∈ declsOf body, s.env x = none) (h : Runs body s o s') (ho : o ≠ .exn false) :
    ∃ t', Runs (dce kind D body) s o t' ∧ SameOutside kind s' t' := by
  have hst : DR kind body D .start s s := by
    refine ⟨.start, rfl, fun x hx => absurd rfl hx, fun x hx => ?_, fun _ _ => Iff.rfl⟩
    obtain ⟨l, i, hi, hd, _⟩ := hx
    refine hs x (mem_decls.2 ⟨l, i, hi, ?_⟩)
    rcases hd with ⟨e, rfl⟩ | ⟨e, rfl, _⟩ <;> rfl
  obtain ⟨t', h1, h2⟩ := simulation_run (dce_simulates hv ht (dataflow_complete hc hD)) hp h (fun hh => absurd hh ho) hst (NewC.off _ _)
  refine ⟨t', h1, ?_⟩
  cases o with
  | normal => exact h2
  | brk => exact h2.elim
  | cont => exact h2.elim
  | ret v => exact h2
  | exn v => exact h2

end
end Verif.Opt
