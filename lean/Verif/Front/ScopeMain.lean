import Verif.Front.ScopeProps
/-! # All names in a body -/

namespace Verif.Front.Scope

/-! ### Redefinitions -/

theorem noRedefinition_iff : ∀ s : Scope, noRedefinition s = true ↔ (s.map Entry.key).Nodup
  | [] => by simp [noRedefinition]
  | e :: s => by
    simp only [noRedefinition, Bool.and_eq_true, List.all_eq_true, bne_iff_ne, ne_eq, List.map_cons, List.nodup_cons, List.mem_map,
      noRedefinition_iff s]
    exact and_congr ⟨fun h ⟨e', he, ee⟩ => h e' he ee, fun h e' he ee => h ⟨e', he, ee⟩⟩ Iff.rfl

theorem entries_keys : ∀ (b : Stmts) (i : Nat), (b.entries i).map Entry.key = b.decls.map fun d => [d.name]
  | .nil, _ => rfl
  | .cons s b, i => by
    have ih := entries_keys b (i + 1)
    cases s <;> simp only [Stmts.entries, Stmts.decls, List.map_cons, ih]

theorem plain_keys (ds : List Decl) : (plain ds).map Entry.key = ds.map fun d => [d.name] := by
  simp [plain]

theorem nodup_names (ds : List Decl) : (ds.map fun d => [d.name]).Nodup ↔ Distinct ds := by
  rw [Distinct, ← nodup_single, List.map_map]; rfl

theorem blockScope_iff (extra : List Decl) (b : Stmts) : noRedefinition (blockScope extra b) = true ↔ Distinct (extra ++ b.decls) := by
  rw [noRedefinition_iff, blockScope, List.map_append, plain_keys, entries_keys, ← List.map_append, nodup_names]

theorem plain_iff (ds : List Decl) : noRedefinition (plain ds) = true ↔ Distinct ds := by
  rw [noRedefinition_iff, plain_keys, nodup_names]

mutual
theorem Stmt.validated_iff : ∀ s : Stmt, s.validated = true ↔ s.Once
  | .expr _ => by simp [Stmt.validated, Stmt.Once]
  | .decl _ _ => by simp [Stmt.validated, Stmt.Once]
  | .block b => by
    simp only [Stmt.validated, Stmt.Once, Bool.and_eq_true, blockScope_iff, Stmts.validated_iff b, List.nil_append]
  | .if_ _ t e => by
    simp only [Stmt.validated, Stmt.Once, Bool.and_eq_true, blockScope_iff, Stmts.validated_iff t, Stmts.validated_iff e, List.nil_append]
  | .ifInit d _ _ t e => by
    simp only [Stmt.validated, Stmt.Once, Bool.and_eq_true, blockScope_iff, Stmts.validated_iff t, Stmts.validated_iff e, List.singleton_append]
  | .while_ _ b e => by
    simp only [Stmt.validated, Stmt.Once, Bool.and_eq_true, blockScope_iff, Stmts.validated_iff b, Stmts.validated_iff e, List.nil_append]
  | .whileInit d _ _ b e => by
    simp only [Stmt.validated, Stmt.Once, Bool.and_eq_true, blockScope_iff, Stmts.validated_iff b, Stmts.validated_iff e, List.singleton_append]
  | .for_ d _ b => by
    simp only [Stmt.validated, Stmt.Once, Bool.and_eq_true, blockScope_iff, Stmts.validated_iff b, List.singleton_append]
  | .switch_ d _ cs => by simp only [Stmt.validated, Stmt.Once, Cases.validated_iff d cs]
  | .try_ b cs => by
    simp only [Stmt.validated, Stmt.Once, Bool.and_eq_true, blockScope_iff, Stmts.validated_iff b, Catches.validated_iff cs, List.nil_append]
theorem Stmts.validated_iff : ∀ b : Stmts, b.validated = true ↔ b.Once
  | .nil => by simp [Stmts.validated, Stmts.Once]
  | .cons s b => by simp only [Stmts.validated, Stmts.Once, Bool.and_eq_true, Stmt.validated_iff s, Stmts.validated_iff b]
theorem Cases.validated_iff (d : Decl) : ∀ cs : Cases, cs.validated d = true ↔ cs.Once d
  | .nil => by simp [Cases.validated, Cases.Once]
  | .cons _ b cs => by
    simp only [Cases.validated, Cases.Once, Bool.and_eq_true, blockScope_iff, Stmts.validated_iff b, Cases.validated_iff d cs, List.singleton_append]
theorem Catches.validated_iff : ∀ cs : Catches, cs.validated = true ↔ cs.Once
  | .nil => by simp [Catches.validated, Catches.Once]
  | .cons _ b cs => by
    simp only [Catches.validated, Catches.Once, Bool.and_eq_true, blockScope_iff, Stmts.validated_iff b, Catches.validated_iff cs, List.nil_append]
end

theorem modules_iff (ms : List Module) :
    ((List.range ms.length).all fun m => noRedefinition (moduleScope ms m)) = true ↔ ∀ M ∈ ms, ModuleOnce ms M := by
  rw [List.all_eq_true]
  have one : ∀ m M, ms[m]? = some M → (noRedefinition (moduleScope ms m) = true ↔ ModuleOnce ms M) := by
    intro m M h
    rw [noRedefinition_iff, moduleScope_keys h, nodup_single]; rfl
  constructor
  · intro h M hM
    obtain ⟨m, hm⟩ := List.getElem?_of_mem hM
    exact (one m M hm).mp (h m (List.mem_range.mpr (List.getElem?_eq_some_iff.mp hm).1))
  · intro h m hm
    have hm := List.mem_range.mp hm
    exact (one m ms[m] (List.getElem?_eq_getElem hm)).mpr (h _ (List.getElem_mem hm))

/-- **What is rejected**: exactly the programs in which a name is declared twice in the same place. -/
theorem validated_iff (ms : List Module) (c : Context) (params : List Decl) (b : Stmts) :
    validated ms c params b = true ↔ Once ms c params b := by
  simp only [validated, Once, Bool.and_eq_true, blockScope_iff, Stmts.validated_iff b, List.all_eq_true, plain_iff,
    List.mem_append]
  have hm := modules_iff ms
  rw [List.all_eq_true] at hm
  constructor
  · rintro ⟨⟨⟨⟨h1, h2⟩, h3⟩, h4⟩, h5⟩
    refine ⟨h1, ?_, hm.mp h5⟩
    rintro ds ((h | h) | h)
    · exact h2 ds h
    · cases hu : c.unit with
      | none => rw [hu] at h; cases h
      | some u =>
        rw [hu] at h h3
        rw [List.mem_singleton.mp h]
        exact (plain_iff u).mp h3
    · exact h4 ds h
  · rintro ⟨h1, h2, h5⟩
    refine ⟨⟨⟨⟨h1, fun ds h => h2 ds (Or.inl (Or.inl h))⟩, ?_⟩, fun ds h => h2 ds (Or.inr h)⟩, hm.mpr h5⟩
    cases hu : c.unit with
    | none => rfl
    | some u => exact (plain_iff u).mpr (h2 u (Or.inl (Or.inr (by rw [hu]; exact List.mem_singleton.mpr rfl))))

/-! ### Names -/

def res (ms : List Module) (pf : Path × List Frame) : Path × Option Target := (pf.1, toOption (lookup ms pf.2 false pf.1))

theorem expr_names (ms : List Module) (m : Nat) : ∀ (e : Expr) (xs : List Name) (fs : List Frame) (env : List Decl), Inv ms m xs fs env → e.Ok xs →
    (e.places fs).map (res ms) = e.mean ms m env
  | .use p, xs, fs, env, h, ok => by
    simp only [Expr.places, List.map_cons, List.map_nil, res, Expr.mean, h.use ok.1 ok.2]
  | .lit, _, _, _, _, _ => rfl
  | .pair a b, xs, fs, env, h, ok => by
    simp only [Expr.places, List.map_append, Expr.mean, expr_names ms m a xs fs env h ok.1, expr_names ms m b xs fs env h ok.2]
  | .comp d i o c, xs, fs, env, h, ok => by
    obtain ⟨⟨hd, hv⟩, hi, ho, hc⟩ := ok
    simp only [Expr.places, List.map_append, Expr.mean]
    rw [expr_names ms m i _ _ env (h.toInv0.own hd hv) hi, expr_names ms m o _ _ (d :: env) (h.toInv0.node hd) ho,
      expr_names ms m c _ _ (d :: env) (h.toInv0.node hd) hc]

theorem entries_ge : ∀ (b : Stmts) (i : Nat) (e : Entry), e ∈ b.entries i → ∃ d k, e = ⟨[d.name], .decl d (some k)⟩ ∧ i ≤ k
  | .nil, _, _, h => by cases h
  | .cons s b, i, e, h => by
    have tail : e ∈ b.entries (i + 1) → ∃ d k, e = ⟨[d.name], .decl d (some k)⟩ ∧ i ≤ k := by
      intro h
      obtain ⟨d, k, h1, h2⟩ := entries_ge b (i + 1) e h
      exact ⟨d, k, h1, by omega⟩
    cases s with
    | decl d x =>
      rcases List.mem_cons.mp h with h | h
      · exact ⟨d, i, h, Nat.le_refl i⟩
      · exact tail h
    | expr _ => exact tail h
    | block _ => exact tail h
    | if_ _ _ _ => exact tail h
    | ifInit _ _ _ _ _ => exact tail h
    | while_ _ _ _ => exact tail h
    | whileInit _ _ _ _ _ => exact tail h
    | for_ _ _ _ => exact tail h
    | switch_ _ _ _ => exact tail h
    | try_ _ _ => exact tail h

theorem entries_ok : ∀ (b : Stmts) (i : Nat) (d : Decl) (j : Option Nat), b.Ok → ⟨[d.name], .decl d j⟩ ∈ b.entries i → DeclOk d
  | .nil, _, _, _, _, h => by cases h
  | .cons s b, i, d, j, ok, h => by
    have tail : ⟨[d.name], .decl d j⟩ ∈ b.entries (i + 1) → DeclOk d := entries_ok b (i + 1) d j ok.2
    cases s with
    | decl d' x =>
      rcases List.mem_cons.mp h with h | h
      · injection h with _ h
        injection h with h _
        rw [h]; exact ok.1.1
      · exact tail h
    | expr _ => exact tail h
    | block _ => exact tail h
    | if_ _ _ _ => exact tail h
    | ifInit _ _ _ _ _ => exact tail h
    | while_ _ _ _ => exact tail h
    | whileInit _ _ _ _ _ => exact tail h
    | for_ _ _ _ => exact tail h
    | switch_ _ _ _ => exact tail h
    | try_ _ _ => exact tail h

/-- Constants and types among the entries. -/
theorem entries_whole : ∀ (b : Stmts) (i : Nat),
    (∀ d ∈ b.whole, d.kind ≠ .var ∧ ∃ j, ⟨[d.name], .decl d j⟩ ∈ b.entries i) ∧
    (∀ d j, ⟨[d.name], .decl d j⟩ ∈ b.entries i → d.kind ≠ .var → d ∈ b.whole)
  | .nil, _ => ⟨fun d h => (by cases h), fun d j h => (by cases h)⟩
  | .cons s b, i => by
    have ih := entries_whole b (i + 1)
    cases s with
    | decl d' x =>
      simp only [Stmts.whole, Stmts.entries]
      by_cases hv : d'.kind = .var
      · rw [if_pos hv]
        refine ⟨fun d h => ?_, fun d j h hk => ?_⟩
        · obtain ⟨h1, j, h2⟩ := ih.1 d h
          exact ⟨h1, j, List.mem_cons_of_mem _ h2⟩
        · rcases List.mem_cons.mp h with h | h
          · injection h with _ h
            injection h with h _
            rw [h] at hk
            exact absurd hv hk
          · exact ih.2 d j h hk
      · rw [if_neg hv]
        refine ⟨fun d h => ?_, fun d j h hk => ?_⟩
        · rcases List.mem_cons.mp h with h | h
          · rw [h]; exact ⟨hv, some i, List.mem_cons_self ..⟩
          · obtain ⟨h1, j, h2⟩ := ih.1 d h
            exact ⟨h1, j, List.mem_cons_of_mem _ h2⟩
        · rcases List.mem_cons.mp h with h | h
          · injection h with _ h
            injection h with h _
            rw [h]; exact List.mem_cons_self ..
          · exact List.mem_cons_of_mem _ (ih.2 d j h hk)
    | expr _ => exact ih
    | block _ => exact ih
    | if_ _ _ _ => exact ih
    | ifInit _ _ _ _ _ => exact ih
    | while_ _ _ _ => exact ih
    | whileInit _ _ _ _ _ => exact ih
    | for_ _ _ _ => exact ih
    | switch_ _ _ _ => exact ih
    | try_ _ _ => exact ih

/-- The names that a statement must not use. -/
def Stmt.self : Stmt → List Name
  | .decl d _ => if d.kind = .var then [d.name] else []
  | _ => []

/-- The state of a block: what is visible before statement `i`, the first of `b`. -/
structure AtStmt (ms : List Module) (m : Nat) (s : Scope) (i : Nat) (b : Stmts) (fs : List Frame) (env : List Decl) (G E : List Decl) : Prop where
  scope : LocalScope s
  up : Inv0 ms m [] fs env
  visible : ∀ d ∈ G, ∃ j, ⟨[d.name], .decl d j⟩ ∈ s ∧ (d.kind = .var → ∀ k, j = some k → k < i)
  rest : ∀ d j, ⟨[d.name], .decl d j⟩ ∈ s → d ∈ G ∨ (d.kind = .var ∧ ⟨[d.name], .decl d j⟩ ∈ b.entries i)
  whole : ∀ d ∈ b.whole, d ∈ G
  same : Same ms m (G ++ env) E

theorem AtStmt.unique {ms : List Module} {m : Nat} {s : Scope} {i : Nat} {b : Stmts} {fs : List Frame} {env G E : List Decl}
    (h : AtStmt ms m s i b fs env G E) : ∀ d ∈ G, ∀ d' ∈ G, d.name = d'.name → d = d' := by
  intro d hd d' hd' e
  obtain ⟨j, hj, _⟩ := h.visible d hd
  obtain ⟨j', hj', _⟩ := h.visible d' hd'
  exact (h.scope.unique hj hj' e).1

theorem var_labels {d : Decl} (hd : DeclOk d) (hv : d.kind = .var) : d.labels = [] :=
  Classical.byContradiction fun hc => by have := hd.2.2.2 hc; rw [hv] at this; cases this

theorem AtStmt.inv {ms : List Module} {m : Nat} {s : Scope} {i : Nat} {st : Stmt} {b : Stmts} {fs : List Frame} {env G E : List Decl}
    (h : AtStmt ms m s i (.cons st b) fs env G E) : Inv ms m st.self (.block s i :: fs) E := by
  refine (push (G := G) (f := .block s i) (xs := []) h.scope rfl ?_ ?_ ?_ h.up.rel h.up.skip).same h.same
  · intro d hd
    obtain ⟨j, hj, hk⟩ := h.visible d hd
    refine ⟨j, hj, ?_⟩
    cases j with
    | none => rfl
    | some k =>
      simp only [tooEarly]
      by_cases hv : d.kind = .var
      · have := hk hv k rfl
        simp only [hv, beq_self_eq_true, Bool.true_and, decide_eq_false_iff_not]
        omega
      · simp [hv]
  · intro d j hj
    have hdo : DeclOk d := by
      obtain ⟨d', j', e, hd'⟩ := h.scope.decls _ hj
      injection e with _ e
      injection e with e _
      rw [e]; exact hd'
    rcases h.rest d j hj with hg | ⟨hv, he⟩
    · exact Or.inl hg
    · refine Or.inr ⟨var_labels hdo hv, ?_⟩
      have late : ⟨[d.name], .decl d j⟩ ∈ b.entries (i + 1) → tooEarly (.block s i) d j = true := by
        intro he
        obtain ⟨d', k, e, hk⟩ := entries_ge b (i + 1) _ he
        injection e with _ e
        injection e with _ e
        subst e
        simp only [tooEarly, hv, beq_self_eq_true, Bool.true_and, decide_eq_true_eq]
        omega
      cases st with
      | decl d' x =>
        rcases List.mem_cons.mp he with he | he
        · injection he with _ he
          injection he with he _
          refine Or.inr ?_
          rw [he] at hv ⊢
          simp only [Stmt.self, hv, if_true]
          exact List.mem_cons_self ..
        · exact Or.inl (late he)
      | expr _ => exact Or.inl (late he)
      | block _ => exact Or.inl (late he)
      | if_ _ _ _ => exact Or.inl (late he)
      | ifInit _ _ _ _ _ => exact Or.inl (late he)
      | while_ _ _ _ => exact Or.inl (late he)
      | whileInit _ _ _ _ _ => exact Or.inl (late he)
      | for_ _ _ _ => exact Or.inl (late he)
      | switch_ _ _ _ => exact Or.inl (late he)
      | try_ _ _ => exact Or.inl (late he)
  · intro n hn; cases hn

/-- What is visible behind a statement. -/
def after (st : Stmt) (E : List Decl) : List Decl :=
  match st with
  | .decl d _ => if d.kind = .var then d :: E else E
  | _ => E

theorem AtStmt.next {ms : List Module} {m : Nat} {s : Scope} {i : Nat} {st : Stmt} {b : Stmts} {fs : List Frame} {env G E : List Decl}
    (h : AtStmt ms m s i (.cons st b) fs env G E)
    (hin : ∀ d e, st = .decl d e → ⟨[d.name], .decl d (some i)⟩ ∈ s) : AtStmt ms m s (i + 1) b fs env (after st G) (after st E) := by
  have vis : ∀ d ∈ G, ∃ j, ⟨[d.name], .decl d j⟩ ∈ s ∧ (d.kind = .var → ∀ k, j = some k → k < i + 1) := by
    intro d hd
    obtain ⟨j, hj, hk⟩ := h.visible d hd
    exact ⟨j, hj, fun hv k e => by have := hk hv k e; omega⟩
  have plainCase : (.cons st b : Stmts).entries i = b.entries (i + 1) → (.cons st b : Stmts).whole = b.whole →
      AtStmt ms m s (i + 1) b fs env G E := by
    intro e1 e2
    exact ⟨h.scope, h.up, vis, (by have := h.rest; rw [e1] at this; exact this), (by have := h.whole; rw [e2] at this; exact this), h.same⟩
  cases st with
  | decl d x =>
    simp only [after]
    by_cases hv : d.kind = .var
    · rw [if_pos hv, if_pos hv]
      refine ⟨h.scope, h.up, ?_, ?_, ?_, h.same.cons d⟩
      · intro d' hd'
        rcases List.mem_cons.mp hd' with e | hd'
        · rw [e]
          exact ⟨some i, hin d x rfl, fun _ k e => by cases e; omega⟩
        · exact vis d' hd'
      · intro d' j hj
        rcases h.rest d' j hj with hg | ⟨hk, he⟩
        · exact Or.inl (List.mem_cons_of_mem _ hg)
        · rcases List.mem_cons.mp he with he | he
          · injection he with _ he
            injection he with he _
            exact Or.inl (he ▸ List.mem_cons_self ..)
          · exact Or.inr ⟨hk, he⟩
      · intro d' hd'
        exact List.mem_cons_of_mem _ (h.whole d' (by simpa only [Stmts.whole, hv, if_true] using hd'))
    · rw [if_neg hv, if_neg hv]
      refine ⟨h.scope, h.up, vis, ?_, ?_, h.same⟩
      · intro d' j hj
        rcases h.rest d' j hj with hg | ⟨hk, he⟩
        · exact Or.inl hg
        · rcases List.mem_cons.mp he with he | he
          · injection he with _ he
            injection he with he _
            rw [he] at hk
            exact absurd hk hv
          · exact Or.inr ⟨hk, he⟩
      · intro d' hd'
        refine h.whole d' ?_
        simp only [Stmts.whole, hv, if_false]
        exact List.mem_cons_of_mem _ hd'
  | expr _ => exact plainCase rfl rfl
  | block _ => exact plainCase rfl rfl
  | if_ _ _ _ => exact plainCase rfl rfl
  | ifInit _ _ _ _ _ => exact plainCase rfl rfl
  | while_ _ _ _ => exact plainCase rfl rfl
  | whileInit _ _ _ _ _ => exact plainCase rfl rfl
  | for_ _ _ _ => exact plainCase rfl rfl
  | switch_ _ _ _ => exact plainCase rfl rfl
  | try_ _ _ => exact plainCase rfl rfl

/-- The beginning of a block. -/
theorem AtStmt.start {ms : List Module} {m : Nat} {fs : List Frame} {env : List Decl} (hi : Inv0 ms m [] fs env) (extra : List Decl) (b : Stmts)
    (hx : ∀ d ∈ extra, DeclOk d) (ok : b.Ok) (hd : Distinct (extra ++ b.decls)) {E : List Decl}
    (hE : Same ms m ((b.whole ++ extra) ++ env) E) :
    AtStmt ms m (blockScope extra b) 0 b fs env (b.whole ++ extra) E := by
  have hw := entries_whole b 0
  refine ⟨⟨?_, ?_⟩, hi, ?_, ?_, fun d h => List.mem_append_left _ h, hE⟩
  · rw [← noRedefinition_iff, blockScope_iff]; exact hd
  · intro e he
    rcases List.mem_append.mp he with he | he
    · obtain ⟨d, h, rfl⟩ := List.mem_map.mp he
      exact ⟨d, none, rfl, hx d h⟩
    · obtain ⟨d, k, rfl, _⟩ := entries_ge b 0 e he
      exact ⟨d, some k, rfl, entries_ok b 0 d _ ok he⟩
  · intro d h
    rcases List.mem_append.mp h with h | h
    · obtain ⟨h1, j, h2⟩ := hw.1 d h
      exact ⟨j, List.mem_append_right _ h2, fun hv => absurd hv h1⟩
    · exact ⟨none, List.mem_append_left _ (List.mem_map.mpr ⟨d, h, rfl⟩), fun _ k e => by cases e⟩
  · intro d j h
    rcases List.mem_append.mp h with h | h
    · obtain ⟨d', h', e⟩ := List.mem_map.mp h
      injection e with _ e
      injection e with e _
      exact Or.inl (List.mem_append_right _ (e ▸ h'))
    · by_cases hv : d.kind = .var
      · exact Or.inr ⟨hv, h⟩
      · exact Or.inl (List.mem_append_left _ (hw.2 d j h hv))

theorem start_none {ms : List Module} {m : Nat} {fs : List Frame} {env : List Decl} (hi : Inv0 ms m [] fs env) (b : Stmts) (ok : b.Ok)
    (hd : Distinct b.decls) : AtStmt ms m (blockScope [] b) 0 b fs env (b.whole ++ []) (b.whole ++ env) :=
  AtStmt.start hi [] b (fun _ h => by cases h) ok hd (fun p => by rw [List.append_nil])

theorem start_one {ms : List Module} {m : Nat} {fs : List Frame} {env : List Decl} {d : Decl} (hi : Inv0 ms m [] fs (d :: env)) (b : Stmts) (hx : DeclOk d)
    (ok : b.Ok) (hd : Distinct (d :: b.decls)) : AtStmt ms m (blockScope [d] b) 0 b fs (d :: env) (b.whole ++ [d]) (b.whole ++ d :: env) :=
  AtStmt.start hi [d] b (fun d' h => by rw [List.mem_singleton.mp h]; exact hx) ok hd
    (fun p => by rw [List.append_assoc]; exact same_dup ms m b.whole d env p)

mutual
theorem stmt_names (ms : List Module) (m : Nat) : ∀ (st : Stmt) (fs : List Frame) (env : List Decl), Inv ms m st.self fs env → st.Ok → st.Once →
    (∀ d e, st = .decl d e → d.kind = .const → Same ms m (d :: env) env) → (st.places fs).map (res ms) = st.mean ms m env
  | .expr e, fs, env, h, ok, _, _ => expr_names ms m e _ fs env h ok
  | .decl d e, fs, env, h, ok, _, hc => by
    simp only [Stmt.places, Stmt.mean]
    by_cases hk : d.kind = .const
    · rw [if_pos hk]
      have hv : ¬ d.kind = .var := by rw [hk]; decide
      have h : Inv ms m [] fs env := by simpa only [Stmt.self, if_neg hv] using h
      have ok2 : e.Ok [] := by have := ok.2; rw [if_neg hv] at this; exact this
      exact expr_names ms m e _ _ env ((h.toInv0.node ok.1).same (hc d e rfl hk)) ok2
    · rw [if_neg hk]
      exact expr_names ms m e _ fs env h ok.2
  | .block b, fs, env, h, ok, on, _ => by
    simp only [Stmt.places, Stmt.mean]
    exact stmts_names ms m b _ 0 fs env _ _ (start_none h.toInv0 b ok on.1) ok on.2 (fun e he => List.mem_append_right _ he)
  | .if_ c t e, fs, env, h, ok, on, _ => by
    simp only [Stmt.places, Stmt.mean, List.map_append]
    rw [expr_names ms m c _ fs env h ok.1,
      stmts_names ms m t _ 0 fs env _ _ (start_none h.toInv0 t ok.2.1 on.1.1) ok.2.1 on.1.2 (fun e he => List.mem_append_right _ he),
      stmts_names ms m e _ 0 fs env _ _ (start_none h.toInv0 e ok.2.2 on.2.1) ok.2.2 on.2.2 (fun e he => List.mem_append_right _ he)]
  | .ifInit d i c t e, fs, env, h, ok, on, _ => by
    obtain ⟨⟨hd, hv⟩, hi, hc, ht, he⟩ := ok
    have hn : Inv ms m [] (.node (plain [d]) :: fs) (d :: env) := Inv0.node (Inv.toInv0 h) hd
    simp only [Stmt.places, Stmt.mean, List.map_append]
    rw [expr_names ms m i _ _ env (Inv0.own (Inv.toInv0 h) hd hv) hi, expr_names ms m c _ _ _ hn hc,
      stmts_names ms m t _ 0 _ _ _ _ (start_one hn.toInv0 t hd ht on.1.1) ht on.1.2 (fun e he => List.mem_append_right _ he),
      stmts_names ms m e _ 0 _ _ _ _ (start_one hn.toInv0 e hd he on.2.1) he on.2.2 (fun e he => List.mem_append_right _ he)]
  | .while_ c t e, fs, env, h, ok, on, _ => by
    simp only [Stmt.places, Stmt.mean, List.map_append]
    rw [expr_names ms m c _ fs env h ok.1,
      stmts_names ms m t _ 0 fs env _ _ (start_none h.toInv0 t ok.2.1 on.1.1) ok.2.1 on.1.2 (fun e he => List.mem_append_right _ he),
      stmts_names ms m e _ 0 fs env _ _ (start_none h.toInv0 e ok.2.2 on.2.1) ok.2.2 on.2.2 (fun e he => List.mem_append_right _ he)]
  | .whileInit d i c t e, fs, env, h, ok, on, _ => by
    obtain ⟨⟨hd, hv⟩, hi, hc, ht, he⟩ := ok
    have hn : Inv ms m [] (.node (plain [d]) :: fs) (d :: env) := Inv0.node (Inv.toInv0 h) hd
    simp only [Stmt.places, Stmt.mean, List.map_append]
    rw [expr_names ms m i _ _ env (Inv0.own (Inv.toInv0 h) hd hv) hi, expr_names ms m c _ _ _ hn hc,
      stmts_names ms m t _ 0 _ _ _ _ (start_one hn.toInv0 t hd ht on.1.1) ht on.1.2 (fun e he => List.mem_append_right _ he),
      stmts_names ms m e _ 0 _ _ _ _ (start_one hn.toInv0 e hd he on.2.1) he on.2.2 (fun e he => List.mem_append_right _ he)]
  | .for_ d s b, fs, env, h, ok, on, _ => by
    obtain ⟨⟨hd, hv⟩, hi, hb⟩ := ok
    have hn : Inv ms m [] (.node (plain [d]) :: fs) (d :: env) := Inv0.node (Inv.toInv0 h) hd
    simp only [Stmt.places, Stmt.mean, List.map_append]
    rw [expr_names ms m s _ _ env (Inv0.own (Inv.toInv0 h) hd hv) hi,
      stmts_names ms m b _ 0 _ _ _ _ (start_one hn.toInv0 b hd hb on.1) hb on.2 (fun e he => List.mem_append_right _ he)]
  | .switch_ d i cs, fs, env, h, ok, on, _ => by
    obtain ⟨⟨hd, hv⟩, hi, hb⟩ := ok
    have hn : Inv ms m [] (.node (plain [d]) :: fs) (d :: env) := Inv0.node (Inv.toInv0 h) hd
    simp only [Stmt.places, Stmt.mean, List.map_append]
    rw [expr_names ms m i _ _ env (Inv0.own (Inv.toInv0 h) hd hv) hi, cases_names ms m d hd cs _ env hn hb on]
  | .try_ b cs, fs, env, h, ok, on, _ => by
    simp only [Stmt.places, Stmt.mean, List.map_append]
    rw [stmts_names ms m b _ 0 fs env _ _ (start_none h.toInv0 b ok.1 on.1.1) ok.1 on.1.2 (fun e he => List.mem_append_right _ he),
      catches_names ms m cs fs env h.toInv0 ok.2 on.2]
theorem stmts_names (ms : List Module) (m : Nat) : ∀ (b : Stmts) (s : Scope) (i : Nat) (fs : List Frame) (env G E : List Decl),
    AtStmt ms m s i b fs env G E → b.Ok → b.Once → (∀ e ∈ b.entries i, e ∈ s) → (b.places s i fs).map (res ms) = b.mean ms m E
  | .nil, _, _, _, _, _, _, _, _, _, _ => rfl
  | .cons st b, s, i, fs, env, G, E, h, ok, on, hin => by
    have hst := stmt_names ms m st _ E h.inv ok.1 on.1 (fun d e hd hk => by
      subst hd
      have hg : d ∈ G := h.whole d (by
        have hv : ¬ d.kind = .var := by rw [hk]; decide
        simp only [Stmts.whole, hv, if_false]
        exact List.mem_cons_self ..)
      exact ((h.same.cons d).symm.trans (same_mem ms m h.unique hg env)).trans h.same)
    have hin1 : ∀ d e, st = .decl d e → ⟨[d.name], .decl d (some i)⟩ ∈ s := fun d e hd => by
      subst hd; exact hin _ (List.mem_cons_self ..)
    have hin2 : ∀ e ∈ b.entries (i + 1), e ∈ s := by
      intro e he
      refine hin e ?_
      cases st <;> first | exact he | exact List.mem_cons_of_mem _ he
    have hb := stmts_names ms m b s (i + 1) fs env _ _ (h.next hin1) ok.2 on.2 hin2
    simp only [Stmts.places, List.map_append]
    rw [hst, hb]
    cases st <;> rfl
theorem cases_names (ms : List Module) (m : Nat) (d : Decl) (hd : DeclOk d) : ∀ (cs : Cases) (fs : List Frame) (env : List Decl),
    Inv ms m [] fs (d :: env) → cs.Ok → cs.Once d → (cs.places d fs).map (res ms) = cs.mean ms m (d :: env)
  | .nil, _, _, _, _, _ => rfl
  | .cons e b cs, fs, env, h, ok, on => by
    simp only [Cases.places, Cases.mean, List.map_append]
    rw [expr_names ms m e _ fs _ h ok.1,
      stmts_names ms m b _ 0 fs _ _ _ (start_one h.toInv0 b hd ok.2.1 on.1.1) ok.2.1 on.1.2 (fun e he => List.mem_append_right _ he),
      cases_names ms m d hd cs fs env h ok.2.2 on.2]
theorem catches_names (ms : List Module) (m : Nat) : ∀ (cs : Catches) (fs : List Frame) (env : List Decl),
    Inv0 ms m [] fs env → cs.Ok → cs.Once → (cs.places fs).map (res ms) = cs.mean ms m env
  | .nil, _, _, _, _, _ => rfl
  | .cons d b cs, fs, env, h, ok, on => by
    have hn : Inv ms m [] (.node (plain [d]) :: fs) (d :: env) := h.node ok.1
    simp only [Catches.places, Catches.mean, List.map_append]
    rw [stmts_names ms m b _ 0 _ _ _ _ (start_none hn.toInv0 b ok.2.1 on.1.1) ok.2.1 on.1.2 (fun e he => List.mem_append_right _ he),
      catches_names ms m cs fs env h ok.2.2 on.2]
end

/-! ### Outside of the body -/

theorem module_inv (ms : List Module) (hms : ∀ M ∈ ms, ModuleOnce ms M ∧ ∀ d ∈ M.decls, DeclOk d) (m : Nat) (fs : List Frame) :
    Inv0 ms m [] (.module m :: fs) [] := by
  have key : ∀ p, p ≠ [] → "" ∉ p → ∀ sk, toOption (lookup ms (.module m :: fs) sk p) = inModule ms p m := by
    intro p h1 h2 sk
    have hf := find_module ms hms p p.length m h1 (Nat.le_refl _)
    have hb : toOption (lookup ms (.module m :: fs) sk p) =
        toOption (match backend ms (.module m) p with | .found t => .ok t | .stop e => .error e | .up => .error .unknown) := by
      simp only [lookup, Frame.isModule, Bool.not_true, Bool.and_false, Bool.false_eq_true, if_false, absolute_none h2, Frame.isUnit, if_true]
      cases backend ms (.module m) p <;> rfl
    rw [hb]
    simp only [backend, Frame.scope]
    cases ho : inModule ms p m with
    | none =>
      rw [ho] at hf
      rcases hf with hf | ⟨j, hf⟩
      · simp only [hf]; rfl
      · simp only [hf]; rfl
    | some t =>
      rw [ho] at hf
      cases t with
      | decl d => simp only [Ends] at hf; simp only [hf]; rfl
      | label d l => simp only [Ends] at hf; simp only [hf]; rfl
  have rel : ∀ p, relative ms m [] p = inModule ms p m := by
    intro p
    match p with
    | [] => rfl
    | [x] => rfl
    | [t, l] => rfl
    | _ :: _ :: _ :: _ => rfl
  exact ⟨fun p h1 h2 _ => by rw [key p h1 h2, rel], fun p h1 h2 => key p h1 h2 true⟩

theorem plain_local {ds : List Decl} (hd : ∀ d ∈ ds, DeclOk d) (hn : Distinct ds) : LocalScope (plain ds) := by
  refine ⟨by rw [plain_keys, nodup_names]; exact hn, fun e he => ?_⟩
  obtain ⟨d, h, rfl⟩ := List.mem_map.mp he
  exact ⟨d, none, rfl, hd d h⟩

theorem push_plain {ms : List Module} {m : Nat} {fs : List Frame} {env ds : List Decl} (f : Frame) (hsc : f.scope ms = plain ds) (hm : f.isModule = false)
    (ht : ∀ d, tooEarly f d none = false) (hd : ∀ d ∈ ds, DeclOk d) (hn : Distinct ds)
    (next : ∀ p, p ≠ [] → "" ∉ p → toOption (lookup ms fs f.isUnit p) = relative ms m env p) (skip : Skips ms m fs) :
    Inv0 ms m [] (f :: fs) (ds ++ env) := by
  refine (push (xs := []) (G := ds) (by rw [hsc]; exact plain_local hd hn) hm ?_ ?_ (fun n h => by cases h) (fun p h1 h2 _ => next p h1 h2) skip).toInv0
  · intro d h
    exact ⟨none, by rw [hsc]; exact List.mem_map.mpr ⟨d, h, rfl⟩, ht d⟩
  · intro d j h
    rw [hsc] at h
    obtain ⟨d', h', e⟩ := List.mem_map.mp h
    injection e with _ e
    injection e with e _
    exact Or.inl (e ▸ h')

theorem push_nodes {ms : List Module} {m : Nat} {fs : List Frame} {env : List Decl} (h : Inv0 ms m [] fs env) :
    ∀ dss : List (List Decl), (∀ ds ∈ dss, (∀ d ∈ ds, DeclOk d) ∧ Distinct ds) →
      Inv0 ms m [] (dss.map (fun ds => .node (plain ds)) ++ fs) (dss.flatten ++ env)
  | [], _ => h
  | ds :: dss, hd => by
    have ih := push_nodes h dss (fun ds h => hd ds (List.mem_cons_of_mem _ h))
    rw [List.flatten_cons, List.append_assoc]
    exact push_plain (.node (plain ds)) rfl rfl (fun _ => rfl) (hd ds (List.mem_cons_self ..)).1 (hd ds (List.mem_cons_self ..)).2
      (fun p h1 h2 => ih.rel p h1 h2 (fun _ h => by cases h)) ih.skip

theorem context_inv (ms : List Module) (c : Context) (root : Scope) (hms : ∀ M ∈ ms, ModuleOnce ms M ∧ ∀ d ∈ M.decls, DeclOk d)
    (hc : ∀ ds ∈ c.inner ++ c.unit.toList ++ c.beyond, (∀ d ∈ ds, DeclOk d) ∧ Distinct ds) :
    Inv0 ms c.module [] (c.frames root) c.env := by
  have h0 := push_nodes (module_inv ms hms c.module [.root root]) c.beyond
    (fun ds h => hc ds (List.mem_append_right _ h))
  unfold Context.frames Context.env
  cases hu : c.unit with
  | none =>
    rw [List.append_nil] at h0
    have := push_nodes h0 c.inner (fun ds h => hc ds (List.mem_append_left _ (List.mem_append_left _ h)))
    simpa only [List.append_nil, List.append_assoc] using this
  | some u =>
    have hu' := hc u (List.mem_append_left _ (List.mem_append_right _ (by rw [hu]; exact List.mem_singleton.mpr rfl)))
    have rel : ∀ p, relative ms c.module [] p = inModule ms p c.module := by
      intro p
      match p with
      | [] => rfl
      | [x] => rfl
      | [t, l] => rfl
      | _ :: _ :: _ :: _ => rfl
    have h1 := push_plain (env := []) (.unit (plain u)) rfl rfl (fun _ => rfl) hu'.1 hu'.2
      (fun p h1 h2 => by rw [rel]; exact h0.skip p h1 h2) h0.skip
    rw [List.append_nil] at h1
    have := push_nodes h1 c.inner (fun ds h => hc ds (List.mem_append_left _ (List.mem_append_left _ h)))
    simpa only [List.append_assoc, List.singleton_append, List.cons_append, List.nil_append] using this

/-- **Names mean the innermost declaration that is visible**, in every body that is accepted and in which no initial value, sequence or input mentions the
variable it is for. -/
theorem names_resolve_partial (ms : List Module) (c : Context) (root : Scope) (params : List Decl) (b : Stmts) (hd : Declared ms c params) (ok : b.Ok)
    (hv : validated ms c params b = true) :
    (resolveAll ms c root params b).map (fun r => (r.1, toOption r.2)) = meanAll ms c params b := by
  have on := (validated_iff ms c params b).mp hv
  have hi := context_inv ms c root (fun M hM => ⟨on.2.2 M hM, (hd.1 M hM).2⟩) (fun ds h => ⟨hd.2.2 ds h, on.2.1 ds h⟩)
  have h := stmts_names ms c.module b _ 0 _ _ _ _
    (AtStmt.start hi params b hd.2.1 ok on.1.1 (E := b.whole ++ (params ++ c.env)) (fun p => by rw [List.append_assoc]))
    ok on.1.2 (fun e he => List.mem_append_right _ he)
  rw [meanAll, ← h, resolveAll, List.map_map]
  rfl

end Verif.Front.Scope
