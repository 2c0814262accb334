import Verif.Opt.Prop
import Verif.Opt.Rounds

/-!
# Value propagation preserves behaviour

For bodies without `break`, `continue` and `try`, whose local variables have initializers and that do not assign globals. See
`Verif/Opt/PropWitness.lean` for what happens without these premises.
-/

namespace Verif.Opt

/-! ## Maps -/

theorem PMap.get_put (m : PMap) (x : Var) (v : Option Expr) (y : Var) :
    (m.put x v).get y = if x = y then some v else m.get y := by
  induction m with
  | nil => rfl
  | cons p m ih =>
    obtain ⟨z, u⟩ := p
    unfold PMap.put
    split
    · rename_i h; subst h
      simp only [PMap.get]
      split <;> rfl
    · rename_i h
      split
      · simp only [PMap.get]
      · simp only [PMap.get, ih]
        split
        · rename_i hz
          rw [if_neg (fun hx => h (hz.trans hx.symm))]
        · rfl

theorem PMap.get_del (m : PMap) (x y : Var) : (m.del x).get y = if x = y then none else m.get y := by
  induction m with
  | nil => simp [PMap.del, PMap.get]
  | cons p m ih =>
    obtain ⟨z, u⟩ := p
    unfold PMap.del
    split
    · rename_i h; subst h
      rw [ih]
      simp only [PMap.get]
      split <;> rfl
    · rename_i h
      simp only [PMap.get, ih]
      split
      · rename_i hz
        rw [if_neg (fun hx => h (hz.trans hx.symm))]
      · rfl

theorem PMap.get_inval (m : PMap) (x y : Var) :
    (m.inval x).get y = (m.get y).map (fun u => if copyOf x u then none else u) := by
  induction m with
  | nil => rfl
  | cons p m ih =>
    obtain ⟨z, u⟩ := p
    unfold PMap.inval
    simp only [PMap.get]
    split
    · rfl
    · exact ih

theorem PMap.get_mem {m : PMap} {y : Var} {u : Option Expr} (h : m.get y = some u) : (y, u) ∈ m := by
  induction m with
  | nil => cases h
  | cons p m ih =>
    obtain ⟨z, w⟩ := p
    simp only [PMap.get] at h
    split at h
    · rename_i hz; subst hz; cases h; exact List.mem_cons_self
    · exact List.mem_cons_of_mem _ (ih h)

/-- An entry that survived an invalidation was there before and is no copy. -/
theorem inval_some {m : PMap} {x y : Var} {e : Expr} (h : (m.inval x).get y = some (some e)) :
    m.get y = some (some e) ∧ copyOf x (some e) = false := by
  rw [PMap.get_inval] at h
  cases hm : m.get y with
  | none => rw [hm] at h; cases h
  | some u =>
    rw [hm] at h
    simp only [Option.map, Option.some.injEq] at h
    split at h
    · cases h
    · rename_i hc
      subst h
      rw [Bool.not_eq_true] at hc
      exact ⟨rfl, hc⟩

theorem inval_none {m : PMap} {x y : Var} : (m.inval x).get y = none ↔ m.get y = none := by
  rw [PMap.get_inval, Option.map_eq_none_iff]

theorem killAll_some {xs : List Var} {m : PMap} {y : Var} {e : Expr} (h : (killAll xs m).get y = some (some e)) :
    m.get y = some (some e) ∧ y ∉ xs ∧ ∀ x ∈ xs, copyOf x (some e) = false := by
  induction xs generalizing m with
  | nil => exact ⟨h, (fun hh => by cases hh), fun x hx => by cases hx⟩
  | cons x xs ih =>
    obtain ⟨h1, h2, h3⟩ := ih h
    rw [PMap.get_del] at h1
    split at h1
    · cases h1
    · rename_i hxy
      obtain ⟨h4, h5⟩ := inval_some h1
      refine ⟨h4, ?_, ?_⟩
      · intro hh
        rcases List.mem_cons.1 hh with hh | hh
        · exact hxy hh.symm
        · exact h2 hh
      · intro z hz
        rcases List.mem_cons.1 hz with hz | hz
        · subst hz; exact h5
        · exact h3 z hz

theorem killAll_none {xs : List Var} {m : PMap} {y : Var} (h : (killAll xs m).get y = none) : m.get y = none ∨ y ∈ xs := by
  induction xs generalizing m with
  | nil => exact .inl h
  | cons x xs ih =>
    rcases ih h with h1 | h1
    · rw [PMap.get_del] at h1
      split at h1
      · rename_i hx; subst hx; exact .inr List.mem_cons_self
      · exact .inl (inval_none.1 h1)
    · exact .inr (List.mem_cons_of_mem _ h1)

/-! ## Meets -/

theorem meetFold_some (ps : PMap) : ∀ (acc : PMap) (y : Var) (e : Expr), (ps.foldl meetEntry acc).get y = some (some e) →
    (acc.get y = none ∨ acc.get y = some (some e)) ∧ ∀ u, (y, u) ∈ ps → u = some e := by
  induction ps with
  | nil => intro acc y e h; exact ⟨.inr h, fun u hu => by cases hu⟩
  | cons p ps ih =>
    intro acc y e h
    obtain ⟨x, w⟩ := p
    obtain ⟨h1, h2⟩ := ih _ _ _ h
    unfold meetEntry at h1
    dsimp only at h1
    cases hx : acc.get x with
    | none =>
      rw [hx] at h1
      dsimp only at h1
      rw [PMap.get_put] at h1
      by_cases hxy : x = y
      · subst hxy
        rw [if_pos rfl] at h1
        rcases h1 with h1 | h1
        · cases h1
        · refine ⟨.inl hx, fun u hu => ?_⟩
          rcases List.mem_cons.1 hu with hu | hu
          · cases hu; exact Option.some.inj h1
          · exact h2 u hu
      · rw [if_neg hxy] at h1
        refine ⟨h1, fun u hu => ?_⟩
        rcases List.mem_cons.1 hu with hu | hu
        · cases hu; exact absurd rfl hxy
        · exact h2 u hu
    | some v =>
      rw [hx] at h1
      dsimp only at h1
      split at h1
      · rename_i hv
        subst hv
        refine ⟨h1, fun u hu => ?_⟩
        rcases List.mem_cons.1 hu with hu | hu
        · cases hu
          rw [hx] at h1
          rcases h1 with h1 | h1
          · cases h1
          · exact Option.some.inj h1
        · exact h2 u hu
      · rw [PMap.get_put] at h1
        by_cases hxy : x = y
        · subst hxy
          rw [if_pos rfl] at h1
          rcases h1 with h1 | h1 <;> cases h1
        · rw [if_neg hxy] at h1
          refine ⟨h1, fun u hu => ?_⟩
          rcases List.mem_cons.1 hu with hu | hu
          · cases hu; exact absurd rfl hxy
          · exact h2 u hu

theorem meetFold_none (ps : PMap) : ∀ (acc : PMap) (y : Var), (ps.foldl meetEntry acc).get y = none →
    acc.get y = none ∧ ∀ u, (y, u) ∉ ps := by
  induction ps with
  | nil => intro acc y h; exact ⟨h, fun u hu => by cases hu⟩
  | cons p ps ih =>
    intro acc y h
    obtain ⟨x, w⟩ := p
    obtain ⟨h1, h2⟩ := ih _ _ h
    unfold meetEntry at h1
    dsimp only at h1
    cases hx : acc.get x with
    | none =>
      rw [hx] at h1
      dsimp only at h1
      rw [PMap.get_put] at h1
      split at h1
      · cases h1
      · rename_i hxy
        refine ⟨h1, fun u hu => ?_⟩
        rcases List.mem_cons.1 hu with hu | hu
        · cases hu; exact hxy rfl
        · exact h2 u hu
    | some v =>
      rw [hx] at h1
      dsimp only at h1
      have hxy : x ≠ y := by
        intro hxy; subst hxy
        split at h1
        · rw [hx] at h1; cases h1
        · rw [PMap.get_put, if_pos rfl] at h1; cases h1
      refine ⟨?_, fun u hu => ?_⟩
      · split at h1
        · exact h1
        · rw [PMap.get_put, if_neg hxy] at h1; exact h1
      · rcases List.mem_cons.1 hu with hu | hu
        · cases hu; exact hxy rfl
        · exact h2 u hu

/-- A value the meet propagates is in every upstream map that has an entry. -/
theorem meet_some {outs : List PMap} {y : Var} {e : Expr} (h : (meet outs).get y = some (some e)) {m : PMap} (hm : m ∈ outs) :
    m.get y = none ∨ m.get y = some (some e) := by
  cases hg : m.get y with
  | none => exact .inl rfl
  | some u =>
    right
    rw [(meetFold_some _ _ _ _ h).2 u (List.mem_flatten.2 ⟨m, hm, PMap.get_mem hg⟩)]

theorem meet_none {outs : List PMap} {y : Var} (h : (meet outs).get y = none) {m : PMap} (hm : m ∈ outs) : m.get y = none := by
  cases hg : m.get y with
  | none => rfl
  | some u => exact absurd (List.mem_flatten.2 ⟨m, hm, PMap.get_mem hg⟩) ((meetFold_none _ _ _ h).2 u)

/-- A value the meet propagates comes from one of the upstream maps. -/
theorem meet_from {outs : List PMap} {y : Var} {e : Expr} (h : (meet outs).get y = some (some e)) :
    ∃ m ∈ outs, (y, some e) ∈ m := by
  have key : ∀ (ps : PMap) (acc : PMap), (ps.foldl meetEntry acc).get y = some (some e) →
      acc.get y = some (some e) ∨ (y, some e) ∈ ps := by
    intro ps
    induction ps with
    | nil => intro acc h; exact .inl h
    | cons p ps ih =>
      intro acc h
      obtain ⟨x, w⟩ := p
      rcases ih _ h with h1 | h1
      · unfold meetEntry at h1
        dsimp only at h1
        cases hx : acc.get x with
        | none =>
          rw [hx] at h1
          dsimp only at h1
          rw [PMap.get_put] at h1
          split at h1
          · rename_i hxy; subst hxy; cases h1; exact .inr List.mem_cons_self
          · exact .inl h1
        | some v =>
          rw [hx] at h1
          dsimp only at h1
          split at h1
          · exact .inl h1
          · rw [PMap.get_put] at h1
            split at h1
            · cases h1
            · exact .inl h1
      · exact .inr (List.mem_cons_of_mem _ h1)
  rcases key _ _ h with h1 | h1
  · cases h1
  · exact List.mem_flatten.1 h1

/-! ## The worklist -/

theorem mem_upstream {E : List (Node × Node)} {u n : Node} : u ∈ upstream E n ↔ (u, n) ∈ E := by
  unfold upstream
  rw [List.mem_map]
  constructor
  · rintro ⟨⟨a, b⟩, hm, rfl⟩
    obtain ⟨h1, h2⟩ := List.mem_filter.1 hm
    have : b = n := of_decide_eq_true h2
    subst this; exact h1
  · intro h; exact ⟨(u, n), List.mem_filter.2 ⟨h, decide_eq_true rfl⟩, rfl⟩

theorem mem_downstream {E : List (Node × Node)} {u n : Node} : u ∈ downstream E n ↔ (n, u) ∈ E := by
  unfold downstream
  rw [List.mem_map]
  constructor
  · rintro ⟨⟨a, b⟩, hm, rfl⟩
    obtain ⟨h1, h2⟩ := List.mem_filter.1 hm
    have : a = n := of_decide_eq_true h2
    subst this; exact h1
  · intro h; exact ⟨(n, u), List.mem_filter.2 ⟨h, decide_eq_true rfl⟩, rfl⟩

theorem mem_enqueue {wl vs : List Node} {v : Node} : v ∈ enqueue wl vs ↔ v ∈ wl ∨ v ∈ vs := by
  induction vs generalizing wl with
  | nil => simp [enqueue]
  | cons u vs ih =>
    unfold enqueue
    rw [ih]
    split
    · rename_i hu
      constructor
      · rintro (h | h)
        · exact .inl h
        · exact .inr (List.mem_cons_of_mem _ h)
      · rintro (h | h)
        · exact .inl h
        · rcases List.mem_cons.1 h with h | h
          · subst h; exact .inl hu
          · exact .inr h
    · simp only [List.mem_append, List.mem_cons, List.not_mem_nil, or_false, or_assoc]

section
variable {E : List (Node × Node)} {killed : Node → List Var} {item : Node → Option Item} {depth : Nat}

/-- The equations of a node. -/
def Balanced (E : List (Node × Node)) (killed : Node → List Var) (item : Node → Option Item) (depth : Nat) (S : VP) (v : Node) :
    Prop := S.inn v = newMeet E S v ∧ newProp killed item depth v (S.inn v) = some (S.out v)

theorem newMeet_upd {S : VP} {n v : Node} {o : PMap} (h : v ∉ downstream E n) (inn : Node → PMap) :
    newMeet E { inn := inn, out := fun u => if u = n then o else S.out u } v = newMeet E S v := by
  unfold newMeet
  congr 1
  apply List.map_congr_left
  intro u hu
  dsimp only
  rw [if_neg]
  rintro rfl
  exact h (mem_downstream.2 (mem_upstream.1 hu))

/-- When the worklist is empty, the equations hold at every node that was in it. -/
theorem work_balanced (V : Node → Prop) : ∀ (k : Nat) (wl : List Node) (S S' : VP), work E killed item depth k wl S = some S' →
    (∀ v, V v → v ∈ wl ∨ Balanced E killed item depth S v) → ∀ v, V v → Balanced E killed item depth S' v
  | 0, _, _, _, h, _ => by cases h
  | k + 1, [], S, S', h, hi => by
    cases h
    intro v hv
    rcases hi v hv with hv | hv
    · cases hv
    · exact hv
  | k + 1, n :: wl, S, S', h, hi => by
    unfold work at h
    cases ho : newProp killed item depth n (newMeet E S n) with
    | none => rw [ho] at h; cases h
    | some o =>
      rw [ho] at h
      dsimp only at h
      split at h
      · rename_i heq
        refine work_balanced V k wl _ S' h (fun v hv => ?_)
        by_cases hvn : v = n
        · subst hvn
          right
          refine ⟨?_, ?_⟩
          · simp only [if_true]; rfl
          · simp only [if_true]; rw [ho, heq]
        · rcases hi v hv with h1 | h1
          · rcases List.mem_cons.1 h1 with h1 | h1
            · exact absurd h1 hvn
            · exact .inl h1
          · right
            refine ⟨?_, ?_⟩
            · simp only [if_neg hvn]; exact h1.1
            · simp only [if_neg hvn]; exact h1.2
      · refine work_balanced V k _ _ S' h (fun v hv => ?_)
        by_cases hd : v ∈ downstream E n
        · exact .inl (mem_enqueue.2 (.inr hd))
        · by_cases hvn : v = n
          · subst hvn
            right
            refine ⟨?_, ?_⟩
            · rw [newMeet_upd hd]; simp only [if_true]
            · simp only [if_true]; exact ho
          · rcases hi v hv with h1 | h1
            · rcases List.mem_cons.1 h1 with h1 | h1
              · exact absurd h1 hvn
              · exact .inl (mem_enqueue.2 (.inl h1))
            · right
              refine ⟨?_, ?_⟩
              · rw [newMeet_upd hd]; simp only [if_neg hvn]; exact h1.1
              · simp only [if_neg hvn]; exact h1.2

/-- A property of maps that meets and nodes preserve holds of all maps computed. -/
theorem work_inv (P : PMap → Prop) (hm : ∀ outs : List PMap, (∀ m ∈ outs, P m) → P (meet outs))
    (ht : ∀ n m o, P m → newProp killed item depth n m = some o → P o) : ∀ (k : Nat) (wl : List Node) (S S' : VP),
    work E killed item depth k wl S = some S' → (∀ v, P (S.inn v) ∧ P (S.out v)) → ∀ v, P (S'.inn v) ∧ P (S'.out v)
  | 0, _, _, _, h, _ => by cases h
  | k + 1, [], S, S', h, hi => by cases h; exact hi
  | k + 1, n :: wl, S, S', h, hi => by
    unfold work at h
    have hnew : P (newMeet E S n) := by
      refine hm _ (fun m hmm => ?_)
      obtain ⟨u, _, rfl⟩ := List.mem_map.1 hmm
      exact (hi u).2
    cases ho : newProp killed item depth n (newMeet E S n) with
    | none => rw [ho] at h; cases h
    | some o =>
      rw [ho] at h
      dsimp only at h
      split at h
      · refine work_inv P hm ht k wl _ S' h (fun v => ?_)
        dsimp only
        split
        · exact ⟨hnew, (hi v).2⟩
        · exact hi v
      · refine work_inv P hm ht k _ _ S' h (fun v => ?_)
        dsimp only
        split
        · exact ⟨hnew, ht n _ o hnew ho⟩
        · exact hi v

/-- The start node keeps its map. -/
theorem work_start (hE : ∀ e ∈ E, e.2 ≠ .start) : ∀ (k : Nat) (wl : List Node) (S S' : VP),
    work E killed item depth k wl S = some S' → .start ∉ wl → S'.out .start = S.out .start
  | 0, _, _, _, h, _ => by cases h
  | k + 1, [], S, S', h, _ => by cases h; rfl
  | k + 1, n :: wl, S, S', h, hs => by
    have hn : Node.start ≠ n := fun hh => hs (by rw [← hh]; exact List.mem_cons_self)
    have hw : Node.start ∉ wl := fun hh => hs (List.mem_cons_of_mem _ hh)
    unfold work at h
    cases ho : newProp killed item depth n (newMeet E S n) with
    | none => rw [ho] at h; cases h
    | some o =>
      rw [ho] at h
      dsimp only at h
      split at h
      · have := work_start hE k wl { S with inn := fun v => if v = n then newMeet E S n else S.inn v } S' h hw
        exact this
      · rw [work_start hE k _ _ S' h]
        · dsimp only; rw [if_neg hn]
        · intro hh
          rcases mem_enqueue.1 hh with hh | hh
          · exact hw hh
          · exact hE _ (mem_downstream.1 hh) rfl

end

/-! ## Where the expressions in the maps come from -/

/-- The update an item makes with a value written in the program. -/
def Item.source : Item → Option (Var × Expr)
  | .decl x (some e) | .assign x e | .init x e => some (x, e)
  | _ => none

/-- Some node gives `x` a value written in the program. -/
def Sourced (body : List Stmt) (x : Var) : Prop := ∃ l i e, (l, i) ∈ itemsOf body ∧ i.source = some (x, e)

/-- Some node copies `z` to another variable as it is. -/
def Copied (body : List Stmt) (z : Var) : Prop := ∃ l i x p, (l, i) ∈ itemsOf body ∧ i.source = some (x, .name p z)

/-- A constant or a name. -/
def Expr.leaf : Expr → Bool
  | .lit .. | .name .. => true
  | _ => false

/-- A map with what comes from the body only. -/
def Good (body : List Stmt) (m : PMap) : Prop :=
  ∀ y e, (y, some e) ∈ m → Sourced body y ∧ (∀ p z, e = .name p z → Copied body z) ∧ e.leaf = true

theorem mem_put {m : PMap} {x : Var} {v : Option Expr} {q : Var × Option Expr} (h : q ∈ m.put x v) : q = (x, v) ∨ q ∈ m := by
  induction m with
  | nil => exact .inl (List.mem_singleton.1 h)
  | cons p m ih =>
    obtain ⟨y, u⟩ := p
    unfold PMap.put at h
    split at h
    · rcases List.mem_cons.1 h with h | h
      · exact .inl h
      · exact .inr (List.mem_cons_of_mem _ h)
    · split at h
      · rcases List.mem_cons.1 h with h | h
        · exact .inl h
        · exact .inr h
      · rcases List.mem_cons.1 h with h | h
        · exact .inr (h ▸ List.mem_cons_self)
        · rcases ih h with h | h
          · exact .inl h
          · exact .inr (List.mem_cons_of_mem _ h)

theorem mem_del {m : PMap} {x : Var} {q : Var × Option Expr} (h : q ∈ m.del x) : q ∈ m := by
  induction m with
  | nil => exact h
  | cons p m ih =>
    obtain ⟨y, u⟩ := p
    unfold PMap.del at h
    split at h
    · exact List.mem_cons_of_mem _ (ih h)
    · rcases List.mem_cons.1 h with h | h
      · exact h ▸ List.mem_cons_self
      · exact List.mem_cons_of_mem _ (ih h)

theorem mem_inval {m : PMap} {x y : Var} {e : Expr} (h : (y, some e) ∈ m.inval x) : (y, some e) ∈ m := by
  induction m with
  | nil => exact h
  | cons p m ih =>
    obtain ⟨z, u⟩ := p
    unfold PMap.inval at h
    rcases List.mem_cons.1 h with h | h
    · split at h
      · cases h
      · rw [h]; exact List.mem_cons_self
    · exact List.mem_cons_of_mem _ (ih h)

theorem mem_killAll {xs : List Var} {m : PMap} {y : Var} {e : Expr} (h : (y, some e) ∈ killAll xs m) : (y, some e) ∈ m := by
  induction xs generalizing m with
  | nil => exact h
  | cons x xs ih => exact mem_inval (mem_del (ih h))

theorem mem_meet {outs : List PMap} {y : Var} {e : Expr} (h : (y, some e) ∈ meet outs) : ∃ m ∈ outs, (y, some e) ∈ m := by
  have key : ∀ (ps acc : PMap), (y, some e) ∈ ps.foldl meetEntry acc → (y, some e) ∈ acc ∨ (y, some e) ∈ ps := by
    intro ps
    induction ps with
    | nil => intro acc h; exact .inl h
    | cons p ps ih =>
      intro acc h
      obtain ⟨x, w⟩ := p
      rcases ih _ h with h1 | h1
      · unfold meetEntry at h1
        dsimp only at h1
        split at h1
        · rcases mem_put h1 with h2 | h2
          · exact .inr (h2 ▸ List.mem_cons_self)
          · exact .inl h2
        · split at h1
          · exact .inl h1
          · rcases mem_put h1 with h2 | h2
            · cases h2
            · exact .inl h2
      · exact .inr (List.mem_cons_of_mem _ h1)
  rcases key _ _ h with h1 | h1
  · cases h1
  · exact List.mem_flatten.1 h1

theorem resolve_from : ∀ (k : Nat) (m : PMap) (e r : Expr), resolve k m e = some (some r) →
    (r = e ∧ e.leaf = true) ∨ ∃ y, (y, some r) ∈ m
  | 0, _, _, _, h => by cases h
  | k + 1, m, e, r, h => by
    unfold resolve at h
    cases e with
    | lit p n => cases h; exact .inl ⟨rfl, rfl⟩
    | name p z =>
      dsimp only at h
      cases hz : m.get z with
      | none => rw [hz] at h; cases h; exact .inl ⟨rfl, rfl⟩
      | some u =>
        cases u with
        | none => rw [hz] at h; cases h; exact .inl ⟨rfl, rfl⟩
        | some e' =>
          rw [hz] at h
          dsimp only at h
          cases hr : resolve k m e' with
          | none => rw [hr] at h; cases h
          | some q =>
            rw [hr] at h
            cases q with
            | none => cases h; exact .inr ⟨z, PMap.get_mem hz⟩
            | some r' =>
              cases h
              rcases resolve_from k m e' r hr with ⟨h1, -⟩ | h1
              · subst h1; exact .inr ⟨z, PMap.get_mem hz⟩
              · exact .inr h1
    | bin => cases h
    | logic => cases h
    | call => cases h

theorem good_source {body : List Stmt} {l : Label} {i : Item} (hi : (l, i) ∈ itemsOf body) {x : Var} {e : Expr}
    (hs : i.source = some (x, e)) {m : PMap} (hm : Good body m) {k : Nat} {r : Option Expr} (hr : resolve k m e = some r)
    {m' : PMap} (hm' : ∀ y e', (y, some e') ∈ m' → (y, some e') ∈ m) : Good body (m'.put x r) := by
  intro y e' h
  rcases mem_put h with h | h
  · cases h
    rcases resolve_from k m e e' hr with ⟨h1, h2⟩ | ⟨y, h1⟩
    · subst h1
      exact ⟨⟨l, i, e', hi, hs⟩, fun p z hz => (by subst hz; exact ⟨l, i, x, p, hi, hs⟩), h2⟩
    · exact ⟨⟨l, i, e, hi, hs⟩, (hm y e' h1).2⟩
  · exact hm y e' (hm' y e' h)

theorem good_visit {body : List Stmt} {depth : Nat} {n : Node} {m o : PMap} (hm : Good body m)
    (h : visitItem depth (nodeItem (itemsOf body) n) m = some o) : Good body o := by
  cases n with
  | stmt l =>
    simp only [nodeItem] at h
    cases hi : itemAt (itemsOf body) l with
    | none => rw [hi] at h; cases h; exact hm
    | some i =>
      rw [hi] at h
      have hit := itemAt_mem hi
      have hmi : ∀ x, Good body (m.inval x) := fun x y e he => hm y e (mem_inval he)
      cases i with
      | decl x e =>
        cases e with
        | none => cases h; exact hm
        | some e =>
          simp only [visitItem, Option.map_eq_some_iff] at h
          obtain ⟨r, h1, rfl⟩ := h
          exact good_source hit rfl hm h1 (fun _ _ h => h)
      | assign x e =>
        simp only [visitItem, Option.map_eq_some_iff] at h
        obtain ⟨r, h1, rfl⟩ := h
        exact good_source hit rfl (hmi x) h1 (fun _ _ h => h)
      | init x e =>
        simp only [visitItem, Option.map_eq_some_iff] at h
        obtain ⟨r, h1, rfl⟩ := h
        exact good_source hit rfl hm h1 (fun _ _ h => h)
      | callRef x =>
        cases h
        intro y e he
        rcases mem_put he with he | he
        · cases he
        · exact hmi x y e he
      | expr e => cases h; exact hm
      | ret e => cases h; exact hm
      | cond e => cases h; exact hm
      | forVar x => cases h; exact hm
  | start => cases h; exact hm
  | fin => cases h; exact hm
  | scopeEnd k => cases h; exact hm
  | flow k => cases h; exact hm

theorem good_start (body : List Stmt) (params : List Var) : ∀ m : PMap, Good body m → Good body (params.foldl (fun m x => m.put x none) m) := by
  induction params with
  | nil => exact fun _ h => h
  | cons x ps ih =>
    intro m hm
    refine ih _ (fun y e he => ?_)
    rcases mem_put he with he | he
    · cases he
    · exact hm y e he

theorem analyse_good {params : List Var} {body : List Stmt} {D : Flow} {order : List Node} {depth k : Nat} {S : VP}
    (h : analyse params body D order depth k = some S) (v : Node) : Good body (S.inn v) ∧ Good body (S.out v) := by
  have hnil : Good body [] := fun _ _ h => by cases h
  refine work_inv (Good body) (fun outs ho y e he => ?_) (fun n m o hm ho => ?_) _ _ _ _ h (fun v => ⟨hnil, ?_⟩) v
  · obtain ⟨m, hm, h1⟩ := mem_meet he
    exact ho m hm y e h1
  · exact good_visit (fun y e he => hm y e (mem_killAll he)) ho
  · dsimp only
    split
    · exact good_start body params _ hnil
    · exact hnil

/-! ## Nothing leads to the start node -/

/-- No edge leads to the start node. -/
def NoStart (g : G) : Prop := ∀ e ∈ g.edges, e.2 ≠ .start

theorem NoStart.edge {g : G} (h : NoStart g) (u : Option Node) {v : Node} (hv : v ≠ .start) : NoStart (g.edge u v) := by
  unfold G.edge
  split
  · exact h
  · split
    · exact h
    · split
      · exact h
      · intro e he
        rcases List.mem_append.1 he with he | he
        · exact h e he
        · cases List.mem_singleton.1 he; exact hv

theorem NoStart.init {g : G} (h : NoStart g) (p : Option Node) (i : Option (Label × Var × Expr)) : NoStart (addInit g p i).1 := by
  unfold addInit
  split
  · exact h
  · exact h.edge _ (by intro hh; cases hh)

mutual
theorem addStmt_noStart (g : G) (p : Option Node) (se : Node) (h : NoStart g) (hse : se ≠ .start) :
    ∀ st, NoStart (addStmt g p se st).1
  | .decl .. => by unfold addStmt; exact h.edge _ (by intro hh; cases hh)
  | .assign .. => by unfold addStmt; exact h.edge _ (by intro hh; cases hh)
  | .expr .. => by unfold addStmt; exact h.edge _ (by intro hh; cases hh)
  | .callRef .. => by unfold addStmt; exact h.edge _ (by intro hh; cases hh)
  | .ret .. => by unfold addStmt; exact (h.edge _ (by intro hh; cases hh)).edge _ (by intro hh; cases hh)
  | .throw_ .. => by unfold addStmt; exact (h.edge _ (by intro hh; cases hh)).edge _ hse
  | .brk => by unfold addStmt; exact h
  | .cont => by unfold addStmt; exact h
  | .block b => by
    unfold addStmt; dsimp only
    apply NoStart.edge _ _ (by intro hh; cases hh)
    refine addSeq_noStart (g.newEnd b) _ _ _ h ?_ b
    intro hh; cases hh
  | .ite l i c t hh e => by
    unfold addStmt
    dsimp only
    have h1 := fun k (hk : k ≠ Node.start) => addSeq_noStart (((((addInit g p i).1.edge (addInit g p i).2 (.stmt l)).newFlow).newEnd t))
      (some (.stmt l)) k t ((h.init p i).edge (addInit g p i).2 (by intro hh; cases hh)) hk t
    split
    · dsimp only
      apply NoStart.edge _ _ (by intro hh; cases hh); apply NoStart.edge _ _ (by intro hh; cases hh)
      apply addSeq_noStart _ _ _ _ _ (by intro hh; cases hh)
      apply NoStart.edge _ _ (by intro hh; cases hh); apply NoStart.edge _ _ (by intro hh; cases hh)
      exact h1 _ (by intro hh; cases hh)
    · dsimp only
      apply NoStart.edge _ _ (by intro hh; cases hh); apply NoStart.edge _ _ (by intro hh; cases hh)
      apply NoStart.edge _ _ (by intro hh; cases hh); exact h1 _ (by intro hh; cases hh)
  | .while_ l i c b hh e => by
    unfold addStmt
    dsimp only
    have h1 := fun k (hk : k ≠ Node.start) => addSeq_noStart ((((addInit g p i).1.edge (addInit g p i).2 (.stmt l)).newEnd b))
      (some (.stmt l)) k b ((h.init p i).edge (addInit g p i).2 (by intro hh; cases hh)) hk b
    split
    · dsimp only
      apply NoStart.edge _ _ (by intro hh; cases hh); apply NoStart.edge _ _ (by intro hh; cases hh)
      apply addSeq_noStart _ _ _ _ _ (by intro hh; cases hh)
      apply NoStart.edge _ (some (.stmt l)) (by intro hh; cases hh)
      apply NoStart.edge _ _ (by intro hh; cases hh); apply NoStart.edge _ _ (by intro hh; cases hh)
      exact h1 _ (by intro hh; cases hh)
    · dsimp only
      apply NoStart.edge _ (some (.stmt l)) (by intro hh; cases hh)
      apply NoStart.edge _ _ (by intro hh; cases hh); apply NoStart.edge _ _ (by intro hh; cases hh)
      exact h1 _ (by intro hh; cases hh)
  | .for_ l lx x q b => by
    unfold addStmt
    dsimp only
    apply NoStart.edge _ (some (.stmt l)) (by intro hh; cases hh)
    apply NoStart.edge _ _ (by intro hh; cases hh); apply NoStart.edge _ _ (by intro hh; cases hh)
    apply addSeq_noStart _ _ _ _ _ (by intro hh; cases hh)
    apply NoStart.edge _ _ (by intro hh; cases hh); apply NoStart.edge _ _ (by intro hh; cases hh)
    exact h
  | .try_ b c => by
    unfold addStmt
    dsimp only
    apply NoStart.edge _ _ (by intro hh; cases hh); apply NoStart.edge _ _ (by intro hh; cases hh)
    apply addSeq_noStart _ _ _ _ _ (by intro hh; cases hh)
    apply NoStart.edge _ (some _) (by intro hh; cases hh)
    apply NoStart.edge _ (some _) (by intro hh; cases hh)
    apply NoStart.edge _ _ (by intro hh; cases hh)
    refine addSeq_noStart (g.newEnd b) _ _ _ h ?_ b
    intro hh; cases hh
theorem addSeq_noStart (g : G) (p : Option Node) (se : Node) (sc : List Stmt) (h : NoStart g) (hse : se ≠ .start) :
    ∀ b, NoStart (addSeq g p se sc b).1
  | [] => by unfold addSeq; exact h
  | s :: r => by
    have h1 := addStmt_noStart g p se h hse s
    unfold addSeq
    dsimp only
    split
    · split
      · exact h1
      · dsimp only
        apply NoStart.edge _ _ (by intro hh; cases hh); apply NoStart.edge _ _ (by intro hh; cases hh)
        apply NoStart.edge _ _ (by intro hh; cases hh)
        refine addSeq_noStart ((addStmt g p se s).1.newEnd sc) _ _ _ h1 ?_ r
        intro hh; cases hh
    · exact addSeq_noStart _ _ _ _ h1 hse r
end

theorem build_noStart (body : List Stmt) : NoStart (build body) := by
  unfold build
  dsimp only
  apply NoStart.edge _ _ (by intro hh; cases hh); apply NoStart.edge _ _ (by intro hh; cases hh)
  exact addSeq_noStart _ _ _ _ (fun _ h => by cases h) (by intro hh; cases hh) body

/-! ## Declarations stay -/

theorem declsOf_append (a b : List Stmt) : declsOf (a ++ b) = declsOf a ++ declsOf b := by
  induction a with
  | nil => rfl
  | cons z a ih => simp only [List.cons_append, declsOf, ih, List.append_assoc]

theorem prop_initVars (S : VP) (i : Option (Label × Var × Expr)) : initVars (i.bind (propRw S).init) = initVars i := by
  cases i with
  | none => rfl
  | some i => rfl

mutual
theorem prop_decls_stmt (S : VP) : ∀ st : Stmt, declsOf ((propRw S).stmt st) = st.decls
  | .decl .. => by simp [Rw.stmt, propRw, declsOf, Stmt.decls]
  | .assign .. => by simp [Rw.stmt, propRw, declsOf, Stmt.decls]
  | .expr .. => by simp [Rw.stmt, propRw, declsOf, Stmt.decls]
  | .callRef .. => by simp [Rw.stmt, propRw, declsOf, Stmt.decls]
  | .ret .. => by simp [Rw.stmt, propRw, declsOf, Stmt.decls]
  | .throw_ .. => by simp [Rw.stmt, propRw, declsOf, Stmt.decls]
  | .brk => by simp [Rw.stmt, declsOf, Stmt.decls]
  | .cont => by simp [Rw.stmt, declsOf, Stmt.decls]
  | .block b => by simp only [Rw.stmt, declsOf, Stmt.decls, List.append_nil]; exact prop_decls_list S b
  | .ite l i c t h e => by
    have : (propRw S).gone l = false := rfl
    simp only [Rw.stmt, this, Bool.false_eq_true, if_false, declsOf, Stmt.decls, List.append_nil, prop_initVars]
    rw [prop_decls_list S t, prop_decls_list S e]
  | .while_ l i c t h e => by
    have : (propRw S).gone l = false := rfl
    simp only [Rw.stmt, this, Bool.false_eq_true, if_false, declsOf, Stmt.decls, List.append_nil, prop_initVars]
    rw [prop_decls_list S t, prop_decls_list S e]
  | .for_ l lx x q b => by
    have : (propRw S).gone l = false := rfl
    simp only [Rw.stmt, this, Bool.false_eq_true, if_false, declsOf, Stmt.decls, List.append_nil]
    rw [prop_decls_list S b]
  | .try_ b c => by
    simp only [Rw.stmt, declsOf, Stmt.decls, List.append_nil]
    rw [prop_decls_list S b, prop_decls_list S c]
theorem prop_decls_list (S : VP) : ∀ b : List Stmt, declsOf ((propRw S).list b) = declsOf b
  | [] => rfl
  | s :: r => by
    simp only [Rw.list, declsOf_append, declsOf]
    rw [prop_decls_stmt S s, prop_decls_list S r]
end

/-! ## Evaluation -/

section
variable {M : Sem}

/-- The value of what a map can hold. -/
def valueOf : Expr → (Var → Option Int) → Option Int
  | .lit _ n, _ => some n
  | .name _ z, env => env z
  | _, _ => none

/-- Only what callees see has changed, and that only if there were calls. -/
def Frame (c : Bool) (s s1 : State M) : Prop := ∀ y, (c = true → M.vis y = false) → s1.env y = s.env y

theorem Frame.refl (c : Bool) (s : State M) : Frame c s s := fun _ _ => rfl

theorem Frame.trans {c1 c2 c : Bool} {s s1 s2 : State M} (h1 : Frame c1 s s1) (h2 : Frame c2 s1 s2) (h : c1 = true → c = true)
    (h' : c2 = true → c = true) : Frame c s s2 :=
  fun y hy => (h2 y (fun hh => hy (h' hh))).trans (h1 y (fun hh => hy (h hh)))

theorem frame_back (s : State M) (w : M.W) (g : Var → Option Int) : Frame true s (s.back w g) := by
  intro y hy
  simp only [State.back, hy rfl, Bool.false_eq_true, if_false]

theorem eval_frame : ∀ (e : Expr) {s : State M} {v : Int} {s1 : State M}, eval e s = .val v s1 → Frame e.hasCall s s1
  | .lit .., s, v, s1, h => by cases h; exact Frame.refl _ _
  | .name p x, s, v, s1, h => by
    simp only [eval] at h
    split at h <;> cases h
    exact Frame.refl _ _
  | .bin o a b, s, v, s1, h => by
    simp only [eval] at h
    obtain ⟨va, sa, ha, h⟩ := then_val h
    obtain ⟨vb, sb, hb, h⟩ := then_val h
    split at h <;> cases h
    exact (eval_frame a ha).trans (eval_frame b hb) (fun hh => by simp [Expr.hasCall, hh]) (fun hh => by simp [Expr.hasCall, hh])
  | .logic k a b, s, v, s1, h => by
    simp only [eval] at h
    obtain ⟨va, sa, ha, h⟩ := then_val h
    have hfa : Frame (Expr.logic k a b).hasCall s sa :=
      (eval_frame a ha).trans (Frame.refl false _) (fun hh => by simp [Expr.hasCall, hh]) (fun hh => by cases hh)
    split at h
    · split at h
      · cases h; exact hfa
      · obtain ⟨vb, sb, hb, h⟩ := then_val h
        cases h
        exact hfa.trans (eval_frame b hb) (fun hh => hh) (fun hh => by simp [Expr.hasCall, hh])
    · split at h
      · obtain ⟨vb, sb, hb, h⟩ := then_val h
        cases h
        exact hfa.trans (eval_frame b hb) (fun hh => hh) (fun hh => by simp [Expr.hasCall, hh])
      · cases h; exact hfa
  | .call o a, s, v, s1, h => by
    simp only [eval] at h
    obtain ⟨va, sa, ha, h⟩ := then_val h
    split at h <;> cases h
    exact (eval_frame a ha).trans (frame_back _ _ _) (fun _ => rfl) (fun _ => rfl)

/-- What replaces a name has the same value. -/
def Fits (f : Var → Option Expr) (s : State M) : Prop :=
  ∀ y e v, f y = some e → s.env y = some v → valueOf e s.env = some v

/-- Calls do not touch what is replaced and what replaces it. -/
def Still (M : Sem) (f : Var → Option Expr) : Prop :=
  ∀ y e, f y = some e → M.vis y = false ∧ ∀ p z, e = .name p z → M.vis z = false

theorem Fits.frame {f : Var → Option Expr} {c : Bool} {s s1 : State M} (h : Fits f s) (hf : Frame c s s1)
    (hq : c = true → Still M f) : Fits f s1 := by
  intro y e v hy hv
  rw [hf y (fun hc => (hq hc y e hy).1)] at hv
  have h1 := h y e v hy hv
  cases e with
  | lit p n => exact h1
  | name p z =>
    simp only [valueOf] at h1 ⊢
    rw [hf z (fun hc => (hq hc y _ hy).2 p z rfl)]
    exact h1
  | bin => cases h1
  | logic => cases h1
  | call => cases h1

theorem eval_valueOf {e : Expr} {s : State M} {v : Int} (h : valueOf e s.env = some v) : eval e s = .val v s := by
  cases e with
  | lit p n => cases h; rfl
  | name p z => simp only [valueOf] at h; simp only [eval, h]
  | bin => cases h
  | logic => cases h
  | call => cases h

theorem then_stuck {r : Ev M} {k : Int → State M → Ev M} (h : r.then k ≠ .stuck) : r ≠ .stuck := by
  rintro rfl; exact h rfl

/-- Replacing names by what they are known to equal changes nothing. -/
theorem eval_subst (f : Var → Option Expr) : ∀ (e : Expr) {s : State M}, Fits f s → (e.hasCall = true → Still M f) →
    eval e s ≠ .stuck → eval (e.subst f) s = eval e s
  | .lit .., s, _, _, _ => rfl
  | .name p x, s, hf, _, hs => by
    simp only [Expr.subst]
    cases hx : f x with
    | none => rfl
    | some e' =>
      simp only [Option.getD]
      cases hv : s.env x with
      | none => simp only [eval, hv] at hs; exact absurd rfl hs
      | some v =>
        rw [eval_valueOf (hf x e' v hx hv)]
        simp only [eval, hv]
  | .bin o a b, s, hf, hq, hs => by
    simp only [Expr.subst, eval] at hs ⊢
    rw [eval_subst f a hf (fun hh => hq (by simp [Expr.hasCall, hh])) (then_stuck hs)]
    cases ha : eval a s with
    | stuck => rfl
    | exn s1 => rfl
    | val va s1 =>
      rw [ha] at hs
      simp only [Ev.then] at hs ⊢
      have hf1 := hf.frame (eval_frame a ha) (fun hh => hq (by simp [Expr.hasCall, hh]))
      have hs1 : eval b s1 ≠ .stuck := by
        intro hh; rw [hh] at hs; exact hs rfl
      rw [eval_subst f b hf1 (fun hh => hq (by simp [Expr.hasCall, hh])) hs1]
  | .logic k a b, s, hf, hq, hs => by
    simp only [Expr.subst, eval] at hs ⊢
    rw [eval_subst f a hf (fun hh => hq (by simp [Expr.hasCall, hh])) (then_stuck hs)]
    cases ha : eval a s with
    | stuck => rfl
    | exn s1 => rfl
    | val va s1 =>
      rw [ha] at hs
      simp only [Ev.then] at hs ⊢
      have hf1 := hf.frame (eval_frame a ha) (fun hh => hq (by simp [Expr.hasCall, hh]))
      have hb : eval b s1 ≠ .stuck → eval (b.subst f) s1 = eval b s1 :=
        fun h => eval_subst f b hf1 (fun hh => hq (by simp [Expr.hasCall, hh])) h
      split
      · rename_i hk
        split
        · rfl
        · rename_i hv
          rw [if_pos hk, if_neg hv] at hs
          rw [hb (by intro hh; rw [hh] at hs; exact hs rfl)]
      · rename_i hk
        split
        · rename_i hv
          rw [if_neg hk, if_pos hv] at hs
          rw [hb (by intro hh; rw [hh] at hs; exact hs rfl)]
        · rfl
  | .call o a, s, hf, hq, hs => by
    simp only [Expr.subst, eval] at hs ⊢
    rw [eval_subst f a hf (fun hh => hq rfl) (then_stuck hs)]

/-! ## Premises -/

/-- A variable the analysis has to do with, or a local of the body. -/
def Private (body : List Stmt) (y : Var) : Prop := Sourced body y ∨ Copied body y ∨ y ∈ declsOf body

/-- What the pass silently relies on. A variable that is given a value is a parameter or a local, not a global, and a local that
    is given a value has an initializer; the variable of a `for` is neither given a value nor copied; the variable in the head of an
    `if` or `while` is not copied; callees see none of these variables. -/
structure Tidy (M : Sem) (params : List Var) (body : List Stmt) : Prop where
  labels : ((itemsOf body).map Prod.fst).Nodup
  owned : ∀ x, Sourced body x → x ∈ params ∨ x ∈ declsOf body
  noInit : ∀ l x, (l, Item.decl x none) ∈ itemsOf body → ¬ Sourced body x
  loopVar : ∀ l x, (l, Item.forVar x) ∈ itemsOf body → ¬ Sourced body x ∧ ¬ Copied body x
  head : ∀ l x e, (l, Item.init x e) ∈ itemsOf body → ¬ Copied body x
  quiet : ∀ l i, (l, i) ∈ itemsOf body → i.calls = true → ∀ y, Private body y → M.vis y = false

/-! ## What holds at a node -/

/-- What the map says is true. -/
def Holds (m : PMap) (s : State M) : Prop := ∀ y e v, m.get y = some (some e) → s.env y = some v → valueOf e s.env = some v

/-- Variables that are given a value have an entry while they are in scope. -/
def Present (body : List Stmt) (m : PMap) (s : State M) : Prop := ∀ y, Sourced body y → s.env y ≠ none → m.get y ≠ none

/-- States after node `u`. -/
structure PR (body : List Stmt) (S : VP) (u : Node) (s : State M) : Prop where
  live : Live (build body).edges u
  holds : Holds (S.out u) s
  present : Present body (S.out u) s
  reached : ∀ x ∈ declsOf body, s.env x ≠ none →
    ∃ n, ReachOut (edges body) (genAt (itemsOf body)) (cutAt (build body).scopes) u (x, n)

/-- What is known about the result of the analysis. -/
structure Facts (params : List Var) (body : List Stmt) (D : Flow) (S : VP) : Prop where
  bal : ∃ depth, ∀ v, Live (build body).edges v → v ≠ .start →
    Balanced (edges body) (killedAt D) (nodeItem (itemsOf body)) depth S v
  good : ∀ v, Good body (S.inn v) ∧ Good body (S.out v)
  start : ∀ y, (S.out .start).get y = if y ∈ params then some none else none
  killed : ∀ k sc, (k, sc) ∈ (build body).scopes → Live (build body).edges k → ∀ x n,
    ReachIn (edges body) (genAt (itemsOf body)) (cutAt (build body).scopes) k (x, n) → x ∈ declsOf sc → x ∈ killedAt D k
  killedOnly : ∀ k sc, (k, sc) ∈ (build body).scopes → ∀ x ∈ killedAt D k, x ∈ declsOf sc

variable {params : List Var} {body : List Stmt} {D : Flow} {S : VP}

theorem PR.arrive (hF : Facts params body D S) {u n : Node} {s : State M} (h : PR body S u s) (he : (u, n) ∈ (build body).edges) :
    Live (build body).edges n ∧ n ≠ .start ∧ Holds (S.inn n) s ∧ Present body (S.inn n) s := by
  have hl : Live (build body).edges n := .step h.live he
  have hn : n ≠ .start := build_noStart body _ he
  obtain ⟨depth, hb⟩ := hF.bal
  have heq := (hb n hl hn).1
  have hmem : S.out u ∈ (upstream (edges body) n).map S.out :=
    List.mem_map.2 ⟨u, mem_upstream.2 (live_edge h.live he), rfl⟩
  refine ⟨hl, hn, ?_, ?_⟩
  · intro y e v hy hv
    have hk := ((hF.good n).1 y e (PMap.get_mem hy)).1
    rw [heq] at hy
    rcases meet_some hy hmem with h1 | h1
    · exact absurd h1 (h.present y hk (by rw [hv]; intro hh; cases hh))
    · exact h.holds y e v h1 hv
  · intro y hk hv hh
    rw [heq] at hh
    exact h.present y hk hv (meet_none hh hmem)

theorem killedAt_stmt (l : Label) : killedAt D (.stmt l) = [] := rfl

theorem Facts.outAt (hF : Facts params body D S) (hT : Tidy M params body) {l : Label} {i : Item} (hi : (l, i) ∈ itemsOf body)
    (hl : Live (build body).edges (.stmt l)) : ∃ depth, visitItem depth (some i) (S.inn (.stmt l)) = some (S.out (.stmt l)) := by
  obtain ⟨depth, hb⟩ := hF.bal
  have h := (hb _ hl (by intro hh; cases hh)).2
  simp only [newProp, killedAt_stmt, killAll, nodeItem, itemAt_eq hT.labels hi] at h
  exact ⟨depth, h⟩

theorem PR.next (hT : Tidy M params body) {u : Node} {s s' : State M} (h : PR body S u s) {l : Label} {i : Item}
    (hi : (l, i) ∈ itemsOf body) (he : (u, .stmt l) ∈ (build body).edges) (h1 : Holds (S.out (.stmt l)) s')
    (h2 : Present body (S.out (.stmt l)) s') (h3 : ∀ x ∈ declsOf body, s'.env x ≠ none → x ∈ i.gen ∨ s.env x ≠ none) :
    PR body S (.stmt l) s' := by
  have hg : genAt (itemsOf body) (.stmt l) = i.gen := by simp only [genAt, itemAt_eq hT.labels hi]
  refine ⟨.step h.live he, h1, h2, fun x hx hn => ?_⟩
  by_cases hxg : x ∈ i.gen
  · exact ⟨_, .here (by rw [hg]; exact hxg)⟩
  · rcases h3 x hx hn with hh | hh
    · exact absurd hh hxg
    · obtain ⟨n, hr⟩ := h.reached x hx hh
      exact ⟨n, .through (live_edge h.live he) hr (by rw [hg]; exact hxg) (cut_stmt l x)⟩

/-- Nothing the analysis has to do with has changed. -/
def Unmoved (body : List Stmt) (s s1 : State M) : Prop := ∀ y, Private body y → s1.env y = s.env y

theorem Frame.unmoved (hT : Tidy M params body) {l : Label} {i : Item} (hi : (l, i) ∈ itemsOf body) {c : Bool}
    (hc : c = true → i.calls = true) {s s1 : State M} (h : Frame c s s1) : Unmoved body s s1 :=
  fun y hy => h y (fun hh => hT.quiet l i hi (hc hh) y hy)

theorem Holds.unmoved {m : PMap} {s s1 : State M} (h : Holds m s) (hg : Good body m) (hu : Unmoved body s s1) : Holds m s1 := by
  intro y e v hy hv
  obtain ⟨hs, hc⟩ := hg y e (PMap.get_mem hy)
  rw [hu y (.inl hs)] at hv
  have h1 := h y e v hy hv
  cases e with
  | lit p n => exact h1
  | name p z =>
    simp only [valueOf] at h1 ⊢
    rw [hu z (.inr (.inl (hc.1 p z rfl)))]
    exact h1
  | bin => cases h1
  | logic => cases h1
  | call => cases h1

theorem Present.unmoved {m : PMap} {s s1 : State M} (h : Present body m s) (hu : Unmoved body s s1) : Present body m s1 := by
  intro y hy hv
  rw [hu y (.inl hy)] at hv
  exact h y hy hv

/-- A node the analysis ignores. -/
theorem PR.skip (hF : Facts params body D S) (hT : Tidy M params body) {u : Node} {s s1 : State M} (h : PR body S u s) {l : Label}
    {i : Item} (hi : (l, i) ∈ itemsOf body) (he : (u, .stmt l) ∈ (build body).edges)
    (hv : ∀ depth m, visitItem depth (some i) m = some m) (hu : Unmoved body s s1) : PR body S (.stmt l) s1 := by
  obtain ⟨hl, -, h1, h2⟩ := h.arrive hF he
  obtain ⟨depth, ho⟩ := hF.outAt hT hi hl
  rw [hv] at ho
  have ho := Option.some.inj ho
  refine h.next hT hi he ?_ ?_ (fun x hx hn => .inr ?_)
  · rw [← ho]; exact h1.unmoved (hF.good _).1 hu
  · rw [← ho]; exact h2.unmoved hu
  · rw [← hu x (.inr (.inr hx))]; exact hn

theorem resolve_value {m : PMap} {s : State M} (hm : Holds m s) : ∀ (k : Nat) (e r : Expr) (v : Int),
    resolve k m e = some (some r) → valueOf e s.env = some v → valueOf r s.env = some v
  | 0, _, _, _, h, _ => by cases h
  | k + 1, e, r, v, h, hv => by
    unfold resolve at h
    cases e with
    | lit p n => cases h; exact hv
    | name p z =>
      dsimp only at h
      cases hz : m.get z with
      | none => rw [hz] at h; cases h; exact hv
      | some u =>
        cases u with
        | none => rw [hz] at h; cases h; exact hv
        | some e' =>
          rw [hz] at h
          dsimp only at h
          have hv' : valueOf e' s.env = some v := hm z e' v hz hv
          cases hr : resolve k m e' with
          | none => rw [hr] at h; cases h
          | some q =>
            rw [hr] at h
            cases q with
            | none => cases h; exact hv'
            | some r' => cases h; exact resolve_value hm k e' _ v hr hv'
    | bin => cases h
    | logic => cases h
    | call => cases h

theorem resolve_plain {k : Nat} {m : PMap} {e r : Expr} (h : resolve k m e = some (some r)) {s s1 : State M} {v : Int}
    (he : eval e s = .val v s1) : valueOf e s.env = some v ∧ s1 = s := by
  cases e with
  | lit p n => cases he; exact ⟨rfl, rfl⟩
  | name p z =>
    simp only [eval] at he
    cases hz : s.env z with
    | none => rw [hz] at he; cases he
    | some w => rw [hz] at he; cases he; exact ⟨hz, rfl⟩
  | bin => cases k <;> cases h
  | logic => cases k <;> cases h
  | call => cases k <;> cases h

theorem value_set {e : Expr} {s : State M} {x : Var} {v w : Int} (h : valueOf e s.env = some w)
    (hx : ∀ p, e = .name p x → w = v) : valueOf e (s.set x v).env = some w := by
  cases e with
  | lit p n => exact h
  | name p z =>
    simp only [valueOf] at h ⊢
    rw [set_env]
    split
    · rename_i hz; subst hz; rw [hx p rfl]
    · exact h
  | bin => cases h
  | logic => cases h
  | call => cases h

/-- A node that gives a variable a value. -/
theorem PR.source (hF : Facts params body D S) (hT : Tidy M params body) {u : Node} {s s1 : State M} (h : PR body S u s) {l : Label}
    {i : Item} (hi : (l, i) ∈ itemsOf body) (he : (u, .stmt l) ∈ (build body).edges) {x : Var} {e : Expr}
    (hg : i.gen = [x]) (hu : Unmoved body s s1) {v : Int} (hev : eval e s = .val v s1) {m : PMap} {depth : Nat} {r : Option Expr}
    (hm : ∀ y e', m.get y = some (some e') → (S.inn (.stmt l)).get y = some (some e'))
    (hm' : ∀ y, m.get y = none → (S.inn (.stmt l)).get y = none)
    (hr : resolve depth m e = some r) (ho : m.put x r = S.out (.stmt l))
    (hc : ∀ y e' w, y ≠ x → m.get y = some (some e') → s1.env y = some w → valueOf e' s1.env = some w → ∀ p, e' ≠ .name p x) :
    PR body S (.stmt l) (s1.set x v) := by
  obtain ⟨hl, -, h1, h2⟩ := h.arrive hF he
  have h3 := h1.unmoved (hF.good _).1 hu
  have h4 := h2.unmoved hu
  refine h.next hT hi he ?_ ?_ ?_
  · rw [← ho]
    intro y e' w hy hw
    rw [PMap.get_put] at hy
    split at hy
    · rename_i hxy
      subst hxy
      have hy := Option.some.inj hy
      subst hy
      rw [set_env, if_pos rfl] at hw
      cases hw
      obtain ⟨hv, rfl⟩ := resolve_plain hr hev
      exact value_set (resolve_value (fun y e v hy hv => h1 y e v (hm y e hy) hv) _ _ _ _ hr hv) (fun _ _ => rfl)
    · rename_i hxy
      rw [set_env, if_neg (fun hh => hxy hh.symm)] at hw
      have hval := h3 y e' w (hm y e' hy) hw
      exact value_set hval (fun p hp => absurd hp (hc y e' w (fun hh => hxy hh.symm) hy hw hval p))
  · rw [← ho]
    intro y hk hn hh
    rw [PMap.get_put] at hh
    split at hh
    · cases hh
    · rename_i hxy
      rw [set_env, if_neg (fun hh => hxy hh.symm)] at hn
      exact h4 y hk hn (hm' y hh)
  · intro y hy hn
    rw [set_env] at hn
    split at hn
    · rename_i hyx; left; rw [hg, hyx]; exact List.mem_singleton.2 rfl
    · right; rw [← hu y (.inr (.inr hy))]; exact hn

theorem PR.decl (hF : Facts params body D S) (hT : Tidy M params body) {u : Node} {s s1 : State M} (h : PR body S u s) {l : Label}
    {x : Var} {e : Expr} (hi : (l, Item.decl x (some e)) ∈ itemsOf body) (he : (u, .stmt l) ∈ (build body).edges) {v : Int}
    (hev : eval e s = .val v s1) (hnx : s.env x = none) : PR body S (.stmt l) (s1.set x v) := by
  obtain ⟨depth, ho⟩ := hF.outAt hT hi (h.arrive hF he).1
  simp only [visitItem, Option.map_eq_some_iff] at ho
  obtain ⟨r, hr, ho⟩ := ho
  have hu : Unmoved body s s1 := (eval_frame e hev).unmoved hT hi (fun hh => hh)
  have hn : s1.env x = none := (hu x (.inr (.inr (mem_decls.2 ⟨l, _, hi, rfl⟩)))).trans hnx
  refine h.source hF hT hi he rfl hu hev (fun _ _ hh => hh) (fun _ hh => hh) hr ho (fun y e' w _ _ _ hval p hp => ?_)
  subst hp
  simp only [valueOf] at hval
  rw [hn] at hval; cases hval

theorem PR.init (hF : Facts params body D S) (hT : Tidy M params body) {u : Node} {s s1 : State M} (h : PR body S u s) {l : Label}
    {x : Var} {e : Expr} (hi : (l, Item.init x e) ∈ itemsOf body) (he : (u, .stmt l) ∈ (build body).edges) {v : Int}
    (hev : eval e s = .val v s1) : PR body S (.stmt l) (s1.set x v) := by
  obtain ⟨depth, ho⟩ := hF.outAt hT hi (h.arrive hF he).1
  simp only [visitItem, Option.map_eq_some_iff] at ho
  obtain ⟨r, hr, ho⟩ := ho
  have hu : Unmoved body s s1 := (eval_frame e hev).unmoved hT hi (fun hh => hh)
  refine h.source hF hT hi he rfl hu hev (fun _ _ hh => hh) (fun _ hh => hh) hr ho (fun y e' w _ hy _ hval p hp => ?_)
  exact hT.head l x e hi (((hF.good _).1 y e' (PMap.get_mem hy)).2.1 p x hp)

theorem PR.assign (hF : Facts params body D S) (hT : Tidy M params body) {u : Node} {s s1 : State M} (h : PR body S u s) {l : Label}
    {x : Var} {e : Expr} (hi : (l, Item.assign x e) ∈ itemsOf body) (he : (u, .stmt l) ∈ (build body).edges) {v : Int}
    (hev : eval e s = .val v s1) : PR body S (.stmt l) (s1.set x v) := by
  obtain ⟨depth, ho⟩ := hF.outAt hT hi (h.arrive hF he).1
  simp only [visitItem, Option.map_eq_some_iff] at ho
  obtain ⟨r, hr, ho⟩ := ho
  have hu : Unmoved body s s1 := (eval_frame e hev).unmoved hT hi (fun hh => hh)
  refine h.source hF hT hi he rfl hu hev (fun y e' hh => (inval_some hh).1) (fun _ hh => inval_none.1 hh) hr ho
    (fun y e' w _ hy _ hval p hp => ?_)
  have := (inval_some hy).2
  subst hp
  simp [copyOf] at this

/-- A node that sets a variable to a value the analysis does not look at. -/
theorem PR.blind (hF : Facts params body D S) (hT : Tidy M params body) {u : Node} {s : State M} (h : PR body S u s) {l : Label}
    {i : Item} (hi : (l, i) ∈ itemsOf body) (he : (u, .stmt l) ∈ (build body).edges) {x : Var} (hg : i.gen = [x])
    (hv : ∀ depth m, visitItem depth (some i) m = some m) (hs : ¬ Sourced body x) (v : Int)
    (hc : Copied body x → s.env x = none) : PR body S (.stmt l) (s.set x v) := by
  obtain ⟨hl, -, h1, h2⟩ := h.arrive hF he
  obtain ⟨depth, ho⟩ := hF.outAt hT hi hl
  rw [hv] at ho
  have ho := Option.some.inj ho
  refine h.next hT hi he ?_ ?_ ?_
  · rw [← ho]
    intro y e w hy hw
    obtain ⟨hk, hz⟩ := (hF.good _).1 y e (PMap.get_mem hy)
    rw [set_env, if_neg (fun hh : y = x => hs (by rw [← hh]; exact hk))] at hw
    have hval := h1 y e w hy hw
    refine value_set hval (fun p hp => ?_)
    have := hc (hz.1 p x hp)
    rw [hp] at hval
    simp only [valueOf] at hval
    rw [this] at hval; cases hval
  · rw [← ho]
    intro y hk hn
    rw [set_env, if_neg (fun hh : y = x => hs (by rw [← hh]; exact hk))] at hn
    exact h2 y hk hn
  · intro y hy hn
    rw [set_env] at hn
    split at hn
    · rename_i hyx; left; rw [hg, hyx]; exact List.mem_singleton.2 rfl
    · exact .inr hn

theorem PR.callRef (hF : Facts params body D S) (hT : Tidy M params body) {u : Node} {s s1 : State M} (h : PR body S u s) {l : Label}
    {x : Var} (hi : (l, Item.callRef x) ∈ itemsOf body) (he : (u, .stmt l) ∈ (build body).edges) (hu : Unmoved body s s1) (v : Int) :
    PR body S (.stmt l) (s1.set x v) := by
  obtain ⟨hl, -, h1, h2⟩ := h.arrive hF he
  obtain ⟨depth, ho⟩ := hF.outAt hT hi hl
  simp only [visitItem, Option.some.injEq] at ho
  have h3 := h1.unmoved (hF.good _).1 hu
  have h4 := h2.unmoved hu
  refine h.next hT hi he ?_ ?_ ?_
  · rw [← ho]
    intro y e w hy hw
    rw [PMap.get_put] at hy
    split at hy
    · cases hy
    · rename_i hxy
      obtain ⟨hy1, hy2⟩ := inval_some hy
      rw [set_env, if_neg (fun hh => hxy hh.symm)] at hw
      refine value_set (h3 y e w hy1 hw) (fun p hp => ?_)
      subst hp
      simp [copyOf] at hy2
  · rw [← ho]
    intro y hk hn hh
    rw [PMap.get_put] at hh
    split at hh
    · cases hh
    · rename_i hxy
      rw [set_env, if_neg (fun hh => hxy hh.symm)] at hn
      exact h4 y hk hn (inval_none.1 hh)
  · intro y hy hn
    rw [set_env] at hn
    split at hn
    · rename_i hyx; left; subst hyx; exact List.mem_singleton.2 rfl
    · right; rw [← hu y (.inr (.inr hy))]; exact hn

/-- Leaving a scope. -/
theorem PR.leave (hF : Facts params body D S) {u k : Node} {s : State M} (h : PR body S u s) (he : (u, k) ∈ (build body).edges)
    {sc : List Stmt} (hk : (k, sc) ∈ (build body).scopes) : PR body S k (s.drop (declsOf sc)) := by
  obtain ⟨hl, hns, h1, h2⟩ := h.arrive hF he
  obtain ⟨depth, hb⟩ := hF.bal
  have ho := (hb k hl hns).2
  have hitem : nodeItem (itemsOf body) k = none := by
    rcases (build_sc body).idx _ hk with hh | ⟨n, _, hh⟩ <;> dsimp only at hh <;> rw [hh] <;> rfl
  simp only [newProp, hitem, visitItem, Option.some.injEq] at ho
  have hkill : ∀ x, x ∈ declsOf sc → s.env x ≠ none → x ∈ killedAt D k := by
    intro x hx hn
    obtain ⟨n, hr⟩ := h.reached x (scope_decls hk x hx) hn
    exact hF.killed k sc hk hl x n ⟨u, live_edge h.live he, hr⟩ hx
  refine ⟨hl, ?_, ?_, ?_⟩
  · rw [← ho]
    intro y e v hy hv
    obtain ⟨g1, g2, g3⟩ := killAll_some hy
    rw [drop_env] at hv
    split at hv
    · cases hv
    · have hval := h1 y e v g1 hv
      cases e with
      | lit p n => exact hval
      | name p z =>
        simp only [valueOf] at hval ⊢
        rw [drop_env]
        split
        · rename_i hz
          have := g3 z (hkill z hz (by rw [hval]; intro hh; cases hh))
          simp [copyOf] at this
        · exact hval
      | bin => cases hval
      | logic => cases hval
      | call => cases hval
  · rw [← ho]
    intro y hs hn hh
    rw [drop_env] at hn
    split at hn
    · exact hn rfl
    · rename_i hy
      rcases killAll_none hh with hh | hh
      · exact h2 y hs hn hh
      · exact hy (hF.killedOnly k sc hk y hh)
  · intro x hx hn
    rw [drop_env] at hn
    split at hn
    · exact absurd rfl hn
    · rename_i hxs
      obtain ⟨n, hr⟩ := h.reached x hx hn
      exact ⟨n, .through (live_edge h.live he) hr (by rw [gen_scope hk]; intro hh; cases hh) (cut_scope hk hxs)⟩

theorem PR.flow (hF : Facts params body D S) {u : Node} {k : Nat} {s : State M} (h : PR body S u s)
    (he : (u, .flow k) ∈ (build body).edges) : PR body S (.flow k) s := by
  obtain ⟨hl, hns, h1, h2⟩ := h.arrive hF he
  obtain ⟨depth, hb⟩ := hF.bal
  have ho := (hb _ hl hns).2
  simp only [newProp, nodeItem, visitItem, killedAt, killAll, Option.some.injEq] at ho
  refine ⟨hl, by rw [← ho]; exact h1, by rw [← ho]; exact h2, fun x hx hn => ?_⟩
  obtain ⟨n, hr⟩ := h.reached x hx hn
  exact ⟨n, .through (live_edge h.live he) hr (by intro hh; cases hh) (cut_flow k x)⟩

/-- The head variable of an `if` or `while` leaves scope. -/
theorem PR.initDrop (hF : Facts params body D S) (hT : Tidy M params body) {u : Node} {l : Label} {x : Var} {e : Expr} {s : State M}
    (hi : (l, Item.init x e) ∈ itemsOf body) (h : PR body S u s) : PR body S u (s.drop [x]) := by
  refine ⟨h.live, ?_, ?_, ?_⟩
  · intro y e' v hy hv
    rw [drop_env] at hv
    split at hv
    · cases hv
    · have hval := h.holds y e' v hy hv
      cases e' with
      | lit p n => exact hval
      | name p z =>
        simp only [valueOf] at hval ⊢
        rw [drop_env]
        split
        · rename_i hz
          have hzx := List.mem_singleton.1 hz
          subst hzx
          exact absurd (((hF.good u).2 y _ (PMap.get_mem hy)).2.1 p z rfl) (hT.head l z e hi)
        · exact hval
      | bin => cases hval
      | logic => cases hval
      | call => cases hval
  · intro y hk hn
    rw [drop_env] at hn
    split at hn
    · exact absurd rfl hn
    · exact h.present y hk hn
  · intro y hy hn
    rw [drop_env] at hn
    split at hn
    · exact absurd rfl hn
    · exact h.reached y hy hn

/-! ## The simulation -/

theorem value_inn {n : Node} {y : Var} {e : Expr} (h : S.value n y = some e) : (S.inn n).get y = some (some e) := by
  unfold VP.value at h
  split at h
  · rename_i u w h1 h2
    split at h
    · rw [h1, h]
    · cases h
  · cases h

theorem PR.fits (hF : Facts params body D S) {u n : Node} {s : State M} (h : PR body S u s) (he : (u, n) ∈ (build body).edges) :
    Fits (S.value n) s := fun y e v hy hv => (h.arrive hF he).2.2.1 y e v (value_inn hy) hv

theorem Facts.still (hF : Facts params body D S) (hT : Tidy M params body) {l : Label} {i : Item} (hi : (l, i) ∈ itemsOf body)
    (hc : i.calls = true) (n : Node) : Still M (S.value n) := by
  intro y e hy
  obtain ⟨h1, h2, -⟩ := (hF.good n).1 y e (PMap.get_mem (value_inn hy))
  exact ⟨hT.quiet l i hi hc y (.inl h1), fun p z hp => hT.quiet l i hi hc z (.inr (.inl (h2 p z hp)))⟩

theorem prop_atom (hF : Facts params body D S) (hT : Tidy M params body) {u : Node} {s : State M} (st : Stmt)
    (ha : st.isAtom = true) (hi : ∀ i ∈ st.items, i ∈ itemsOf body) (h : PR body S u s)
    (he : (u, .stmt st.label) ∈ (build body).edges) :
    ∃ st', (propRw S).atom st = some st' ∧ st'.isAtom = true ∧ (atom st s ≠ .stuck → atom st' s = atom st s) := by
  cases st with
  | decl l x i =>
    refine ⟨_, rfl, rfl, fun hs => ?_⟩
    cases i with
    | none => rfl
    | some e =>
      have hit : (l, Item.decl x (some e)) ∈ itemsOf body := hi _ (List.mem_singleton.2 rfl)
      simp only [Option.map, atom] at hs ⊢
      simp only [Stmt.label] at he
      rw [eval_subst _ e (h.fits hF he) (fun hh => hF.still hT hit hh _) (then_stuck hs)]
  | assign l x e =>
    refine ⟨_, rfl, rfl, fun hs => ?_⟩
    have hit : (l, Item.assign x e) ∈ itemsOf body := hi _ (List.mem_singleton.2 rfl)
    simp only [atom] at hs ⊢
    simp only [Stmt.label] at he
    rw [eval_subst _ e (h.fits hF he) (fun hh => hF.still hT hit hh _) (then_stuck hs)]
  | expr l e =>
    refine ⟨_, rfl, rfl, fun hs => ?_⟩
    have hit : (l, Item.expr e) ∈ itemsOf body := hi _ (List.mem_singleton.2 rfl)
    simp only [atom] at hs ⊢
    exact eval_subst _ e (h.fits hF he) (fun hh => hF.still hT hit hh _) hs
  | callRef l f x => exact ⟨_, rfl, rfl, fun _ => rfl⟩
  | _ => cases ha

theorem PR.atom (hF : Facts params body D S) (hT : Tidy M params body) {u : Node} {s s' : State M} {v : Int} (st : Stmt)
    (ha : st.isAtom = true) (hi : ∀ i ∈ st.items, i ∈ itemsOf body) (h : PR body S u s)
    (he : (u, .stmt st.label) ∈ (build body).edges) (hnx : ∀ x ∈ st.decls, s.env x = none)
    (hx : Opt.atom st s = .val v s') : PR body S (.stmt st.label) s' := by
  cases st with
  | decl l x i =>
    have hit : (l, Item.decl x i) ∈ itemsOf body := hi _ (List.mem_singleton.2 rfl)
    cases i with
    | none =>
      simp only [Opt.atom] at hx
      cases hx
      exact h.blind hF hT hit he rfl (fun _ _ => rfl) (hT.noInit l x hit) 0 (fun _ => hnx x (List.mem_singleton.2 rfl))
    | some e =>
      simp only [Opt.atom] at hx
      obtain ⟨v1, s1, hev, hx⟩ := then_val hx
      cases hx
      exact h.decl hF hT hit he hev (hnx x (List.mem_singleton.2 rfl))
  | assign l x e =>
    have hit : (l, Item.assign x e) ∈ itemsOf body := hi _ (List.mem_singleton.2 rfl)
    simp only [Opt.atom] at hx
    obtain ⟨v1, s1, hev, hx⟩ := then_val hx
    split at hx <;> cases hx
    exact h.assign hF hT hit he hev
  | expr l e =>
    have hit : (l, Item.expr e) ∈ itemsOf body := hi _ (List.mem_singleton.2 rfl)
    simp only [Opt.atom] at hx
    exact h.skip hF hT hit he (fun _ _ => rfl) ((eval_frame e hx).unmoved hT hit (fun hh => hh))
  | callRef l f x =>
    have hit : (l, Item.callRef x) ∈ itemsOf body := hi _ (List.mem_singleton.2 rfl)
    simp only [Opt.atom] at hx
    split at hx
    · split at hx <;> cases hx
      exact h.callRef hF hT hit he ((frame_back _ _ _).unmoved hT hit (fun _ => rfl)) _
    · cases hx
  | _ => cases ha

theorem prop_decls_atom (st st' : Stmt) (h : (propRw S).atom st = some st') : ∀ x ∈ st'.decls, x ∈ st.decls := by
  cases st <;> cases h <;> exact fun _ h => h

theorem Apart.refl (N : List Var) (s : State M) : Apart N s s := ⟨rfl, fun _ _ => rfl⟩

theorem prop_simulates (hF : Facts params body D S) (hT : Tidy M params body) :
    Simulates true false true body (build body) (propRw S) (fun u (s t : State M) => s = t ∧ PR body S u s) (Apart (declsOf body))
      (fun _ _ => False) where
  atom := by
    rintro st v s s' t ha hi ⟨u, -, he, rfl, hr⟩ hnx h
    obtain ⟨st', h1, h2, h3⟩ := prop_atom hF hT st ha hi hr he
    rw [h1]
    refine ⟨h2, v, s', ?_, rfl, hr.atom hF hT st ha hi he (hnx rfl) h⟩
    rw [h3 (by rw [h]; intro hh; cases hh), h]
  cond := by
    rintro l c v s s' t hit ⟨u, -, he, rfl, hr⟩ h
    refine ⟨s', ?_, rfl, hr.skip hF hT hit he (fun _ _ => rfl) ((eval_frame c h).unmoved hT hit (fun hh => hh))⟩
    show eval (c.subst _) s = _
    rw [eval_subst _ c (hr.fits hF he) (fun hh => hF.still hT hit hh _) (by rw [h]; intro hh; cases hh), h]
  ret := by
    rintro l c v s s' t hit ⟨u, -, he, rfl, hr⟩ h
    refine ⟨s', ?_, rfl, hr.skip hF hT hit he (fun _ _ => rfl) ((eval_frame c h).unmoved hT hit (fun hh => hh))⟩
    show eval (c.subst _) s = _
    rw [eval_subst _ c (hr.fits hF he) (fun hh => hF.still hT hit hh _) (by rw [h]; intro hh; cases hh), h]
  retNone := by
    rintro l s t hit ⟨u, -, he, rfl, hr⟩
    exact ⟨rfl, hr.skip hF hT hit he (fun _ _ => rfl) (fun _ _ => rfl)⟩
  gone := fun _ _ _ _ => rfl
  init := by
    rintro l x e v s s' t hit ⟨u, -, he, rfl, hr⟩ h
    simp only [initStep] at h
    obtain ⟨v1, s1, hev, h⟩ := then_val h
    cases h
    refine ⟨0, s1.set x v1, ?_, rfl, hr.init hF hT hit he hev⟩
    show (eval (e.subst _) s).then _ = _
    rw [eval_subst _ e (hr.fits hF he) (fun hh => hF.still hT hit hh _) (by rw [hev]; intro hh; cases hh), hev]
    rfl
  initDrop := by
    rintro u l x e s t hit ⟨rfl, hr⟩
    exact ⟨rfl, hr.initDrop hF hT hit⟩
  forVar := by
    rintro l x v s t hit ⟨u, -, he, rfl, hr⟩
    exact ⟨rfl, hr.blind hF hT hit he rfl (fun _ _ => rfl) (hT.loopVar l x hit).1 v (fun hh => absurd hh (hT.loopVar l x hit).2)⟩
  pass := by
    rintro l c s t hit ⟨u, -, he, rfl, hr⟩
    exact ⟨rfl, hr.skip hF hT hit he (fun _ _ => rfl) (fun _ _ => rfl)⟩
  scopeEnd := by
    rintro k sc s t hk ⟨u, -, he, rfl, hr⟩
    rw [prop_decls_list]
    exact ⟨rfl, hr.leave hF he hk⟩
  flow := by
    rintro k s t ⟨u, -, he, rfl, hr⟩
    exact ⟨rfl, hr.flow hF he⟩
  obsFin := by
    rintro s t ⟨u, -, he, rfl, hr⟩
    exact Apart.refl _ _
  obsThrow := by
    rintro k sc s t hk ⟨u, -, he, rfl, hr⟩
    exact Apart.refl _ _
  obsDrop := by
    intro vs ws s t h1 h2 h
    refine ⟨h.1, fun x hx => ?_⟩
    rw [drop_env, drop_env, if_neg (fun hh => hx (h1 x hh)), if_neg (fun hh => hx (h2 x hh))]
    exact h.2 x hx
  atomDecls := prop_decls_atom
  initDecls := fun _ _ h => h
  esc := by intro h; cases h
  escScope := fun _ _ _ _ _ h => h
  escInit := fun _ _ _ _ _ _ h => h
  jump := fun _ _ _ _ _ _ h => h.elim
  atomX := by
    rintro - st s s' t ha hi ⟨u, -, he, rfl, hr⟩ h
    obtain ⟨st', h1, h2, h3⟩ := prop_atom hF hT st ha hi hr he
    refine ⟨st', s', h1, h2, ?_, Apart.refl _ _⟩
    rw [h3 (by rw [h]; intro hh; cases hh), h]
  condX := by
    rintro - l c s s' t hit ⟨u, -, he, rfl, hr⟩ h
    refine ⟨s', ?_, Apart.refl _ _⟩
    show eval (c.subst _) s = _
    rw [eval_subst _ c (hr.fits hF he) (fun hh => hF.still hT hit hh _) (by rw [h]; intro hh; cases hh), h]
  retX := by
    rintro - l c s s' t hit ⟨u, -, he, rfl, hr⟩ h
    refine ⟨s', ?_, Apart.refl _ _⟩
    show eval (c.subst _) s = _
    rw [eval_subst _ c (hr.fits hF he) (fun hh => hF.still hT hit hh _) (by rw [h]; intro hh; cases hh), h]
  initX := by
    rintro - l x e s s' t hit ⟨u, -, he, rfl, hr⟩ h
    refine ⟨s', (l, x, e.subst _), rfl, ?_, Apart.refl _ _⟩
    simp only [initStep] at h ⊢
    rw [eval_subst _ e (hr.fits hF he) (fun hh => hF.still hT hit hh _)
      (then_stuck (k := fun v s1 => .val 0 (State.set s1 x v)) (by rw [h]; intro hh; cases hh))]
    exact h
  goneX := fun _ _ _ _ _ _ _ => rfl

theorem start_get (ps : List Var) : ∀ (m : PMap) (y : Var),
    (ps.foldl (fun m x => m.put x none) m).get y = if y ∈ ps then some none else m.get y := by
  induction ps with
  | nil => intro m y; simp
  | cons x ps ih =>
    intro m y
    rw [List.foldl_cons, ih, PMap.get_put]
    by_cases hy : y ∈ ps
    · rw [if_pos hy, if_pos (List.mem_cons_of_mem _ hy)]
    · rw [if_neg hy]
      by_cases hxy : x = y
      · subst hxy; rw [if_pos rfl, if_pos List.mem_cons_self]
      · rw [if_neg hxy, if_neg]
        intro hh
        rcases List.mem_cons.1 hh with hh | hh
        · exact hxy hh.symm
        · exact hy hh

/-- What the analysis computes, given any order of the nodes. -/
theorem analyse_facts {order vorder : List Node} (hc : Covers (edges body) (genAt (itemsOf body)) order) {k kv depth : Nat}
    (hD : dataflow body order k = some D) (hv : ∀ n, Live (build body).edges n → n ≠ .start → n ∈ vorder)
    (hs : Node.start ∉ vorder) (h : analyse params body D vorder depth kv = some S) : Facts params body D S where
  bal := ⟨depth, fun v h1 h2 => work_balanced (fun v => Live (build body).edges v ∧ v ≠ .start) kv vorder _ S h
    (fun v hh => .inl (hv v hh.1 hh.2)) v ⟨h1, h2⟩⟩
  good := analyse_good h
  start := by
    intro y
    rw [work_start (fun e he => build_noStart body e (edge_sub he)) kv vorder _ S h hs]
    simp only [if_true]
    rw [start_get]
    rfl
  killed := by
    intro n sc hk hl x m hr hx
    obtain ⟨u, hu, hu'⟩ := hr
    have hr : ReachIn (edges body) (genAt (itemsOf body)) (cutAt (build body).scopes) n (x, m) := ⟨u, hu, hu'⟩
    have hcut : cutAt (build body).scopes n x = true := by
      unfold cutAt
      rw [List.any_eq_true]
      exact ⟨_, hk, by simp [hx]⟩
    have := flow_kill _ _ _ order hc k D hD n (hc.1 _ _ hu).2 (x, m) hr (by simp [kills, hcut])
    rcases (build_sc body).idx _ hk with hh | ⟨j, _, hh⟩ <;> dsimp only at hh <;> subst hh
    · exact List.mem_map.2 ⟨_, this, rfl⟩
    · exact List.mem_map.2 ⟨_, this, rfl⟩
  killedOnly := by
    intro n sc hk x hx
    have hmem : ∃ f ∈ D.kill n, f.1 = x := by
      rcases (build_sc body).idx _ hk with hh | ⟨j, _, hh⟩ <;> dsimp only at hh <;> subst hh
      · exact List.mem_map.1 hx
      · exact List.mem_map.1 hx
    obtain ⟨f, hf, rfl⟩ := hmem
    have hko := (sound_rounds _ _ _ order k (sound_empty _ _ _) hD).2.2 n f hf
    simp only [kills, gen_scope hk, List.not_mem_nil, decide_false, Bool.false_or] at hko
    apply Classical.byContradiction
    intro hh
    rw [cut_scope hk hh] at hko; cases hko

/-- **Value propagation preserves behaviour**: whatever a body does - end normally, `return` a value, throw, fail in an operator or a
    callee - the body with names replaced by the constants and variables they are known to equal does the same, with the same effects
    on everything but the body's own locals. Both analyses may visit the nodes in any order. Not covered: `break`, `continue`, `try`,
    and what `Tidy` excludes. -/
theorem value_propagation_partial (hT : Tidy M params body) (hp : plainAll false body = true)
    (hd : (declsOf body).Nodup) (hvis : ∀ x ∈ declsOf body, M.vis x = false) {order vorder : List Node}
    (hc : Covers (edges body) (genAt (itemsOf body)) order) {k kv depth : Nat} (hD : dataflow body order k = some D)
    (hv : ∀ n, Live (build body).edges n → n ≠ .start → n ∈ vorder) (hs : Node.start ∉ vorder)
    (h : analyse params body D vorder depth kv = some S) (s s' : State M) (o : Out) (h0 : ∀ x ∈ declsOf body, s.env x = none)
    (hr : Runs body s o s') : ∃ t', Runs (propagate S body) s o t' ∧ Apart (declsOf body) s' t' := by
  have hF := analyse_facts hc hD hv hs h
  have hst : PR body S .start s := by
    refine ⟨.start, fun y e v hy _ => ?_, fun y hk hn hh => ?_, fun x hx hn => absurd (h0 x hx) hn⟩
    · rw [hF.start] at hy; split at hy <;> cases hy
    · rcases hT.owned y hk with hy | hy
      · rw [hF.start, if_pos hy] at hh; cases hh
      · exact hn (h0 y hy)
  obtain ⟨t', h1, h2⟩ := simulation_run (prop_simulates hF hT) hp hr (fun _ => rfl) ⟨rfl, hst⟩
    (fun _ => ⟨hd, hvis, h0⟩)
  refine ⟨t', h1, ?_⟩
  cases o with
  | normal => exact h2
  | brk => exact h2.elim
  | cont => exact h2.elim
  | ret v => exact h2
  | exn v => exact h2

end

end Verif.Opt
