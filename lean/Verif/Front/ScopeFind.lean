import Verif.Front.ScopeSpec
/-! # Searching one scope -/

namespace Verif.Front.Scope

/-- All keys have one component. -/
def Simple (s : Scope) : Prop := ∀ e ∈ s, ∃ x, e.key = [x]

theorem splits_cons (x : Name) (r : Path) :
    ∃ l, splits (x :: r) = l ++ [([x], r)] ∧ ∀ ht ∈ l, ∀ y, ht.1 ≠ [y] := by
  refine ⟨(List.range r.length).map fun i => ((x :: r).take (r.length + 1 - i), (x :: r).drop (r.length + 1 - i)), ?_, ?_⟩
  · unfold splits
    rw [List.length_cons, List.range_succ, List.map_append]
    simp
  · intro ht h y e
    obtain ⟨i, hi, rfl⟩ := List.mem_map.mp h
    have hi := List.mem_range.mp hi
    have : ((x :: r).take (r.length + 1 - i)).length = 1 := by rw [show (x :: r).take (r.length + 1 - i) = [y] from e]; rfl
    rw [List.length_take, List.length_cons] at this
    omega

theorem splits_find {s : Scope} (hs : Simple s) (x : Name) (r : Path) :
    ((splits (x :: r)).find? fun ht => s.any fun e => e.key == ht.1) = if (s.any fun e => e.key == [x]) then some ([x], r) else none := by
  obtain ⟨l, e, hl⟩ := splits_cons x r
  rw [e, List.find?_append]
  have : l.find? (fun ht => s.any fun e => e.key == ht.1) = none := by
    rw [List.find?_eq_none]
    intro ht h hc
    rw [List.any_eq_true] at hc
    obtain ⟨e, he, hk⟩ := hc
    obtain ⟨y, hy⟩ := hs e he
    have hk : e.key = ht.1 := by simpa using hk
    exact hl ht h y (by rw [← hk, hy])
  rw [this, Option.none_or, List.find?_cons]
  cases (s.any fun e => e.key == [x]) <;> rfl

theorem filter_of_not_any {s : Scope} {k : Path} (h : (s.any fun e => e.key == k) = false) : (s.filter fun e => e.key == k) = [] := by
  rw [List.filter_eq_nil_iff]
  intro e he hk
  rw [List.any_eq_false] at h
  exact h e he hk

theorem find_one (ms : List Module) {s : Scope} (hs : Simple s) (n : Nat) (x : Name) (ext : Bool) :
    findID ms (n + 1) s [x] ext = (s.filter fun e => e.key == [x]).map fun e => (e.ref, ext) := by
  simp only [findID, splits_find hs]
  by_cases h : (s.any fun e => e.key == [x]) = true
  · simp only [h, if_true]
  · have h := Bool.not_eq_true _ ▸ h
    simp only [h, filter_of_not_any h, List.map_nil]
    rfl

theorem find_more (ms : List Module) {s : Scope} (hs : Simple s) (n : Nat) (x y : Name) (r : Path) (ext : Bool) :
    findID ms (n + 1) s (x :: y :: r) ext =
      firstResult ((s.filter fun e => e.key == [x]).map fun e => findID ms n (refScope ms e.ref) (y :: r) (ext || isImported e.ref)) := by
  simp only [findID, splits_find hs]
  by_cases h : (s.any fun e => e.key == [x]) = true
  · simp only [h, if_true]
  · have h := Bool.not_eq_true _ ▸ h
    simp only [h, filter_of_not_any h, List.map_nil]
    rfl

theorem find_empty (ms : List Module) : ∀ (n : Nat) (p : Path) (ext : Bool), findID ms n [] p ext = []
  | 0, _, _ => rfl
  | n + 1, p, ext => by
    have : ((splits p).find? fun ht => ([] : Scope).any fun e => e.key == ht.1) = none := by
      rw [List.find?_eq_none]; intro _ _ h; simp at h
    simp only [findID, this]

theorem filter_single : ∀ {s : Scope} {e : Entry}, (s.map Entry.key).Nodup → e ∈ s → (s.filter fun e' => e'.key == e.key) = [e]
  | e' :: s, e, hn, h => by
    simp only [List.map_cons, List.nodup_cons] at hn
    rcases List.mem_cons.mp h with he | h
    · subst he
      rw [List.filter_cons_of_pos (by simp)]
      congr 1
      rw [List.filter_eq_nil_iff]
      intro e' h' hk
      exact hn.1 (List.mem_map.mpr ⟨e', h', by simpa using hk⟩)
    · rw [List.filter_cons_of_neg, filter_single hn.2 h]
      intro hk
      have hk : e'.key = e.key := by simpa using hk
      exact hn.1 (List.mem_map.mpr ⟨e, h, hk.symm⟩)

/-- The labels of an enum. -/
theorem find_label (ms : List Module) (d : Decl) (hd : d.labels.Nodup) (j : Option Nat) (n : Nat) (y : Name) (r : Path) :
    findID ms (n + 1) (refScope ms (.decl d j)) (y :: r) false = if r = [] ∧ y ∈ d.labels then [(.label d y, false)] else [] := by
  have hs : Simple (refScope ms (.decl d j)) := by
    intro e he
    obtain ⟨l, _, rfl⟩ := List.mem_map.mp he
    exact ⟨l, rfl⟩
  have hn : ((refScope ms (.decl d j)).map Entry.key).Nodup := by
    have : (refScope ms (.decl d j)).map Entry.key = d.labels.map fun l => [l] := by
      simp [refScope]
    rw [this]
    exact hd.map (fun l => [l]) (fun a b h e => h (by simpa using e))
  have hfil : (y ∈ d.labels → ((refScope ms (.decl d j)).filter fun e => e.key == [y]) = [⟨[y], .label d y⟩]) ∧
      (y ∉ d.labels → ((refScope ms (.decl d j)).filter fun e => e.key == [y]) = []) := by
    constructor
    · intro hy
      exact filter_single (e := ⟨[y], .label d y⟩) hn (List.mem_map.mpr ⟨y, hy, rfl⟩)
    · intro hy
      rw [List.filter_eq_nil_iff]
      intro e he hk
      obtain ⟨l, hl, rfl⟩ := List.mem_map.mp he
      have : l = y := by simpa using hk
      exact hy (this ▸ hl)
  cases r with
  | nil =>
    rw [find_one ms hs]
    by_cases hy : y ∈ d.labels
    · rw [hfil.1 hy, if_pos ⟨rfl, hy⟩]; rfl
    · rw [hfil.2 hy, if_neg (fun h => hy h.2)]; rfl
  | cons z r =>
    rw [find_more ms hs, if_neg (fun h => by cases h.1)]
    by_cases hy : y ∈ d.labels
    · rw [hfil.1 hy]
      simp only [List.map_cons, List.map_nil, refScope, find_empty, firstResult]
    · rw [hfil.2 hy]; rfl

/-! ### Modules -/

theorem moduleScope_simple (ms : List Module) (m : Nat) : Simple (moduleScope ms m) := by
  intro e he
  unfold moduleScope at he
  cases h : ms[m]? with
  | none => rw [h] at he; cases he
  | some M =>
    rw [h] at he
    simp only [List.mem_cons, List.mem_append, List.mem_filterMap, List.mem_map, Option.map_eq_some_iff] at he
    rcases he with rfl | ⟨j, _, I, _, rfl⟩ | ⟨d, _, rfl⟩
    · exact ⟨_, rfl⟩
    · exact ⟨_, rfl⟩
    · exact ⟨_, rfl⟩

theorem moduleScope_keys {ms : List Module} {m : Nat} {M : Module} (h : ms[m]? = some M) :
    (moduleScope ms m).map Entry.key =
      (M.name :: (M.imports.filterMap fun j => ms[j]?.map Module.name) ++ M.decls.map Decl.name).map fun x => [x] := by
  simp only [moduleScope, h, List.map_cons, List.map_append, List.map_map, List.cons_append, List.map_filterMap]
  congr 2
  congr 1
  funext j
  cases ms[j]? <;> rfl

theorem nodup_single (l : List Name) : (l.map fun x => [x]).Nodup ↔ l.Nodup := by
  induction l with
  | nil => simp
  | cons a l ih => simp [List.nodup_cons, ih]

/-- How a search in a module ends, and what that means. -/
def Ends (o : Option Target) (r : List (Ref × Bool)) : Prop :=
  match o with
  | some (.decl d) => r = [(.decl d none, false)]
  | some (.label d l) => r = [(.label d l, false)]
  | none => r = [] ∨ ∃ j, r = [(.module j, false)]

theorem find_module (ms : List Module) (hms : ∀ M ∈ ms, ModuleOnce ms M ∧ ∀ d ∈ M.decls, DeclOk d) :
    ∀ (p : Path) (n m : Nat), p ≠ [] → p.length ≤ n → Ends (inModule ms p m) (findID ms n (moduleScope ms m) p false) := by
  intro p
  induction p with
  | nil => intro n m h; exact absurd rfl h
  | cons x p ih =>
    intro n m _ hn
    cases n with
    | zero => simp at hn
    | succ n =>
      have hn : p.length ≤ n := by simpa using hn
      cases hM : ms[m]? with
      | none =>
        have : moduleScope ms m = [] := by simp [moduleScope, hM]
        rw [this, find_empty]
        cases p <;> simp [inModule, hM, Ends]
      | some M =>
        have hmem : M ∈ ms := List.mem_of_getElem? hM
        have hnd : ((moduleScope ms m).map Entry.key).Nodup := by
          rw [moduleScope_keys hM, nodup_single]; exact (hms M hmem).1
        have hsimple := moduleScope_simple ms m
        have hsc : moduleScope ms m = ⟨[M.name], .module m⟩ ::
            ((M.imports.filterMap fun j => (ms[j]?).map fun I => ⟨[I.name], .module j⟩) ++
              M.decls.map fun d => ⟨[d.name], .decl d none⟩) := by
          simp [moduleScope, hM]
        -- the entries for `x`
        have key : (∃ d, (M.decls.find? fun d => d.name == x) = some d ∧ d ∈ M.decls ∧
              ((moduleScope ms m).filter fun e => e.key == [x]) = [⟨[x], .decl d none⟩]) ∨
            ((M.decls.find? fun d => d.name == x) = none ∧
              ((M.name = x ∧ ((moduleScope ms m).filter fun e => e.key == [x]) = [⟨[x], .module m⟩]) ∨
               (M.name ≠ x ∧ ∃ j, (M.imports.find? fun j => (ms[j]?.map Module.name) == some x) = some j ∧
                  ((moduleScope ms m).filter fun e => e.key == [x]) = [⟨[x], .module j⟩]) ∨
               (M.name ≠ x ∧ (M.imports.find? fun j => (ms[j]?.map Module.name) == some x) = none ∧
                  ((moduleScope ms m).filter fun e => e.key == [x]) = []))) := by
          cases hd : M.decls.find? fun d => d.name == x with
          | some d =>
            refine Or.inl ⟨d, rfl, List.mem_of_find?_eq_some hd, ?_⟩
            have hx : d.name = x := by simpa using List.find?_some hd
            refine filter_single (e := ⟨[x], .decl d none⟩) hnd ?_
            rw [hsc]
            exact List.mem_cons_of_mem _ (List.mem_append_right _ (List.mem_map.mpr ⟨d, List.mem_of_find?_eq_some hd, by rw [hx]⟩))
          | none =>
            refine Or.inr ⟨rfl, ?_⟩
            by_cases hN : M.name = x
            · refine Or.inl ⟨hN, filter_single (e := ⟨[x], .module m⟩) hnd ?_⟩
              rw [hsc, hN]; exact List.mem_cons_self ..
            · refine Or.inr ?_
              cases hi : M.imports.find? fun j => (ms[j]?.map Module.name) == some x with
              | some j =>
                refine Or.inl ⟨hN, j, rfl, filter_single (e := ⟨[x], .module j⟩) hnd ?_⟩
                have hj : (ms[j]?.map Module.name) = some x := by simpa using List.find?_some hi
                rw [hsc]
                refine List.mem_cons_of_mem _ (List.mem_append_left _ (List.mem_filterMap.mpr ⟨j, List.mem_of_find?_eq_some hi, ?_⟩))
                obtain ⟨I, hI, e⟩ := Option.map_eq_some_iff.mp hj
                rw [hI, ← e]; rfl
              | none =>
                refine Or.inr ⟨hN, rfl, ?_⟩
                rw [List.filter_eq_nil_iff]
                intro e he hk
                have hk : e.key = [x] := by simpa using hk
                rw [hsc] at he
                simp only [List.mem_cons, List.mem_append, List.mem_filterMap, List.mem_map, Option.map_eq_some_iff] at he
                rcases he with rfl | ⟨j, hj, I, hI, rfl⟩ | ⟨d, hd', rfl⟩
                · exact hN (by simpa using hk)
                · have := List.find?_eq_none.mp hi j hj
                  have hk : I.name = x := by simpa using hk
                  simp [hI, hk] at this
                · have := List.find?_eq_none.mp hd d hd'
                  have hk : d.name = x := by simpa using hk
                  simp [hk] at this
        cases p with
        | nil =>
          rw [find_one ms hsimple]
          simp only [inModule, hM]
          rcases key with ⟨d, hd, _, hf⟩ | ⟨hd, ⟨_, hf⟩ | ⟨_, j, _, hf⟩ | ⟨_, _, hf⟩⟩
          · rw [hd, hf]; rfl
          · rw [hd, hf]; exact Or.inr ⟨m, rfl⟩
          · rw [hd, hf]; exact Or.inr ⟨j, rfl⟩
          · rw [hd, hf]; exact Or.inl rfl
        | cons y r =>
          rw [find_more ms hsimple]
          simp only [inModule, hM]
          cases n with
          | zero => simp at hn
          | succ n =>
          have one : ∀ j, Ends (inModule ms (y :: r) j) (firstResult [findID ms (n + 1) (moduleScope ms j) (y :: r) false]) := by
            intro j
            have h := ih (n + 1) j (by simp) hn
            cases hf : findID ms (n + 1) (moduleScope ms j) (y :: r) false with
            | nil => rw [hf] at h; exact h
            | cons a l => rw [hf] at h; exact h
          rcases key with ⟨d, hd, hm, hf⟩ | ⟨hd, ⟨hN, hf⟩ | ⟨hN, j, hj, hf⟩ | ⟨hN, hj, hf⟩⟩
          · rw [hd, hf]
            simp only [List.map_cons, List.map_nil, Bool.false_or, isImported]
            rw [find_label ms d ((hms M hmem).2 d hm).2.2.1]
            by_cases hc : r = [] ∧ y ∈ d.labels
            · rw [if_pos hc, if_pos hc]; rfl
            · rw [if_neg hc, if_neg hc]; exact Or.inl rfl
          · rw [hd, hf]; simp only [hN, if_true]; exact one m
          · rw [hd, hf]; simp only [hN, if_false, hj]; exact one j
          · rw [hd, hf]; simp only [hN, if_false, hj]; exact Or.inl rfl

end Verif.Front.Scope
