import Verif.Cont.MapSpec
/-!
# Sorted lists of elements against finite maps
-/

namespace Verif.Cont

set_option linter.unusedSectionVars false

variable {K V : Type}

def kv (l : List (Elem K V)) : FMap K V := l.map fun e => (e.key, e.val)

@[simp] theorem kv_nil : kv ([] : List (Elem K V)) = [] := rfl
@[simp] theorem kv_cons (e : Elem K V) (l) : kv (e :: l) = (e.key, e.val) :: kv l := rfl
@[simp] theorem kv_length (l : List (Elem K V)) : (kv l).length = l.length := by simp [kv]

theorem mem_kv {l : List (Elem K V)} {p : K × V} (h : p ∈ kv l) : ∃ e ∈ l, p = (e.key, e.val) := by
  unfold kv at h
  obtain ⟨e, h1, h2⟩ := List.mem_map.mp h
  exact ⟨e, h1, h2.symm⟩

theorem kv_mem {l : List (Elem K V)} {e : Elem K V} (h : e ∈ l) : (e.key, e.val) ∈ kv l := List.mem_map.mpr ⟨e, h, rfl⟩

section
variable {lt : K → K → Bool} (ht : StrictTotal lt)
include ht

theorem StrictTotal.asymm {a b : K} (h : lt a b = true) : lt b a = false := by
  cases hb : lt b a with
  | false => rfl
  | true => have := ht.trans _ _ _ h hb; rw [ht.irrefl] at this; cases this

theorem StrictTotal.eq {a b : K} (h : lt a b = false) (h' : lt b a = false) : a = b := by
  rcases ht.total a b with x | x | x
  · rw [h] at x; cases x
  · exact x
  · rw [h'] at x; cases x

theorem StrictTotal.ne {a b : K} (h : lt a b = true) : a ≠ b := by
  rintro rfl; rw [ht.irrefl] at h; cases h

/-- All keys of the tail are greater. -/
theorem sorted_cons {p : K × V} {m : FMap K V} : FMap.Sorted lt (p :: m) ↔ (∀ q ∈ m, lt p.1 q.1 = true) ∧ FMap.Sorted lt m := by
  unfold FMap.Sorted; exact List.pairwise_cons

theorem lookup_lt [DecidableEq K] {m : FMap K V} {k : K} (h : ∀ q ∈ m, lt k q.1 = true) : FMap.lookup m k = none := by
  unfold FMap.lookup
  rw [List.find?_eq_none.mpr]
  · rfl
  · intro q hq
    have := ht.ne (h q hq)
    simp only [decide_eq_true_eq]
    exact fun e => this e.symm

theorem lookup_cons [DecidableEq K] (p : K × V) (m : FMap K V) (k : K) : FMap.lookup (p :: m) k = if p.1 = k then some p.2 else FMap.lookup m k := by
  unfold FMap.lookup
  rw [List.find?_cons]
  by_cases h : p.1 = k <;> simp [h]

theorem filter_all_gt {m : FMap K V} {k : K} (h : ∀ q ∈ m, lt k q.1 = true) : m.filter (fun p => lt k p.1) = m ∧ m.filter (fun p => lt p.1 k) = [] := by
  constructor
  · exact List.filter_eq_self.mpr h
  · rw [List.filter_eq_nil_iff]; intro q hq; rw [ht.asymm (h q hq)]; exact Bool.false_ne_true

theorem set_cons_lt {p : K × V} {m : FMap K V} {k : K} (v : V) (h : lt p.1 k = true) : FMap.set lt (p :: m) k v = p :: FMap.set lt m k v := by
  unfold FMap.set
  rw [List.filter_cons, List.filter_cons, if_pos h, ht.asymm h]
  rfl

theorem set_cons_gt {p : K × V} {m : FMap K V} {k : K} (v : V) (hs : FMap.Sorted lt (p :: m)) (h : lt k p.1 = true) :
    FMap.set lt (p :: m) k v = (k, v) :: p :: m := by
  have hall : ∀ q ∈ p :: m, lt k q.1 = true := by
    intro q hq
    rcases List.mem_cons.mp hq with rfl | hq
    · exact h
    · exact ht.trans _ _ _ h (((sorted_cons ht).mp hs).1 q hq)
  unfold FMap.set
  rw [(filter_all_gt ht hall).1, (filter_all_gt ht hall).2]
  rfl

theorem set_cons_eq {p : K × V} {m : FMap K V} (v : V) (hs : FMap.Sorted lt (p :: m)) :
    FMap.set lt (p :: m) p.1 v = (p.1, v) :: m := by
  have hall := ((sorted_cons ht).mp hs).1
  unfold FMap.set
  rw [List.filter_cons, List.filter_cons, ht.irrefl, (filter_all_gt ht hall).1, (filter_all_gt ht hall).2]
  rfl

theorem set_nil (k : K) (v : V) : FMap.set lt [] k v = [(k, v)] := rfl

theorem mem_set {m : FMap K V} {k : K} {v : V} {q : K × V} (h : q ∈ FMap.set lt m k v) : q = (k, v) ∨ (q ∈ m ∧ q.1 ≠ k) := by
  unfold FMap.set at h
  simp only [List.mem_append, List.mem_filter, List.mem_cons, List.not_mem_nil, or_false] at h
  rcases h with (⟨h1, h2⟩ | h) | ⟨h1, h2⟩
  · exact Or.inr ⟨h1, ht.ne h2⟩
  · exact Or.inl h
  · exact Or.inr ⟨h1, fun e => ht.ne h2 e.symm⟩

theorem sorted_set {m : FMap K V} (hs : FMap.Sorted lt m) (k : K) (v : V) : FMap.Sorted lt (FMap.set lt m k v) := by
  unfold FMap.Sorted FMap.set at *
  rw [List.pairwise_append, List.pairwise_append]
  refine ⟨⟨hs.filter _, List.pairwise_singleton .., ?_⟩, hs.filter _, ?_⟩
  · intro a ha b hb
    rw [List.mem_singleton] at hb
    subst hb
    exact (List.mem_filter.mp ha).2
  · intro a ha b hb
    have hb2 := (List.mem_filter.mp hb).2
    rcases List.mem_append.mp ha with ha | ha
    · exact ht.trans _ _ _ (List.mem_filter.mp ha).2 hb2
    · rw [List.mem_singleton] at ha; subst ha; exact hb2

theorem sorted_unset [DecidableEq K] {m : FMap K V} (hs : FMap.Sorted lt m) (k : K) : FMap.Sorted lt (FMap.unset m k) := by
  unfold FMap.Sorted FMap.unset at *; exact hs.filter _

/-- The specification of maps is what it should be: a key has the value it was last set to. -/
theorem lookup_set [DecidableEq K] (m : FMap K V) (k k' : K) (v : V) :
    FMap.lookup (FMap.set lt m k v) k' = if k' = k then some v else FMap.lookup m k' := by
  unfold FMap.lookup FMap.set
  rw [List.find?_append, List.find?_append]
  by_cases h : k' = k
  · subst h
    rw [if_pos rfl, List.find?_eq_none.mpr]
    · simp
    · intro q hq
      have := ht.ne (List.mem_filter.mp hq).2
      simpa using this
  · rw [if_neg h]
    have h' : ¬ k = k' := fun e => h e.symm
    have e1 : ([(k, v)] : List (K × V)).find? (fun p => p.1 = k') = none := by simp [h']
    rw [e1, Option.or_none]
    induction m with
    | nil => rfl
    | cons p m ih =>
      by_cases hp : p.1 = k'
      · have e : (p :: m).find? (fun p => p.1 = k') = some p := by simp [hp]
        rw [e]
        rcases ht.total p.1 k with hl | hl | hl
        · rw [List.filter_cons, if_pos hl]; simp [hp]
        · exact absurd (hp.symm.trans hl) h
        · have hn : (List.filter (fun p => lt p.1 k) (p :: m)).find? (fun p => p.1 = k') = none := by
            rw [List.find?_eq_none]
            intro q hq
            simp only [decide_eq_true_eq]
            intro e
            have h1 := (List.mem_filter.mp hq).2
            rw [e, ← hp, ht.asymm hl] at h1
            cases h1
          rw [hn, Option.none_or, List.filter_cons, if_pos hl]
          simp [hp]
      · have e : (p :: m).find? (fun p => p.1 = k') = m.find? (fun p => p.1 = k') := by simp [hp]
        rw [e, ← ih]
        congr 2
        · rw [List.filter_cons]; split <;> simp [hp]
        · rw [List.filter_cons]; split <;> simp [hp]

/-- And an unset key has none. -/
theorem lookup_unset [DecidableEq K] (m : FMap K V) (k k' : K) :
    FMap.lookup (FMap.unset m k) k' = if k' = k then none else FMap.lookup m k' := by
  induction m with
  | nil => unfold FMap.lookup FMap.unset; split <;> rfl
  | cons p m ih =>
    by_cases hp : p.1 = k
    · have e : FMap.unset (p :: m) k = FMap.unset m k := by unfold FMap.unset; simp [hp]
      rw [e, ih, lookup_cons ht]
      by_cases h : k' = k
      · rw [if_pos h, if_pos h]
      · rw [if_neg h, if_neg h, if_neg (by rw [hp]; exact fun e => h e.symm)]
    · have e : FMap.unset (p :: m) k = p :: FMap.unset m k := by unfold FMap.unset; simp [hp]
      rw [e, lookup_cons ht, lookup_cons ht, ih]
      by_cases h : k' = k
      · subst h; rw [if_neg hp, if_pos rfl, if_pos rfl]
      · rw [if_neg h, if_neg h]

theorem findElem_spec [DecidableEq K] {k : K} : ∀ {l : List (Elem K V)}, FMap.Sorted lt (kv l) →
    (findElem lt k l).map (·.val) = FMap.lookup (kv l) k ∧ ∀ e, findElem lt k l = some e → e ∈ l ∧ e.key = k
  | [], _ => ⟨rfl, fun _ h => by cases h⟩
  | e :: l, hs => by
    rw [kv_cons, sorted_cons ht] at hs
    obtain ⟨h1, h2⟩ := hs
    have ih := findElem_spec (k := k) h2
    unfold findElem
    rw [kv_cons, lookup_cons ht]
    cases ha : lt k e.key with
    | true =>
      rw [if_pos rfl]
      refine ⟨?_, fun _ h => by cases h⟩
      rw [if_neg (fun e' => ht.ne ha e'.symm), lookup_lt ht]
      · rfl
      · intro q hq; exact ht.trans _ _ _ ha (h1 q hq)
    | false =>
      rw [if_neg Bool.false_ne_true]
      cases hb : lt e.key k with
      | true =>
        rw [if_pos rfl, if_neg (ht.ne hb)]
        exact ⟨ih.1, fun x hx => ⟨List.mem_cons_of_mem _ (ih.2 x hx).1, (ih.2 x hx).2⟩⟩
      | false =>
        rw [if_neg Bool.false_ne_true, if_pos (ht.eq hb ha)]
        refine ⟨rfl, fun x hx => ?_⟩
        cases hx
        exact ⟨List.mem_cons_self .., ht.eq hb ha⟩

theorem findElem_isSome [DecidableEq K] {k : K} {l : List (Elem K V)} (hs : FMap.Sorted lt (kv l)) :
    (findElem lt k l).isSome = (FMap.lookup (kv l) k).isSome := by
  rw [← (findElem_spec ht hs).1]; cases findElem lt k l <;> rfl

theorem lookup_mem [DecidableEq K] {e : Elem K V} : ∀ {l : List (Elem K V)}, FMap.Sorted lt (kv l) → e ∈ l → FMap.lookup (kv l) e.key = some e.val
  | [], _, h => by cases h
  | x :: l, hs, h => by
    rw [kv_cons, sorted_cons ht] at hs
    rw [kv_cons, lookup_cons ht]
    rcases List.mem_cons.mp h with rfl | h
    · rw [if_pos rfl]
    · have := hs.1 _ (kv_mem h)
      rw [if_neg (ht.ne this)]
      exact lookup_mem hs.2 h

theorem kv_assign [DecidableEq K] (n : Nat) (k : K) (v : V) : ∀ {l : List (Elem K V)}, FMap.Sorted lt (kv l) →
    kv (assignElem lt n k v l) = FMap.set lt (kv l) k v
  | [], _ => rfl
  | e :: l, hs => by
    have hs' := hs
    rw [kv_cons] at hs
    unfold assignElem
    cases ha : lt k e.key with
    | true => rw [if_pos rfl, kv_cons, kv_cons, set_cons_gt ht v hs ha]
    | false =>
      rw [if_neg Bool.false_ne_true]
      cases hb : lt e.key k with
      | true =>
        rw [if_pos rfl, kv_cons, kv_cons, kv_assign n k v ((sorted_cons ht).mp hs).2, set_cons_lt ht v hb]
      | false =>
        rw [if_neg Bool.false_ne_true, kv_cons, kv_cons]
        have := ht.eq hb ha
        subst this
        rw [set_cons_eq ht v hs]

theorem kv_insert [DecidableEq K] (n : Nat) (k : K) (v : V) : ∀ {l : List (Elem K V)}, FMap.Sorted lt (kv l) →
    kv (insertElem lt n k v l) = match FMap.lookup (kv l) k with | some _ => kv l | none => FMap.set lt (kv l) k v
  | [], _ => rfl
  | e :: l, hs => by
    rw [kv_cons] at hs
    unfold insertElem
    cases ha : lt k e.key with
    | true =>
      rw [if_pos rfl, kv_cons, kv_cons, set_cons_gt ht v hs ha, lookup_lt ht]
      intro q hq
      rcases List.mem_cons.mp hq with rfl | hq
      · exact ha
      · exact ht.trans _ _ _ ha (((sorted_cons ht).mp hs).1 q hq)
    | false =>
      rw [if_neg Bool.false_ne_true]
      cases hb : lt e.key k with
      | true =>
        rw [if_pos rfl, kv_cons, kv_cons, kv_insert n k v ((sorted_cons ht).mp hs).2, set_cons_lt ht v hb, lookup_cons ht,
          if_neg (ht.ne hb)]
        cases FMap.lookup (kv l) k <;> rfl
      | false =>
        rw [if_neg Bool.false_ne_true, kv_cons, lookup_cons ht, if_pos (ht.eq hb ha)]

theorem unset_lt [DecidableEq K] {m : FMap K V} {k : K} (h : ∀ q ∈ m, lt k q.1 = true) : FMap.unset m k = m := by
  unfold FMap.unset
  rw [List.filter_eq_self]
  intro q hq
  have := ht.ne (h q hq)
  simp only [ne_eq, decide_not, Bool.not_eq_eq_eq_not, Bool.not_true, decide_eq_false_iff_not]
  exact fun e => this e.symm

theorem kv_erase [DecidableEq K] (k : K) : ∀ {l : List (Elem K V)}, FMap.Sorted lt (kv l) → kv (eraseElem lt k l) = FMap.unset (kv l) k
  | [], _ => rfl
  | e :: l, hs => by
    rw [kv_cons] at hs
    have hs' := (sorted_cons ht).mp hs
    unfold eraseElem
    cases ha : lt k e.key with
    | true =>
      rw [if_pos rfl, kv_cons, unset_lt ht]
      intro q hq
      rcases List.mem_cons.mp hq with rfl | hq
      · exact ha
      · exact ht.trans _ _ _ ha (hs'.1 q hq)
    | false =>
      rw [if_neg Bool.false_ne_true]
      cases hb : lt e.key k with
      | true =>
        rw [if_pos rfl, kv_cons, kv_cons, kv_erase k hs'.2]
        unfold FMap.unset
        rw [List.filter_cons, if_pos (by simpa using ht.ne hb)]
      | false =>
        rw [if_neg Bool.false_ne_true, kv_cons]
        have := ht.eq hb ha
        subst this
        have : FMap.unset ((e.key, e.val) :: kv l) e.key = FMap.unset (kv l) e.key := by unfold FMap.unset; simp
        rw [this, unset_lt ht hs'.1]

theorem unset_none [DecidableEq K] {m : FMap K V} {k : K} (h : FMap.lookup m k = none) : FMap.unset m k = m := by
  unfold FMap.unset
  rw [List.filter_eq_self]
  intro q hq
  unfold FMap.lookup at h
  rw [Option.map_eq_none_iff, List.find?_eq_none] at h
  have := h q hq
  simpa using this

theorem sorted_build [DecidableEq K] : ∀ (init : List (K × V)) (n : Nat) (acc : List (Elem K V)), FMap.Sorted lt (kv acc) →
    FMap.Sorted lt (kv (buildElems lt n init acc)) ∧
    kv (buildElems lt n init acc) = init.foldl (fun m p => match FMap.lookup m p.1 with | some _ => m | none => FMap.set lt m p.1 p.2) (kv acc)
  | [], _, _, h => ⟨h, rfl⟩
  | (k, v) :: l, n, acc, h => by
    have e := kv_insert ht n k v h
    have hs : FMap.Sorted lt (kv (insertElem lt n k v acc)) := by
      rw [e]
      split
      · exact h
      · exact sorted_set ht h k v
    have ih := sorted_build l (n + 1) (insertElem lt n k v acc) hs
    refine ⟨ih.1, ?_⟩
    show kv (buildElems lt (n + 1) l (insertElem lt n k v acc)) = _
    rw [ih.2, e]
    rfl

end

theorem kv_renumber : ∀ (n : Nat) (l : List (Elem K V)), kv (renumber n l) = kv l
  | _, [] => rfl
  | n, e :: l => by
    show (e.key, e.val) :: kv (renumber (n + 1) l) = _
    rw [kv_renumber (n + 1) l]; rfl

/-! ## Nodes -/

/-- Different elements have different nodes. -/
def NodeInj (l : List (Elem K V)) : Prop := ∀ e ∈ l, ∀ e' ∈ l, e.node = e'.node → e = e'

theorem renumber_nodes : ∀ (n : Nat) (l : List (Elem K V)), NodeInj (renumber n l) ∧ ∀ e ∈ renumber n l, n ≤ e.node ∧ e.node < n + l.length
  | n, [] => ⟨fun e h => (by cases h), fun e h => (by cases h)⟩
  | n, x :: l => by
    obtain ⟨h1, h2⟩ := renumber_nodes (n + 1) l
    have hb : ∀ e ∈ renumber n (x :: l), n ≤ e.node ∧ e.node < n + (x :: l).length := by
      intro e he
      rw [List.length_cons]
      rcases List.mem_cons.mp he with rfl | he
      · show n ≤ n ∧ n < _; omega
      · have := h2 e he; omega
    refine ⟨?_, hb⟩
    intro e he e' he' hn
    rcases List.mem_cons.mp he with rfl | he <;> rcases List.mem_cons.mp he' with rfl | he'
    · rfl
    · have := (h2 e' he').1; change n = e'.node at hn; omega
    · have := (h2 e he).1; change e.node = n at hn; omega
    · exact h1 e he e' he' hn

theorem mem_insertElem {lt : K → K → Bool} {n : Nat} {k : K} {v : V} : ∀ {l : List (Elem K V)} {e : Elem K V}, e ∈ insertElem lt n k v l → e ∈ l ∨ e = ⟨n, k, v⟩
  | [], e, h => Or.inr (List.mem_singleton.mp h)
  | x :: l, e, h => by
    unfold insertElem at h
    split at h
    · rcases List.mem_cons.mp h with h | h
      · exact Or.inr h
      · exact Or.inl h
    · split at h
      · rcases List.mem_cons.mp h with h | h
        · exact Or.inl (h ▸ List.mem_cons_self ..)
        · rcases mem_insertElem h with h | h
          · exact Or.inl (List.mem_cons_of_mem _ h)
          · exact Or.inr h
      · exact Or.inl h

theorem insertElem_keeps {lt : K → K → Bool} {n : Nat} {k : K} {v : V} : ∀ {l : List (Elem K V)} {e : Elem K V}, e ∈ l → e ∈ insertElem lt n k v l
  | [], _, h => by cases h
  | x :: l, e, h => by
    unfold insertElem
    split
    · exact List.mem_cons_of_mem _ h
    · split
      · rcases List.mem_cons.mp h with rfl | h
        · exact List.mem_cons_self ..
        · exact List.mem_cons_of_mem _ (insertElem_keeps h)
      · exact h

theorem mem_assignElem {lt : K → K → Bool} {n : Nat} {k : K} {v : V} : ∀ {l : List (Elem K V)} {e : Elem K V}, e ∈ assignElem lt n k v l →
    e ∈ l ∨ e = ⟨n, k, v⟩ ∨ ∃ x ∈ l, e = { x with val := v } ∧ findElem lt k l = some x
  | [], e, h => Or.inr (Or.inl (List.mem_singleton.mp h))
  | x :: l, e, h => by
    unfold assignElem at h
    unfold findElem
    split at h
    · rcases List.mem_cons.mp h with h | h
      · exact Or.inr (Or.inl h)
      · exact Or.inl h
    · next ha =>
      rw [if_neg ha]
      split at h
      · next hb =>
        rw [if_pos hb]
        rcases List.mem_cons.mp h with h | h
        · exact Or.inl (h ▸ List.mem_cons_self ..)
        · rcases mem_assignElem h with h | h | ⟨y, h1, h2, h3⟩
          · exact Or.inl (List.mem_cons_of_mem _ h)
          · exact Or.inr (Or.inl h)
          · exact Or.inr (Or.inr ⟨y, List.mem_cons_of_mem _ h1, h2, h3⟩)
      · next hb =>
        rw [if_neg hb]
        rcases List.mem_cons.mp h with h | h
        · exact Or.inr (Or.inr ⟨x, List.mem_cons_self .., h, rfl⟩)
        · exact Or.inl (List.mem_cons_of_mem _ h)

theorem assignElem_keeps {lt : K → K → Bool} {n : Nat} {k : K} {v : V} : ∀ {l : List (Elem K V)} {e : Elem K V}, e ∈ l →
    ∃ e' ∈ assignElem lt n k v l, e'.node = e.node ∧ e'.key = e.key
  | [], _, h => by cases h
  | x :: l, e, h => by
    unfold assignElem
    split
    · exact ⟨e, List.mem_cons_of_mem _ h, rfl, rfl⟩
    · split
      · rcases List.mem_cons.mp h with rfl | h
        · exact ⟨e, List.mem_cons_self .., rfl, rfl⟩
        · obtain ⟨e', h1, h2⟩ := assignElem_keeps h
          exact ⟨e', List.mem_cons_of_mem _ h1, h2⟩
      · rcases List.mem_cons.mp h with rfl | h
        · exact ⟨_, List.mem_cons_self .., rfl, rfl⟩
        · exact ⟨e, List.mem_cons_of_mem _ h, rfl, rfl⟩

theorem mem_eraseElem {lt : K → K → Bool} {k : K} : ∀ {l : List (Elem K V)} {e : Elem K V}, e ∈ eraseElem lt k l → e ∈ l
  | [], _, h => h
  | x :: l, e, h => by
    unfold eraseElem at h
    split at h
    · exact h
    · split at h
      · rcases List.mem_cons.mp h with h | h
        · exact h ▸ List.mem_cons_self ..
        · exact List.mem_cons_of_mem _ (mem_eraseElem h)
      · exact List.mem_cons_of_mem _ h

theorem inj_insertElem {lt : K → K → Bool} {n : Nat} {k : K} {v : V} {l : List (Elem K V)} (h : NodeInj l) (hn : ∀ e ∈ l, e.node < n) :
    NodeInj (insertElem lt n k v l) := by
  intro e he e' he' hh
  rcases mem_insertElem he with he | rfl <;> rcases mem_insertElem he' with he' | rfl
  · exact h e he e' he' hh
  · have := hn e he; dsimp only at hh; omega
  · have := hn e' he'; dsimp only at hh; omega
  · rfl

theorem build_nodes {lt : K → K → Bool} : ∀ (init : List (K × V)) (n : Nat) (acc : List (Elem K V)) (b : Nat), NodeInj acc → b ≤ n →
    (∀ e ∈ acc, b ≤ e.node ∧ e.node < n) → NodeInj (buildElems lt n init acc) ∧
    ∀ e ∈ buildElems lt n init acc, b ≤ e.node ∧ e.node < n + init.length
  | [], _, _, _, h, _, hb => ⟨h, fun e he => by have := hb e he; simpa using this⟩
  | (k, v) :: l, n, acc, b, h, hbn, hb => by
    have ih := build_nodes (lt := lt) l (n + 1) (insertElem lt n k v acc) b (inj_insertElem h fun e he => (hb e he).2) (by omega) (by
      intro e he
      rcases mem_insertElem he with he | rfl
      · have := hb e he; omega
      · show b ≤ n ∧ n < n + 1; omega)
    refine ⟨ih.1, fun e he => ?_⟩
    have := ih.2 e he
    rw [List.length_cons]
    omega

section
variable {lt : K → K → Bool} (ht : StrictTotal lt)
include ht

/-- With the order of keys, an element is determined by its key. -/
theorem key_inj {e e' : Elem K V} : ∀ {l : List (Elem K V)}, FMap.Sorted lt (kv l) → e ∈ l → e' ∈ l → e.key = e'.key → e = e'
  | [], _, h, _, _ => by cases h
  | x :: l, hs, h, h', hk => by
    rw [kv_cons, sorted_cons ht] at hs
    rcases List.mem_cons.mp h with g | g <;> rcases List.mem_cons.mp h' with g' | g'
    · rw [g, g']
    · subst g; exact absurd hk (ht.ne (hs.1 _ (kv_mem g')))
    · subst g'; exact absurd hk.symm (ht.ne (hs.1 _ (kv_mem g)))
    · exact key_inj hs.2 g g' hk

theorem inj_assignElem [DecidableEq K] {n : Nat} {k : K} {v : V} {l : List (Elem K V)} (hs : FMap.Sorted lt (kv l)) (h : NodeInj l) (hn : ∀ e ∈ l, e.node < n) :
    NodeInj (assignElem lt n k v l) := by
  have hsa : FMap.Sorted lt (kv (assignElem lt n k v l)) := by rw [kv_assign ht n k v hs]; exact sorted_set ht hs k v
  intro e he e' he' hh
  apply key_inj ht hsa he he'
  rcases mem_assignElem he with g | rfl | ⟨x, g, rfl, _⟩ <;> rcases mem_assignElem he' with g' | rfl | ⟨x', g', rfl, _⟩
  · rw [h e g e' g' hh]
  · have := hn e g; dsimp only at hh; omega
  · rw [h e g x' g' hh]
  · have := hn e' g'; dsimp only at hh; omega
  · rfl
  · have := hn x' g'; dsimp only at hh; omega
  · rw [← h x g e' g' hh]
  · have := hn x g; dsimp only at hh; omega
  · have := h x g x' g' hh; subst this; rfl

/-- What follows a node in the list is what is next in the order of the keys. -/
theorem nextPos_spec (o : Nat) {e : Elem K V} : ∀ {l : List (Elem K V)}, FMap.Sorted lt (kv l) → NodeInj l → e ∈ l →
    ∃ r, nextPos o e.node l = firstPos o r ∧ kv r = (kv l).filter (fun p => lt e.key p.1) ∧ ∀ x ∈ r, x ∈ l
  | [], _, _, h => by cases h
  | x :: l, hs, hi, h => by
    rw [kv_cons, sorted_cons ht] at hs
    unfold nextPos
    by_cases hn : x.node = e.node
    · have := hi x (List.mem_cons_self ..) e h hn
      subst this
      rw [if_pos rfl]
      refine ⟨l, rfl, ?_, fun y hy => List.mem_cons_of_mem _ hy⟩
      rw [kv_cons, List.filter_cons, ht.irrefl, (filter_all_gt ht hs.1).1]
      rfl
    · rw [if_neg hn]
      have hel : e ∈ l := by
        rcases List.mem_cons.mp h with rfl | h
        · exact absurd rfl hn
        · exact h
      obtain ⟨r, h1, h2, h3⟩ := nextPos_spec o hs.2 (fun a ha b hb => hi a (List.mem_cons_of_mem _ ha) b (List.mem_cons_of_mem _ hb)) hel
      refine ⟨r, h1, ?_, fun y hy => List.mem_cons_of_mem _ (h3 y hy)⟩
      rw [kv_cons, List.filter_cons, ht.asymm (hs.1 _ (kv_mem hel)), h2]
      rfl

end

end Verif.Cont
