import Verif.Front.ScopeFind
/-! # Names mean the innermost declaration that is visible -/

namespace Verif.Front.Scope

def toOption : Except Err Target → Option Target
  | .ok t => some t
  | .error _ => none

/-- The scope of a node within a module: declarations under their names. -/
structure LocalScope (s : Scope) : Prop where
  nodup : (s.map Entry.key).Nodup
  decls : ∀ e ∈ s, ∃ d j, e = ⟨[d.name], .decl d j⟩ ∧ DeclOk d

theorem LocalScope.simple {s : Scope} (h : LocalScope s) : Simple s := by
  intro e he
  obtain ⟨d, j, rfl, _⟩ := h.decls e he
  exact ⟨_, rfl⟩

/-- The entry for a name. -/
theorem LocalScope.entry {s : Scope} (h : LocalScope s) (x : Name) :
    (∃ d j, d.name = x ∧ DeclOk d ∧ ⟨[d.name], .decl d j⟩ ∈ s ∧ (s.filter fun e => e.key == [x]) = [⟨[d.name], .decl d j⟩]) ∨
    ((∀ d j, ⟨[d.name], .decl d j⟩ ∈ s → d.name ≠ x) ∧ (s.filter fun e => e.key == [x]) = []) := by
  by_cases hc : ∃ e ∈ s, e.key = [x]
  · obtain ⟨e, he, hk⟩ := hc
    obtain ⟨d, j, rfl, hd⟩ := h.decls e he
    have hx : d.name = x := by simpa using hk
    exact Or.inl ⟨d, j, hx, hd, he, by have := filter_single h.nodup he; rw [hx] at this ⊢; exact this⟩
  · refine Or.inr ⟨fun d j hm hx => hc ⟨_, hm, by rw [hx]⟩, ?_⟩
    rw [List.filter_eq_nil_iff]
    intro e he hk
    exact hc ⟨e, he, by simpa using hk⟩

/-- Entries for a name are the same. -/
theorem LocalScope.unique {s : Scope} (h : LocalScope s) {d d' : Decl} {j j' : Option Nat} (h1 : ⟨[d.name], .decl d j⟩ ∈ s)
    (h2 : ⟨[d'.name], .decl d' j'⟩ ∈ s) (e : d.name = d'.name) : d = d' ∧ j = j' := by
  have a := filter_single h.nodup h1
  have b := filter_single h.nodup h2
  simp only [e] at a b
  rw [a] at b
  injection b with b
  injection b with _ b
  injection b with b1 b2
  exact ⟨b1, b2⟩

theorem backend_one (ms : List Module) (f : Frame) (hs : LocalScope (f.scope ms)) (x : Name) :
    (∃ d j, d.name = x ∧ ⟨[d.name], .decl d j⟩ ∈ f.scope ms ∧ backend ms f [x] = if tooEarly f d j then .up else .found (.decl d)) ∨
    ((∀ d j, ⟨[d.name], .decl d j⟩ ∈ f.scope ms → d.name ≠ x) ∧ backend ms f [x] = .up) := by
  have hf := find_one ms hs.simple 0 x false
  rcases hs.entry x with ⟨d, j, hx, _, hm, hfil⟩ | ⟨hn, hfil⟩
  · rw [hfil] at hf
    refine Or.inl ⟨d, j, hx, hm, ?_⟩
    simp only [backend, List.length_singleton, hf, List.map_cons, List.map_nil, Bool.false_and, Bool.false_eq_true, if_false]
  · rw [hfil] at hf
    refine Or.inr ⟨hn, ?_⟩
    simp only [backend, List.length_singleton, hf, List.map_nil]

theorem backend_two (ms : List Module) (f : Frame) (hs : LocalScope (f.scope ms)) (t l : Name) :
    (∃ d j, d.name = t ∧ l ∈ d.labels ∧ ⟨[d.name], .decl d j⟩ ∈ f.scope ms ∧ backend ms f [t, l] = .found (.label d l)) ∨
    ((∀ d j, ⟨[d.name], .decl d j⟩ ∈ f.scope ms → d.name = t → l ∉ d.labels) ∧ backend ms f [t, l] = .up) := by
  have hf := find_more ms hs.simple 1 t l [] false
  rcases hs.entry t with ⟨d, j, hx, hd, hm, hfil⟩ | ⟨hn, hfil⟩
  · rw [hfil] at hf
    simp only [List.map_cons, List.map_nil, Bool.false_or, isImported, find_label ms d hd.2.2.1] at hf
    by_cases hl : l ∈ d.labels
    · simp only [true_and, if_pos hl] at hf
      refine Or.inl ⟨d, j, hx, hl, hm, ?_⟩
      simp only [backend, List.length_cons, List.length_nil, hf, firstResult]
    · simp only [true_and, if_neg hl] at hf
      refine Or.inr ⟨fun d' j' hm' e => ?_, ?_⟩
      · have := hs.unique hm' hm (e.trans hx.symm)
        rw [this.1]; exact hl
      · simp only [backend, List.length_cons, List.length_nil, hf, firstResult]
  · rw [hfil] at hf
    refine Or.inr ⟨fun d j hm e => absurd e (hn d j hm), ?_⟩
    simp only [backend, List.length_cons, List.length_nil, hf, List.map_nil, firstResult]

theorem backend_long (ms : List Module) (f : Frame) (hs : LocalScope (f.scope ms)) (a b c : Name) (r : Path) :
    backend ms f (a :: b :: c :: r) = .up := by
  have hf := find_more ms hs.simple (r.length + 2) a b (c :: r) false
  rcases hs.entry a with ⟨d, j, hx, hd, hm, hfil⟩ | ⟨hn, hfil⟩
  · rw [hfil] at hf
    simp only [List.map_cons, List.map_nil, Bool.false_or, isImported, find_label ms d hd.2.2.1] at hf
    rw [if_neg (fun h => by cases h.1)] at hf
    simp only [backend, List.length_cons, hf, firstResult]
  · rw [hfil] at hf
    simp only [backend, List.length_cons, hf, List.map_nil, firstResult]

theorem backend_abs (ms : List Module) (f : Frame) (hs : LocalScope (f.scope ms)) (p : Path) (hp : p ≠ []) : backend ms f ("" :: p) = .up := by
  have hne : ∀ d j, ⟨[d.name], .decl d j⟩ ∈ f.scope ms → d.name ≠ "" := by
    intro d j hm
    obtain ⟨d', j', e, hd'⟩ := hs.decls _ hm
    injection e with _ e
    injection e with e _
    rw [e]; exact hd'.1
  match p with
  | [] => exact absurd rfl hp
  | [l] =>
    rcases backend_two ms f hs "" l with ⟨d, j, e, _, hm, _⟩ | ⟨_, e⟩
    · exact absurd e (hne d j hm)
    · exact e
  | a :: b :: r => exact backend_long ms f hs "" a b r

theorem absolute_none {p : Path} (h : "" ∉ p) : absolute p = none := by
  unfold absolute
  split
  · exact absurd (List.mem_cons_self ..) h
  · rfl

theorem absolute_some {p : Path} (h : p ≠ []) : absolute ("" :: p) = some p := by
  cases p with
  | nil => exact absurd rfl h
  | cons x r => rfl

theorem meaning_rel {ms : List Module} {m : Nat} {env : List Decl} {p : Path} (h : "" ∉ p) : meaning ms m env p = relative ms m env p := by
  unfold meaning
  cases p with
  | nil => rfl
  | cons x r =>
    rw [if_neg]
    intro e
    injection e with e
    exact h (e ▸ List.mem_cons_self ..)

/-- The search passes over nodes. -/
def Skips (ms : List Module) (m : Nat) (fs : List Frame) : Prop :=
  ∀ p, p ≠ [] → "" ∉ p → toOption (lookup ms fs true p) = inModule ms p m

/-- What is found above, but for names in `xs`. -/
structure Inv0 (ms : List Module) (m : Nat) (xs : List Name) (fs : List Frame) (env : List Decl) : Prop where
  rel : ∀ p, p ≠ [] → "" ∉ p → (∀ n ∈ xs, p ≠ [n]) → toOption (lookup ms fs false p) = relative ms m env p
  skip : Skips ms m fs

/-- And for absolute names. -/
structure Inv (ms : List Module) (m : Nat) (xs : List Name) (fs : List Frame) (env : List Decl) : Prop extends Inv0 ms m xs fs env where
  abs : ∀ p, p ≠ [] → "" ∉ p → toOption (lookup ms fs false ("" :: p)) = inModule ms p m

theorem Inv.use {ms : List Module} {m : Nat} {xs : List Name} {fs : List Frame} {env : List Decl} (h : Inv ms m xs fs env) {p : Path} (hp : IdOk p)
    (hx : ∀ n ∈ xs, p ≠ [n]) : toOption (lookup ms fs false p) = meaning ms m env p := by
  rcases hp with ⟨h1, h2⟩ | ⟨q, rfl, h1, h2⟩
  · rw [meaning_rel h2]; exact h.rel p h1 h2 hx
  · rw [h.abs q h1 h2]; rfl

/-- One more node. -/
theorem push {ms : List Module} {m : Nat} {xs xs' : List Name} {f : Frame} {fs : List Frame} {env G : List Decl}
    (hs : LocalScope (f.scope ms)) (hf : f.isModule = false)
    (hG : ∀ d ∈ G, ∃ j, ⟨[d.name], .decl d j⟩ ∈ f.scope ms ∧ tooEarly f d j = false)
    (hs' : ∀ d j, ⟨[d.name], .decl d j⟩ ∈ f.scope ms → d ∈ G ∨ (d.labels = [] ∧ (tooEarly f d j = true ∨ d.name ∈ xs')))
    (hX : ∀ n ∈ xs, n ∈ xs' ∨ ∃ d ∈ G, d.name = n)
    (next : ∀ p, p ≠ [] → "" ∉ p → (∀ n ∈ xs, p ≠ [n]) → toOption (lookup ms fs f.isUnit p) = relative ms m env p)
    (skip : Skips ms m fs) : Inv ms m xs' (f :: fs) (G ++ env) := by
  have up : ∀ p, "" ∉ p → backend ms f p = .up → lookup ms (f :: fs) false p = lookup ms fs f.isUnit p := by
    intro p h0 e
    simp only [lookup, Bool.false_and, Bool.false_eq_true, if_false, e, absolute_none h0, hf]
    cases f.isUnit <;> rfl
  have found : ∀ p t, backend ms f p = .found t → lookup ms (f :: fs) false p = .ok t := by
    intro p t e
    simp only [lookup, Bool.false_and, Bool.false_eq_true, if_false, e]
  refine ⟨⟨?_, ?_⟩, ?_⟩
  · intro p hne h0 hx
    match p, hne with
    | [x], _ =>
      cases hg : G.find? fun d => d.name == x with
      | some d =>
        have hdx : d.name = x := by simpa using List.find?_some hg
        have hdG := List.mem_of_find?_eq_some hg
        obtain ⟨j, hm, he⟩ := hG d hdG
        simp only [relative, List.find?_append, hg, Option.some_or]
        rcases backend_one ms f hs x with ⟨d', j', hx', hm', e⟩ | ⟨hn, _⟩
        · obtain ⟨rfl, rfl⟩ := hs.unique hm' hm (hx'.trans hdx.symm)
          rw [he] at e
          rw [found _ _ e]; rfl
        · exact absurd hdx (hn d j hm)
      | none =>
        have hnone : ∀ d ∈ G, d.name ≠ x := fun d hd e => by
          have := List.find?_eq_none.mp hg d hd
          simp [e] at this
        have hxx : ∀ n ∈ xs, [x] ≠ [n] := by
          intro n hn e
          injection e with e
          rcases hX n hn with h | ⟨d, hd, e'⟩
          · exact hx n h (by rw [e])
          · exact hnone d hd (by rw [e, e'])
        have hb : backend ms f [x] = .up := by
          rcases backend_one ms f hs x with ⟨d', j', hx', hm', e⟩ | ⟨_, e⟩
          · rcases hs' d' j' hm' with h | ⟨_, h | h⟩
            · exact absurd hx' (hnone d' h)
            · rw [h] at e; exact e
            · exact absurd (by rw [hx']) (hx _ h)
          · exact e
        rw [up _ h0 hb, next _ (by simp) h0 hxx]
        simp only [relative, List.find?_append, hg, Option.none_or]
    | [t, l], _ =>
      have hxx : ∀ n ∈ xs, [t, l] ≠ [n] := fun n _ e => by injection e with _ e; cases e
      cases hg : G.find? fun d => d.name == t && d.labels.contains l with
      | some d =>
        have hp := List.find?_some hg
        simp only [Bool.and_eq_true, beq_iff_eq, List.contains_iff_mem] at hp
        have hdG := List.mem_of_find?_eq_some hg
        obtain ⟨j, hm, he⟩ := hG d hdG
        simp only [relative, List.find?_append, hg, Option.some_or]
        rcases backend_two ms f hs t l with ⟨d', j', hx', hl', hm', e⟩ | ⟨hn, _⟩
        · obtain ⟨rfl, rfl⟩ := hs.unique hm' hm (hx'.trans hp.1.symm)
          rw [found _ _ e]; rfl
        · exact absurd hp.2 (hn d j hm hp.1)
      | none =>
        have hb : backend ms f [t, l] = .up := by
          rcases backend_two ms f hs t l with ⟨d', j', hx', hl', hm', e⟩ | ⟨_, e⟩
          · rcases hs' d' j' hm' with h | ⟨h, _⟩
            · have := List.find?_eq_none.mp hg d' h
              simp [hx', hl'] at this
            · rw [h] at hl'; cases hl'
          · exact e
        rw [up _ h0 hb, next _ (by simp) h0 hxx]
        simp only [relative, List.find?_append, hg, Option.none_or]
    | a :: b :: c :: r, _ =>
      rw [up _ h0 (backend_long ms f hs a b c r), next _ (by simp) h0 (fun n _ e => by injection e with _ e; cases e)]
      rfl
  · intro p h1 h2
    rw [← skip p h1 h2]
    simp only [lookup, hf, Bool.not_false, Bool.and_self, if_true]
  · intro p h1 h2
    rw [← skip p h1 h2]
    simp only [lookup, Bool.false_and, Bool.false_eq_true, if_false, backend_abs ms f hs p h1, absolute_some h1]

/-- The same for all names. -/
def Same (ms : List Module) (m : Nat) (a b : List Decl) : Prop := ∀ p, relative ms m a p = relative ms m b p

theorem Same.cons {ms : List Module} {m : Nat} {a b : List Decl} (h : Same ms m a b) (d : Decl) : Same ms m (d :: a) (d :: b) := by
  intro p
  match p with
  | [] => rfl
  | [x] =>
    have := h [x]
    simp only [relative, List.find?_cons] at this ⊢
    cases d.name == x with
    | true => rfl
    | false => exact this
  | [t, l] =>
    have := h [t, l]
    simp only [relative, List.find?_cons] at this ⊢
    cases d.name == t && d.labels.contains l with
    | true => rfl
    | false => exact this
  | _ :: _ :: _ :: _ => rfl

theorem Same.symm {ms : List Module} {m : Nat} {a b : List Decl} (h : Same ms m a b) : Same ms m b a := fun p => (h p).symm

theorem Same.trans {ms : List Module} {m : Nat} {a b c : List Decl} (h : Same ms m a b) (h' : Same ms m b c) : Same ms m a c :=
  fun p => (h p).trans (h' p)

/-- A declaration that is visible already. -/
theorem same_dup (ms : List Module) (m : Nat) (A : List Decl) (d : Decl) (env : List Decl) : Same ms m (A ++ d :: d :: env) (A ++ d :: env) := by
  induction A with
  | nil =>
    intro p
    match p with
    | [] => rfl
    | [x] => simp only [relative, List.nil_append, List.find?_cons]; cases d.name == x <;> rfl
    | [t, l] => simp only [relative, List.nil_append, List.find?_cons]; cases d.name == t && d.labels.contains l <;> rfl
    | _ :: _ :: _ :: _ => rfl
  | cons a A ih => exact ih.cons a

theorem same_mem (ms : List Module) (m : Nat) {G : List Decl} (hu : ∀ d ∈ G, ∀ d' ∈ G, d.name = d'.name → d = d') {d : Decl} (hd : d ∈ G)
    (env : List Decl) : Same ms m (d :: (G ++ env)) (G ++ env) := by
  intro p
  match p with
  | [] => rfl
  | [x] =>
    simp only [relative, List.find?_cons, List.find?_append]
    by_cases hx : (d.name == x) = true
    · simp only [hx]
      cases hg : G.find? fun d => d.name == x with
      | none => exact absurd hx (List.find?_eq_none.mp hg d hd)
      | some d' =>
        have h1 := List.find?_some hg
        simp only [beq_iff_eq] at h1 hx
        have := hu d hd d' (List.mem_of_find?_eq_some hg) (hx.trans h1.symm)
        rw [this]; rfl
    · simp only [Bool.not_eq_true] at hx
      simp only [hx]
  | [t, l] =>
    simp only [relative, List.find?_cons, List.find?_append]
    by_cases hx : (d.name == t && d.labels.contains l) = true
    · simp only [hx]
      cases hg : G.find? fun d => d.name == t && d.labels.contains l with
      | none => exact absurd hx (List.find?_eq_none.mp hg d hd)
      | some d' =>
        have h1 := List.find?_some hg
        simp only [Bool.and_eq_true, beq_iff_eq] at h1 hx
        have := hu d hd d' (List.mem_of_find?_eq_some hg) (hx.1.trans h1.1.symm)
        rw [this]; rfl
    · simp only [Bool.not_eq_true] at hx
      simp only [hx]
  | _ :: _ :: _ :: _ => rfl

theorem Inv.same {ms : List Module} {m : Nat} {xs : List Name} {fs : List Frame} {a b : List Decl} (h : Inv ms m xs fs a) (e : Same ms m a b) :
    Inv ms m xs fs b :=
  ⟨⟨fun p h1 h2 h3 => (h.rel p h1 h2 h3).trans (e p), h.skip⟩, h.abs⟩

/-- A node with one variable. -/
theorem localScope_single {d : Decl} (hd : DeclOk d) : LocalScope (plain [d]) :=
  ⟨by simp [plain], fun e he => ⟨d, none, by simpa [plain] using he, hd⟩⟩

theorem Inv0.node {ms : List Module} {m : Nat} {xs : List Name} {fs : List Frame} {env : List Decl} (h : Inv0 ms m xs fs env) {d : Decl} (hd : DeclOk d) :
    Inv ms m (xs.filter (· != d.name)) (.node (plain [d]) :: fs) (d :: env) := by
  refine push (G := [d]) (f := .node (plain [d])) (localScope_single hd) rfl ?_ ?_ ?_ h.rel h.skip
  · intro d' h'
    rw [List.mem_singleton.mp h']
    exact ⟨none, List.mem_singleton.mpr rfl, rfl⟩
  · intro d' j h'
    have h' := List.mem_singleton.mp h'
    injection h' with _ h'
    injection h' with h' _
    exact Or.inl (List.mem_singleton.mpr h')
  · intro n hn
    by_cases e : n = d.name
    · exact Or.inr ⟨d, List.mem_singleton.mpr rfl, e.symm⟩
    · exact Or.inl (List.mem_filter.mpr ⟨hn, by simpa using e⟩)

/-- Where its own initial value stands, a variable is in scope already. -/
theorem Inv0.own {ms : List Module} {m : Nat} {xs : List Name} {fs : List Frame} {env : List Decl} (h : Inv0 ms m xs fs env) {d : Decl} (hd : DeclOk d)
    (hv : d.kind = .var) : Inv ms m (d.name :: xs) (.node (plain [d]) :: fs) env := by
  refine push (G := []) (f := .node (plain [d])) (localScope_single hd) rfl ?_ ?_ ?_ h.rel h.skip
  · intro d' h'; cases h'
  · intro d' j h'
    have h' := List.mem_singleton.mp h'
    injection h' with _ h'
    injection h' with h' _
    subst h'
    refine Or.inr ⟨?_, Or.inr (List.mem_cons_self ..)⟩
    exact Classical.byContradiction fun hc => by have := hd.2.2.2 hc; rw [hv] at this; cases this
  · intro n hn; exact Or.inl (List.mem_cons_of_mem _ hn)

end Verif.Front.Scope
