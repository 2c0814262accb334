import Verif.Grammar.Model
/-
The fixpoint loop of `Grammar::_computeTables` terminates and computes exactly
the derivation-based nullable, FIRST and FOLLOW sets.
-/
namespace Verif.Grammar

/-! ### Sets as lists -/

theorem mem_union {x : Nat} : ∀ {b a : List Nat}, x ∈ union a b ↔ x ∈ a ∨ x ∈ b
  | [], a => by simp [union]
  | y :: ys, a => by
    rw [union, mem_union]
    by_cases h : y ∈ a
    · rw [if_pos h]
      constructor
      · rintro (h1 | h1)
        · exact .inl h1
        · exact .inr (List.mem_cons_of_mem _ h1)
      · rintro (h1 | h1)
        · exact .inl h1
        · rcases List.mem_cons.mp h1 with rfl | h2
          · exact .inl h
          · exact .inr h2
    · rw [if_neg h]
      simp [or_assoc]

theorem union_length_le : ∀ (b a : List Nat), a.length ≤ (union a b).length
  | [], a => by simp [union]
  | y :: ys, a => by
    rw [union]
    refine Nat.le_trans ?_ (union_length_le ys _)
    split <;> simp

theorem union_eq_of_length : ∀ (b a : List Nat), (union a b).length = a.length → ∀ x ∈ b, x ∈ a
  | [], a => by simp
  | y :: ys, a => by
    intro h x hx
    rw [union] at h
    by_cases hy : y ∈ a
    · rw [if_pos hy] at h
      rcases List.mem_cons.mp hx with rfl | h2
      · exact hy
      · exact union_eq_of_length ys a h x h2
    · rw [if_neg hy] at h
      have := union_length_le ys (a ++ [y])
      simp at this
      omega

theorem union_nodup : ∀ (b a : List Nat), a.Nodup → (union a b).Nodup
  | [], a => fun h => h
  | y :: ys, a => by
    intro h
    rw [union]
    apply union_nodup
    split
    · exact h
    · rename_i hy
      rw [List.nodup_append]
      refine ⟨h, by simp, ?_⟩
      intro x hx z hz
      simp at hz
      subst hz
      intro hxz
      exact hy (hxz ▸ hx)

theorem nodup_length_le : ∀ (a u : List Nat), a.Nodup → (∀ x ∈ a, x ∈ u) → a.length ≤ u.length
  | [], u => by simp
  | x :: xs, u => by
    intro h hs
    have hx : x ∈ u := hs x (by simp)
    have h1 := List.nodup_cons.mp h
    have := nodup_length_le xs (u.erase x) h1.2 (by
      intro z hz
      have hzx : z ≠ x := fun e => h1.1 (e ▸ hz)
      exact (List.mem_erase_of_ne hzx).mpr (hs z (List.mem_cons_of_mem _ hz)))
    rw [List.length_erase_of_mem hx] at this
    have : 0 < u.length := List.length_pos_of_mem hx
    simp
    omega

theorem setAt_same {α : Type} (f : Nat → α) (k : Nat) (v : α) : setAt f k v k = v := by
  simp [setAt]

theorem setAt_ne {α : Type} (f : Nat → α) {k i : Nat} (v : α) (h : i ≠ k) : setAt f k v i = f i := by
  simp [setAt, h]

/-! ### The measure -/

/-- Number of entries one nonterminal has in the tables. -/
def Tab.entries (T : Tab) (p : Nat) : Nat :=
  (if T.nul p then 1 else 0) + (T.first p).length + (T.follow p).length

/-- Number of entries in the tables. -/
def Tab.size (T : Tab) (ns : List Nat) : Nat := (ns.map T.entries).sum

theorem size_le {T T' : Tab} : ∀ (ns : List Nat), (∀ p, T.entries p ≤ T'.entries p) →
    T.size ns ≤ T'.size ns
  | [], _ => by simp [Tab.size]
  | p :: ps, h => by
    have := size_le ps h
    have := h p
    simp [Tab.size] at *
    omega

theorem size_lt {T T' : Tab} {q : Nat} (hq : T.entries q < T'.entries q) :
    ∀ (ns : List Nat), (∀ p, T.entries p ≤ T'.entries p) → q ∈ ns → T.size ns < T'.size ns
  | [], _, hm => by simp at hm
  | p :: ps, h, hm => by
    have h1 := size_le ps h
    have h2 := h p
    rcases List.mem_cons.mp hm with rfl | hm
    · simp [Tab.size] at *
      omega
    · have := size_lt hq ps h hm
      simp [Tab.size] at *
      omega

/-- How one table operation may act: entries are only ever added, `changed` is
raised exactly when one was added. -/
structure Tr (ns : List Nat) (T T' : Tab) : Prop where
  le : T.size ns ≤ T'.size ns
  ch : T'.changed = true → T.changed = true ∨ T.size ns < T'.size ns
  keep : T'.changed = false → T' = T

theorem Tr.refl (ns : List Nat) (T : Tab) : Tr ns T T :=
  ⟨Nat.le_refl _, fun h => .inl h, fun _ => rfl⟩

theorem Tr.trans {ns : List Nat} {T1 T2 T3 : Tab} (a : Tr ns T1 T2) (b : Tr ns T2 T3) :
    Tr ns T1 T3 := by
  refine ⟨Nat.le_trans a.le b.le, ?_, ?_⟩
  · intro h
    rcases b.ch h with h2 | h2
    · rcases a.ch h2 with h3 | h3
      · exact .inl h3
      · exact .inr (Nat.lt_of_lt_of_le h3 b.le)
    · exact .inr (Nat.lt_of_le_of_lt a.le h2)
  · intro h
    have h2 := b.keep h
    rw [h2] at h ⊢
    exact a.keep h

theorem addFirst_tr {ns : List Nat} (T : Tab) {q : Nat} (src : List Nat) (hq : q ∈ ns) :
    Tr ns T (T.addFirst q src) := by
  unfold Tab.addFirst
  split
  · exact Tr.refl _ _
  · rename_i h
    have hl := union_length_le src (T.first q)
    have hle : ∀ p, T.entries p ≤
        ({ T with first := setAt T.first q (union (T.first q) src), changed := true } : Tab).entries p := by
      intro p
      by_cases hp : p = q
      · subst hp; simp [Tab.entries, setAt_same]; omega
      · simp [Tab.entries, setAt_ne _ _ hp]
    refine ⟨size_le ns hle, fun _ => .inr (size_lt (q := q) ?_ ns hle hq), fun h => by simp at h⟩
    simp [Tab.entries, setAt_same]; omega

theorem addFollow_tr {ns : List Nat} (T : Tab) {q : Nat} (src : List Nat) (hq : q ∈ ns) :
    Tr ns T (T.addFollow q src) := by
  unfold Tab.addFollow
  split
  · exact Tr.refl _ _
  · rename_i h
    have hl := union_length_le src (T.follow q)
    have hle : ∀ p, T.entries p ≤
        ({ T with follow := setAt T.follow q (union (T.follow q) src), changed := true } : Tab).entries p := by
      intro p
      by_cases hp : p = q
      · subst hp; simp [Tab.entries, setAt_same]; omega
      · simp [Tab.entries, setAt_ne _ _ hp]
    refine ⟨size_le ns hle, fun _ => .inr (size_lt (q := q) ?_ ns hle hq), fun h => by simp at h⟩
    simp [Tab.entries, setAt_same]; omega

theorem addNul_tr {ns : List Nat} (T : Tab) {q : Nat} (hq : q ∈ ns) (hn : T.nul q = false) :
    Tr ns T { T with nul := setAt T.nul q true, changed := true } := by
  have hle : ∀ p, T.entries p ≤
      ({ T with nul := setAt T.nul q true, changed := true } : Tab).entries p := by
    intro p
    by_cases hp : p = q
    · subst hp; simp [Tab.entries, setAt_same, hn]
    · simp [Tab.entries, setAt_ne _ _ hp]
  refine ⟨size_le ns hle, fun _ => .inr (size_lt (q := q) ?_ ns hle hq), fun h => by simp at h⟩
  simp [Tab.entries, setAt_same, hn]

theorem scanRest_tr {ns : List Nat} {q : Nat} (hq : q ∈ ns) :
    ∀ (ys mid : List Sym) (T : Tab), Tr ns T (T.scanRest q mid ys)
  | [], _, T => Tr.refl _ _
  | y :: ys, mid, T => by
    rw [Tab.scanRest]
    refine Tr.trans ?_ (scanRest_tr hq ys _ _)
    split
    · exact addFollow_tr T _ hq
    · exact Tr.refl _ _

theorem followStep_tr {ns : List Nat} (T : Tab) (p : Nat) (x : Sym) (rest : List Sym)
    (hx : ∀ q, x = Sym.n q → q ∈ ns) : Tr ns T (T.followStep p x rest) := by
  cases x with
  | eps => exact Tr.refl _ _
  | t i => exact Tr.refl _ _
  | n q =>
    simp only [Tab.followStep]
    refine Tr.trans ?_ (scanRest_tr (hx q rfl) rest [] _)
    split
    · exact addFollow_tr T _ (hx q rfl)
    · exact Tr.refl _ _

theorem scan_tr {ns : List Nat} {p : Nat} (hp : p ∈ ns) :
    ∀ (xs pre : List Sym) (T : Tab), (∀ q, Sym.n q ∈ xs → q ∈ ns) → Tr ns T (T.scan p pre xs)
  | [], _, T, _ => Tr.refl _ _
  | x :: rest, pre, T, hx => by
    rw [Tab.scan]
    refine Tr.trans ?_ (scan_tr hp rest _ _ fun q hq => hx q (List.mem_cons_of_mem _ hq))
    refine Tr.trans ?_ (followStep_tr _ p x rest fun q hq => hx q (by rw [hq]; exact List.mem_cons_self))
    split
    · exact addFirst_tr T _ hp
    · exact Tr.refl _ _

theorem rhsStep_tr {ns : List Nat} {p : Nat} (hp : p ∈ ns) (T : Tab) (r : List Sym)
    (hr : ∀ q, Sym.n q ∈ r → q ∈ ns) : Tr ns T (T.rhsStep p r) := by
  unfold Tab.rhsStep
  refine Tr.trans ?_ (scan_tr hp r [] _ hr)
  split
  · rename_i h
    simp at h
    exact addNul_tr T hp h.2
  · exact Tr.refl _ _

theorem prodStep_tr {ns : List Nat} {p : Nat} (hp : p ∈ ns) :
    ∀ (rs : List (List Sym)) (T : Tab), (∀ r ∈ rs, ∀ q, Sym.n q ∈ r → q ∈ ns) →
      Tr ns T (T.prodStep p rs)
  | [], T, _ => Tr.refl _ _
  | r :: rs, T, h => by
    rw [Tab.prodStep]
    exact Tr.trans (rhsStep_tr hp T r (h r (by simp)))
      (prodStep_tr hp rs _ fun r' hr' => h r' (List.mem_cons_of_mem _ hr'))

theorem pass_tr {g : Gram} (hc : ∀ p ∈ g.nterms, ∀ r ∈ g.rhss p, ∀ q, Sym.n q ∈ r → q ∈ g.nterms) :
    ∀ (ps : List Nat) (T : Tab), (∀ p ∈ ps, p ∈ g.nterms) → Tr g.nterms T (Tab.pass g T ps)
  | [], T, _ => Tr.refl _ _
  | p :: ps, T, h => by
    rw [Tab.pass]
    have hp := h p (by simp)
    exact Tr.trans (prodStep_tr hp _ T (hc p hp))
      (pass_tr hc ps _ fun q hq => h q (List.mem_cons_of_mem _ hq))

/-! ### Every table entry is justified by a derivation -/

/-- Soundness invariant of the tables. -/
structure Good (g : Gram) (T : Tab) : Prop where
  nul : ∀ p, T.nul p = true → CanVanish g.rhss [Sym.n p]
  first : ∀ p t, t ∈ T.first p → CanStart g.rhss [Sym.n p] t ∧ t ∈ g.terms
  follow : ∀ p t, t ∈ T.follow p → CanFollow g.rhss g.root p t ∧ t ∈ g.terms
  nd1 : ∀ p, (T.first p).Nodup
  nd2 : ∀ p, (T.follow p).Nodup

theorem good_init (g : Gram) : Good g Tab.init :=
  ⟨by simp [Tab.init], by simp [Tab.init], by simp [Tab.init], by simp [Tab.init],
    by simp [Tab.init]⟩

theorem Good.flag {g : Gram} {T : Tab} (h : Good g T) (b : Bool) :
    Good g { T with changed := b } := ⟨h.nul, h.first, h.follow, h.nd1, h.nd2⟩

theorem Good.isNul {g : Gram} {T : Tab} (h : Good g T) {x : Sym} (hx : T.isNul x = true) :
    CanVanish g.rhss [x] := by
  cases x with
  | eps => exact Derives.epsilon
  | t i => simp [Tab.isNul] at hx
  | n p => exact h.nul p hx

theorem Good.allNul {g : Gram} {T : Tab} (h : Good g T) :
    ∀ {a : List Sym}, T.allNul a = true → CanVanish g.rhss a
  | [], _ => Derives.refl _
  | x :: xs, hx => by
    rw [Tab.allNul] at hx
    by_cases h1 : T.isNul x = true
    · rw [if_pos h1] at hx
      have := CanVanish.append (h.isNul h1) (h.allNul hx)
      simpa using this
    · rw [if_neg h1] at hx
      cases hx

theorem Good.getFirst {g : Gram} {T : Tab} (h : Good g T) {x : Sym} {t : Nat}
    (hx : t ∈ T.getFirst x) : CanStart g.rhss [x] t := by
  cases x with
  | eps => simp [Tab.getFirst] at hx
  | t i =>
    simp [Tab.getFirst] at hx
    subst hx
    exact ⟨[], Derives.refl _⟩
  | n p => exact (h.first p t hx).1

theorem Good.getFirst_terms {g : Gram} {T : Tab} (h : Good g T) {x : Sym} {t p : Nat}
    {r : List Sym} (hp : p ∈ g.nterms) (hr : r ∈ g.rhss p) (hxr : x ∈ r)
    (hx : t ∈ T.getFirst x) : t ∈ g.terms := by
  cases x with
  | eps => simp [Tab.getFirst] at hx
  | t i =>
    simp [Tab.getFirst] at hx
    subst hx
    simp only [Gram.terms, List.mem_flatMap]
    exact ⟨p, hp, r, hr, Sym.t t, hxr, by simp⟩
  | n p => exact (h.first p t hx).2

theorem Good.addFirst {g : Gram} {T : Tab} (h : Good g T) {p : Nat} {src : List Nat}
    (hs : ∀ t ∈ src, CanStart g.rhss [Sym.n p] t ∧ t ∈ g.terms) : Good g (T.addFirst p src) := by
  unfold Tab.addFirst
  split
  · exact h
  · refine ⟨h.nul, ?_, h.follow, ?_, h.nd2⟩
    · intro q t ht
      by_cases hq : q = p
      · subst hq
        simp only [setAt_same, mem_union] at ht
        rcases ht with ht | ht
        · exact h.first q t ht
        · exact hs t ht
      · simp only [setAt_ne _ _ hq] at ht
        exact h.first q t ht
    · intro q
      by_cases hq : q = p
      · subst hq
        simp only [setAt_same]
        exact union_nodup _ _ (h.nd1 q)
      · simp only [setAt_ne _ _ hq]
        exact h.nd1 q

theorem Good.addFollow {g : Gram} {T : Tab} (h : Good g T) {p : Nat} {src : List Nat}
    (hs : ∀ t ∈ src, CanFollow g.rhss g.root p t ∧ t ∈ g.terms) : Good g (T.addFollow p src) := by
  unfold Tab.addFollow
  split
  · exact h
  · refine ⟨h.nul, h.first, ?_, h.nd1, ?_⟩
    · intro q t ht
      by_cases hq : q = p
      · subst hq
        simp only [setAt_same, mem_union] at ht
        rcases ht with ht | ht
        · exact h.follow q t ht
        · exact hs t ht
      · simp only [setAt_ne _ _ hq] at ht
        exact h.follow q t ht
    · intro q
      by_cases hq : q = p
      · subst hq
        simp only [setAt_same]
        exact union_nodup _ _ (h.nd2 q)
      · simp only [setAt_ne _ _ hq]
        exact h.nd2 q

/-- From a right-hand side `pre x rest` with `pre` vanishing, `p` starts like `x`. -/
theorem canStart_rhs {rhss : Nat → List (List Sym)} {p t : Nat} {pre rest : List Sym} {x : Sym}
    (hr : pre ++ x :: rest ∈ rhss p) (hpre : CanVanish rhss pre) (hx : CanStart rhss [x] t) :
    CanStart rhss [Sym.n p] t := by
  obtain ⟨b, hb⟩ := hx
  have h1 : Derives rhss (pre ++ x :: rest) (x :: rest) := by
    have := Derives.append_right (x :: rest) hpre
    simpa using this
  have h2 : Derives rhss ([x] ++ rest) ((Sym.t t :: b) ++ rest) := Derives.append_right rest hb
  exact ⟨b ++ rest, (Derives.rhs hr).trans (h1.trans (by simpa using h2))⟩

/-- From `p -> pre q mid y post` with `mid` vanishing, `q` is followed by what `y`
starts with. -/
theorem canFollow_mid {rhss : Nat → List (List Sym)} {root p q t : Nat}
    {pre mid post : List Sym} {y : Sym} (hp : Reachable rhss root p)
    (hr : pre ++ Sym.n q :: (mid ++ y :: post) ∈ rhss p) (hmid : CanVanish rhss mid)
    (hy : CanStart rhss [y] t) : CanFollow rhss root q t := by
  obtain ⟨a, b, hab⟩ := hp
  obtain ⟨c, hc⟩ := hy
  refine ⟨a ++ pre, c ++ post ++ b, hab.trans ?_⟩
  have h1 : Derives rhss (a ++ [Sym.n p] ++ b) (a ++ (pre ++ Sym.n q :: (mid ++ y :: post)) ++ b) :=
    (Derives.rhs hr).ctx a b
  have h2 : Derives rhss ((a ++ pre ++ [Sym.n q]) ++ mid ++ (y :: post ++ b))
      ((a ++ pre ++ [Sym.n q]) ++ [] ++ (y :: post ++ b)) := hmid.ctx _ _
  have h3 : Derives rhss ((a ++ pre ++ [Sym.n q]) ++ [y] ++ (post ++ b))
      ((a ++ pre ++ [Sym.n q]) ++ (Sym.t t :: c) ++ (post ++ b)) := hc.ctx _ _
  have h1' : Derives rhss (a ++ Sym.n p :: b)
      ((a ++ pre ++ [Sym.n q]) ++ mid ++ (y :: post ++ b)) := by
    simpa [List.append_assoc] using h1
  have h2' : Derives rhss ((a ++ pre ++ [Sym.n q]) ++ mid ++ (y :: post ++ b))
      ((a ++ pre ++ [Sym.n q]) ++ [y] ++ (post ++ b)) := by
    simpa [List.append_assoc] using h2
  have := h1'.trans (h2'.trans h3)
  simpa [List.append_assoc] using this

/-- From `p -> pre q rest` with `rest` vanishing, `q` is followed by what follows `p`. -/
theorem canFollow_end {rhss : Nat → List (List Sym)} {root p q t : Nat}
    {pre rest : List Sym} (hp : CanFollow rhss root p t)
    (hr : pre ++ Sym.n q :: rest ∈ rhss p) (hrest : CanVanish rhss rest) :
    CanFollow rhss root q t := by
  obtain ⟨a, b, hab⟩ := hp
  refine ⟨a ++ pre, b, hab.trans ?_⟩
  have h1 : Derives rhss (a ++ [Sym.n p] ++ Sym.t t :: b)
      (a ++ (pre ++ Sym.n q :: rest) ++ Sym.t t :: b) := (Derives.rhs hr).ctx a _
  have h2 : Derives rhss ((a ++ pre ++ [Sym.n q]) ++ rest ++ Sym.t t :: b)
      ((a ++ pre ++ [Sym.n q]) ++ [] ++ Sym.t t :: b) := hrest.ctx _ _
  have h1' : Derives rhss (a ++ Sym.n p :: Sym.t t :: b)
      ((a ++ pre ++ [Sym.n q]) ++ rest ++ Sym.t t :: b) := by
    simpa [List.append_assoc] using h1
  have := h1'.trans h2
  simpa [List.append_assoc] using this

theorem scanRest_good {g : Gram} {p q : Nat} {pre : List Sym} (hp : p ∈ g.nterms)
    (hreach : Reachable g.rhss g.root p) :
    ∀ (ys mid : List Sym) (T : Tab), Good g T → pre ++ Sym.n q :: (mid ++ ys) ∈ g.rhss p →
      Good g (T.scanRest q mid ys)
  | [], _, T, h, _ => h
  | y :: ys, mid, T, h, hr => by
    rw [Tab.scanRest]
    refine scanRest_good hp hreach ys _ _ ?_ (by simpa [List.append_assoc] using hr)
    split
    · rename_i hm
      refine h.addFollow fun t ht => ⟨?_, ?_⟩
      · exact canFollow_mid hreach hr (h.allNul hm) (h.getFirst ht)
      · exact h.getFirst_terms hp hr (by simp) ht
    · exact h

theorem followStep_good {g : Gram} {p : Nat} {pre : List Sym} {x : Sym} {rest : List Sym}
    {T : Tab} (hp : p ∈ g.nterms) (hreach : Reachable g.rhss g.root p) (h : Good g T)
    (hr : pre ++ x :: rest ∈ g.rhss p) : Good g (T.followStep p x rest) := by
  cases x with
  | eps => exact h
  | t i => exact h
  | n q =>
    simp only [Tab.followStep]
    refine scanRest_good hp hreach rest [] _ ?_ (by simpa using hr)
    split
    · rename_i hn
      exact h.addFollow fun t ht =>
        ⟨canFollow_end (h.follow p t ht).1 hr (h.allNul hn), (h.follow p t ht).2⟩
    · exact h

theorem scan_good {g : Gram} {p : Nat} (hp : p ∈ g.nterms)
    (hreach : Reachable g.rhss g.root p) :
    ∀ (xs pre : List Sym) (T : Tab), Good g T → pre ++ xs ∈ g.rhss p → Good g (T.scan p pre xs)
  | [], _, T, h, _ => h
  | x :: rest, pre, T, h, hr => by
    rw [Tab.scan]
    refine scan_good hp hreach rest _ _ ?_ (by simpa [List.append_assoc] using hr)
    refine followStep_good hp hreach ?_ hr
    split
    · rename_i hn
      exact h.addFirst fun t ht =>
        ⟨canStart_rhs hr (h.allNul hn) (h.getFirst ht), h.getFirst_terms hp hr (by simp) ht⟩
    · exact h

theorem rhsStep_good {g : Gram} {p : Nat} {r : List Sym} {T : Tab} (hp : p ∈ g.nterms)
    (hreach : Reachable g.rhss g.root p) (h : Good g T) (hr : r ∈ g.rhss p) :
    Good g (T.rhsStep p r) := by
  unfold Tab.rhsStep
  refine scan_good hp hreach r [] _ ?_ (by simpa using hr)
  split
  · rename_i hn
    simp at hn
    refine ⟨?_, h.first, h.follow, h.nd1, h.nd2⟩
    intro q hq
    by_cases hqp : q = p
    · subst hqp
      exact (Derives.rhs hr).trans (h.allNul hn.1)
    · simp only [setAt_ne _ _ hqp] at hq
      exact h.nul q hq
  · exact h

theorem prodStep_good {g : Gram} {p : Nat} (hp : p ∈ g.nterms)
    (hreach : Reachable g.rhss g.root p) :
    ∀ (rs : List (List Sym)) (T : Tab), Good g T → (∀ r ∈ rs, r ∈ g.rhss p) →
      Good g (T.prodStep p rs)
  | [], T, h, _ => h
  | r :: rs, T, h, hr => by
    rw [Tab.prodStep]
    exact prodStep_good hp hreach rs _ (rhsStep_good hp hreach h (hr r (by simp)))
      fun r' hr' => hr r' (List.mem_cons_of_mem _ hr')

theorem pass_good {g : Gram} (wf : g.WF) :
    ∀ (ps : List Nat) (T : Tab), Good g T → (∀ p ∈ ps, p ∈ g.nterms) → Good g (Tab.pass g T ps)
  | [], T, h, _ => h
  | p :: ps, T, h, hp => by
    rw [Tab.pass]
    have h0 := hp p (by simp)
    exact pass_good wf ps _ (prodStep_good h0 (wf.reach p h0) _ T h fun _ hr => hr)
      fun q hq => hp q (List.mem_cons_of_mem _ hq)

/-! ### A round that changes nothing leaves closed tables -/

/-- The closure conditions for one right-hand side. -/
structure ClosedRhs (T : Tab) (p : Nat) (r : List Sym) : Prop where
  nul : T.allNul r = true → T.nul p = true
  first : ∀ pre x rest, r = pre ++ x :: rest → T.allNul pre = true →
    ∀ t ∈ T.getFirst x, t ∈ T.first p
  end_ : ∀ pre q rest, r = pre ++ Sym.n q :: rest → T.allNul rest = true →
    ∀ t ∈ T.follow p, t ∈ T.follow q
  mid : ∀ pre q mid y post, r = pre ++ Sym.n q :: (mid ++ y :: post) → T.allNul mid = true →
    ∀ t ∈ T.getFirst y, t ∈ T.follow q

theorem addFirst_quiet {ns : List Nat} {T : Tab} {p : Nat} {src : List Nat} (hp : p ∈ ns)
    (h : (T.addFirst p src).changed = false) : ∀ t ∈ src, t ∈ T.first p := by
  have hk := (addFirst_tr T src hp).keep h
  unfold Tab.addFirst at hk h
  by_cases hl : (union (T.first p) src).length = (T.first p).length
  · exact union_eq_of_length _ _ hl
  · rw [if_neg hl] at h
    simp at h

theorem addFollow_quiet {ns : List Nat} {T : Tab} {p : Nat} {src : List Nat} (hp : p ∈ ns)
    (h : (T.addFollow p src).changed = false) : ∀ t ∈ src, t ∈ T.follow p := by
  have hk := (addFollow_tr T src hp).keep h
  unfold Tab.addFollow at hk h
  by_cases hl : (union (T.follow p) src).length = (T.follow p).length
  · exact union_eq_of_length _ _ hl
  · rw [if_neg hl] at h
    simp at h

theorem scanRest_quiet {ns : List Nat} {q : Nat} (hq : q ∈ ns) :
    ∀ (ys m : List Sym) (T : Tab), (T.scanRest q m ys).changed = false →
      ∀ s y post, ys = s ++ y :: post → T.allNul (m ++ s) = true →
        ∀ t ∈ T.getFirst y, t ∈ T.follow q
  | [], _, T, _ => by intro s y post h; simp at h
  | y :: ys, m, T, h => by
    intro s y' post hs hn t ht
    rw [Tab.scanRest] at h
    have tr2 := scanRest_tr hq ys (m ++ [y])
      (if T.allNul m = true then T.addFollow q (T.getFirst y) else T)
    have hk := tr2.keep h
    have hch : (if T.allNul m = true then T.addFollow q (T.getFirst y) else T).changed = false := by
      rw [hk] at h; exact h
    have heq : (if T.allNul m = true then T.addFollow q (T.getFirst y) else T) = T := by
      split
      · rename_i hm
        rw [if_pos hm] at hch
        exact (addFollow_tr T _ hq).keep hch
      · rfl
    cases s with
    | nil =>
      simp at hs
      obtain ⟨rfl, rfl⟩ := hs
      simp at hn
      rw [if_pos hn] at hch
      exact addFollow_quiet hq hch t ht
    | cons z s =>
      simp at hs
      obtain ⟨rfl, rfl⟩ := hs
      rw [heq] at h
      exact scanRest_quiet hq _ (m ++ [y]) T h s y' post rfl (by simpa [List.append_assoc] using hn) t ht

theorem followStep_quiet {ns : List Nat} {T : Tab} {p : Nat} {q : Nat} {rest : List Sym}
    (hq : q ∈ ns) (h : (T.followStep p (Sym.n q) rest).changed = false) :
    (T.allNul rest = true → ∀ t ∈ T.follow p, t ∈ T.follow q) ∧
    (∀ s y post, rest = s ++ y :: post → T.allNul s = true → ∀ t ∈ T.getFirst y, t ∈ T.follow q) := by
  simp only [Tab.followStep] at h
  have tr2 := scanRest_tr hq rest []
    (if T.allNul rest = true then T.addFollow q (T.follow p) else T)
  have hk := tr2.keep h
  have hch : (if T.allNul rest = true then T.addFollow q (T.follow p) else T).changed = false := by
    rw [hk] at h; exact h
  have heq : (if T.allNul rest = true then T.addFollow q (T.follow p) else T) = T := by
    split
    · rename_i hm
      rw [if_pos hm] at hch
      exact (addFollow_tr T _ hq).keep hch
    · rfl
  refine ⟨?_, ?_⟩
  · intro hn
    rw [if_pos hn] at hch
    exact addFollow_quiet hq hch
  · intro s y post hs hn
    rw [heq] at h
    exact scanRest_quiet hq rest [] T h s y post hs (by simpa using hn)

theorem scan_quiet {ns : List Nat} {p : Nat} (hp : p ∈ ns) :
    ∀ (xs pre : List Sym) (T : Tab), (∀ q, Sym.n q ∈ xs → q ∈ ns) →
      (T.scan p pre xs).changed = false →
      (∀ s x rest, xs = s ++ x :: rest → T.allNul (pre ++ s) = true →
        ∀ t ∈ T.getFirst x, t ∈ T.first p) ∧
      (∀ s q rest, xs = s ++ Sym.n q :: rest → T.allNul rest = true →
        ∀ t ∈ T.follow p, t ∈ T.follow q) ∧
      (∀ s q mid y post, xs = s ++ Sym.n q :: (mid ++ y :: post) → T.allNul mid = true →
        ∀ t ∈ T.getFirst y, t ∈ T.follow q)
  | [], _, T, _, _ => by
    refine ⟨?_, ?_, ?_⟩
    · intro s x rest h; simp at h
    · intro s q rest h; simp at h
    · intro s q mid y post h; simp at h
  | x :: rest, pre, T, hx, h => by
    rw [Tab.scan] at h
    have hx' : ∀ q, Sym.n q ∈ rest → q ∈ ns := fun q hq => hx q (List.mem_cons_of_mem _ hq)
    have hxq : ∀ q, x = Sym.n q → q ∈ ns := fun q hq => hx q (by rw [hq]; exact List.mem_cons_self)
    have k1 := (scan_tr hp rest (pre ++ [x]) _ hx').keep h
    have h1 := h
    rw [k1] at h1
    have k2 := (followStep_tr _ p x rest hxq).keep h1
    have h2 := h1
    rw [k2] at h2
    have k3 : (if T.allNul pre = true then T.addFirst p (T.getFirst x) else T) = T := by
      split
      · rename_i hm
        rw [if_pos hm] at h2
        exact (addFirst_tr T _ hp).keep h2
      · rfl
    rw [k2, k3] at h
    rw [k3] at h1
    obtain ⟨i1, i2, i3⟩ := scan_quiet hp rest (pre ++ [x]) T hx' h
    refine ⟨?_, ?_, ?_⟩
    · intro s x' rest' hs hn
      cases s with
      | nil =>
        simp at hs
        obtain ⟨rfl, rfl⟩ := hs
        simp at hn
        rw [if_pos hn] at h2
        exact addFirst_quiet hp h2
      | cons z s =>
        simp at hs
        obtain ⟨rfl, rfl⟩ := hs
        exact i1 s x' rest' rfl (by simpa [List.append_assoc] using hn)
    · intro s q rest' hs hn
      cases s with
      | nil =>
        simp at hs
        obtain ⟨rfl, rfl⟩ := hs
        exact (followStep_quiet (hxq q rfl) h1).1 hn
      | cons z s =>
        simp at hs
        obtain ⟨rfl, rfl⟩ := hs
        exact i2 s q rest' rfl hn
    · intro s q mid y post hs hn
      cases s with
      | nil =>
        simp at hs
        obtain ⟨rfl, rfl⟩ := hs
        exact (followStep_quiet (hxq q rfl) h1).2 mid y post rfl hn
      | cons z s =>
        simp at hs
        obtain ⟨rfl, rfl⟩ := hs
        exact i3 s q mid y post rfl hn

theorem rhsStep_quiet {ns : List Nat} {p : Nat} {r : List Sym} {T : Tab} (hp : p ∈ ns)
    (hr : ∀ q, Sym.n q ∈ r → q ∈ ns) (h : (T.rhsStep p r).changed = false) : ClosedRhs T p r := by
  have hT := (rhsStep_tr hp T r hr).keep h
  unfold Tab.rhsStep at h
  by_cases hc : (T.allNul r && !T.nul p) = true
  · rw [if_pos hc] at h
    have k := (scan_tr hp r [] { T with nul := setAt T.nul p true, changed := true } hr).keep h
    rw [k] at h
    simp at h
  · rw [if_neg hc] at h
    obtain ⟨i1, i2, i3⟩ := scan_quiet hp r [] T hr h
    refine ⟨?_, ?_, i2, i3⟩
    · intro hn
      rw [hn] at hc
      simpa using hc
    · intro pre x rest hs hn
      exact i1 pre x rest hs (by simpa using hn)

theorem prodStep_quiet {ns : List Nat} {p : Nat} (hp : p ∈ ns) :
    ∀ (rs : List (List Sym)) (T : Tab), (∀ r ∈ rs, ∀ q, Sym.n q ∈ r → q ∈ ns) →
      (T.prodStep p rs).changed = false → ∀ r ∈ rs, ClosedRhs T p r
  | [], T, _, _ => by simp
  | r :: rs, T, hr, h => by
    rw [Tab.prodStep] at h
    have hr' : ∀ r' ∈ rs, ∀ q, Sym.n q ∈ r' → q ∈ ns := fun r' h' => hr r' (List.mem_cons_of_mem _ h')
    have k := (prodStep_tr hp rs _ hr').keep h
    have h1 := h
    rw [k] at h1
    have k1 := (rhsStep_tr hp T r (hr r (by simp))).keep h1
    rw [k1] at h
    intro r' hm
    rcases List.mem_cons.mp hm with rfl | hm
    · exact rhsStep_quiet hp (hr r' (by simp)) h1
    · exact prodStep_quiet hp rs T hr' h r' hm

theorem pass_quiet {g : Gram}
    (hc : ∀ p ∈ g.nterms, ∀ r ∈ g.rhss p, ∀ q, Sym.n q ∈ r → q ∈ g.nterms) :
    ∀ (ps : List Nat) (T : Tab), (∀ p ∈ ps, p ∈ g.nterms) → (Tab.pass g T ps).changed = false →
      ∀ p ∈ ps, ∀ r ∈ g.rhss p, ClosedRhs T p r
  | [], T, _, _ => by simp
  | p :: ps, T, hp, h => by
    rw [Tab.pass] at h
    have hp0 := hp p (by simp)
    have hps : ∀ q ∈ ps, q ∈ g.nterms := fun q hq => hp q (List.mem_cons_of_mem _ hq)
    have k := (pass_tr hc ps _ hps).keep h
    have h1 := h
    rw [k] at h1
    have k1 := (prodStep_tr hp0 _ T (hc p hp0)).keep h1
    rw [k1] at h
    intro p' hm
    rcases List.mem_cons.mp hm with rfl | hm
    · exact prodStep_quiet hp0 _ T (hc p' hp0) h1
    · exact pass_quiet hc ps T hps h p' hm

/-- Closed tables. -/
def Closed (g : Gram) (T : Tab) : Prop := ∀ p ∈ g.nterms, ∀ r ∈ g.rhss p, ClosedRhs T p r

/-! ### Termination -/

theorem size_bound {g : Gram} {T : Tab} (h : Good g T) (ns : List Nat) :
    T.size ns ≤ ns.length * (1 + 2 * g.terms.length) := by
  induction ns with
  | nil => simp [Tab.size]
  | cons p ps ih =>
    have h1 := nodup_length_le _ _ (h.nd1 p) fun t ht => (h.first p t ht).2
    have h2 := nodup_length_le _ _ (h.nd2 p) fun t ht => (h.follow p t ht).2
    have h3 : T.entries p ≤ 1 + 2 * g.terms.length := by
      unfold Tab.entries
      split <;> omega
    simp only [Tab.size, List.map_cons, List.sum_cons, List.length_cons] at *
    rw [Nat.add_mul]
    omega

theorem loop_ok {g : Gram} (wf : g.WF) : ∀ (k : Nat) (T : Tab), Good g T →
    g.nterms.length * (1 + 2 * g.terms.length) < k + T.size g.nterms →
    ∃ T', loop g k T = some T' ∧ Good g T' ∧ Closed g T'
  | 0, T, h, hk => by
    have := size_bound h g.nterms
    omega
  | k + 1, T, h, hk => by
    have h0 : Good g { T with changed := false } := h.flag false
    have hs : ({ T with changed := false } : Tab).size g.nterms = T.size g.nterms := rfl
    have h1 := pass_good wf g.nterms _ h0 fun _ hp => hp
    have tr := pass_tr wf.closed g.nterms { T with changed := false } fun _ hp => hp
    by_cases hc : (Tab.pass g { T with changed := false } g.nterms).changed = true
    · have hlt : T.size g.nterms < (Tab.pass g { T with changed := false } g.nterms).size g.nterms := by
        rcases tr.ch hc with h2 | h2
        · simp at h2
        · omega
      obtain ⟨T', e, hg, hcl⟩ := loop_ok wf k _ h1 (by omega)
      refine ⟨T', ?_, hg, hcl⟩
      simp only [loop]
      rw [if_pos hc]
      exact e
    · refine ⟨Tab.pass g { T with changed := false } g.nterms, ?_, h1, ?_⟩
      · simp only [loop]
        rw [if_neg hc]
      · have hf : (Tab.pass g { T with changed := false } g.nterms).changed = false := by
          simpa using hc
        have hq := pass_quiet wf.closed g.nterms _ (fun _ hp => hp) hf
        rw [tr.keep hf]
        exact hq

/-! ### Closed tables contain everything derivable -/

/-- Terminals a sentential form can start with, by the tables. -/
def Tab.firstOf (T : Tab) : List Sym → List Nat
  | [] => []
  | x :: xs => T.getFirst x ++ (if T.isNul x then T.firstOf xs else [])

theorem allNul_append (T : Tab) : ∀ (a b : List Sym),
    T.allNul (a ++ b) = (T.allNul a && T.allNul b)
  | [], b => by simp [Tab.allNul]
  | x :: xs, b => by
    simp only [List.cons_append, Tab.allNul]
    rw [allNul_append T xs b]
    split <;> simp

theorem mem_firstOf_append {T : Tab} {t : Nat} : ∀ (a b : List Sym),
    t ∈ T.firstOf (a ++ b) ↔ t ∈ T.firstOf a ∨ (T.allNul a = true ∧ t ∈ T.firstOf b)
  | [], b => by simp [Tab.firstOf, Tab.allNul]
  | x :: xs, b => by
    simp only [List.cons_append, Tab.firstOf, Tab.allNul, List.mem_append]
    by_cases h : T.isNul x = true
    · simp only [if_pos h]
      rw [mem_firstOf_append xs b]
      constructor
      · rintro (h1 | h1 | h1)
        · exact .inl (.inl h1)
        · exact .inl (.inr h1)
        · exact .inr h1
      · rintro ((h1 | h1) | h1)
        · exact .inl h1
        · exact .inr (.inl h1)
        · exact .inr (.inr h1)
    · simp [h]

theorem mem_firstOf_split {T : Tab} {t : Nat} : ∀ (a : List Sym), t ∈ T.firstOf a →
    ∃ pre x rest, a = pre ++ x :: rest ∧ T.allNul pre = true ∧ t ∈ T.getFirst x
  | [], h => by simp [Tab.firstOf] at h
  | x :: xs, h => by
    simp only [Tab.firstOf, List.mem_append] at h
    rcases h with h | h
    · exact ⟨[], x, xs, rfl, rfl, h⟩
    · by_cases hx : T.isNul x = true
      · rw [if_pos hx] at h
        obtain ⟨pre, y, rest, rfl, h2, h3⟩ := mem_firstOf_split xs h
        exact ⟨x :: pre, y, rest, rfl, by simp [Tab.allNul, hx, h2], h3⟩
      · rw [if_neg hx] at h
        simp at h

/-- All nonterminals of a sentential form are in the table. -/
def Known (g : Gram) (a : List Sym) : Prop := ∀ q, Sym.n q ∈ a → q ∈ g.nterms

theorem Known.step {g : Gram} (wf : g.WF) {a b : List Sym} (h : Known g a)
    (s : Step g.rhss a b) : Known g b := by
  cases s with
  | eps x y =>
    intro q hq
    apply h
    simp at hq ⊢
    exact hq
  | nt x y p r hr =>
    intro q hq
    simp at hq
    rcases hq with hq | hq | hq
    · exact h q (by simp [hq])
    · exact wf.closed p (h p (by simp)) r hr q hq
    · exact h q (by simp [hq])

theorem Known.derives {g : Gram} (wf : g.WF) {a b : List Sym} (h : Known g a)
    (s : Derives g.rhss a b) : Known g b := by
  induction s with
  | refl _ => exact h
  | head s _ ih => exact ih (h.step wf s)

theorem allNul_step {g : Gram} {T : Tab} (hc : Closed g T) {a b : List Sym} (h : Known g a)
    (s : Step g.rhss a b) (hb : T.allNul b = true) : T.allNul a = true := by
  cases s with
  | eps x y =>
    rw [allNul_append] at hb ⊢
    simpa [Tab.allNul, Tab.isNul] using hb
  | nt x y p r hr =>
    rw [allNul_append, allNul_append] at hb
    rw [allNul_append]
    simp at hb
    have := (hc p (h p (by simp)) r hr).nul hb.2.1
    simp [Tab.allNul, Tab.isNul, this, hb.1, hb.2.2]

theorem allNul_of_vanish {g : Gram} (wf : g.WF) {T : Tab} (hc : Closed g T) {a b : List Sym}
    (s : Derives g.rhss a b) : Known g a → T.allNul b = true → T.allNul a = true := by
  induction s with
  | refl _ => exact fun _ h => h
  | head s _ ih => exact fun h hb => allNul_step hc h s (ih (h.step wf s) hb)

theorem firstOf_rhs {T : Tab} {p : Nat} {r : List Sym} (hc : ClosedRhs T p r) {t : Nat}
    (h : t ∈ T.firstOf r) : t ∈ T.first p := by
  obtain ⟨pre, x, rest, rfl, h2, h3⟩ := mem_firstOf_split r h
  exact hc.first pre x rest rfl h2 t h3

theorem firstOf_step {g : Gram} {T : Tab} (hc : Closed g T) {a b : List Sym} (h : Known g a)
    (s : Step g.rhss a b) {t : Nat} (hb : t ∈ T.firstOf b) : t ∈ T.firstOf a := by
  cases s with
  | eps x y =>
    rw [mem_firstOf_append] at hb ⊢
    simpa [Tab.firstOf, Tab.getFirst, Tab.isNul] using hb
  | nt x y p r hr =>
    have hcl := hc p (h p (by simp)) r hr
    rw [mem_firstOf_append] at hb ⊢
    rcases hb with hb | ⟨hx, hb⟩
    · exact .inl hb
    · refine .inr ⟨hx, ?_⟩
      rw [mem_firstOf_append] at hb
      simp only [Tab.firstOf, Tab.getFirst, List.mem_append]
      rcases hb with hb | ⟨hn, hb⟩
      · exact .inl (firstOf_rhs hcl hb)
      · refine .inr ?_
        have hnp : T.isNul (Sym.n p) = true := hcl.nul hn
        show t ∈ if T.isNul (Sym.n p) = true then T.firstOf y else []
        rw [if_pos hnp]
        exact hb

theorem firstOf_of_derives {g : Gram} (wf : g.WF) {T : Tab} (hc : Closed g T) {a b : List Sym}
    (s : Derives g.rhss a b) {t : Nat} : Known g a → t ∈ T.firstOf b → t ∈ T.firstOf a := by
  induction s with
  | refl _ => exact fun _ h => h
  | head s _ ih => exact fun h hb => firstOf_step hc h s (ih (h.step wf s) hb)

/-- The FOLLOW table covers everything that follows in a sentential form. -/
def FollowOk (T : Tab) (a : List Sym) : Prop :=
  ∀ x q y, a = x ++ Sym.n q :: y → ∀ t ∈ T.firstOf y, t ∈ T.follow q

/-- Splitting two decompositions of one list. -/
theorem append_cons_cases {α : Type} : ∀ (a c b d : List α) (x : α), a ++ b = c ++ x :: d →
    (∃ e, a = c ++ x :: e ∧ d = e ++ b) ∨ (∃ e, c = a ++ e ∧ b = e ++ x :: d)
  | [], c, b, d, x, h => .inr ⟨c, rfl, h⟩
  | y :: a, [], b, d, x, h => by
    simp at h
    obtain ⟨rfl, rfl⟩ := h
    exact .inl ⟨a, rfl, rfl⟩
  | y :: a, z :: c, b, d, x, h => by
    simp at h
    obtain ⟨rfl, h⟩ := h
    rcases append_cons_cases a c b d x h with ⟨e, rfl, rfl⟩ | ⟨e, rfl, rfl⟩
    · exact .inl ⟨e, rfl, rfl⟩
    · exact .inr ⟨e, rfl, rfl⟩

theorem FollowOk.step {g : Gram} {T : Tab} (hc : Closed g T) {a b : List Sym}
    (hk : Known g a) (s : Step g.rhss a b) (h : FollowOk T a) : FollowOk T b := by
  cases s with
  | eps x y =>
    intro u q v huv t ht
    rcases append_cons_cases x u y v (Sym.n q) huv with ⟨e, rfl, rfl⟩ | ⟨e, rfl, rfl⟩
    · refine h u q (e ++ Sym.eps :: y) (by simp) t ?_
      rw [mem_firstOf_append] at ht ⊢
      simpa [Tab.firstOf, Tab.getFirst, Tab.isNul] using ht
    · exact h (x ++ Sym.eps :: e) q v (by simp) t ht
  | nt x y p r hr =>
    have hcl := hc p (hk p (by simp)) r hr
    intro u q v huv t ht
    rcases append_cons_cases x u (r ++ y) v (Sym.n q) huv with ⟨e, rfl, rfl⟩ | ⟨e, rfl, h2⟩
    · refine h u q (e ++ Sym.n p :: y) (by simp) t ?_
      exact firstOf_step hc (by
        intro q' hq'
        apply hk q'
        simp only [List.mem_append, List.mem_cons] at hq' ⊢
        rcases hq' with hq' | hq'
        · exact .inl (.inr (.inr hq'))
        · exact .inr hq') (Step.nt e y p r hr) ht
    · rcases append_cons_cases r e y v (Sym.n q) h2 with ⟨f, rfl, rfl⟩ | ⟨f, rfl, rfl⟩
      · rw [mem_firstOf_append] at ht
        rcases ht with ht | ⟨hn, ht⟩
        · obtain ⟨pre, z, rest, rfl, hn, hz⟩ := mem_firstOf_split f ht
          exact hcl.mid e q pre z rest (by simp) hn t hz
        · exact hcl.end_ e q f rfl hn t (h x p y rfl t ht)
      · exact h (x ++ Sym.n p :: f) q v (by simp) t ht

theorem FollowOk.derives {g : Gram} (wf : g.WF) {T : Tab} (hc : Closed g T) {a b : List Sym}
    (s : Derives g.rhss a b) : Known g a → FollowOk T a → FollowOk T b := by
  induction s with
  | refl _ => exact fun _ h => h
  | head s _ ih => exact fun hk h => ih (hk.step wf s) (h.step hc hk s)

theorem followOk_root {g : Gram} {T : Tab} : FollowOk T [Sym.n g.root] := by
  intro x q y h t ht
  cases x with
  | nil =>
    simp at h
    obtain ⟨_, rfl⟩ := h
    simp [Tab.firstOf] at ht
  | cons z x => simp at h

/-! ### The main statements -/

/-- **C47** `Grammar::finalize` always terminates with tables: the loop is left
within as many rounds as there are possible entries. -/
theorem C47_tables_terminate (g : Gram) (wf : g.WF) : ∃ T, computeTables g = some T := by
  obtain ⟨T, h, _, _⟩ := loop_ok wf g.rounds Tab.init (good_init g) (by
    unfold Gram.rounds
    omega)
  exact ⟨T, h⟩

theorem tables_good {g : Gram} (wf : g.WF) {T : Tab} (h : computeTables g = some T) :
    Good g T ∧ Closed g T := by
  obtain ⟨T', h', hg, hc⟩ := loop_ok wf g.rounds Tab.init (good_init g) (by
    unfold Gram.rounds
    omega)
  rw [computeTables, h'] at h
  cases h
  exact ⟨hg, hc⟩

theorem known_single {g : Gram} {p : Nat} (hp : p ∈ g.nterms) : Known g [Sym.n p] := by
  intro q hq
  simp at hq
  exact hq ▸ hp

/-- **C47** A nonterminal is recorded as nullable exactly if it derives the empty
string. -/
theorem C47_nullable_exact (g : Gram) (wf : g.WF) (T : Tab) (h : computeTables g = some T)
    (p : Nat) (hp : p ∈ g.nterms) : T.nul p = true ↔ CanVanish g.rhss [Sym.n p] := by
  obtain ⟨hg, hc⟩ := tables_good wf h
  refine ⟨hg.nul p, fun hv => ?_⟩
  have := allNul_of_vanish wf hc hv (known_single hp) rfl
  simp only [Tab.allNul] at this
  split at this
  · assumption
  · cases this

/-- **C47** FIRST holds exactly the terminals a derivation can start with. -/
theorem C47_first_exact (g : Gram) (wf : g.WF) (T : Tab) (h : computeTables g = some T)
    (p : Nat) (hp : p ∈ g.nterms) (t : Nat) :
    t ∈ T.first p ↔ CanStart g.rhss [Sym.n p] t := by
  obtain ⟨hg, hc⟩ := tables_good wf h
  refine ⟨fun ht => (hg.first p t ht).1, fun ⟨b, hb⟩ => ?_⟩
  have := firstOf_of_derives (t := t) wf hc hb (known_single hp) (by
    simp [Tab.firstOf, Tab.getFirst])
  simpa [Tab.firstOf, Tab.getFirst] using this

/-- **C47** FOLLOW holds exactly the terminals that can come right after the
nonterminal in a sentential form of the root. -/
theorem C47_follow_exact (g : Gram) (wf : g.WF) (T : Tab) (h : computeTables g = some T)
    (p : Nat) (t : Nat) : t ∈ T.follow p ↔ CanFollow g.rhss g.root p t := by
  obtain ⟨hg, hc⟩ := tables_good wf h
  refine ⟨fun ht => (hg.follow p t ht).1, fun ⟨a, b, hab⟩ => ?_⟩
  exact FollowOk.derives wf hc hab (known_single wf.root) followOk_root a p (Sym.t t :: b) rfl t
    (by simp [Tab.firstOf, Tab.getFirst])

/-- A symbol all of whose nonterminals are in the table. -/
def KnownSym (g : Gram) (s : Sym) : Prop := ∀ q, s = Sym.n q → q ∈ g.nterms

theorem isNul_exact {g : Gram} (wf : g.WF) {T : Tab} (h : computeTables g = some T) {s : Sym}
    (hs : KnownSym g s) : T.isNul s = true ↔ CanVanish g.rhss [s] := by
  obtain ⟨hg, hc⟩ := tables_good wf h
  refine ⟨hg.isNul, fun hv => ?_⟩
  have := allNul_of_vanish wf hc hv (by intro q hq; simp at hq; exact hs q hq.symm) rfl
  simp only [Tab.allNul] at this
  split at this
  · assumption
  · cases this

theorem getFirst_exact {g : Gram} (wf : g.WF) {T : Tab} (h : computeTables g = some T) {s : Sym}
    (hs : KnownSym g s) {t : Nat} : t ∈ T.getFirst s ↔ CanStart g.rhss [s] t := by
  obtain ⟨hg, hc⟩ := tables_good wf h
  refine ⟨hg.getFirst, fun ⟨b, hb⟩ => ?_⟩
  have := firstOf_of_derives (t := t) wf hc hb (by intro q hq; simp at hq; exact hs q hq.symm) (by
    simp [Tab.firstOf, Tab.getFirst])
  simpa [Tab.firstOf] using this

/-- **C47** The look-ahead set of an alternative `s` of the look-ahead production
`p` holds exactly the terminals the alternative can start with, plus, if the
alternative may be empty, those that can follow the production. -/
theorem C47_lookAheads_exact (g : Gram) (wf : g.WF) (T : Tab) (h : computeTables g = some T)
    (p : Nat) (hp : p ∈ g.nterms) (s : Sym) (hs : [s] ∈ g.rhss p) (t : Nat) :
    t ∈ T.lookAheads s p ↔
      CanStart g.rhss [s] t ∨ (CanVanish g.rhss [s] ∧ CanFollow g.rhss g.root p t) := by
  have hk : KnownSym g s := fun q hq => wf.closed p hp [s] hs q (by simp [hq])
  unfold Tab.lookAheads
  by_cases hn : T.isNul s = true
  · rw [if_pos hn, mem_union, getFirst_exact wf h hk, C47_follow_exact g wf T h]
    have := (isNul_exact wf h hk).mp hn
    simp [this]
  · rw [if_neg hn, getFirst_exact wf h hk]
    have : ¬ CanVanish g.rhss [s] := fun hv => hn ((isNul_exact wf h hk).mpr hv)
    simp [this]

end Verif.Grammar
