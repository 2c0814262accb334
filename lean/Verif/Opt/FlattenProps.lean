import Verif.Opt.Flatten
/-!
# Flattening blocks keeps what names mean
-/

namespace Verif.Opt.Flatten

/-! ## New names -/

theorem le_sum_of_mem {l : List Nat} {n : Nat} (h : n ∈ l) : n ≤ l.sum := by
  induction l with
  | nil => cases h
  | cons a l ih =>
    simp only [List.sum_cons]
    cases h with
    | head => omega
    | tail _ h => have := ih h; omega

theorem lookup_mem {used : List (Name × Nat)} {id : Name} {e : Nat} (h : used.lookup id = some e) : (id, e) ∈ used := by
  induction used with
  | nil => simp at h
  | cons p l ih =>
    obtain ⟨a, b⟩ := p
    rw [List.lookup_cons] at h
    split at h
    · rename_i hc
      have := beq_iff_eq.mp hc
      subst this
      injection h with h
      subst h
      exact List.mem_cons_self
    · exact List.mem_cons_of_mem _ (ih h)

theorem clash_false {used : List (Name × Nat)} {sc : List Name} {d : Nat} {id : Name} :
    clash used sc d id = false ↔ (∀ e, used.lookup id = some e → e = d) ∧ id ∉ sc := by
  unfold clash
  cases h : used.lookup id with
  | none => simp
  | some e => simp

theorem pick_ok (used : List (Name × Nat)) (sc : List Name) (d : Nat) : ∀ (n : Nat) (id : Name),
    (∀ p ∈ used, p.1.length < id.length + n) → (∀ x ∈ sc, x.length < id.length + n) →
    clash used sc d (pick used sc d n id) = false ∧ ∃ k, pick used sc d n id = id ++ List.replicate k 95 := by
  intro n
  induction n with
  | zero =>
    intro id hu hs
    refine ⟨clash_false.mpr ⟨?_, ?_⟩, 0, by simp [pick]⟩
    · intro e he
      have := hu _ (lookup_mem he)
      simp only [pick] at this
      omega
    · intro hm
      have := hs _ hm
      simp only [pick] at this
      omega
  | succ n ih =>
    intro id hu hs
    rw [pick]
    split
    · have hl : (id ++ [95]).length = id.length + 1 := by simp
      obtain ⟨h1, k, h2⟩ := ih (id ++ [95]) (fun p hp => by have := hu p hp; omega) (fun x hx => by have := hs x hx; omega)
      refine ⟨h1, k + 1, ?_⟩
      rw [h2, List.append_assoc]
      rfl
    · rename_i hc
      exact ⟨by simpa using hc, 0, by simp⟩

theorem pick_room (used : List (Name × Nat)) (sc : List Name) (d : Nat) (id : Name) :
    clash used sc d (pick used sc d (room used sc) id) = false ∧
      ∃ k, pick used sc d (room used sc) id = id ++ List.replicate k 95 := by
  apply pick_ok
  · intro p hp
    have : p.1.length ≤ (used.map (·.1.length)).sum := le_sum_of_mem (List.mem_map.mpr ⟨p, hp, rfl⟩)
    unfold room
    omega
  · intro x hx
    have : x.length ≤ (sc.map (·.length)).sum := le_sum_of_mem (List.mem_map.mpr ⟨x, hx, rfl⟩)
    unfold room
    omega

/-! ## Variables that have been renamed -/

/-- The name of `d` is recorded for it. -/
def K (σ : State) (d : Nat) : Prop := σ.used.lookup (σ.nm d) = some d

theorem K_inj {σ : State} {d e : Nat} (hd : K σ d) (he : K σ e) (h : σ.nm d = σ.nm e) : d = e := by
  unfold K at hd he
  rw [h] at hd
  rw [hd] at he
  injection he

/-- What is known of the names at any time. -/
def Inv (nm0 : Nat → Name) (σ : State) : Prop :=
  ∀ d, (K σ d ∨ σ.nm d = nm0 d) ∧ ∃ k, σ.nm d = nm0 d ++ List.replicate k 95

theorem rename_nm_ne {sc : List Name} {σ : State} {d e : Nat} (h : e ≠ d) : (rename sc σ d).nm e = σ.nm e := by
  simp only [rename]
  rw [if_neg h]

theorem rename_nm {sc : List Name} {σ : State} {d : Nat} :
    (rename sc σ d).nm d = pick σ.used sc d (room σ.used sc) (σ.nm d) := by simp [rename]

theorem rename_K_self (sc : List Name) (σ : State) (d : Nat) : K (rename sc σ d) d := by
  unfold K
  rw [rename_nm]
  have hp := (clash_false.mp (pick_room σ.used sc d (σ.nm d)).1).1
  simp only [rename]
  cases h : σ.used.lookup (pick σ.used sc d (room σ.used sc) (σ.nm d)) with
  | none => simp
  | some e =>
    simp only
    rw [h, hp e h]

theorem rename_not_mem (sc : List Name) (σ : State) (d : Nat) : (rename sc σ d).nm d ∉ sc := by
  rw [rename_nm]
  exact (clash_false.mp (pick_room σ.used sc d (σ.nm d)).1).2

theorem rename_K {sc : List Name} {σ : State} {d e : Nat} (h : K σ e) : K (rename sc σ d) e := by
  rcases Nat.decEq e d with hne | heq
  · unfold K at h ⊢
    rw [rename_nm_ne hne]
    simp only [rename]
    cases hl : σ.used.lookup (pick σ.used sc d (room σ.used sc) (σ.nm d)) with
    | some _ => exact h
    | none =>
      simp only
      rw [List.lookup_cons]
      split
      · rename_i hc
        have := beq_iff_eq.mp hc
        rw [this, hl] at h
        cases h
      · exact h
  · subst heq
    exact rename_K_self sc σ e

theorem rename_Inv {nm0 : Nat → Name} {sc : List Name} {σ : State} {d : Nat} (h : Inv nm0 σ) : Inv nm0 (rename sc σ d) := by
  intro e
  rcases Nat.decEq e d with hne | heq
  · rw [rename_nm_ne hne]
    refine ⟨?_, (h e).2⟩
    rcases (h e).1 with hk | hn
    · exact Or.inl (rename_K hk)
    · exact Or.inr hn
  · subst heq
    refine ⟨Or.inl (rename_K_self sc σ e), ?_⟩
    obtain ⟨k, hk⟩ := (h e).2
    obtain ⟨j, hj⟩ := (pick_room σ.used sc e (σ.nm e)).2
    refine ⟨k + j, ?_⟩
    rw [rename_nm, hj, hk, List.append_assoc, List.replicate_append_replicate]

theorem renameAll_Inv {nm0 : Nat → Name} {sc : List Name} : ∀ (ds : List Nat) {σ : State}, Inv nm0 σ →
    Inv nm0 (renameAll sc σ ds) := by
  intro ds
  induction ds with
  | nil => intro σ h; exact h
  | cons d ds ih => intro σ h; exact ih (rename_Inv h)

theorem renameAll_K {sc : List Name} : ∀ (ds : List Nat) {σ : State} {e : Nat}, K σ e → K (renameAll sc σ ds) e := by
  intro ds
  induction ds with
  | nil => intro σ e h; exact h
  | cons d ds ih => intro σ e h; exact ih (rename_K h)

theorem renameAll_out {sc : List Name} : ∀ (ds : List Nat) {σ : State} {e : Nat}, e ∉ ds → (renameAll sc σ ds).nm e = σ.nm e := by
  intro ds
  induction ds with
  | nil => intro σ e _; rfl
  | cons d ds ih =>
    intro σ e h
    have h1 : e ≠ d := fun he => h (he ▸ List.mem_cons_self)
    have h2 : e ∉ ds := fun he => h (List.mem_cons_of_mem _ he)
    exact (ih (σ := rename sc σ d) h2).trans (rename_nm_ne h1)

theorem renameAll_in {sc : List Name} : ∀ (ds : List Nat) {σ : State} {e : Nat}, (e ∈ ds ∨ (K σ e ∧ σ.nm e ∉ sc)) →
    K (renameAll sc σ ds) e ∧ (renameAll sc σ ds).nm e ∉ sc := by
  intro ds
  induction ds with
  | nil =>
    intro σ e h
    rcases h with h | h
    · cases h
    · exact h
  | cons d ds ih =>
    intro σ e h
    apply ih (σ := rename sc σ d)
    rcases Nat.decEq e d with hne | heq
    · rcases h with h | h
      · cases h with
        | head => exact absurd rfl hne
        | tail _ h => exact Or.inl h
      · exact Or.inr ⟨rename_K h.1, by rw [rename_nm_ne hne]; exact h.2⟩
    · subst heq
      exact Or.inr ⟨rename_K_self sc σ e, rename_not_mem sc σ e⟩

/-! ## Statements -/

theorem decls_append (a b : Seq) : (a.append b).decls = a.decls ++ b.decls := by
  induction a with
  | nil => rfl
  | decl d r ih => simp [Seq.append, Seq.decls, ih]
  | use d r ih => simp [Seq.append, Seq.decls, ih]
  | block sc b r _ ih => simp [Seq.append, Seq.decls, ih]
  | body sc b r _ ih => simp [Seq.append, Seq.decls, ih]

theorem blocks_append (a b : Seq) : (a.append b).blocks = a.blocks + b.blocks := by
  induction a with
  | nil => simp [Seq.append, Seq.blocks]
  | decl d r ih => simp [Seq.append, Seq.blocks, ih]
  | use d r ih => simp [Seq.append, Seq.blocks, ih]
  | block sc b r _ ih => simp [Seq.append, Seq.blocks, ih]; omega
  | body sc b r _ ih => simp [Seq.append, Seq.blocks, ih]; omega

/-- The declarations of the block itself. -/
def Seq.direct : Seq → List Nat
  | .nil => []
  | .decl d r => d :: r.direct
  | .use _ r => r.direct
  | .block _ _ r => r.direct
  | .body _ _ r => r.direct

theorem direct_decls {s : Seq} {d : Nat} (h : d ∈ s.direct) : d ∈ s.decls := by
  induction s with
  | nil => cases h
  | decl e r ih =>
    simp only [Seq.direct, Seq.decls, List.mem_cons] at h ⊢
    exact h.imp id ih
  | use e r ih => exact ih h
  | block sc b r _ ih => exact List.mem_append_right _ (ih h)
  | body sc b r _ ih => exact List.mem_append_right _ (ih h)

theorem finds_iff {nm : Nat → Name} {E1 E : List Nat} {d : Nat} :
    Finds nm (E1 ++ E) d ↔ (Finds nm E1 d) ∨ ((∀ e ∈ E1, nm e ≠ nm d) ∧ Finds nm E d) := by
  unfold Finds
  rw [List.find?_append]
  cases h : E1.find? (fun e => nm e == nm d) with
  | some x =>
    simp only [Option.some_or]
    constructor
    · intro hx; exact Or.inl hx
    · intro hx
      rcases hx with hx | hx
      · exact hx
      · have hm := List.mem_of_find?_eq_some h
        have hp := List.find?_some h
        simp only [beq_iff_eq] at hp
        exact absurd hp (hx.1 x hm)
  | none =>
    simp only [Option.none_or]
    have := List.find?_eq_none.mp h
    constructor
    · intro hx
      refine Or.inr ⟨fun e he => ?_, hx⟩
      have := this e he
      simpa using this
    · intro hx
      rcases hx with hx | hx
      · cases hx
      · exact hx.2

theorem finds_mem {nm : Nat → Name} {E : List Nat} {d : Nat} (h : Finds nm E d) : d ∈ E := List.mem_of_find?_eq_some h

theorem finds_congr {nm nm' : Nat → Name} {E : List Nat} {d : Nat} (hE : ∀ e ∈ E, nm' e = nm e) (h : Finds nm E d) :
    Finds nm' E d := by
  have hd := hE d (finds_mem h)
  unfold Finds at h ⊢
  rw [← h]
  clear h
  induction E with
  | nil => rfl
  | cons a E ih =>
    rw [List.find?_cons, List.find?_cons, hE a List.mem_cons_self, ih (fun e he => hE e (List.mem_cons_of_mem _ he)), hd]

theorem finds_inj {nm : Nat → Name} {E : List Nat} {d : Nat} (hd : d ∈ E) (h : ∀ e ∈ E, nm e = nm d → e = d) : Finds nm E d := by
  unfold Finds
  induction E with
  | nil => cases hd
  | cons a E ih =>
    rw [List.find?_cons]
    split
    · rename_i hc
      rw [h a List.mem_cons_self (beq_iff_eq.mp hc)]
    · rename_i hc
      apply ih
      · cases hd with
        | head => simp at hc
        | tail _ hd => exact hd
      · exact fun e he => h e (List.mem_cons_of_mem _ he)

/-- References depend only on the names of what is visible and of what is declared. -/
theorem bound_congr {nm nm' : Nat → Name} : ∀ (s : Seq) (E : List Nat), (∀ e ∈ E, nm' e = nm e) → (∀ d ∈ s.decls, nm' d = nm d) →
    Bound nm E s → Bound nm' E s := by
  intro s
  induction s with
  | nil => intros; trivial
  | decl d r ih =>
    intro E hE hs h
    apply ih (d :: E) _ (fun e he => hs e (List.mem_cons_of_mem _ he)) h
    intro e he
    cases he with
    | head => exact hs d List.mem_cons_self
    | tail _ he => exact hE e he
  | use d r ih => intro E hE hs h; exact ⟨finds_congr hE h.1, ih E hE hs h.2⟩
  | block sc b r ihb ihr =>
    intro E hE hs h
    exact ⟨ihb E hE (fun d hd => hs d (List.mem_append_left _ hd)) h.1, ihr E hE (fun d hd => hs d (List.mem_append_right _ hd)) h.2⟩
  | body sc b r ihb ihr =>
    intro E hE hs h
    exact ⟨ihb E hE (fun d hd => hs d (List.mem_append_left _ hd)) h.1, ihr E hE (fun d hd => hs d (List.mem_append_right _ hd)) h.2⟩

theorem distinct_congr {nm nm' : Nat → Name} : ∀ (s : Seq) (own : List Nat), (∀ e ∈ own, nm' e = nm e) →
    (∀ d ∈ s.decls, nm' d = nm d) → Distinct nm own s → Distinct nm' own s := by
  intro s
  induction s with
  | nil => intros; trivial
  | decl d r ih =>
    intro own hE hs h
    have hd := hs d List.mem_cons_self
    refine ⟨fun e he => by rw [hE e he, hd]; exact h.1 e he, ?_⟩
    apply ih (d :: own) _ (fun e he => hs e (List.mem_cons_of_mem _ he)) h.2
    intro e he
    cases he with
    | head => exact hd
    | tail _ he => exact hE e he
  | use d r ih => intro own hE hs h; exact ih own hE hs h
  | block sc b r ihb ihr =>
    intro own hE hs h
    exact ⟨ihb [] (fun e he => by cases he) (fun d hd => hs d (List.mem_append_left _ hd)) h.1,
      ihr own hE (fun d hd => hs d (List.mem_append_right _ hd)) h.2⟩
  | body sc b r ihb ihr =>
    intro own hE hs h
    exact ⟨ihb [] (fun e he => by cases he) (fun d hd => hs d (List.mem_append_left _ hd)) h.1,
      ihr own hE (fun d hd => hs d (List.mem_append_right _ hd)) h.2⟩

/-- New names for all declarations inside, which differ from each other and from those of what is visible from outside. -/
theorem bound_renamed {nm nm' : Nat → Name} {E D : List Nat} (hE : ∀ e ∈ E, nm' e = nm e)
    (hinj : ∀ d ∈ D, ∀ e ∈ D, nm' d = nm' e → d = e) (hout : ∀ d ∈ D, ∀ e ∈ E, nm' d ≠ nm' e) :
    ∀ (s : Seq) (E1 : List Nat), (∀ e ∈ E1, e ∈ D) → (∀ d ∈ s.decls, d ∈ D) → Bound nm (E1 ++ E) s → Bound nm' (E1 ++ E) s := by
  intro s
  induction s with
  | nil => intros; trivial
  | decl d r ih =>
    intro E1 h1 hs h
    apply ih (d :: E1) _ (fun e he => hs e (List.mem_cons_of_mem _ he)) h
    intro e he
    cases he with
    | head => exact hs d List.mem_cons_self
    | tail _ he => exact h1 e he
  | use d r ih =>
    intro E1 h1 hs h
    refine ⟨?_, ih E1 h1 hs h.2⟩
    rcases finds_iff.mp h.1 with hf | ⟨_, hf⟩
    · have hm := finds_mem hf
      exact finds_iff.mpr (Or.inl (finds_inj hm (fun e he hn => hinj e (h1 e he) d (h1 d hm) hn)))
    · have hm := finds_mem hf
      exact finds_iff.mpr (Or.inr ⟨fun e he => hout e (h1 e he) d hm, finds_congr hE hf⟩)
  | block sc b r ihb ihr =>
    intro E1 h1 hs h
    exact ⟨ihb E1 h1 (fun d hd => hs d (List.mem_append_left _ hd)) h.1, ihr E1 h1 (fun d hd => hs d (List.mem_append_right _ hd)) h.2⟩
  | body sc b r ihb ihr =>
    intro E1 h1 hs h
    exact ⟨ihb E1 h1 (fun d hd => hs d (List.mem_append_left _ hd)) h.1, ihr E1 h1 (fun d hd => hs d (List.mem_append_right _ hd)) h.2⟩

/-- More declarations become visible that have other names than what was visible from outside. -/
theorem bound_leak {nm : Nat → Name} {E X : List Nat} (hX : ∀ x ∈ X, ∀ e ∈ E, nm x ≠ nm e) :
    ∀ (s : Seq) (E1 : List Nat), Bound nm (E1 ++ E) s → Bound nm (E1 ++ (X ++ E)) s := by
  intro s
  induction s with
  | nil => intros; trivial
  | decl d r ih => intro E1 h; exact ih (d :: E1) h
  | use d r ih =>
    intro E1 h
    refine ⟨?_, ih E1 h.2⟩
    rcases finds_iff.mp h.1 with hf | ⟨h1, hf⟩
    · exact finds_iff.mpr (Or.inl hf)
    · exact finds_iff.mpr (Or.inr ⟨h1, finds_iff.mpr (Or.inr ⟨fun x hx => hX x hx d (finds_mem hf), hf⟩)⟩)
  | block sc b r ihb ihr => intro E1 h; exact ⟨ihb E1 h.1, ihr E1 h.2⟩
  | body sc b r ihb ihr => intro E1 h; exact ⟨ihb E1 h.1, ihr E1 h.2⟩

theorem bound_append {nm : Nat → Name} : ∀ (a b : Seq) (E : List Nat), Bound nm E a → Bound nm (a.direct.reverse ++ E) b →
    Bound nm E (a.append b) := by
  intro a
  induction a with
  | nil => intro b E _ hb; exact hb
  | decl d r ih =>
    intro b E ha hb
    apply ih b (d :: E) ha
    simpa [Seq.direct] using hb
  | use d r ih => intro b E ha hb; exact ⟨ha.1, ih b E ha.2 hb⟩
  | block sc c r _ ih => intro b E ha hb; exact ⟨ha.1, ih b E ha.2 hb⟩
  | body sc c r _ ih => intro b E ha hb; exact ⟨ha.1, ih b E ha.2 hb⟩

theorem distinct_append {nm : Nat → Name} : ∀ (a b : Seq) (own : List Nat), Distinct nm own a →
    Distinct nm (a.direct.reverse ++ own) b → Distinct nm own (a.append b) := by
  intro a
  induction a with
  | nil => intro b own _ hb; exact hb
  | decl d r ih =>
    intro b own ha hb
    refine ⟨ha.1, ih b (d :: own) ha.2 ?_⟩
    simpa [Seq.direct] using hb
  | use d r ih => intro b own ha hb; exact ih b own ha hb
  | block sc c r _ ih => intro b own ha hb; exact ⟨ha.1, ih b own ha.2 hb⟩
  | body sc c r _ ih => intro b own ha hb; exact ⟨ha.1, ih b own ha.2 hb⟩

/-- Declarations with different names. -/
theorem distinct_inj {nm : Nat → Name} : ∀ (s : Seq) (own : List Nat), s.decls.Nodup →
    (∀ d ∈ s.decls, ∀ e ∈ s.decls, nm d = nm e → d = e) → (∀ d ∈ s.decls, ∀ e ∈ own, nm e ≠ nm d) → Distinct nm own s := by
  intro s
  induction s with
  | nil => intros; trivial
  | decl d r ih =>
    intro own hn hinj ho
    have hn' : d ∉ r.decls ∧ r.decls.Nodup := List.nodup_cons.mp hn
    refine ⟨ho d List.mem_cons_self, ih (d :: own) hn'.2 (fun x hx y hy => hinj x (List.mem_cons_of_mem _ hx) y (List.mem_cons_of_mem _ hy)) ?_⟩
    intro x hx e he
    cases he with
    | head =>
      intro heq
      have := hinj d List.mem_cons_self x (List.mem_cons_of_mem _ hx) heq
      exact hn'.1 (this ▸ hx)
    | tail _ he => exact ho x (List.mem_cons_of_mem _ hx) e he
  | use d r ih => intro own hn hinj ho; exact ih own hn hinj ho
  | block sc b r ihb ihr =>
    intro own hn hinj ho
    have hn' := List.nodup_append.mp hn
    exact ⟨ihb [] hn'.1 (fun x hx y hy => hinj x (List.mem_append_left _ hx) y (List.mem_append_left _ hy)) (fun _ _ e he => by cases he),
      ihr own hn'.2.1 (fun x hx y hy => hinj x (List.mem_append_right _ hx) y (List.mem_append_right _ hy))
        (fun x hx => ho x (List.mem_append_right _ hx))⟩
  | body sc b r ihb ihr =>
    intro own hn hinj ho
    have hn' := List.nodup_append.mp hn
    exact ⟨ihb [] hn'.1 (fun x hx y hy => hinj x (List.mem_append_left _ hx) y (List.mem_append_left _ hy)) (fun _ _ e he => by cases he),
      ihr own hn'.2.1 (fun x hx y hy => hinj x (List.mem_append_right _ hx) y (List.mem_append_right _ hy))
        (fun x hx => ho x (List.mem_append_right _ hx))⟩

theorem distinct_leak {nm : Nat → Name} {X own : List Nat} : ∀ (s : Seq) (O1 : List Nat),
    (∀ d ∈ s.direct, ∀ x ∈ X, nm x ≠ nm d) → Distinct nm (O1 ++ own) s → Distinct nm (O1 ++ (X ++ own)) s := by
  intro s
  induction s with
  | nil => intros; trivial
  | decl d r ih =>
    intro O1 hX h
    refine ⟨?_, ih (d :: O1) (fun e he => hX e (List.mem_cons_of_mem _ he)) h.2⟩
    intro e he
    rcases List.mem_append.mp he with he | he
    · exact h.1 e (List.mem_append_left _ he)
    · rcases List.mem_append.mp he with he | he
      · exact hX d List.mem_cons_self e he
      · exact h.1 e (List.mem_append_right _ he)
  | use d r ih => intro O1 hX h; exact ih O1 hX h
  | block sc b r _ ihr => intro O1 hX h; exact ⟨h.1, ihr O1 hX h.2⟩
  | body sc b r _ ihr => intro O1 hX h; exact ⟨h.1, ihr O1 hX h.2⟩

/-! ## What stays true while the pass is running -/

/-- Each declaration of a block is renamed already, or has its original name, which is in the scope of the block. -/
def Cov (nm0 : Nat → Name) (σ : State) (sc : List Name) : Seq → Prop
  | .nil => True
  | .decl d r => (K σ d ∨ nm0 d ∈ sc) ∧ Cov nm0 σ sc r
  | .use _ r => Cov nm0 σ sc r
  | .block bsc b r => Cov nm0 σ bsc b ∧ Cov nm0 σ sc r
  | .body bsc b r => Cov nm0 σ bsc b ∧ Cov nm0 σ sc r

/-- As `Apart`, but for variables that have been renamed already. -/
def Sep (nm0 : Nat → Name) (σ : State) (out env : List Nat) : Seq → Prop
  | .nil => True
  | .decl d r => Sep nm0 σ out (d :: env) r
  | .use _ r => Sep nm0 σ out env r
  | .block _ b r => (∀ d ∈ b.decls, ∀ e ∈ out, K σ e ∨ ∀ k, nm0 e ≠ nm0 d ++ List.replicate k 95) ∧ Sep nm0 σ env env b ∧
      Sep nm0 σ out env r
  | .body _ b r => Sep nm0 σ env env b ∧ Sep nm0 σ out env r

theorem cov_mono {nm0 : Nat → Name} {σ σ' : State} (hK : ∀ e, K σ e → K σ' e) : ∀ (s : Seq) (sc : List Name), Cov nm0 σ sc s →
    Cov nm0 σ' sc s := by
  intro s
  induction s with
  | nil => intros; trivial
  | decl d r ih => intro sc h; exact ⟨h.1.imp (hK d) id, ih sc h.2⟩
  | use d r ih => intro sc h; exact ih sc h
  | block bsc b r ihb ihr => intro sc h; exact ⟨ihb bsc h.1, ihr sc h.2⟩
  | body bsc b r ihb ihr => intro sc h; exact ⟨ihb bsc h.1, ihr sc h.2⟩

theorem cov_K {nm0 : Nat → Name} {σ : State} : ∀ (s : Seq) (sc sc' : List Name), Cov nm0 σ sc s → (∀ d ∈ s.decls, K σ d) →
    Cov nm0 σ sc' s := by
  intro s
  induction s with
  | nil => intros; trivial
  | decl d r ih =>
    intro sc sc' h hk
    exact ⟨Or.inl (hk d List.mem_cons_self), ih sc sc' h.2 (fun e he => hk e (List.mem_cons_of_mem _ he))⟩
  | use d r ih => intro sc sc' h hk; exact ih sc sc' h hk
  | block bsc b r ihb ihr => intro sc sc' h hk; exact ⟨h.1, ihr sc sc' h.2 (fun e he => hk e (List.mem_append_right _ he))⟩
  | body bsc b r ihb ihr => intro sc sc' h hk; exact ⟨h.1, ihr sc sc' h.2 (fun e he => hk e (List.mem_append_right _ he))⟩

theorem cov_append {nm0 : Nat → Name} {σ : State} : ∀ (a b : Seq) (sc : List Name), Cov nm0 σ sc a → Cov nm0 σ sc b →
    Cov nm0 σ sc (a.append b) := by
  intro a
  induction a with
  | nil => intro b sc _ hb; exact hb
  | decl d r ih => intro b sc ha hb; exact ⟨ha.1, ih b sc ha.2 hb⟩
  | use d r ih => intro b sc ha hb; exact ih b sc ha hb
  | block bsc c r _ ih => intro b sc ha hb; exact ⟨ha.1, ih b sc ha.2 hb⟩
  | body bsc c r _ ih => intro b sc ha hb; exact ⟨ha.1, ih b sc ha.2 hb⟩

theorem cov_direct {nm0 : Nat → Name} {σ : State} {sc : List Name} : ∀ (s : Seq), Cov nm0 σ sc s → ∀ d ∈ s.direct,
    K σ d ∨ nm0 d ∈ sc := by
  intro s
  induction s with
  | nil => intro _ d hd; cases hd
  | decl e r ih =>
    intro h d hd
    cases hd with
    | head => exact h.1
    | tail _ hd => exact ih h.2 d hd
  | use e r ih => intro h d hd; exact ih h d hd
  | block bsc b r _ ih => intro h d hd; exact ih h.2 d hd
  | body bsc b r _ ih => intro h d hd; exact ih h.2 d hd

/-- What must be apart is monotone: fewer variables outside, or more that are renamed. -/
theorem sep_mono {nm0 : Nat → Name} {σ σ' : State} (hK : ∀ e, K σ e → K σ' e) : ∀ (s : Seq) (out out' env env' : List Nat),
    (∀ e ∈ out', e ∈ out ∨ K σ' e) → (∀ e ∈ env', e ∈ env ∨ K σ' e) → Sep nm0 σ out env s → Sep nm0 σ' out' env' s := by
  intro s
  induction s with
  | nil => intros; trivial
  | decl d r ih =>
    intro out out' env env' h1 h2 h
    refine ih out out' (d :: env) (d :: env') h1 ?_ h
    intro e he
    cases he with
    | head => exact Or.inl List.mem_cons_self
    | tail _ he => exact (h2 e he).imp (List.mem_cons_of_mem _) id
  | use d r ih => intro out out' env env' h1 h2 h; exact ih out out' env env' h1 h2 h
  | block bsc b r ihb ihr =>
    intro out out' env env' h1 h2 h
    refine ⟨?_, ihb env env' env env' h2 h2 h.2.1, ihr out out' env env' h1 h2 h.2.2⟩
    intro d hd e he
    rcases h1 e he with ho | hk
    · exact (h.1 d hd e ho).imp (hK e) id
    · exact Or.inl hk
  | body bsc b r ihb ihr =>
    intro out out' env env' h1 h2 h
    exact ⟨ihb env env' env env' h2 h2 h.1, ihr out out' env env' h1 h2 h.2⟩

theorem sep_append {nm0 : Nat → Name} {σ : State} : ∀ (a b : Seq) (out env : List Nat), Sep nm0 σ out env a →
    Sep nm0 σ out (a.direct.reverse ++ env) b → Sep nm0 σ out env (a.append b) := by
  intro a
  induction a with
  | nil => intro b out env _ hb; exact hb
  | decl d r ih =>
    intro b out env ha hb
    apply ih b out (d :: env) ha
    simpa [Seq.direct] using hb
  | use d r ih => intro b out env ha hb; exact ih b out env ha hb
  | block bsc c r _ ih => intro b out env ha hb; exact ⟨ha.1, ha.2.1, ih b out env ha.2.2 hb⟩
  | body bsc c r _ ih => intro b out env ha hb; exact ⟨ha.1, ih b out env ha.2 hb⟩

/-- All that is known of a block: `own` are its declarations so far, `out` what is visible from outside. -/
structure Good (nm0 : Nat → Name) (σ : State) (sc : List Name) (own out : List Nat) (s : Seq) : Prop where
  bound : Bound σ.nm (own ++ out) s
  distinct : Distinct σ.nm own s
  cov : Cov nm0 σ sc s
  sep : Sep nm0 σ out (own ++ out) s
  mine : ∀ e ∈ own, K σ e ∨ nm0 e ∈ sc
  nodup : s.decls.Nodup
  fresh : ∀ d ∈ s.decls, d ∉ own ++ out

/-- Names that differ: a renamed variable, and one that is renamed or has an original name that is not the new one. -/
theorem nm_ne {nm0 : Nat → Name} {σ : State} (hI : Inv nm0 σ) {d e : Nat} (hd : K σ d) (hne : d ≠ e)
    (h : K σ e ∨ σ.nm d ≠ nm0 e) : σ.nm d ≠ σ.nm e := by
  intro heq
  rcases (hI e).1 with hk | ho
  · exact hne (K_inj hd hk heq)
  · rcases h with hk | hn
    · exact hne (K_inj hd hk heq)
    · exact hn (heq.trans ho)

theorem step_decls {sc : List Name} {σ σ' : State} {s s' : Seq} (h : Step sc σ s σ' s') : s'.decls = s.decls := by
  induction h with
  | here ds hds => exact decls_append _ _
  | decl _ ih => simp only [Seq.decls, ih]
  | use _ ih => simp only [Seq.decls, ih]
  | blockIn _ ih => simp only [Seq.decls, ih]
  | blockNext _ ih => simp only [Seq.decls, ih]
  | bodyIn _ ih => simp only [Seq.decls, ih]
  | bodyNext _ ih => simp only [Seq.decls, ih]

theorem step_out {sc : List Name} {σ σ' : State} {s s' : Seq} (h : Step sc σ s σ' s') : ∀ e, e ∉ s.decls → σ'.nm e = σ.nm e := by
  induction h with
  | here ds hds =>
    intro e he
    exact renameAll_out ds (fun hm => he (List.mem_append_left _ ((hds e).mp hm)))
  | decl _ ih => intro e he; exact ih e (fun hm => he (List.mem_cons_of_mem _ hm))
  | use _ ih => intro e he; exact ih e he
  | blockIn _ ih => intro e he; exact ih e (fun hm => he (List.mem_append_left _ hm))
  | blockNext _ ih => intro e he; exact ih e (fun hm => he (List.mem_append_right _ hm))
  | bodyIn _ ih => intro e he; exact ih e (fun hm => he (List.mem_append_left _ hm))
  | bodyNext _ ih => intro e he; exact ih e (fun hm => he (List.mem_append_right _ hm))

theorem step_K {sc : List Name} {σ σ' : State} {s s' : Seq} (h : Step sc σ s σ' s') : ∀ e, K σ e → K σ' e := by
  induction h with
  | here ds hds => intro e he; exact renameAll_K ds he
  | decl _ ih => exact ih
  | use _ ih => exact ih
  | blockIn _ ih => exact ih
  | blockNext _ ih => exact ih
  | bodyIn _ ih => exact ih
  | bodyNext _ ih => exact ih

theorem step_Inv {nm0 : Nat → Name} {sc : List Name} {σ σ' : State} {s s' : Seq} (h : Step sc σ s σ' s') :
    Inv nm0 σ → Inv nm0 σ' := by
  induction h with
  | here ds hds => intro hI; exact renameAll_Inv ds hI
  | decl _ ih => exact ih
  | use _ ih => exact ih
  | blockIn _ ih => exact ih
  | blockNext _ ih => exact ih
  | bodyIn _ ih => exact ih
  | bodyNext _ ih => exact ih

/-- Flattening one block. -/
theorem here_good {nm0 : Nat → Name} {sc bsc : List Name} {σ : State} {b r : Seq} {ds own out : List Nat} (hI : Inv nm0 σ)
    (hds : ∀ d, d ∈ ds ↔ d ∈ b.decls) (h : Good nm0 σ sc own out (.block bsc b r)) :
    Good nm0 (renameAll sc σ ds) sc own out (b.append r) := by
  have hI' : Inv nm0 (renameAll sc σ ds) := renameAll_Inv ds hI
  have hKm : ∀ e, K σ e → K (renameAll sc σ ds) e := fun e he => renameAll_K ds he
  have hin : ∀ d ∈ b.decls, K (renameAll sc σ ds) d ∧ (renameAll sc σ ds).nm d ∉ sc :=
    fun d hd => renameAll_in ds (Or.inl ((hds d).mpr hd))
  have hsame : ∀ e, e ∉ b.decls → (renameAll sc σ ds).nm e = σ.nm e := fun e he => renameAll_out ds (fun hm => he ((hds e).mp hm))
  generalize hσ : renameAll sc σ ds = σ' at hI' hKm hin hsame ⊢
  have hn := List.nodup_append.mp h.nodup
  have hfb : ∀ d ∈ b.decls, d ∉ own ++ out := fun d hd => h.fresh d (List.mem_append_left _ hd)
  have hE : ∀ e ∈ own ++ out, σ'.nm e = σ.nm e := fun e he => hsame e (fun hm => hfb e hm he)
  have hR : ∀ e ∈ r.decls, σ'.nm e = σ.nm e := fun e he => hsame e (fun hm => hn.2.2 e hm e he rfl)
  have hinj : ∀ d ∈ b.decls, ∀ e ∈ b.decls, σ'.nm d = σ'.nm e → d = e := fun d hd e he heq => K_inj (hin d hd).1 (hin e he).1 heq
  have hscope : ∀ d ∈ b.decls, ∀ e, d ≠ e → (K σ e ∨ nm0 e ∈ sc) → σ'.nm d ≠ σ'.nm e := by
    intro d hd e hne hc
    refine nm_ne hI' (hin d hd).1 hne (hc.imp (hKm e) ?_)
    intro hm heq
    exact (hin d hd).2 (heq ▸ hm)
  have hout : ∀ d ∈ b.decls, ∀ e ∈ own ++ out, σ'.nm d ≠ σ'.nm e := by
    intro d hd e he
    have hne : d ≠ e := fun heq => hfb d hd (heq ▸ he)
    rcases List.mem_append.mp he with ho | ho
    · exact hscope d hd e hne (h.mine e ho)
    · refine nm_ne hI' (hin d hd).1 hne ((h.sep.1 d hd e ho).imp (hKm e) ?_)
      intro hk heq
      obtain ⟨k, hk'⟩ := (hI' d).2
      exact hk k (heq.symm.trans hk')
  have hX : ∀ x ∈ b.direct.reverse, x ∈ b.decls := fun x hx => direct_decls (List.mem_reverse.mp hx)
  have hKE : ∀ e ∈ b.direct.reverse ++ (own ++ out), e ∈ own ++ out ∨ K σ' e := by
    intro e he
    rcases List.mem_append.mp he with he | he
    · exact Or.inr (hin e (hX e he)).1
    · exact Or.inl he
  refine ⟨?_, ?_, ?_, ?_, ?_, ?_, ?_⟩
  · apply bound_append
    · exact bound_renamed hE hinj hout b [] (fun e he => by cases he) (fun d hd => hd) h.bound.1
    · exact bound_leak (fun x hx => hout x (hX x hx)) r [] (bound_congr r _ hE hR h.bound.2)
  · apply distinct_append
    · exact distinct_inj b own hn.1 hinj (fun d hd e he heq => hout d hd e (List.mem_append_left _ he) heq.symm)
    · refine distinct_leak r [] ?_ (distinct_congr r _ (fun e he => hE e (List.mem_append_left _ he)) hR h.distinct.2)
      intro d hd x hx
      exact hscope x (hX x hx) d (fun heq => hn.2.2 x (hX x hx) d (direct_decls hd) heq) (cov_direct r h.cov.2 d hd)
  · exact cov_append _ _ _ (cov_K b bsc sc (cov_mono hKm b bsc h.cov.1) (fun d hd => (hin d hd).1)) (cov_mono hKm r sc h.cov.2)
  · apply sep_append
    · exact sep_mono hKm b _ _ _ _ (fun e he => Or.inl (List.mem_append_right _ he)) (fun e he => Or.inl he) h.sep.2.1
    · exact sep_mono hKm r _ _ _ _ (fun e he => Or.inl he) hKE h.sep.2.2
  · exact fun e he => (h.mine e he).imp (hKm e) id
  · rw [decls_append]; exact h.nodup
  · rw [decls_append]; exact h.fresh

theorem good_in {nm0 : Nat → Name} {σ : State} {sc bsc : List Name} {own out : List Nat} {b r : Seq}
    (h : Good nm0 σ sc own out (.block bsc b r)) : Good nm0 σ bsc [] (own ++ out) b :=
  ⟨h.bound.1, h.distinct.1, h.cov.1, h.sep.2.1, (fun e he => by cases he), (List.nodup_append.mp h.nodup).1,
    fun d hd => h.fresh d (List.mem_append_left _ hd)⟩

theorem good_next {nm0 : Nat → Name} {σ : State} {sc bsc : List Name} {own out : List Nat} {b r : Seq}
    (h : Good nm0 σ sc own out (.block bsc b r)) : Good nm0 σ sc own out r :=
  ⟨h.bound.2, h.distinct.2, h.cov.2, h.sep.2.2, h.mine, (List.nodup_append.mp h.nodup).2.1,
    fun d hd => h.fresh d (List.mem_append_right _ hd)⟩

theorem good_inB {nm0 : Nat → Name} {σ : State} {sc bsc : List Name} {own out : List Nat} {b r : Seq}
    (h : Good nm0 σ sc own out (.body bsc b r)) : Good nm0 σ bsc [] (own ++ out) b :=
  ⟨h.bound.1, h.distinct.1, h.cov.1, h.sep.1, (fun e he => by cases he), (List.nodup_append.mp h.nodup).1,
    fun d hd => h.fresh d (List.mem_append_left _ hd)⟩

theorem good_nextB {nm0 : Nat → Name} {σ : State} {sc bsc : List Name} {own out : List Nat} {b r : Seq}
    (h : Good nm0 σ sc own out (.body bsc b r)) : Good nm0 σ sc own out r :=
  ⟨h.bound.2, h.distinct.2, h.cov.2, h.sep.2, h.mine, (List.nodup_append.mp h.nodup).2.1,
    fun d hd => h.fresh d (List.mem_append_right _ hd)⟩

theorem step_good {nm0 : Nat → Name} {sc : List Name} {σ σ' : State} {s s' : Seq} (hst : Step sc σ s σ' s') (hI : Inv nm0 σ) :
    ∀ {own out : List Nat}, Good nm0 σ sc own out s → Good nm0 σ' sc own out s' := by
  induction hst with
  | here ds hds => intro own out h; exact here_good hI hds h
  | @decl sc σ σ' d r r' hr ih =>
    intro own out h
    have hn := List.nodup_cons.mp h.nodup
    have hg : Good nm0 σ' sc (d :: own) out r' := by
      apply ih hI
      refine ⟨h.bound, h.distinct.2, h.cov.2, h.sep, ?_, hn.2, ?_⟩
      · intro e he
        cases he with
        | head => exact h.cov.1
        | tail _ he => exact h.mine e he
      · intro e he hm
        cases hm with
        | head => exact hn.1 he
        | tail _ hm => exact h.fresh e (List.mem_cons_of_mem _ he) hm
    have ho : ∀ e ∈ own, e ∉ r.decls := fun e he hm => h.fresh e (List.mem_cons_of_mem _ hm) (List.mem_append_left _ he)
    refine ⟨hg.bound, ⟨?_, hg.distinct⟩, ⟨hg.mine d List.mem_cons_self, hg.cov⟩, hg.sep,
      fun e he => hg.mine e (List.mem_cons_of_mem _ he), ?_, ?_⟩
    · intro e he
      rw [step_out hr e (ho e he), step_out hr d hn.1]
      exact h.distinct.1 e he
    · simp only [Seq.decls, step_decls hr]; exact h.nodup
    · simp only [Seq.decls, step_decls hr]; exact h.fresh
  | @use sc σ σ' d r r' hr ih =>
    intro own out h
    have hg : Good nm0 σ' sc own out r' := ih hI ⟨h.bound.2, h.distinct, h.cov, h.sep, h.mine, h.nodup, h.fresh⟩
    refine ⟨⟨finds_congr (fun e he => step_out hr e (fun hm => h.fresh e hm he)) h.bound.1, hg.bound⟩, hg.distinct, hg.cov, hg.sep,
      hg.mine, hg.nodup, hg.fresh⟩
  | @blockIn sc σ σ' bsc b b' r hb ih =>
    intro own out h
    have hg : Good nm0 σ' bsc [] (own ++ out) b' := ih hI (good_in h)
    have hn := List.nodup_append.mp h.nodup
    have hE : ∀ e ∈ own ++ out, σ'.nm e = σ.nm e := fun e he => step_out hb e (fun hm => h.fresh e (List.mem_append_left _ hm) he)
    have hR : ∀ e ∈ r.decls, σ'.nm e = σ.nm e := fun e he => step_out hb e (fun hm => hn.2.2 e hm e he rfl)
    refine ⟨⟨hg.bound, bound_congr r _ hE hR h.bound.2⟩,
      ⟨hg.distinct, distinct_congr r _ (fun e he => hE e (List.mem_append_left _ he)) hR h.distinct.2⟩,
      ⟨hg.cov, cov_mono (step_K hb) r sc h.cov.2⟩,
      ⟨?_, hg.sep, sep_mono (step_K hb) r _ _ _ _ (fun e he => Or.inl he) (fun e he => Or.inl he) h.sep.2.2⟩,
      fun e he => (h.mine e he).imp (step_K hb e) id, ?_, ?_⟩
    · intro d hd e he
      rw [step_decls hb] at hd
      exact (h.sep.1 d hd e he).imp (step_K hb e) id
    · simp only [Seq.decls, step_decls hb]; exact h.nodup
    · simp only [Seq.decls, step_decls hb]; exact h.fresh
  | @blockNext sc σ σ' bsc b r r' hr ih =>
    intro own out h
    have hg : Good nm0 σ' sc own out r' := ih hI (good_next h)
    have hn := List.nodup_append.mp h.nodup
    have hE : ∀ e ∈ own ++ out, σ'.nm e = σ.nm e := fun e he => step_out hr e (fun hm => h.fresh e (List.mem_append_right _ hm) he)
    have hB : ∀ e ∈ b.decls, σ'.nm e = σ.nm e := fun e he => step_out hr e (fun hm => hn.2.2 e he e hm rfl)
    refine ⟨⟨bound_congr b _ hE hB h.bound.1, hg.bound⟩, ⟨distinct_congr b _ (fun e he => by cases he) hB h.distinct.1, hg.distinct⟩,
      ⟨cov_mono (step_K hr) b bsc h.cov.1, hg.cov⟩,
      ⟨fun d hd e he => (h.sep.1 d hd e he).imp (step_K hr e) id,
        sep_mono (step_K hr) b _ _ _ _ (fun e he => Or.inl he) (fun e he => Or.inl he) h.sep.2.1, hg.sep⟩, hg.mine, ?_, ?_⟩
    · simp only [Seq.decls, step_decls hr]; exact h.nodup
    · simp only [Seq.decls, step_decls hr]; exact h.fresh
  | @bodyIn sc σ σ' bsc b b' r hb ih =>
    intro own out h
    have hg : Good nm0 σ' bsc [] (own ++ out) b' := ih hI (good_inB h)
    have hn := List.nodup_append.mp h.nodup
    have hE : ∀ e ∈ own ++ out, σ'.nm e = σ.nm e := fun e he => step_out hb e (fun hm => h.fresh e (List.mem_append_left _ hm) he)
    have hR : ∀ e ∈ r.decls, σ'.nm e = σ.nm e := fun e he => step_out hb e (fun hm => hn.2.2 e hm e he rfl)
    refine ⟨⟨hg.bound, bound_congr r _ hE hR h.bound.2⟩,
      ⟨hg.distinct, distinct_congr r _ (fun e he => hE e (List.mem_append_left _ he)) hR h.distinct.2⟩,
      ⟨hg.cov, cov_mono (step_K hb) r sc h.cov.2⟩,
      ⟨hg.sep, sep_mono (step_K hb) r _ _ _ _ (fun e he => Or.inl he) (fun e he => Or.inl he) h.sep.2⟩,
      fun e he => (h.mine e he).imp (step_K hb e) id, ?_, ?_⟩
    · simp only [Seq.decls, step_decls hb]; exact h.nodup
    · simp only [Seq.decls, step_decls hb]; exact h.fresh
  | @bodyNext sc σ σ' bsc b r r' hr ih =>
    intro own out h
    have hg : Good nm0 σ' sc own out r' := ih hI (good_nextB h)
    have hn := List.nodup_append.mp h.nodup
    have hE : ∀ e ∈ own ++ out, σ'.nm e = σ.nm e := fun e he => step_out hr e (fun hm => h.fresh e (List.mem_append_right _ hm) he)
    have hB : ∀ e ∈ b.decls, σ'.nm e = σ.nm e := fun e he => step_out hr e (fun hm => hn.2.2 e he e hm rfl)
    refine ⟨⟨bound_congr b _ hE hB h.bound.1, hg.bound⟩, ⟨distinct_congr b _ (fun e he => by cases he) hB h.distinct.1, hg.distinct⟩,
      ⟨cov_mono (step_K hr) b bsc h.cov.1, hg.cov⟩,
      ⟨sep_mono (step_K hr) b _ _ _ _ (fun e he => Or.inl he) (fun e he => Or.inl he) h.sep.1, hg.sep⟩, hg.mine, ?_, ?_⟩
    · simp only [Seq.decls, step_decls hr]; exact h.nodup
    · simp only [Seq.decls, step_decls hr]; exact h.fresh

theorem pass_good {nm0 : Nat → Name} {sc : List Name} {σ σ' : State} {s s' : Seq} (hp : Pass sc σ s σ' s') :
    Inv nm0 σ → ∀ {own out : List Nat}, Good nm0 σ sc own out s → Good nm0 σ' sc own out s' := by
  induction hp with
  | done => intro _ own out h; exact h
  | step hst _ ih => intro hI own out h; exact ih (step_Inv hst hI) (step_good hst hI h)

theorem scoped_cov {nm : Nat → Name} {σ : State} : ∀ (s : Seq) (sc : List Name), Scoped nm sc s → Cov nm σ sc s := by
  intro s
  induction s with
  | nil => intros; trivial
  | decl d r ih => intro sc h; exact ⟨Or.inr h.1, ih sc h.2⟩
  | use d r ih => intro sc h; exact ih sc h
  | block bsc b r ihb ihr => intro sc h; exact ⟨ihb bsc h.1, ihr sc h.2⟩
  | body bsc b r ihb ihr => intro sc h; exact ⟨ihb bsc h.1, ihr sc h.2⟩

theorem apart_sep {nm : Nat → Name} {σ : State} : ∀ (s : Seq) (out env : List Nat), Apart nm out env s → Sep nm σ out env s := by
  intro s
  induction s with
  | nil => intros; trivial
  | decl d r ih => intro out env h; exact ih out _ h
  | use d r ih => intro out env h; exact ih out env h
  | block bsc b r ihb ihr => intro out env h; exact ⟨fun d hd e he => Or.inr (h.1 d hd e he), ihb _ _ h.2.1, ihr _ _ h.2.2⟩
  | body bsc b r ihb ihr => intro out env h; exact ⟨ihb _ _ h.1, ihr _ _ h.2⟩

/-- **C76.** Whatever the order in which blocks are flattened and variables renamed, and wherever the pass has got to: each
    reference of the function still finds its variable, and no block declares a name twice. Partial: only if no variable of a block
    to be flattened has the name of one that is visible from outside the parent block (`Apart`). -/
theorem flatten_keeps_binding_partial {nm : Nat → Name} {ps : List Nat} {sc : List Name} {s s' : Seq} {σ' : State}
    (hv : Valid nm ps s) (hs : Scoped nm sc s) (hp : ∀ p ∈ ps, nm p ∈ sc) (ha : Apart nm [] ps s) (hn : (ps ++ s.decls).Nodup)
    (hpass : Pass sc ⟨nm, []⟩ s σ' s') : Valid σ'.nm ps s' := by
  have hn' := List.nodup_append.mp hn
  have hI : Inv nm ⟨nm, []⟩ := fun d => ⟨Or.inr rfl, 0, by simp⟩
  have hg : Good nm ⟨nm, []⟩ sc ps [] s := by
    refine ⟨?_, hv.2, scoped_cov s sc hs, ?_, fun e he => Or.inr (hp e he), hn'.2.1, ?_⟩
    · rw [List.append_nil]; exact hv.1
    · rw [List.append_nil]; exact apart_sep s [] ps ha
    · rw [List.append_nil]
      intro d hd hm
      exact hn'.2.2 d hm d hd rfl
  have hg' := pass_good hpass hI hg
  have hb := hg'.bound
  rw [List.append_nil] at hb
  exact ⟨hb, hg'.distinct⟩

/-! ## The pass ends, and leaves nothing -/

theorem step_blocks {sc : List Name} {σ σ' : State} {s s' : Seq} (h : Step sc σ s σ' s') : s'.blocks + 1 = s.blocks := by
  induction h with
  | here ds hds => rw [blocks_append]; simp only [Seq.blocks]
  | decl _ ih => simpa only [Seq.blocks] using ih
  | use _ ih => simpa only [Seq.blocks] using ih
  | blockIn _ ih => simp only [Seq.blocks]; omega
  | blockNext _ ih => simp only [Seq.blocks]; omega
  | bodyIn _ ih => simp only [Seq.blocks]; omega
  | bodyNext _ ih => simp only [Seq.blocks]; omega

/-- As long as there is a block inside a block, one can be flattened. -/
theorem step_exists : ∀ (s : Seq) (sc : List Name) (σ : State), 0 < s.blocks → ∃ σ' s', Step sc σ s σ' s' := by
  intro s
  induction s with
  | nil => intro sc σ h; exact absurd h (Nat.lt_irrefl 0)
  | decl d r ih => intro sc σ h; obtain ⟨σ', r', hr⟩ := ih sc σ h; exact ⟨_, _, .decl hr⟩
  | use d r ih => intro sc σ h; obtain ⟨σ', r', hr⟩ := ih sc σ h; exact ⟨_, _, .use hr⟩
  | block bsc b r _ _ => intro sc σ _; exact ⟨_, _, .here b.decls (fun _ => Iff.rfl)⟩
  | body bsc b r ihb ihr =>
    intro sc σ h
    simp only [Seq.blocks] at h
    rcases Nat.eq_zero_or_pos b.blocks with hb | hb
    · obtain ⟨σ', r', hr⟩ := ihr sc σ (by omega)
      exact ⟨_, _, .bodyNext hr⟩
    · obtain ⟨σ', b', hb⟩ := ihb bsc σ hb
      exact ⟨_, _, .bodyIn hb⟩

/-- **C76.** The pass can always be finished, after as many steps as there are blocks inside blocks; the variables declared and
    their order stay the same, and names only get longer by underscores. -/
theorem flatten_ends (sc : List Name) : ∀ (n : Nat) (s : Seq) (σ : State), s.blocks = n → ∃ σ' s', Pass sc σ s σ' s' ∧ s'.blocks = 0 := by
  intro n
  induction n with
  | zero => intro s σ h; exact ⟨σ, s, .done, h⟩
  | succ n ih =>
    intro s σ h
    obtain ⟨σ1, s1, h1⟩ := step_exists s sc σ (by omega)
    obtain ⟨σ', s', hp, hb⟩ := ih s1 σ1 (by have := step_blocks h1; omega)
    exact ⟨σ', s', .step h1 hp, hb⟩

theorem flatten_bound {sc : List Name} {σ σ' : State} {s s' : Seq} (h : Pass sc σ s σ' s') : s'.blocks ≤ s.blocks := by
  induction h with
  | done => exact Nat.le_refl _
  | step hst _ ih => have := step_blocks hst; omega

theorem flatten_decls {sc : List Name} {nm : Nat → Name} {σ' : State} {s s' : Seq} (h : Pass sc ⟨nm, []⟩ s σ' s') :
    s'.decls = s.decls ∧ (∀ d, d ∉ s.decls → σ'.nm d = nm d) ∧ ∀ d, ∃ k, σ'.nm d = nm d ++ List.replicate k 95 := by
  have hgen : ∀ {σ σ' s s'}, Pass sc σ s σ' s' → Inv nm σ → (s'.decls = s.decls ∧ (∀ d, d ∉ s.decls → σ'.nm d = σ.nm d)) ∧ Inv nm σ' := by
    intro σ σ' s s' h
    induction h with
    | done => intro hI; exact ⟨⟨rfl, fun _ _ => rfl⟩, hI⟩
    | step hst _ ih =>
      intro hI
      obtain ⟨⟨h1, h2⟩, h3⟩ := ih (step_Inv hst hI)
      have hd := step_decls hst
      refine ⟨⟨h1.trans hd, fun d hn => ?_⟩, h3⟩
      rw [h2 d (by rw [hd]; exact hn), step_out hst d hn]
  obtain ⟨⟨h1, h2⟩, h3⟩ := hgen h (fun d => ⟨Or.inr rfl, 0, by simp⟩)
  exact ⟨h1, h2, fun d => (h3 d).2⟩

end Verif.Opt.Flatten
