import Verif.Front.Enum
/-! # Labels of enums have their values, and are distinct -/

namespace Verif.Front.Enum

/-- The number of labels without a value. -/
def implicit (ds : List Decl) : Nat := (ds.filter fun d => d.value.isNone).length

/-- The values given, and those that are assigned, are values of type `int`. -/
def Fits (ds : List Decl) : Prop :=
  implicit ds < 2 ^ 31 ∧ ∀ d ∈ ds, ∀ v, d.value = some v → v + 1 + implicit ds < 2 ^ 31

/-- The name is not that of the label every enum has. -/
def Named (ds : List Decl) : Prop := ∀ d ∈ ds, d.name.map Char.toLower ≠ "undef".toList

instance (ds : List Decl) : Decidable (Named ds) := inferInstanceAs (Decidable (∀ d ∈ ds, d.name.map Char.toLower ≠ "undef".toList))

theorem toInt_small {v : Nat} (h : v < 2 ^ 31) : toInt v = v := by
  unfold toInt
  have : (v + 2 ^ 31) % 2 ^ 32 = v + 2 ^ 31 := Nat.mod_eq_of_lt (by omega)
  rw [this]
  omega

/-- What the numbering gives. -/
def numbered : List Decl → Int → List (List Char × Int)
  | [], _ => []
  | ⟨n, some v⟩ :: ds, next => (n, v) :: numbered ds next
  | ⟨n, none⟩ :: ds, next => (n, next) :: numbered ds (next + 1)

theorem implicit_cons_some (n : List Char) (v : Nat) (ds : List Decl) : implicit (⟨n, some v⟩ :: ds) = implicit ds := rfl

theorem implicit_cons_none (n : List Char) (ds : List Decl) : implicit (⟨n, none⟩ :: ds) = implicit ds + 1 := by
  simp [implicit]

theorem number_eq : ∀ (ds : List Decl) (next : Int), (∀ d ∈ ds, ∀ v, d.value = some v → v < 2 ^ 31) → 0 ≤ next →
    next + implicit ds ≤ intMax → number (ds.map Decl.label) next = if Named ds then .ok (numbered ds next) else .error
  | [], next, _, _, _ => by
    rw [if_pos (show Named [] from fun d h => by cases h)]; rfl
  | ⟨n, none⟩ :: ds, next, h, h0, hm => by
    rw [implicit_cons_none] at hm
    have ih := number_eq ds (next + 1) (fun d hd => h d (List.mem_cons_of_mem _ hd)) (by omega) (by omega)
    simp only [List.map_cons, Decl.label, number]
    by_cases hn : lower n = "undef".toList
    · rw [if_pos hn, if_neg (fun hN => hN ⟨n, none⟩ (List.mem_cons_self ..) hn)]
    · rw [if_neg hn, if_pos (by decide), if_neg (by simp only [intMax] at hm ⊢; omega)]
      rw [ih]
      by_cases hN : Named ds
      · rw [if_pos hN, if_pos]
        · rfl
        · intro d hd
          cases hd with
          | head => exact hn
          | tail _ hd => exact hN d hd
      · rw [if_neg hN, if_neg (fun hc => hN fun d hd => hc d (List.mem_cons_of_mem _ hd))]
  | ⟨n, some v⟩ :: ds, next, h, h0, hm => by
    rw [implicit_cons_some] at hm
    have ih := number_eq ds next (fun d hd => h d (List.mem_cons_of_mem _ hd)) h0 hm
    have hv := toInt_small (h _ (List.mem_cons_self ..) v rfl)
    simp only [List.map_cons, Decl.label, number]
    by_cases hn : lower n = "undef".toList
    · rw [if_pos hn, if_neg (fun hN => hN ⟨n, some v⟩ (List.mem_cons_self ..) hn)]
    · rw [if_neg hn, if_neg (by rw [hv]; omega)]
      rw [ih, hv]
      by_cases hN : Named ds
      · rw [if_pos hN, if_pos]
        · rfl
        · intro d hd
          cases hd with
          | head => exact hn
          | tail _ hd => exact hN d hd
      · rw [if_neg hN, if_neg (fun hc => hN fun d hd => hc d (List.mem_cons_of_mem _ hd))]

/-- The largest of the values, or -1. -/
theorem max_eq : ∀ ds : List Decl, ds ≠ [] → (∀ d ∈ ds, ∀ v, d.value = some v → v < 2 ^ 31) →
    ∃ M : Int, maxOf (ds.map Decl.label) = some M ∧ -1 ≤ M ∧ (M = -1 ∨ ∃ d ∈ ds, ∃ v : Nat, d.value = some v ∧ M = v) ∧
      (∀ d ∈ ds, ∀ v : Nat, d.value = some v → (v : Int) ≤ M)
  | [], h, _ => absurd rfl h
  | d :: ds, _, h => by
    have lab : ∃ l : Int, d.label.2 = l ∧ -1 ≤ l ∧ (l = -1 ∨ ∃ v : Nat, d.value = some v ∧ l = v) ∧
        (∀ v : Nat, d.value = some v → (v : Int) ≤ l) := by
      rcases d with ⟨n, _ | v⟩
      · exact ⟨-1, rfl, by decide, Or.inl rfl, fun v h => by cases h⟩
      · have hv := toInt_small (h _ (List.mem_cons_self ..) v rfl)
        exact ⟨toInt v, rfl, by omega, Or.inr ⟨v, rfl, hv⟩, fun u e => by cases e; omega⟩
    obtain ⟨l, hl, hl0, hl1, hl2⟩ := lab
    have hd : d.label = (d.label.1, l) := by rw [← hl]
    by_cases hne : ds = []
    · subst hne
      refine ⟨l, ?_, hl0, ?_, ?_⟩
      · simp only [List.map_cons, List.map_nil]
        rw [hd]
        rfl
      · rcases hl1 with e | ⟨v, e, e'⟩
        · exact Or.inl e
        · exact Or.inr ⟨d, List.mem_cons_self .., v, e, e'⟩
      · intro d' hd' v e
        cases hd' with
        | head => exact hl2 v e
        | tail _ h' => cases h'
    · obtain ⟨M, hM, h0, h1, h2⟩ := max_eq ds hne (fun d hd => h d (List.mem_cons_of_mem _ hd))
      refine ⟨if l < M then M else l, ?_, by split <;> assumption, ?_, ?_⟩
      · simp only [List.map_cons]
        rw [hd]
        simp only [maxOf, hM]
      · split
        · rcases h1 with e | ⟨d', hd', v, e, e'⟩
          · exact Or.inl e
          · exact Or.inr ⟨d', List.mem_cons_of_mem _ hd', v, e, e'⟩
        · rcases hl1 with e | ⟨v, e, e'⟩
          · exact Or.inl e
          · exact Or.inr ⟨d, List.mem_cons_self .., v, e, e'⟩
      · intro d' hd' v e
        cases hd' with
        | head =>
          have := hl2 v e
          split <;> omega
        | tail _ h' =>
          have := h2 d' h' v e
          split <;> omega

theorem setLabels_eq (ds : List Decl) (hne : ds ≠ []) (hf : Fits ds) :
    ∃ M : Int, -1 ≤ M ∧ (M = -1 ∨ ∃ d ∈ ds, ∃ v : Nat, d.value = some v ∧ M = v) ∧
      (∀ d ∈ ds, ∀ v : Nat, d.value = some v → (v : Int) ≤ M) ∧
      setLabels (ds.map Decl.label) = if Named ds then .ok (numbered ds (M + 1) ++ [("Undef".toList, -1)]) else .error := by
  have hs : ∀ d ∈ ds, ∀ v, d.value = some v → v < 2 ^ 31 := fun d hd v e => by have := hf.2 d hd v e; omega
  obtain ⟨M, hM, h0, h1, h2⟩ := max_eq ds hne hs
  refine ⟨M, h0, h1, h2, ?_⟩
  have hM1 : M + 1 + implicit ds ≤ intMax := by
    simp only [intMax]
    rcases h1 with e | ⟨d, hd, v, e, e'⟩
    · have := hf.1; omega
    · have := hf.2 d hd v e; omega
  simp only [setLabels, hM]
  rw [if_neg (by omega), number_eq ds (M + 1) hs (by omega) hM1]
  split
  · rename_i hN
    split at hN
    · injection hN with hN; rw [hN]
      rw [if_pos (by assumption)]
    · cases hN
  · rename_i hN
    split
    · rename_i hN'
      rw [if_pos hN'] at hN
      exact absurd rfl (hN _)
    · rfl

/-- The value of the label with index `i`: the one given, or the next number after those of the earlier labels without one. -/
def valueAt (ds : List Decl) (first : Int) (i : Nat) (h : i < ds.length) : Int :=
  match (ds[i]'h).value with
  | some v => v
  | none => first + implicit (ds.take i)

theorem numbered_get : ∀ (ds : List Decl) (next : Int) (i : Nat) (h : i < ds.length),
    (numbered ds next)[i]? = some ((ds[i]'h).name, valueAt ds next i h)
  | ⟨n, none⟩ :: ds, next, 0, _ => by simp [numbered, implicit, valueAt]
  | ⟨n, some v⟩ :: ds, next, 0, _ => by simp [numbered, valueAt]
  | ⟨n, none⟩ :: ds, next, i + 1, h => by
    have ih := numbered_get ds (next + 1) i (by simpa using h)
    simp only [numbered, List.getElem?_cons_succ, List.getElem_cons_succ, List.take_succ_cons, implicit_cons_none, ih, valueAt]
    cases (ds[i]'(by simpa using h)).value
    · simp only [Option.some.injEq, Prod.mk.injEq, true_and]; omega
    · rfl
  | ⟨n, some v⟩ :: ds, next, i + 1, h => by
    have ih := numbered_get ds next i (by simpa using h)
    simp only [numbered, List.getElem?_cons_succ, List.getElem_cons_succ, List.take_succ_cons, implicit_cons_some, ih, valueAt]

theorem numbered_mem : ∀ (ds : List Decl) (next : Int) (p), p ∈ numbered ds next →
    (∃ v : Nat, some v ∈ ds.map Decl.value ∧ p.2 = v) ∨ next ≤ p.2
  | ⟨n, none⟩ :: ds, next, p, h => by
    simp only [numbered, List.mem_cons] at h
    rcases h with e | h
    · exact Or.inr (by rw [e]; exact Int.le_refl _)
    · rcases numbered_mem ds (next + 1) p h with ⟨v, hv, e⟩ | h
      · exact Or.inl ⟨v, List.mem_cons_of_mem _ hv, e⟩
      · exact Or.inr (by omega)
  | ⟨n, some v⟩ :: ds, next, p, h => by
    simp only [numbered, List.mem_cons] at h
    rcases h with e | h
    · exact Or.inl ⟨v, List.mem_cons_self .., by rw [e]⟩
    · rcases numbered_mem ds next p h with ⟨u, hu, e⟩ | h
      · exact Or.inl ⟨u, List.mem_cons_of_mem _ hu, e⟩
      · exact Or.inr h

theorem numbered_explicit : ∀ (ds : List Decl) (next : Int) (v : Nat), some v ∈ ds.map Decl.value → ∃ p ∈ numbered ds next, p.2 = v
  | ⟨n, none⟩ :: ds, next, v, h => by
    simp only [List.map_cons, List.mem_cons] at h
    rcases h with e | h
    · cases e
    · obtain ⟨p, hp, e⟩ := numbered_explicit ds (next + 1) v h
      exact ⟨p, List.mem_cons_of_mem _ hp, e⟩
  | ⟨n, some u⟩ :: ds, next, v, h => by
    simp only [List.map_cons, List.mem_cons] at h
    rcases h with e | h
    · injection e with e
      exact ⟨(n, u), List.mem_cons_self .., by rw [e]⟩
    · obtain ⟨p, hp, e⟩ := numbered_explicit ds next v h
      exact ⟨p, List.mem_cons_of_mem _ hp, e⟩

theorem mem_filterMap_value (ds : List Decl) (v : Nat) : v ∈ ds.filterMap Decl.value ↔ some v ∈ ds.map Decl.value := by
  simp [List.mem_filterMap, List.mem_map]

theorem numbered_nodup : ∀ (ds : List Decl) (next : Int), (∀ d ∈ ds, ∀ v : Nat, d.value = some v → (v : Int) < next) →
    (((numbered ds next).map Prod.snd).Nodup ↔ (ds.filterMap Decl.value).Nodup)
  | [], _, _ => by simp [numbered]
  | ⟨n, none⟩ :: ds, next, h => by
    have hlt : ∀ d ∈ ds, ∀ v : Nat, d.value = some v → (v : Int) < next := fun d hd => h d (List.mem_cons_of_mem _ hd)
    have ih := numbered_nodup ds (next + 1) (fun d hd v e => by have := hlt d hd v e; omega)
    simp only [numbered, List.map_cons, List.nodup_cons, List.filterMap_cons]
    rw [ih]
    refine ⟨fun h => h.2, fun h' => ⟨fun hm => ?_, h'⟩⟩
    obtain ⟨p, hp, e⟩ := List.mem_map.mp hm
    rcases numbered_mem ds (next + 1) p hp with ⟨v, hv, e'⟩ | hle
    · obtain ⟨d, hd, e''⟩ := List.mem_map.mp hv
      have := hlt d hd v e''
      omega
    · omega
  | ⟨n, some v⟩ :: ds, next, h => by
    have hlt : ∀ d ∈ ds, ∀ v : Nat, d.value = some v → (v : Int) < next := fun d hd => h d (List.mem_cons_of_mem _ hd)
    have ih := numbered_nodup ds next hlt
    have hv := h _ (List.mem_cons_self ..) v rfl
    simp only [numbered, List.map_cons, List.nodup_cons, List.filterMap_cons]
    rw [ih]
    refine and_congr (not_congr ⟨fun hm => ?_, fun hm => ?_⟩) Iff.rfl
    · obtain ⟨p, hp, e⟩ := List.mem_map.mp hm
      rcases numbered_mem ds next p hp with ⟨u, hu, e'⟩ | hle
      · have : u = v := by omega
        subst this
        exact (mem_filterMap_value ds u).mpr hu
      · omega
    · obtain ⟨p, hp, e⟩ := numbered_explicit ds next v ((mem_filterMap_value ds v).mp hm)
      exact List.mem_map.mpr ⟨p, hp, e⟩

theorem unique_iff : ∀ (ls : List (List Char × Int)) (seen : List Int),
    unique ls seen = true ↔ (ls.map Prod.snd).Nodup ∧ ∀ v ∈ ls.map Prod.snd, v ∉ seen
  | [], seen => by simp [unique]
  | (n, v) :: ls, seen => by
    have ih := unique_iff ls (v :: seen)
    simp only [unique, Bool.and_eq_true, Bool.not_eq_true', List.map_cons, List.nodup_cons, List.mem_cons, ih]
    have hc : seen.contains v = false ↔ v ∉ seen := by
      rw [← Bool.not_eq_true, List.contains_iff_mem]
    rw [hc]
    constructor
    · rintro ⟨h1, h2, h3⟩
      refine ⟨⟨fun hm => ?_, h2⟩, fun u hu => ?_⟩
      · have := h3 v hm
        simp at this
      · rcases hu with e | hu
        · rw [e]; exact h1
        · have := h3 u hu
          simp only [not_or] at this
          exact this.2
    · rintro ⟨⟨h1, h2⟩, h3⟩
      refine ⟨h3 v (Or.inl rfl), h2, fun u hu => ?_⟩
      simp only [not_or]
      exact ⟨fun e => h1 (e ▸ hu), h3 u (Or.inr hu)⟩

theorem last_nodup (ds : List Decl) (M : Int) (h0 : -1 ≤ M) :
    ((numbered ds (M + 1) ++ [("Undef".toList, (-1 : Int))]).map Prod.snd).Nodup ↔ ((numbered ds (M + 1)).map Prod.snd).Nodup := by
  rw [List.map_append, List.nodup_append]
  refine ⟨fun h => h.1, fun h => ⟨h, by simp, fun a ha b hb e => ?_⟩⟩
  simp only [List.map_cons, List.map_nil, List.mem_singleton] at hb
  obtain ⟨p, hp, e'⟩ := List.mem_map.mp ha
  rcases numbered_mem ds _ p hp with ⟨v, _, e''⟩ | hle
  · omega
  · omega

/-- **Which declarations are accepted**: those whose values are distinct, without a label `Undef`. -/
theorem enum_accepted (ds : List Decl) (hne : ds ≠ []) (hf : Fits ds) :
    ((∃ ls, declare ds = .ok ls) ↔ Named ds ∧ (ds.filterMap Decl.value).Nodup) ∧ declare ds ≠ .ub := by
  obtain ⟨M, h0, h1, h2, e⟩ := setLabels_eq ds hne hf
  have hn := numbered_nodup ds (M + 1) (fun d hd v e => by have := h2 d hd v e; omega)
  simp only [declare, e]
  by_cases hN : Named ds
  · simp only [if_pos hN]
    have hu := unique_iff (numbered ds (M + 1) ++ [("Undef".toList, (-1 : Int))]) []
    rw [last_nodup ds M h0, hn] at hu
    by_cases hc : unique (numbered ds (M + 1) ++ [("Undef".toList, (-1 : Int))]) [] = true
    · rw [if_pos hc]
      exact ⟨⟨fun _ => ⟨hN, (hu.mp hc).1⟩, fun _ => ⟨_, rfl⟩⟩, by intro h; cases h⟩
    · rw [if_neg hc]
      refine ⟨⟨(fun h => by obtain ⟨_, h⟩ := h; cases h), fun h => ?_⟩, by intro h; cases h⟩
      exact absurd (hu.mpr ⟨h.2, fun v _ h => by cases h⟩) hc
  · simp only [if_neg hN]
    exact ⟨⟨(fun h => by obtain ⟨_, h⟩ := h; cases h), fun h => absurd h.1 hN⟩, by intro h; cases h⟩

/-- **The values of labels**: those given, and otherwise the numbers above all of those, from 0 if there are none, in the order of the labels;
`Undef` is -1. All are distinct, and no other is negative. -/
theorem enum_values (ds : List Decl) (hne : ds ≠ []) (hf : Fits ds) (ls : List (List Char × Int)) (h : declare ds = .ok ls) :
    ls.length = ds.length + 1 ∧ ls[ds.length]? = some ("Undef".toList, -1) ∧ (ls.map Prod.snd).Nodup ∧
    (∀ p ∈ ls, p ≠ ("Undef".toList, -1) → 0 ≤ p.2) ∧
    ∃ M : Int, (M = -1 ∨ ∃ d ∈ ds, ∃ v : Nat, d.value = some v ∧ M = v) ∧ (∀ d ∈ ds, ∀ v : Nat, d.value = some v → (v : Int) ≤ M) ∧
      ∀ i (hi : i < ds.length), ls[i]? = some (ds[i].name, valueAt ds (M + 1) i hi) := by
  obtain ⟨M, h0, h1, h2, e⟩ := setLabels_eq ds hne hf
  simp only [declare, e] at h
  by_cases hN : Named ds
  · simp only [if_pos hN] at h
    split at h
    · rename_i hc
      injection h with h
      subst h
      have hlen : ∀ (ds : List Decl) (next : Int), (numbered ds next).length = ds.length := by
        intro ds
        induction ds with
        | nil => intro _; rfl
        | cons d ds ih =>
          intro next
          rcases d with ⟨n, _ | v⟩ <;> simp [numbered, ih]
      have hl := hlen ds (M + 1)
      refine ⟨by simp [hl], ?_, ((unique_iff _ _).mp hc).1, ?_, M, h1, h2, ?_⟩
      · rw [List.getElem?_append_right (by omega), hl, Nat.sub_self]; rfl
      · intro p hp hne
        simp only [List.mem_append, List.mem_singleton] at hp
        rcases hp with hp | hp
        · rcases numbered_mem ds _ p hp with ⟨v, _, e'⟩ | hle <;> omega
        · exact absurd hp hne
      · intro i hi
        rw [List.getElem?_append_left (by omega)]
        exact numbered_get ds (M + 1) i hi
    · cases h
  · simp only [if_neg hN] at h
    cases h

/-! ### At run time -/

/-- **`has_label`**, the truth of a value: whether it is that of a label other than `Undef`. -/
theorem hasLabel_iff (ls : List (List Char × Int)) (x : Int) : hasLabel ls x = true ↔ x ≠ -1 ∧ ∃ n, (n, x) ∈ ls := by
  unfold hasLabel
  rw [List.any_eq_true]
  constructor
  · rintro ⟨⟨n, v⟩, hm, hp⟩
    simp only [Bool.and_eq_true, bne_iff_ne, ne_eq, beq_iff_eq] at hp
    rw [hp.2]
    exact ⟨hp.1, n, hm⟩
  · rintro ⟨hx, n, hm⟩
    exact ⟨(n, x), hm, by simp [hx]⟩

theorem nodup_snd : ∀ {ls : List (List Char × Int)}, (ls.map Prod.snd).Nodup → ∀ {n m : List Char} {v : Int}, (n, v) ∈ ls → (m, v) ∈ ls → n = m
  | [], _, _, _, _, h, _ => by cases h
  | (k, u) :: ls, hn, n, m, v, h1, h2 => by
    simp only [List.map_cons, List.nodup_cons] at hn
    rcases List.mem_cons.mp h1 with e1 | h1 <;> rcases List.mem_cons.mp h2 with e2 | h2
    · cases e1; cases e2; rfl
    · cases e1; exact absurd (List.mem_map.mpr ⟨_, h2, rfl⟩) hn.1
    · cases e2; exact absurd (List.mem_map.mpr ⟨_, h1, rfl⟩) hn.1
    · exact nodup_snd hn.2 h1 h2

/-- **What is printed**: the label with the value, or the number if there is none. -/
theorem print_iff (ds : List Decl) (hne : ds ≠ []) (hf : Fits ds) (ls : List (List Char × Int)) (h : declare ds = .ok ls) (x : Int) :
    (∀ n, print ls x = .label n ↔ (n, x) ∈ ls) ∧ (print ls x = .unknown x ↔ ∀ n, (n, x) ∉ ls) := by
  have hn := (enum_values ds hne hf ls h).2.2.1
  unfold print
  cases hfd : ls.find? fun l => l.2 == x with
  | none =>
    have hno : ∀ n, (n, x) ∉ ls := fun n hm => by
      have := List.find?_eq_none.mp hfd (n, x) hm
      simp at this
    exact ⟨fun n => ⟨(fun h => by cases h), fun h => absurd h (hno n)⟩, ⟨fun _ => hno, fun _ => rfl⟩⟩
  | some l =>
    rcases l with ⟨m, v⟩
    have hm := List.mem_of_find?_eq_some hfd
    have hv := List.find?_some hfd
    simp only [beq_iff_eq] at hv
    subst hv
    refine ⟨fun n => ⟨(fun h => by cases h; exact hm), fun h => ?_⟩, ⟨(fun h => by cases h), fun h => absurd hm (h m)⟩⟩
    exact congrArg Text.label (nodup_snd hn hm h)

/-- **Conversions**: an integer becomes the value with its number, if that is an `int64`, and back, if the type holds it; `Undef` becomes -1
as a signed integer, and throws as an unsigned one. -/
theorem conversions (w : Nat) :
    (∀ n : Int, -(2 ^ (w - 1) : Int) ≤ n → n < 2 ^ (w - 1) → toSigned w (fromInt n) = some n) ∧
    (∀ n : Nat, n < 2 ^ w → n < 2 ^ 63 → ∃ x, fromUint n = some x ∧ toUnsigned w x = some (n : Int)) ∧
    (∀ n : Nat, 2 ^ 63 ≤ n → fromUint n = none) ∧
    (∀ x y, toSigned w x = some y → y = x ∧ -(2 ^ (w - 1) : Int) ≤ y ∧ y < 2 ^ (w - 1)) ∧
    (∀ x y, toUnsigned w x = some y → y = x ∧ 0 ≤ y ∧ y < 2 ^ w) ∧
    toSigned w (-1) = some (-1) ∧ toUnsigned w (-1) = none := by
  refine ⟨fun n h1 h2 => ?_, fun n h1 h2 => ⟨n, ?_, ?_⟩, fun n h => ?_, fun x y h => ?_, fun x y h => ?_, ?_, ?_⟩
  · show toSigned w n = some n
    simp only [toSigned]; rw [if_pos ⟨h1, h2⟩]
  · simp only [fromUint]; rw [if_neg (by omega)]
  · simp only [toUnsigned]; rw [if_pos ⟨by omega, by exact_mod_cast h1⟩]
  · simp only [fromUint]; rw [if_pos (by omega)]
  · simp only [toSigned] at h
    split at h
    · rename_i hc; injection h with h; subst h; exact ⟨rfl, hc⟩
    · cases h
  · simp only [toUnsigned] at h
    split at h
    · rename_i hc; injection h with h; subst h; exact ⟨rfl, hc⟩
    · cases h
  · have : (1 : Int) ≤ 2 ^ (w - 1) := by exact_mod_cast Nat.one_le_two_pow
    simp only [toSigned]; rw [if_pos ⟨by omega, by omega⟩]
  · simp only [toUnsigned]; rw [if_neg (by omega)]

/-! ### Examples -/

/-- `enum { A, B = 5, C, D = 2 }` -/
def sample : List Decl := [⟨"A".toList, none⟩, ⟨"B".toList, some 5⟩, ⟨"C".toList, none⟩, ⟨"D".toList, some 2⟩]

theorem sample_fits : Fits sample ∧ sample ≠ [] := by
  refine ⟨⟨by decide, ?_⟩, by decide⟩
  intro d hd v e
  simp only [sample, List.mem_cons, List.not_mem_nil, or_false] at hd
  rcases hd with rfl | rfl | rfl | rfl
  · cases e
  · cases e; decide
  · cases e
  · cases e; decide

theorem sample_values : declare sample =
    .ok [("A".toList, 6), ("B".toList, 5), ("C".toList, 7), ("D".toList, 2), ("Undef".toList, -1)] := by decide

/-- **Values that are no `int` are changed**: `A = 4294967296` has the value 0, `A = 4294967295, B = 3` the value 4, `A = 2147483648` the
value -2147483647; `A = 4294967294` is rejected, and so is `A = 0, B = 4294967296`. -/
theorem large_values :
    declare [⟨['A'], some 4294967296⟩] = .ok [(['A'], 0), ("Undef".toList, -1)] ∧
    declare [⟨['A'], some 4294967295⟩, ⟨['B'], some 3⟩] = .ok [(['A'], 4), (['B'], 3), ("Undef".toList, -1)] ∧
    declare [⟨['A'], some 2147483648⟩] = .ok [(['A'], -2147483647), ("Undef".toList, -1)] ∧
    declare [⟨['A'], some 4294967294⟩] = .error ∧
    declare [⟨['A'], some 0⟩, ⟨['B'], some 4294967296⟩] = .error := by decide

/-- **The largest `int`**: adding one to it is undefined, even if no label needs the result. -/
theorem largest_value : declare [⟨['A'], some 2147483647⟩] = .ub := by decide

/-- **Truth**: a value other than `Undef` without a label is false. -/
theorem unknown_false : declare [⟨['A'], none⟩] = .ok [(['A'], 0), ("Undef".toList, -1)] ∧
    hasLabel [(['A'], 0), ("Undef".toList, -1)] 7 = false ∧ print [(['A'], 0), ("Undef".toList, -1)] 7 = .unknown 7 := by decide

end Verif.Front.Enum
