import Verif.Driver.RegistrySpec
/-!
# The parser registry: property theorems (C66)
-/

namespace Verif.Driver
open Verif.Bytes

/-! ## What the tables hold -/

/-- Registering under several keys. -/
def Table.addAll (t : Table) (i : Nat) (ks : List Str) : Table := ks.foldl (fun t k => t.add k i) t

theorem Table.addAll_apply (i : Nat) (n : Str) (ks : List Str) (t : Table) :
    t.addAll i ks n = t n ++ (ks.filter (· = n)).map (fun _ => i) := by
  induction ks generalizing t with
  | nil => simp [Table.addAll]
  | cons k ks ih =>
    have e : t.addAll i (k :: ks) = (t.add k i).addAll i ks := rfl
    rw [e, ih]
    unfold Table.add
    by_cases h : n = k
    · subst h; simp
    · have h' : ¬ k = n := fun x => h x.symm
      simp [h, h']

theorem Table.addAll_append (t : Table) (i : Nat) (a b : List Str) : t.addAll i (a ++ b) = (t.addAll i a).addAll i b := by
  unfold Table.addAll; exact List.foldl_append

/-- The names a port adds. -/
def portNames (x : Str × Dir) : List Str := match x.2 with
  | .orig => [x.1 ++ pctOrig]
  | .resp => [x.1 ++ pctResp]
  | .both => [x.1, x.1 ++ pctOrig, x.1 ++ pctResp]
  | .undef => []

theorem addPort_eq (t : Table) (i : Nat) (x : Str × Dir) : addPort t i x = t.addAll i (portNames x) := by
  obtain ⟨a, d⟩ := x
  cases d <;> rfl

theorem addPorts_eq (i : Nat) (xs : List (Str × Dir)) (t : Table) :
    xs.foldl (fun t x => addPort t i x) t = t.addAll i (xs.flatMap portNames) := by
  induction xs generalizing t with
  | nil => rfl
  | cons x xs ih => rw [List.foldl_cons, ih, addPort_eq, List.flatMap_cons, Table.addAll_append]

/-- The key of a MIME type (specification). -/
def keyOf (m : Mime) : Str := if m.main = star then [] else if m.sub = star then m.main else m.main ++ slash ++ m.sub

theorem Mime.ensureValid_ok {m : Mime} (h : m.Valid) : m.ensureValid = .ok () := by
  unfold Mime.ensureValid
  rw [if_neg (fun x => by cases x with | inl x => exact h.1 x | inr x => exact h.2 x)]

theorem Mime.asKey_ok {m : Mime} (h : m.Valid) : m.asKey = .ok (keyOf m) := by
  unfold Mime.asKey keyOf Mime.text
  rw [Mime.ensureValid_ok h]
  simp only [Res.ok_bind]
  split
  · rfl
  · split <;> rfl

theorem addMimes_eq (i : Nat) (ms : List Mime) (h : ∀ m ∈ ms, m.Valid) (ts : Table × Table) :
    addMimes i ms ts = .ok (ts.1.addAll i ((ms.filter (fun m => m.main ≠ star ∧ m.sub ≠ star)).map (fun m => m.main ++ slash ++ m.sub)),
      ts.2.addAll i (ms.map keyOf)) := by
  induction ms generalizing ts with
  | nil => rfl
  | cons m ms ih =>
    have hm := h m (List.mem_cons_self)
    unfold addMimes Mime.text
    rw [Mime.ensureValid_ok hm, Mime.asKey_ok hm]
    by_cases hw : m.isWildcard = true
    · have hn : ¬ (m.main ≠ star ∧ m.sub ≠ star) := by
        unfold Mime.isWildcard at hw
        simp only [decide_eq_true_eq] at hw
        intro x
        cases hw with
        | inl y => exact x.1 y
        | inr y => exact x.2 y
      rw [if_pos hw]
      simp only [Res.ok_bind]
      rw [ih (fun m' hm' => h m' (List.mem_cons_of_mem _ hm')), List.filter_cons_of_neg (by simpa using hn)]
      rfl
    · have hn : m.main ≠ star ∧ m.sub ≠ star := by
        unfold Mime.isWildcard at hw
        simp only [decide_eq_true_eq] at hw
        exact ⟨fun x => hw (.inl x), fun x => hw (.inr x)⟩
      rw [if_neg hw]
      simp only [Res.ok_bind]
      rw [ih (fun m' hm' => h m' (List.mem_cons_of_mem _ hm')), List.filter_cons_of_pos (by simpa using hn)]
      rfl

theorem names_eq (p : Parser) : p.names = [p.name] ++ p.ports.flatMap portNames
    ++ (p.mimes.filter (fun m => m.main ≠ star ∧ m.sub ≠ star)).map (fun m => m.main ++ slash ++ m.sub) := rfl

/-- The default parser after the loop. -/
def defaultFrom : Nat → List Parser → Option Nat → Option Nat
  | _, [], d => d
  | i, p :: ps, d => defaultFrom (i + 1) ps (pickDefault d p i)

theorem initLoop_eq (ps : List Parser) (h : MimesValid ps) (i : Nat) (d : Option Nat) (ts : Table × Table) :
    ∃ names mimes, initLoop i ps d ts = .ok (defaultFrom i ps d, names, mimes) ∧
      (∀ n, names n = ts.1 n ++ ((ps.zipIdx i).flatMap (fun x => x.1.names.map (·, x.2))).filterMap (fun e => if e.1 = n then some e.2 else none)) ∧
      (∀ k, mimes k = ts.2 k ++ ((ps.zipIdx i).flatMap (fun x => (x.1.mimes.map keyOf).map (·, x.2))).filterMap (fun e => if e.1 = k then some e.2 else none)) := by
  induction ps generalizing i d ts with
  | nil => exact ⟨ts.1, ts.2, rfl, by simp, by simp⟩
  | cons p ps ih =>
    unfold initLoop
    dsimp only
    rw [addMimes_eq i p.mimes (h p List.mem_cons_self)]
    simp only [Res.ok_bind]
    obtain ⟨names, mimes, e1, e2, e3⟩ := ih (fun q hq => h q (List.mem_cons_of_mem _ hq)) (i + 1) (pickDefault d p i) (_, _)
    refine ⟨names, mimes, e1, ?_, ?_⟩
    · intro n
      rw [e2 n, addPorts_eq]
      have : ts.1.add p.name i = ts.1.addAll i [p.name] := rfl
      dsimp only
      rw [this, ← Table.addAll_append, ← Table.addAll_append, ← List.append_assoc [p.name], ← names_eq, Table.addAll_apply, List.append_assoc]
      congr 1
      rw [List.zipIdx_cons, List.flatMap_cons, List.filterMap_append]
      congr 1
      generalize p.names = l
      induction l with
      | nil => rfl
      | cons x l ihl => by_cases hx : x = n <;> simp [hx, ihl]
    · intro k
      rw [e3 k]
      dsimp only
      rw [Table.addAll_apply, List.append_assoc]
      congr 1
      rw [List.zipIdx_cons, List.flatMap_cons, List.filterMap_append]
      congr 1
      generalize p.mimes.map keyOf = l
      induction l with
      | nil => rfl
      | cons x l ihl => by_cases hx : x = k <;> simp [hx, ihl]

theorem register_all (ps : List Parser) (r : Registry) :
    ps.foldl Registry.register r = { r with parsers := r.parsers ++ ps } := by
  induction ps generalizing r with
  | nil => simp
  | cons p ps ih => rw [List.foldl_cons, ih]; unfold Registry.register; simp

theorem alias_parsers (r : Registry) (q a : Str) : (r.alias q a).1.parsers = r.parsers ∧ (r.alias q a).1.dflt = r.dflt ∧
    (r.alias q a).1.byMime = r.byMime := by
  unfold Registry.alias
  split
  · exact ⟨rfl, rfl, rfl⟩
  · split
    · exact ⟨rfl, rfl, rfl⟩
    · split <;> exact ⟨rfl, rfl, rfl⟩

theorem alias_byName (r : Registry) (q a n : Str) : (r.alias q a).1.byName n = r.byName n ++
    ((if q = [] ∨ a = [] then [] else match findPublic q 0 r.parsers with
        | some i => (aliasNames a).map (·, i)
        | none => []) : List (Str × Nat)).filterMap (fun e => if e.1 = n then some e.2 else none) := by
  unfold Registry.alias
  by_cases h1 : q = []
  · rw [if_pos h1, if_pos (.inl h1)]; simp
  · rw [if_neg h1]
    by_cases h2 : a = []
    · rw [if_pos h2, if_pos (.inr h2)]; simp
    · rw [if_neg h2, if_neg (fun x => by cases x with | inl x => exact h1 x | inr x => exact h2 x)]
      cases findPublic q 0 r.parsers with
      | none => simp
      | some i =>
        have key : ∀ ks : List Str, r.byName.addAll i ks n = r.byName n ++ (ks.map (·, i)).filterMap (fun e => if e.1 = n then some e.2 else none) := by
          intro ks
          rw [Table.addAll_apply]
          congr 1
          induction ks with
          | nil => rfl
          | cons x l ihl => by_cases hx : x = n <;> simp [hx, ihl]
        dsimp only
        unfold aliasNames
        by_cases h3 : (37 : Byte) ∈ a
        · rw [if_pos h3, if_pos h3]; exact key [a]
        · rw [if_neg h3, if_neg h3]; exact key [a, a ++ pctOrig, a ++ pctResp]

theorem aliases_eq (als : List (Str × Str)) (r : Registry) :
    (als.foldl (fun r a => (r.alias a.1 a.2).1) r).parsers = r.parsers ∧
    (als.foldl (fun r a => (r.alias a.1 a.2).1) r).dflt = r.dflt ∧
    (als.foldl (fun r a => (r.alias a.1 a.2).1) r).byMime = r.byMime ∧
    ∀ n, (als.foldl (fun r a => (r.alias a.1 a.2).1) r).byName n = r.byName n ++
      (als.flatMap (fun x => if x.1 = [] ∨ x.2 = [] then [] else match findPublic x.1 0 r.parsers with
        | some i => (aliasNames x.2).map (·, i)
        | none => [])).filterMap (fun e => if e.1 = n then some e.2 else none) := by
  induction als generalizing r with
  | nil => exact ⟨rfl, rfl, rfl, by simp⟩
  | cons a als ih =>
    obtain ⟨h1, h2, h3, h4⟩ := ih (r.alias a.1 a.2).1
    obtain ⟨k1, k2, k3⟩ := alias_parsers r a.1 a.2
    rw [List.foldl_cons]
    refine ⟨h1.trans k1, h2.trans k2, h3.trans k3, ?_⟩
    intro n
    rw [h4 n, alias_byName, k1, List.append_assoc, List.flatMap_cons, List.filterMap_append]

/-- The registry after set-up. -/
theorem setup_spec (ps : List Parser) (h : MimesValid ps) (als : List (Str × Str)) :
    ∃ r, setup ps als = .ok r ∧ r.parsers = ps ∧ r.dflt = defaultFrom 0 ps none ∧
      (∀ n, r.byName n = (entries ps als).filterMap (fun e => if e.1 = n then some e.2 else none)) ∧
      (∀ k, r.byMime k = (ps.zipIdx.flatMap (fun x => (x.1.mimes.map keyOf).map (·, x.2))).filterMap (fun e => if e.1 = k then some e.2 else none)) := by
  obtain ⟨names, mimes, e1, e2, e3⟩ := initLoop_eq ps h 0 none (fun _ => [], fun _ => [])
  unfold setup
  rw [register_all]
  unfold Registry.init
  dsimp only
  rw [if_neg (by simp)]
  simp only [List.nil_append, e1, Res.ok_bind, Res.pure_eq]
  obtain ⟨h1, h2, h3, h4⟩ := aliases_eq als { parsers := ps, dflt := defaultFrom 0 ps none, byName := names, byMime := mimes, initialized := true }
  refine ⟨_, rfl, h1, h2, ?_, ?_⟩
  · intro n
    rw [h4 n]
    dsimp only
    rw [e2 n]
    unfold entries
    rw [List.filterMap_append]
    rfl
  · intro k
    rw [h3]
    dsimp only
    rw [e3 k]
    simp

/-! ## Looking up parsers by name -/

/-- All registrations of a name. -/
def holders (ps : List Parser) (als : List (Str × Str)) (n : Str) : List Nat :=
  (entries ps als).filterMap (fun e => if e.1 = n then some e.2 else none)

theorem mem_holders {ps : List Parser} {als : List (Str × Str)} {n : Str} {i : Nat} : i ∈ holders ps als n ↔ (n, i) ∈ entries ps als := by
  unfold holders
  rw [List.mem_filterMap]
  constructor
  · rintro ⟨⟨a, b⟩, h1, h2⟩
    dsimp only at h2
    split at h2
    · rename_i hc; injection h2 with h2; subst hc; subst h2; exact h1
    · cases h2
  · intro h; exact ⟨(n, i), h, by simp⟩

theorem findPublic_spec (name : Str) (ps : List Parser) (k : Nat) :
    match findPublic name k ps with
    | some i => k ≤ i ∧ First ps name (i - k)
    | none => ∀ p ∈ ps, ¬ (p.isPublic = true ∧ p.name = name) := by
  induction ps generalizing k with
  | nil => unfold findPublic; intro p hp; cases hp
  | cons p ps ih =>
    unfold findPublic
    by_cases h : p.isPublic = true ∧ p.name = name
    · rw [if_pos h]
      refine ⟨Nat.le_refl _, ?_⟩
      rw [Nat.sub_self]
      exact ⟨⟨p, rfl, h.1, h.2⟩, fun j _ hj => absurd hj (Nat.not_lt_zero _)⟩
    · rw [if_neg h]
      have := ih (k + 1)
      split at this
      · rename_i i _
        obtain ⟨h1, ⟨q, h2, h3⟩, h4⟩ := this
        have e : i - k = (i - (k + 1)) + 1 := by omega
        refine ⟨by omega, ⟨q, by rw [e]; simpa using h2, h3⟩, ?_⟩
        intro j r hj hr
        cases j with
        | zero => simp only [List.getElem?_cons_zero, Option.some.injEq] at hr; subst hr; exact h
        | succ j => exact h4 j r (by omega) (by simpa using hr)
      · intro q hq
        cases hq with
        | head => exact h
        | tail _ hq => exact this q hq

theorem First.unique {ps : List Parser} {name : Str} {i j : Nat} (h : First ps name i) (g : First ps name j) : i = j := by
  obtain ⟨⟨p, h1, h2⟩, h3⟩ := h
  obtain ⟨⟨q, g1, g2⟩, g3⟩ := g
  rcases Nat.lt_trichotomy i j with x | x | x
  · exact absurd h2 (g3 i p x h1)
  · exact x
  · exact absurd g2 (h3 j q x g1)

theorem findPublic_iff {ps : List Parser} {name : Str} {i : Nat} : findPublic name 0 ps = some i ↔ First ps name i := by
  have := findPublic_spec name ps 0
  constructor
  · intro h; rw [h] at this; exact this.2
  · intro h
    cases hf : findPublic name 0 ps with
    | none =>
      rw [hf] at this
      obtain ⟨⟨p, h1, h2⟩, -⟩ := h
      exact absurd h2 (this p (List.mem_of_getElem? h1))
    | some j => rw [hf] at this; rw [First.unique h this.2]; rfl

theorem mem_entries {ps : List Parser} {als : List (Str × Str)} {n : Str} {i : Nat} : (n, i) ∈ entries ps als ↔ GoesBy ps als i n := by
  have hz : ∀ {p i}, (p, i) ∈ ps.zipIdx ↔ ps[i]? = some p := by
    intro p i; exact List.mem_zipIdx_iff_getElem?
  unfold entries
  rw [List.mem_append, List.mem_flatMap, List.mem_flatMap]
  constructor
  · rintro (⟨⟨p, j⟩, h1, h2⟩ | ⟨⟨q, a⟩, h1, h2⟩)
    · rw [List.mem_map] at h2
      obtain ⟨x, h2, h3⟩ := h2
      simp only [Prod.mk.injEq] at h3
      obtain ⟨rfl, rfl⟩ := h3
      rw [hz] at h1
      unfold Parser.names at h2
      simp only [List.mem_append, List.mem_flatMap, List.mem_map, List.mem_filter, decide_eq_true_eq] at h2
      rcases h2 with (h2 | ⟨⟨t, d⟩, h2, h3⟩) | ⟨m, ⟨h2, h3⟩, rfl⟩
      · simp only [List.mem_singleton] at h2; subst h2; exact .name h1
      · cases d
        · simp only [List.mem_singleton] at h3; subst h3; exact .portOrig h1 h2 (.inl rfl)
        · simp only [List.mem_singleton] at h3; subst h3; exact .portResp h1 h2 (.inl rfl)
        · simp only [List.mem_cons, List.not_mem_nil, or_false] at h3
          rcases h3 with rfl | rfl | rfl
          · exact .port h1 h2
          · exact .portOrig h1 h2 (.inr rfl)
          · exact .portResp h1 h2 (.inr rfl)
        · cases h3
      · exact .mime h1 h2 h3.1 h3.2
    · dsimp only at h2
      split at h2
      · cases h2
      · rename_i hn
        have hq : q ≠ [] := fun x => hn (.inl x)
        have ha : a ≠ [] := fun x => hn (.inr x)
        split at h2
        · rename_i k hk
          rw [findPublic_iff] at hk
          rw [List.mem_map] at h2
          obtain ⟨x, h2, h3⟩ := h2
          simp only [Prod.mk.injEq] at h3
          obtain ⟨rfl, rfl⟩ := h3
          unfold aliasNames at h2
          split at h2
          · simp only [List.mem_singleton] at h2; subst h2; exact .alias h1 hq ha hk
          · rename_i hp
            simp only [List.mem_cons, List.not_mem_nil, or_false] at h2
            rcases h2 with rfl | rfl | rfl
            · exact .alias h1 hq ha hk
            · exact .aliasOrig h1 hq ha hp hk
            · exact .aliasResp h1 hq ha hp hk
        · cases h2
  · intro h
    have al : ∀ {q a : Str} {x : Str}, (q, a) ∈ als → q ≠ [] → a ≠ [] → First ps q i → x ∈ aliasNames a →
        ∃ y ∈ als, (x, i) ∈ (if y.1 = [] ∨ y.2 = [] then [] else match findPublic y.1 0 ps with
          | some i => (aliasNames y.2).map (·, i)
          | none => []) := by
      intro q a x h1 h2 h3 h4 h5
      refine ⟨(q, a), h1, ?_⟩
      dsimp only
      rw [if_neg (fun x => by cases x with | inl x => exact h2 x | inr x => exact h3 x), findPublic_iff.2 h4]
      exact List.mem_map.2 ⟨x, h5, rfl⟩
    cases h with
    | name h1 => exact .inl ⟨_, hz.2 h1, by simp [Parser.names]⟩
    | port h1 h2 =>
      refine .inl ⟨_, hz.2 h1, ?_⟩
      simp only [Parser.names, List.mem_map, List.mem_append, List.mem_flatMap, Prod.mk.injEq, and_true, exists_eq_right]
      exact .inl (.inr ⟨_, h2, by simp⟩)
    | portOrig h1 h2 h3 =>
      refine .inl ⟨_, hz.2 h1, ?_⟩
      simp only [Parser.names, List.mem_map, List.mem_append, List.mem_flatMap, Prod.mk.injEq, and_true, exists_eq_right]
      exact .inl (.inr ⟨_, h2, by rcases h3 with rfl | rfl <;> simp⟩)
    | portResp h1 h2 h3 =>
      refine .inl ⟨_, hz.2 h1, ?_⟩
      simp only [Parser.names, List.mem_map, List.mem_append, List.mem_flatMap, Prod.mk.injEq, and_true, exists_eq_right]
      exact .inl (.inr ⟨_, h2, by rcases h3 with rfl | rfl <;> simp⟩)
    | mime h1 h2 h3 h4 =>
      refine .inl ⟨_, hz.2 h1, ?_⟩
      simp only [Parser.names, List.mem_map, List.mem_append, List.mem_filter, decide_eq_true_eq, Prod.mk.injEq, and_true, exists_eq_right]
      exact .inr ⟨_, ⟨h2, h3, h4⟩, rfl⟩
    | alias h1 h2 h3 h4 => exact .inr (al h1 h2 h3 h4 (by unfold aliasNames; split <;> simp))
    | aliasOrig h1 h2 h3 h4 h5 => exact .inr (al h1 h2 h3 h5 (by unfold aliasNames; rw [if_neg h4]; simp))
    | aliasResp h1 h2 h3 h4 h5 => exact .inr (al h1 h2 h3 h5 (by unfold aliasNames; rw [if_neg h4]; simp))

theorem GoesBy.exists {ps : List Parser} {als : List (Str × Str)} {i : Nat} {n : Str} (h : GoesBy ps als i n) :
    ∃ p, ps[i]? = some p := by
  cases h with
  | name h => exact ⟨_, h⟩
  | port h => exact ⟨_, h⟩
  | portOrig h => exact ⟨_, h⟩
  | portResp h => exact ⟨_, h⟩
  | mime h => exact ⟨_, h⟩
  | alias _ _ _ h => exact ⟨_, h.1.choose_spec.1⟩
  | aliasOrig _ _ _ _ h => exact ⟨_, h.1.choose_spec.1⟩
  | aliasResp _ _ _ _ h => exact ⟨_, h.1.choose_spec.1⟩

/-- C66. Initialization succeeds if the MIME types are valid, and the list of parsers is the one registered. -/
theorem C66_setup_succeeds (ps : List Parser) (h : MimesValid ps) (als : List (Str × Str)) :
    ∃ r, setup ps als = .ok r ∧ r.parsers = ps := by
  obtain ⟨r, h1, h2, -⟩ := setup_spec ps h als
  exact ⟨r, h1, h2⟩

theorem filter_public_ne {ps : List Parser} {p : Parser} (h : p ∈ ps) (hp : p.isPublic = true) : ¬ ps.filter (·.isPublic) = [] := by
  intro x
  rw [List.filter_eq_nil_iff] at x
  exact x p h hp

/-- The look-up by name in terms of the registrations. -/
theorem lookup_eq {ps : List Parser} {als : List (Str × Str)} {r : Registry} (h : MimesValid ps) (hr : setup ps als = .ok r)
    {n : Str} (hn : n ≠ []) (hp : ∃ p ∈ ps, p.isPublic = true) (scope : Option Nat) :
    r.lookup n scope = match holders ps als n with
      | [] => .error .noMatch
      | [i] => if scope = none ∨ ps[i]?.map (·.scope) = scope then .ok i else .error .noMatch
      | _ => .error .multiple := by
  obtain ⟨r', h1, h2, -, h4, -⟩ := setup_spec ps h als
  rw [h1] at hr
  injection hr with hr
  subst hr
  obtain ⟨p, hp1, hp2⟩ := hp
  unfold Registry.lookup
  rw [h2, if_neg (filter_public_ne hp1 hp2), if_neg hn, h4 n]
  change (if (holders ps als n).length > 1 then _ else match (holders ps als n).find? _ with | some i => _ | none => _) = _
  cases holders ps als n with
  | nil => rfl
  | cons i l => cases l with
    | nil =>
      simp only [List.length_singleton, Nat.lt_irrefl, gt_iff_lt, if_false, List.find?_cons, List.find?_nil]
      by_cases hc : scope = none ∨ ps[i]?.map (·.scope) = scope
      · simp [hc]
      · simp only [hc, if_false, decide_false]
    | cons j l => simp

/-- C66. A parser that is found goes by that name, and no other parser does; it has the scope that was asked for. -/
theorem C66_found_is_the_only_one {ps : List Parser} {als : List (Str × Str)} {r : Registry} (h : MimesValid ps)
    (hr : setup ps als = .ok r) {n : Str} (hn : n ≠ []) {scope : Option Nat} {i : Nat} (hl : r.lookup n scope = .ok i) :
    GoesBy ps als i n ∧ (∀ j, GoesBy ps als j n → j = i) ∧ (∀ s, scope = some s → ∃ p, ps[i]? = some p ∧ p.scope = s) := by
  have hpub : ∃ p ∈ ps, p.isPublic = true := by
    obtain ⟨r', h1, h2, -⟩ := setup_spec ps h als
    rw [h1] at hr
    injection hr with hr
    subst hr
    unfold Registry.lookup at hl
    rw [h2] at hl
    split at hl
    · cases hl
    · rename_i hx
      cases hf : ps.filter (·.isPublic) with
      | nil => exact absurd hf hx
      | cons p l =>
        have : p ∈ ps.filter (·.isPublic) := by rw [hf]; exact List.mem_cons_self
        rw [List.mem_filter] at this
        exact ⟨p, this.1, this.2⟩
  rw [lookup_eq h hr hn hpub] at hl
  split at hl
  · cases hl
  · rename_i k hk
    split at hl
    · rename_i hc
      injection hl with hl
      subst hl
      have hm : ∀ j, GoesBy ps als j n ↔ j = k := by
        intro j; rw [← mem_entries, ← mem_holders, hk, List.mem_singleton]
      refine ⟨(hm k).2 rfl, fun j hj => (hm j).1 hj, ?_⟩
      intro s hs
      obtain ⟨p, hp⟩ := ((hm k).2 rfl).exists
      rw [hs, hp] at hc
      cases hc with
      | inl x => cases x
      | inr x => simp only [Option.map_some, Option.some.injEq] at x; exact ⟨p, hp, x⟩
    · cases hl
  · cases hl

/-- C66. If there is a public parser at all, asking for a name nobody has fails with "no matching parser". -/
theorem C66_unknown_name {ps : List Parser} {als : List (Str × Str)} {r : Registry} (h : MimesValid ps)
    (hr : setup ps als = .ok r) {n : Str} (hn : n ≠ []) (hp : ∃ p ∈ ps, p.isPublic = true)
    (hno : ∀ j, ¬ GoesBy ps als j n) (scope : Option Nat) : r.lookup n scope = .error .noMatch := by
  have : holders ps als n = [] := by
    cases hh : holders ps als n with
    | nil => rfl
    | cons i l => exact absurd (mem_entries.1 (mem_holders.1 (by rw [hh]; exact List.mem_cons_self))) (hno i)
  rw [lookup_eq h hr hn hp, this]

/-- C66. If two parsers go by a name, the look-up refuses to choose. -/
theorem C66_ambiguous_name {ps : List Parser} {als : List (Str × Str)} {r : Registry} (h : MimesValid ps)
    (hr : setup ps als = .ok r) {n : Str} (hn : n ≠ []) (hp : ∃ p ∈ ps, p.isPublic = true) {i j : Nat}
    (hi : GoesBy ps als i n) (hj : GoesBy ps als j n) (hne : i ≠ j) (scope : Option Nat) :
    r.lookup n scope = .error .multiple := by
  have h1 : i ∈ holders ps als n := mem_holders.2 (mem_entries.2 hi)
  have h2 : j ∈ holders ps als n := mem_holders.2 (mem_entries.2 hj)
  rw [lookup_eq h hr hn hp]
  split
  · rename_i hx; rw [hx] at h1; cases h1
  · rename_i k hx
    rw [hx, List.mem_singleton] at h1 h2
    exact absurd (h1.trans h2.symm) hne
  · rfl

/-- C66. A name that exactly one parser declares, and declares only once, finds that parser. Missing from the full claim
    ("if exactly one parser goes by the name, it is found"): a parser that declares a name twice is not found by it, see
    `C66_fails_name_declared_twice`. -/
theorem C66_lookup_finds_partial {ps : List Parser} {als : List (Str × Str)} {r : Registry} (h : MimesValid ps)
    (hr : setup ps als = .ok r) {n : Str} (hn : n ≠ []) (hp : ∃ p ∈ ps, p.isPublic = true) {i : Nat}
    (hi : GoesBy ps als i n) (ho : ∀ j, GoesBy ps als j n → j = i)
    (hone : ((entries ps als).filter (fun e => e.1 = n)).length ≤ 1) {scope : Option Nat}
    (hs : ∀ s, scope = some s → ∃ p, ps[i]? = some p ∧ p.scope = s) : r.lookup n scope = .ok i := by
  have h1 : i ∈ holders ps als n := mem_holders.2 (mem_entries.2 hi)
  have hlen : (holders ps als n).length ≤ 1 := by
    refine Nat.le_trans (Nat.le_of_eq ?_) hone
    unfold holders
    generalize entries ps als = l
    induction l with
    | nil => rfl
    | cons x l ih => by_cases hx : x.1 = n <;> simp [hx, ih]
  rw [lookup_eq h hr hn hp]
  cases hh : holders ps als n with
  | nil => rw [hh] at h1; cases h1
  | cons k l => cases l with
    | nil =>
      rw [hh, List.mem_singleton] at h1
      subst h1
      dsimp only
      rw [if_pos]
      cases scope with
      | none => exact .inl rfl
      | some s =>
        obtain ⟨p, hp1, hp2⟩ := hs s rfl
        rw [hp1]; exact .inr (by simp [hp2])
    | cons j l => rw [hh] at hlen; simp at hlen

/-- C66. Without any public parser nothing is found. -/
theorem C66_no_parsers {ps : List Parser} {als : List (Str × Str)} {r : Registry} (h : MimesValid ps)
    (hr : setup ps als = .ok r) (hp : ∀ p ∈ ps, p.isPublic = false) (n : Str) (scope : Option Nat) :
    r.lookup n scope = .error .noParsers := by
  obtain ⟨r', h1, h2, -⟩ := setup_spec ps h als
  rw [h1] at hr
  injection hr with hr
  subst hr
  unfold Registry.lookup
  rw [h2, if_pos]
  rw [List.filter_eq_nil_iff]
  intro p hp'
  rw [hp p hp']
  simp

/-! ## The default parser -/

theorem defaultFrom_spec (ps : List Parser) (k : Nat) (d : Option Nat) :
    defaultFrom k ps d = match ((ps.zipIdx k).filter (fun x => x.1.isPublic)).getLast? with
      | none => d
      | some x => if (((ps.zipIdx k).filter (fun x => x.1.isPublic)).length + (if d = none then 0 else 1)) % 2 = 1 then some x.2 else none := by
  induction ps generalizing k d with
  | nil => rfl
  | cons p ps ih =>
    unfold defaultFrom
    rw [ih, List.zipIdx_cons]
    unfold pickDefault
    by_cases hp : p.isPublic = true
    · rw [if_pos hp, List.filter_cons_of_pos (by simpa using hp)]
      generalize (List.filter (fun x => x.1.isPublic) (ps.zipIdx (k + 1))) = l
      cases hl : l.getLast? with
      | none =>
        rw [List.getLast?_eq_none_iff] at hl
        subst hl
        cases d <;> simp
      | some x =>
        rw [List.getLast?_cons, hl]
        simp only [Option.getD_some, List.length_cons]
        cases d <;> simp <;> congr 1 <;> simp <;> omega
    · rw [if_neg hp, List.filter_cons_of_neg (by simpa using hp)]

/-- The public parsers with their positions. -/
def publics (ps : List Parser) : List (Parser × Nat) := ps.zipIdx.filter (fun x => x.1.isPublic)

/-- C66. Without a name, the look-up gives the last public parser if their number is odd, and refuses to choose if it is
    even. (The documented behaviour is: "if there's only one parser available, that one is taken".) -/
theorem C66_default_exact {ps : List Parser} {als : List (Str × Str)} {r : Registry} (h : MimesValid ps)
    (hr : setup ps als = .ok r) (scope : Option Nat) :
    r.lookup [] scope = match (publics ps).getLast? with
      | none => .error .noParsers
      | some x => if (publics ps).length % 2 = 1 then .ok x.2 else .error .needSelection := by
  obtain ⟨r', h1, h2, h3, -⟩ := setup_spec ps h als
  rw [h1] at hr
  injection hr with hr
  subst hr
  unfold Registry.lookup
  rw [h2, h3, defaultFrom_spec]
  have e : ∀ k : Nat, (ps.zipIdx k).filter (fun x => x.1.isPublic) = [] ↔ ps.filter (·.isPublic) = [] := by
    intro k
    rw [List.filter_eq_nil_iff, List.filter_eq_nil_iff]
    constructor
    · intro x p hp
      obtain ⟨i, hi, hi'⟩ := List.getElem_of_mem hp
      exact x (p, k + i) (List.mk_mem_zipIdx_iff_le_and_getElem?_sub.2 ⟨by omega, by rw [show k + i - k = i by omega, List.getElem?_eq_getElem hi, hi']⟩)
    · intro x p hp; exact x p.1 (List.fst_mem_of_mem_zipIdx hp)
  change _ = match (publics ps).getLast? with | none => _ | some x => _
  cases hl : (publics ps).getLast? with
  | none =>
    rw [List.getLast?_eq_none_iff] at hl
    rw [if_pos ((e 0).1 hl)]
  | some x =>
    have hne : ¬ ps.filter (·.isPublic) = [] := by
      intro y
      have := (e 0).2 y
      unfold publics at hl
      rw [this] at hl
      cases hl
    rw [if_neg hne, if_pos rfl]
    unfold publics at hl ⊢
    rw [hl]
    dsimp only
    simp only [if_true, Nat.add_zero]
    by_cases hc : (ps.zipIdx.filter (fun x => x.1.isPublic)).length % 2 = 1
    · rw [if_pos hc, if_pos hc]
    · rw [if_neg hc, if_neg hc]

/-- C66. Without a name: with exactly one public parser it is found; with two, the look-up refuses to choose. Missing from
    the full claim: three or more public parsers, see `C66_fails_three_public_parsers`. -/
theorem C66_default_partial {ps : List Parser} {als : List (Str × Str)} {r : Registry} (h : MimesValid ps)
    (hr : setup ps als = .ok r) (scope : Option Nat) :
    (∀ p i, publics ps = [(p, i)] → r.lookup [] scope = .ok i) ∧
    ((publics ps).length = 2 → r.lookup [] scope = .error .needSelection) := by
  rw [C66_default_exact h hr]
  constructor
  · intro p i hp; rw [hp]; rfl
  · intro hp
    cases hl : publics ps with
    | nil => rw [hl] at hp; cases hp
    | cons a l =>
      cases l with
      | nil => rw [hl] at hp; simp at hp
      | cons b l => rw [hl] at hp; simp at hp; subst hp; simp

/-! ## Order of events -/

/-- C66. Initializing again changes nothing; parsers registered after initialization are not found by any name. -/
theorem C66_init_once {r : Registry} (h : r.initialized = true) (p : Parser) :
    r.init = .ok r ∧ (r.register p).init = .ok (r.register p) ∧ (r.register p).byName = r.byName ∧ (r.register p).byMime = r.byMime := by
  refine ⟨?_, ?_, rfl, rfl⟩
  · unfold Registry.init; rw [if_pos h]
  · unfold Registry.init; rw [if_pos (show (r.register p).initialized = true from h)]

/-! ## MIME types -/

theorem trim_fixed {s : Str} (h1 : ∀ c, s.head? = some c → isWs c = false) (h2 : ∀ c, s.getLast? = some c → isWs c = false) :
    trim isWs s = s := by
  have hr : rtrim isWs s = s := by
    obtain ⟨b, e, hb, -⟩ := rtrim_spec isWs s
    cases hl : b.getLast? with
    | none => rw [List.getLast?_eq_none_iff] at hl; rw [hl, List.append_nil] at e; exact e.symm
    | some c =>
      have hs : s.getLast? = some c := by rw [e, List.getLast?_append, hl]; rfl
      have := hb c (List.mem_of_getLast? hl)
      rw [h2 c hs] at this; cases this
  unfold trim
  rw [hr]
  obtain ⟨a, e, ha, -⟩ := ltrim_spec isWs s
  cases a with
  | nil => exact e.symm
  | cons c a =>
    have := ha c List.mem_cons_self
    rw [h1 c (by rw [e]; rfl)] at this; cases this

theorem trim_idem (s : Str) : trim isWs (trim isWs s) = trim isWs s := by
  obtain ⟨a, b, -, -, h3, h4, -⟩ := C30_strip isWs .both s
  exact trim_fixed (h3 (by decide)) (h4 (by decide))

theorem trim_mem {s : Str} {c : Byte} (h : c ∈ trim isWs s) : c ∈ s := by
  obtain ⟨a, b, e, -⟩ := C30_strip isWs .both s
  rw [e]
  exact List.mem_append_left _ (List.mem_append_right _ h)

theorem slash_free {a b s : Str} (h : s = a ++ slash ++ b) (hf : ∀ q, q < a.length → ¬ slash <+: s.drop q) : (47 : Byte) ∉ a := by
  intro hm
  obtain ⟨q, hq, hq'⟩ := List.getElem_of_mem hm
  refine hf q hq ?_
  rw [h, List.append_assoc, List.drop_append_of_le_length (Nat.le_of_lt hq), List.drop_eq_getElem_cons hq, hq']
  exact ⟨_, rfl⟩

theorem split1_slash {a b : Str} (h : (47 : Byte) ∉ a) : split1 (a ++ slash ++ b) slash = (a, b) := by
  rcases C29_split1 (a ++ slash ++ b) slash with ⟨x, y, h1, h2, h3⟩ | ⟨-, h2⟩
  · have hx := slash_free h2 h3
    rw [List.append_assoc, List.append_assoc] at h2
    have key := split_unique (f := fun c => c == 47) (v := false) (a := a) (x := x) (by
        intro c hc
        cases hb : (c == 47) with
        | false => rfl
        | true => rw [beq_iff_eq] at hb; exact absurd (hb ▸ hc) h) (by
        intro c hc
        cases hb : (c == 47) with
        | false => rfl
        | true => rw [beq_iff_eq] at hb; exact absurd (hb ▸ hc) hx) (by
        intro c hc; simp [slash] at hc; subst hc; simp) (by
        intro c hc; simp [slash] at hc; subst hc; simp) h2
    have h4 := List.append_cancel_left key.2
    rw [h1, key.1, h4]
  · exact absurd ⟨a, b, rfl⟩ h2

/-- C66. Which texts are MIME types, and which ones they denote: `*`, or two non-empty parts separated by the first `/`,
    ignoring white space around them. -/
theorem C66_mime_parse (s : Str) (m : Mime) : Mime.ofText s = .ok m ↔
    (s = star ∧ m = ⟨star, star⟩) ∨
      ∃ a b, s = a ++ slash ++ b ∧ (47 : Byte) ∉ a ∧ m = ⟨trim isWs a, trim isWs b⟩ ∧ trim isWs a ≠ [] ∧ trim isWs b ≠ [] := by
  unfold Mime.ofText
  by_cases hs : s = star
  · rw [if_pos hs]
    constructor
    · intro h; injection h with h; exact .inl ⟨hs, h.symm⟩
    · rintro (⟨-, rfl⟩ | ⟨a, b, h, -⟩)
      · rfl
      · rw [hs] at h
        have : (47 : Byte) ∈ star := by rw [h]; simp [slash]
        exact absurd this (by decide)
  · rw [if_neg hs]
    dsimp only
    rcases C29_split1 s slash with ⟨a, b, h1, h2, h3⟩ | ⟨h1, h2⟩
    · have ha := slash_free h2 h3
      rw [h1]
      dsimp only
      constructor
      · intro h
        split at h
        · cases h
        · rename_i hn
          injection h with h
          exact .inr ⟨a, b, h2, ha, h.symm, fun x => hn (.inl x), fun x => hn (.inr x)⟩
      · rintro (⟨x, -⟩ | ⟨x, y, g1, g2, rfl, g4, g5⟩)
        · exact absurd x hs
        · have e := split1_slash (b := y) g2
          rw [← g1, h1] at e
          injection e with e1 e2
          subst e1; subst e2
          rw [if_neg (fun z => by cases z with | inl z => exact g4 z | inr z => exact g5 z)]
    · rw [h1]
      dsimp only
      rw [if_pos (.inr (by rfl))]
      constructor
      · intro h; cases h
      · rintro (⟨x, -⟩ | ⟨x, y, g1, -⟩)
        · exact absurd x hs
        · exact absurd ⟨x, y, g1.symm⟩ h2

/-- C66. MIME types read from text are initialized, their main type has no slash, and rendering them gives a text that reads
    back as the same MIME type. -/
theorem C66_mime_round_trip {s : Str} {m : Mime} (h : Mime.ofText s = .ok m) :
    m.Valid ∧ (47 : Byte) ∉ m.main ∧ ∃ t, m.text = .ok t ∧ Mime.ofText t = .ok m := by
  have hv : m.Valid ∧ (47 : Byte) ∉ m.main ∧ trim isWs m.main = m.main ∧ trim isWs m.sub = m.sub := by
    rcases (C66_mime_parse s m).1 h with ⟨-, rfl⟩ | ⟨a, b, -, h2, rfl, h4, h5⟩
    · exact ⟨⟨by decide, by decide⟩, by decide, by decide, by decide⟩
    · exact ⟨⟨h4, h5⟩, fun x => h2 (trim_mem x), trim_idem a, trim_idem b⟩
  obtain ⟨h1, h2, h3, h4⟩ := hv
  refine ⟨h1, h2, m.main ++ slash ++ m.sub, ?_, ?_⟩
  · unfold Mime.text; rw [Mime.ensureValid_ok h1]; rfl
  · rw [C66_mime_parse]
    refine .inr ⟨m.main, m.sub, rfl, h2, ?_, by rw [h3]; exact h1.1, by rw [h4]; exact h1.2⟩
    rw [h3, h4]

/-! ## Connecting by MIME type -/

theorem count_entries (f : Parser → List Str) (key : Str) (ps : List Parser) (k i : Nat) :
    (((ps.zipIdx k).flatMap (fun x => (f x.1).map (·, x.2))).filterMap (fun e => if e.1 = key then some e.2 else none)).count (k + i)
      = match ps[i]? with
        | some p => (f p).countP (· = key)
        | none => 0 := by
  have one : ∀ (l : List Str) (a j : Nat), ((l.map (fun x => (x, a))).filterMap (fun e => if e.1 = key then some e.2 else none)).count j
      = if a = j then l.countP (· = key) else 0 := by
    intro l a j
    induction l with
    | nil => simp
    | cons x l ih =>
      by_cases hx : x = key
      · by_cases ha : a = j
        · simp [hx, ha] at ih ⊢; exact ih
        · simp [hx, ha] at ih ⊢; exact ih
      · rw [List.map_cons, List.filterMap_cons_none (by simp [hx]), ih, List.countP_cons_of_neg (by simpa using hx)]
  induction ps generalizing k i with
  | nil => simp
  | cons p ps ih =>
    rw [List.zipIdx_cons, List.flatMap_cons, List.filterMap_append, List.count_append]
    dsimp only
    rw [one]
    cases i with
    | zero =>
      simp only [Nat.add_zero, if_true, List.getElem?_cons_zero]
      have : (((ps.zipIdx (k + 1)).flatMap (fun x => (f x.1).map (·, x.2))).filterMap (fun e => if e.1 = key then some e.2 else none)).count k = 0 := by
        rw [List.count_eq_zero]
        intro hm
        rw [List.mem_filterMap] at hm
        obtain ⟨⟨a, b⟩, h1, h2⟩ := hm
        rw [List.mem_flatMap] at h1
        obtain ⟨⟨q, j⟩, h3, h4⟩ := h1
        rw [List.mem_map] at h4
        obtain ⟨y, h5, h6⟩ := h4
        have := List.le_snd_of_mem_zipIdx h3
        simp only [Prod.mk.injEq] at h6
        dsimp only at h2 this
        split at h2
        · injection h2 with h2; omega
        · cases h2
      rw [this]; rfl
    | succ i =>
      rw [if_neg (by omega), Nat.zero_add, show k + (i + 1) = k + 1 + i by omega, ih]
      simp

/-- A parser may be connected for a unit of the given scope. -/
def Visible (p : Parser) (scope : Nat) : Prop := (p.isPublic = true ∨ p.scope = scope) ∧ p.sinks = true

theorem matching_count {ps : List Parser} {als : List (Str × Str)} {r : Registry} (h : MimesValid ps) (hr : setup ps als = .ok r)
    (scope : Nat) {m : Mime} (hm : m.Valid) : ∃ l, r.matching scope m = .ok l ∧ ∀ i, l.count i = match ps[i]? with
      | some p => if (p.isPublic || p.scope == scope) && p.sinks then p.mimes.countP (fun x => keyOf x = keyOf m) else 0
      | none => 0 := by
  obtain ⟨r', h1, h2, -, -, h5⟩ := setup_spec ps h als
  rw [h1] at hr
  injection hr with hr
  subst hr
  unfold Registry.matching
  rw [Mime.asKey_ok hm]
  simp only [Res.ok_bind]
  refine ⟨_, rfl, ?_⟩
  intro i
  have hc := count_entries (fun p => p.mimes.map keyOf) (keyOf m) ps 0 i
  rw [Nat.zero_add] at hc
  have e : (r'.byMime (keyOf m)).count i = match ps[i]? with
        | some p => (p.mimes.map keyOf).countP (· = keyOf m)
        | none => 0 := by rw [h5 (keyOf m)]; exact hc
  rw [h2]
  cases hp : ps[i]? with
  | none =>
    rw [List.count_eq_zero]
    intro x
    rw [List.mem_filter, hp] at x
    cases x.2
  | some p =>
    rw [hp] at e
    dsimp only at e ⊢
    by_cases hv : ((p.isPublic || p.scope == scope) && p.sinks) = true
    · rw [if_pos hv, List.count_filter (by rw [hp]; exact hv), e, List.countP_map]
      rfl
    · rw [if_neg hv, List.count_eq_zero]
      intro x
      rw [List.mem_filter, hp] at x
      exact hv x.2

theorem count_split {α : Type} (l : List α) (q a b c : α → Bool) (h : ∀ x ∈ l, (q x = true ↔ a x = true ∨ b x = true ∨ c x = true) ∧
    ¬ (a x = true ∧ b x = true) ∧ ¬ (a x = true ∧ c x = true) ∧ ¬ (b x = true ∧ c x = true)) :
    l.countP a + l.countP b + l.countP c = l.countP q := by
  induction l with
  | nil => rfl
  | cons x l ih =>
    have := ih (fun y hy => h y (List.mem_cons_of_mem _ hy))
    obtain ⟨h1, h2, h3, h4⟩ := h x List.mem_cons_self
    simp only [List.countP_cons]
    by_cases ha : a x = true <;> by_cases hb : b x = true <;> by_cases hc : c x = true <;> simp_all <;> omega

theorem keyOf_cases {x m : Mime} (hx : x.Valid) (hxs : (47 : Byte) ∉ x.main) (hm : m.Valid) (hms : (47 : Byte) ∉ m.main)
    (h1 : m.main ≠ star) (h2 : m.sub ≠ star) :
    (x.Covers m ↔ keyOf x = keyOf m ∨ keyOf x = keyOf ⟨m.main, star⟩ ∨ keyOf x = keyOf ⟨star, star⟩) ∧
      keyOf m ≠ keyOf ⟨m.main, star⟩ ∧ keyOf m ≠ keyOf ⟨star, star⟩ ∧ keyOf ⟨m.main, star⟩ ≠ keyOf ⟨star, star⟩ := by
  have e1 : keyOf m = m.main ++ slash ++ m.sub := by unfold keyOf; rw [if_neg h1, if_neg h2]
  have e2 : keyOf ⟨m.main, star⟩ = m.main := by unfold keyOf; rw [if_neg h1, if_pos rfl]
  have e3 : keyOf ⟨star, star⟩ = [] := rfl
  have s1 : ∀ a b c : Str, (47 : Byte) ∉ a → a ≠ b ++ slash ++ c := by
    intro a b c h x; apply h; rw [x]; simp [slash]
  rw [e1, e2, e3]
  refine ⟨?_, (s1 _ _ _ hms).symm, ?_, hm.1⟩
  · unfold Mime.Covers
    by_cases g1 : x.main = star
    · simp [g1, keyOf]
    · by_cases g2 : x.sub = star
      · have : keyOf x = x.main := by unfold keyOf; rw [if_neg g1, if_pos g2]
        rw [this]
        simp only [g1, g2, false_or, true_or, and_true]
        constructor
        · intro h; exact .inr (.inl h)
        · rintro (h | h | h)
          · exact absurd h (s1 _ _ _ hxs)
          · exact h
          · exact absurd h hx.1
      · have : keyOf x = x.main ++ slash ++ x.sub := by unfold keyOf; rw [if_neg g1, if_neg g2]
        rw [this]
        simp only [g1, g2, false_or]
        constructor
        · rintro ⟨h, h'⟩; exact .inl (by rw [h, h'])
        · rintro (h | h | h)
          · have e := split1_slash (b := x.sub) hxs
            rw [h, split1_slash hms] at e
            injection e with e1 e2
            exact ⟨e1.symm, e2.symm⟩
          · exact absurd h.symm (s1 _ _ _ hms)
          · exact absurd h (by simp [slash])
  · simp [slash]

/-- C66. Connecting parsers for a concrete MIME type (no wildcards) connects every parser that the unit may use as often as
    it declares a pattern that covers the type, and no other parser. (For a type with wildcards see
    `C66_fails_connect_wildcard`.) -/
theorem C66_connect_mime_partial {ps : List Parser} {als : List (Str × Str)} {r : Registry} (h : MimesValid ps)
    (hs : ∀ p ∈ ps, ∀ x ∈ p.mimes, (47 : Byte) ∉ x.main) (hr : setup ps als = .ok r) (scope : Nat) {m : Mime} (hm : m.Valid)
    (hms : (47 : Byte) ∉ m.main) (h1 : m.main ≠ star) (h2 : m.sub ≠ star) :
    ∃ l, r.connectMime m scope = .ok l ∧
      (∀ i, i ∈ l ↔ ∃ p, ps[i]? = some p ∧ Visible p scope ∧ ∃ x ∈ p.mimes, x.Covers m) ∧
      ∀ i p, ps[i]? = some p → Visible p scope → l.count i = p.mimes.countP (fun x => decide (x.Covers m)) := by
  have hb : (⟨m.main, star⟩ : Mime).Valid := ⟨hm.1, (by decide : star ≠ [])⟩
  have hc : (⟨star, star⟩ : Mime).Valid := ⟨by decide, by decide⟩
  obtain ⟨a, ea, ca⟩ := matching_count h hr scope hm
  obtain ⟨b, eb, cb⟩ := matching_count h hr scope hb
  obtain ⟨c, ec, cc⟩ := matching_count h hr scope hc
  unfold Registry.connectMime
  rw [ea, eb, ec, Mime.ensureValid_ok hm]
  simp only [Res.ok_bind, Res.pure_eq]
  have cnt : ∀ i, (a ++ b ++ c).count i = match ps[i]? with
      | some p => if (p.isPublic || p.scope == scope) && p.sinks then p.mimes.countP (fun x => decide (x.Covers m)) else 0
      | none => 0 := by
    intro i
    rw [List.count_append, List.count_append, ca i, cb i, cc i]
    cases hp : ps[i]? with
    | none => rfl
    | some p =>
      dsimp only
      split
      · have hp' := List.mem_of_getElem? hp
        refine count_split _ _ _ _ _ ?_
        intro x hx
        obtain ⟨k1, k2, k3, k4⟩ := keyOf_cases (h p hp' x hx) (hs p hp' x hx) hm hms h1 h2
        simp only [decide_eq_true_eq]
        exact ⟨k1, fun y => k2 (y.1.symm.trans y.2), fun y => k3 (y.1.symm.trans y.2), fun y => k4 (y.1.symm.trans y.2)⟩
      · rfl
  have vis : ∀ p : Parser, ((p.isPublic || p.scope == scope) && p.sinks) = true ↔ Visible p scope := by
    intro p; unfold Visible; simp [Bool.and_eq_true, Bool.or_eq_true]
  refine ⟨_, rfl, ?_, ?_⟩
  · intro i
    rw [← List.count_pos_iff, cnt i]
    cases hp : ps[i]? with
    | none => simp
    | some p =>
      dsimp only
      constructor
      · intro hpos
        split at hpos
        · rename_i hv
          rw [List.countP_pos_iff] at hpos
          obtain ⟨x, hx, hx'⟩ := hpos
          exact ⟨p, rfl, (vis p).1 hv, x, hx, by simpa using hx'⟩
        · exact absurd hpos (Nat.lt_irrefl 0)
      · rintro ⟨q, hq, hv, x, hx, hx'⟩
        injection hq with hq
        subst hq
        rw [if_pos ((vis p).2 hv), List.countP_pos_iff]
        exact ⟨x, hx, by simpa using hx'⟩
  · intro i p hp hv
    rw [cnt i, hp]
    dsimp only
    rw [if_pos ((vis p).2 hv)]

/-! ## Witnesses -/

/-- "HTTP" on port "80/tcp" for "text/html" and any image; "DNS" on "53/udp" for originators only; a private parser for all
    types, of scope 7. -/
def exampleParsers : List Parser :=
  [⟨[72], true, 1, [([56, 48], .both)], [⟨[116], [104]⟩, ⟨[105], star⟩], true⟩,
   ⟨[68], true, 2, [([53, 51], .orig)], [], true⟩,
   ⟨[88], false, 7, [], [⟨star, star⟩], true⟩]

example : MimesValid exampleParsers := by unfold MimesValid Mime.Valid exampleParsers; decide

/-- The outcome of a look-up after a set-up. -/
def found (ps : List Parser) (als : List (Str × Str)) (n : Str) (scope : Option Nat) : Option (Except Err Nat) :=
  match setup ps als with
  | .ok r => some (r.lookup n scope)
  | _ => none

/-- The outcome of connecting after a set-up. -/
def connected (ps : List Parser) (m : Mime) (scope : Nat) : Option (Res (List Nat)) :=
  match setup ps [] with
  | .ok r => some (r.connectMime m scope)
  | _ => none

def okOf : Option (Except Err Nat) → Option Nat
  | some (.ok i) => some i
  | _ => none

def errOf : Option (Except Err Nat) → Option Err
  | some (.error e) => some e
  | _ => none

example : okOf (found exampleParsers [] [72] none) = some 0 := by decide +kernel
example : okOf (found exampleParsers [] ([56, 48] ++ pctResp) none) = some 0 := by decide +kernel
example : okOf (found exampleParsers [] ([53, 51] ++ pctOrig) none) = some 1 := by decide +kernel
example : errOf (found exampleParsers [] [53, 51] none) = some .noMatch := by decide +kernel
example : okOf (found exampleParsers [] [116, 47, 104] (some 1)) = some 0 := by decide +kernel
example : errOf (found exampleParsers [] [116, 47, 104] (some 2)) = some .noMatch := by decide +kernel
example : okOf (found exampleParsers [([68], [90])] ([90] ++ pctResp) none) = some 1 := by decide +kernel
example : errOf (found exampleParsers [] [] none) = some .needSelection := by decide +kernel
example : (connected exampleParsers ⟨[116], [104]⟩ 7) = some (.ok [0, 2]) := by decide +kernel
example : (connected exampleParsers ⟨[105], [112]⟩ 3) = some (.ok [0]) := by decide +kernel

/-- C66 fails for the default parser: with three public parsers, the third is taken although there are several. -/
theorem C66_fails_three_public_parsers :
    okOf (found [⟨[65], true, 1, [], [], true⟩, ⟨[66], true, 1, [], [], true⟩, ⟨[67], true, 1, [], [], true⟩] [] [] none) = some 2 := by
  decide +kernel

/-- C66 fails for a parser that declares a name twice, such as a port for both directions and again for originators: it is
    the only parser with that name, but is not found by it. -/
theorem C66_fails_name_declared_twice :
    errOf (found [⟨[65], true, 1, [([56, 48], .both), ([56, 48], .orig)], [], true⟩] [] ([56, 48] ++ pctOrig) none) = some .multiple := by
  decide +kernel

/-- The documentation of `lookupParser` says that only parsers with the requested scope are considered. In fact two parsers
    of the same name cannot be told apart by their scope. -/
theorem C66_fails_scope_does_not_select :
    errOf (found [⟨[65], true, 1, [], [], true⟩, ⟨[65], true, 2, [], [], true⟩] [] [65] (some 2)) = some .multiple := by
  decide +kernel

/-- Registering the same alias twice makes it unusable. -/
theorem C66_fails_alias_registered_twice :
    okOf (found exampleParsers [([72], [90])] [90] none) = some 0 ∧
    errOf (found exampleParsers [([72], [90]), ([72], [90])] [90] none) = some .multiple := by
  decide +kernel

/-- Connecting for a type with wildcards connects the same parser several times: once per table it looks at. -/
theorem C66_fails_connect_wildcard :
    connected [⟨[65], true, 1, [], [⟨star, star⟩], true⟩] ⟨star, star⟩ 1 = some (.ok [0, 0, 0]) ∧
    connected [⟨[65], true, 1, [], [⟨[116], star⟩], true⟩] ⟨[116], star⟩ 1 = some (.ok [0, 0]) := by
  decide +kernel

end Verif.Driver
