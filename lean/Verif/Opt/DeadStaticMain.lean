import Verif.Opt.DeadStaticProps

/-!
# Removing statically dead code keeps what programs do: whole programs (C83)
-/

namespace Verif.Opt.Whole

variable {M : Sem}

theorem get_mem : ∀ {P : Prog} {f : Fn} {F : Fun}, P.get f = some F → (f, F) ∈ P
  | [], f, F, h => by simp [Prog.get] at h
  | (g, G) :: P, f, F, h => by
    simp only [Prog.get] at h
    by_cases hg : f = g
    · rw [if_pos hg] at h; injection h with h; subst h; subst hg; simp
    · rw [if_neg hg] at h; exact List.mem_cons_of_mem _ (get_mem h)

theorem get_none : ∀ {P : Prog} {f : Fn}, f ∉ P.map Prod.fst → P.get f = none
  | [], f, _ => rfl
  | (g, G) :: P, f, h => by
    simp only [List.map_cons, List.mem_cons, not_or] at h
    simp only [Prog.get, if_neg h.1, get_none h.2]

theorem bodies_mem {P : Prog} {f : Fn} {F : Fun} (h : P.get f = some F) {i : Impl} (hi : i ∈ F.impls) : i.body ∈ P.bodies := by
  simp only [Prog.bodies, List.mem_flatMap, List.mem_map]
  exact ⟨(f, F), get_mem h, i, hi, rfl⟩

theorem calls_mem {P : Prog} {f : Fn} {F : Fun} (h : P.get f = some F) {i : Impl} (hi : i ∈ F.impls) {g : Fn}
    (hg : g ∈ i.body.calls) : g ∈ P.calls := by
  simp only [Prog.calls, Fun.calls, List.mem_flatMap]
  exact ⟨(f, F), get_mem h, i, hi, hg⟩

/-- A pass that removes functions and changes others. -/
theorem get_filterMap (p : Fn → Fun → Bool) (t : Fun → Fun) (f : Fn) : ∀ (L : Prog), (L.map Prod.fst).Nodup →
    Prog.get (L.filterMap fun x => if p x.1 x.2 then none else some (x.1, t x.2)) f
      = match Prog.get L f with
        | some F => if p f F then none else some (t F)
        | none => none
  | [], _ => rfl
  | (g, G) :: L, h => by
    simp only [List.map_cons, List.nodup_cons] at h
    have ih := get_filterMap p t f L h.2
    by_cases hg : f = g
    · subst hg
      have hn : Prog.get L f = none := get_none h.1
      rw [hn] at ih
      cases hp : p f G with
      | true => simp only [List.filterMap_cons, hp, if_true, Prog.get, ih]
      | false => simp [List.filterMap_cons, hp, Prog.get]
    · cases hp : p g G with
      | true => simp only [List.filterMap_cons, hp, if_true, Prog.get, if_neg hg, ih]
      | false => simp only [List.filterMap_cons, hp, Bool.false_eq_true, if_false, Prog.get, if_neg hg, ih]

theorem get_deadStatic {P : Prog} (hd : Distinct P) (f : Fn) :
    (deadStatic P).get f = match P.get f with
      | some F => if P.droppable f F then none else some (F.visited P.unimpl)
      | none => none :=
  get_filterMap P.droppable (Fun.visited P.unimpl) f P hd

theorem get_kept {P : Prog} (hd : Distinct P) {f : Fn} {F' : Fun} (h : (deadStatic P).get f = some F') :
    ∃ F, P.get f = some F ∧ F' = F.visited P.unimpl := by
  rw [get_deadStatic hd] at h
  cases hF : P.get f with
  | none => rw [hF] at h; simp at h
  | some F =>
    rw [hF] at h
    simp only at h
    by_cases hp : P.droppable f F = true
    · rw [if_pos hp] at h; simp at h
    · rw [if_neg hp] at h; injection h with h; exact ⟨F, rfl, h.symm⟩

theorem unimpl_eq {P : Prog} {f : Fn} {v : Val} (h : P.unimpl f = some v) :
    ∃ F, P.get f = some F ∧ (F.hook = true ∨ F.method = true) ∧ F.impls = [] ∧ F.ext = false ∧ F.dflt = v := by
  simp only [Prog.unimpl] at h
  cases hF : P.get f with
  | none => rw [hF] at h; simp at h
  | some F =>
    rw [hF] at h
    simp only at h
    by_cases hp : F.unimplemented = true
    · rw [if_pos hp] at h; injection h with h
      simp only [Fun.unimplemented, Fun.defined, Bool.and_eq_true, Bool.or_eq_true, Bool.not_eq_true', Bool.or_eq_false_iff,
        Bool.not_eq_false'] at hp
      obtain ⟨h1, h2, h3⟩ := hp
      exact ⟨F, rfl, h1.symm, by simpa using h2, h3, h⟩
    · rw [if_neg hp] at h; simp at h

theorem callN_unimpl {P : Prog} {f : Fn} {v : Val} (h : P.unimpl f = some v) (n : Nat) (args : List Arg) (d : Nat) (s : St M) :
    callN M P (n + 1) f args d s = some (.val v s) := by
  obtain ⟨F, hF, _, hi, he, hv⟩ := unimpl_eq h
  simp only [callN, hF, he, Bool.false_eq_true, if_false, hi, runImpls, hv]

theorem Impls.map {R : Impl → Impl → Prop} (t : Impl → Impl) : ∀ (l : List Impl), (∀ i ∈ l, R i (t i)) → Impls R l (l.map t)
  | [], _ => .nil
  | i :: l, h => .cons (h i (by simp)) (Impls.map t l fun j hj => h j (by simp [hj]))

theorem Impls.map' {R : Impl → Impl → Prop} (t : Impl → Impl) : ∀ (l : List Impl), (∀ i ∈ l, R (t i) i) → Impls R (l.map t) l
  | [], _ => .nil
  | i :: l, h => .cons (h i (by simp)) (Impls.map' t l fun j hj => h j (by simp [hj]))

theorem argsOk_of {P : Prog} (ha : HarmlessArgs M P) (hp : NoPicks P) {b : Stmts} (hb : b ∈ P.bodies) :
    ArgsOk M P.unimpl b.invocations := by
  intro x hx
  refine ⟨fun hU => ?_, hp b hb x hx⟩
  obtain ⟨v, hv⟩ := Option.isSome_iff_exists.mp hU
  obtain ⟨F, hF, h1, h2, h3, _⟩ := unimpl_eq hv
  exact ha b hb x hx ⟨F, hF, h1, h2, h3⟩

theorem kinds_kept {P : Prog} (hd : Distinct P) {f : Fn} (h : ((deadStatic P).get f).isSome) : P.kinds f = (deadStatic P).kinds f := by
  obtain ⟨F', hF'⟩ := Option.isSome_iff_exists.mp h
  obtain ⟨F, hF, rfl⟩ := get_kept hd hF'
  simp only [Prog.kinds, hF, hF', Fun.visited]

theorem closed_visits {P : Prog} (hd : Distinct P) (hc : Closed (deadStatic P)) {f : Fn} {F : Fun} (h : P.get f = some F)
    (hk : ((deadStatic P).get f).isSome) {i : Impl} (hi : i ∈ F.impls) :
    ∀ g ∈ (visits P.unimpl false i.body).calls, ((deadStatic P).get g).isSome := by
  intro g hg
  obtain ⟨F', hF'⟩ := Option.isSome_iff_exists.mp hk
  obtain ⟨F0, hF0, rfl⟩ := get_kept hd hF'
  rw [h] at hF0; injection hF0 with hF0; subst hF0
  exact hc g (calls_mem hF' (i := { i with body := visits P.unimpl false i.body })
    (List.mem_map.mpr ⟨i, hi, rfl⟩) hg)

theorem forward {P : Prog} (hd : Distinct P) (hq : QuietStatements M P) (ha : HarmlessArgs M P) (hp : NoPicks P)
    (hc : Closed (deadStatic P)) : ∀ n f args d s r, ((deadStatic P).get f).isSome →
    callN M P n f args d s = some r → callN M (deadStatic P) (n + 1) f args d s = some r
  | 0, f, args, d, s, r, _, h => by simp [callN] at h
  | n + 1, f, args, d, s, r, hk, h => by
    obtain ⟨F', hF'⟩ := Option.isSome_iff_exists.mp hk
    obtain ⟨F, hF, rfl⟩ := get_kept hd hF'
    rw [callN] at h ⊢
    simp only [hF] at h
    simp only [hF']
    by_cases he : F.ext = true
    · rw [if_pos he] at h; rw [if_pos (show (F.visited P.unimpl).ext = true from he)]; exact h
    · rw [if_neg he] at h; rw [if_neg (show ¬ (F.visited P.unimpl).ext = true from he)]
      refine runImpls_le F.dflt args d (Impls.map (fun i => { i with body := visits P.unimpl false i.body }) _ fun i hi => ⟨rfl, fun env s r h => ?_⟩) s r h
      let c : Calls M := fun g args d s => match P.unimpl g with
        | some v => some (.val v s)
        | none => callN M P n g args d s
      have hle : LeOn i.body.calls (callN M P n) c := by
        intro g _ args d s r hr
        show (match P.unimpl g with | some v => some (Ev.val v s) | none => callN M P n g args d s) = some r
        cases hU : P.unimpl g with
        | none => exact hr
        | some v =>
          cases n with
          | zero => simp [callN] at hr
          | succ m => rw [callN_unimpl hU] at hr; exact hr
      have h1 := execs_mono (Nat.le_refl (n + 1)) i.body hle KOn.rfl s r h
      have hsk : Skips P.unimpl c := by
        intro g v hU args d s
        show (match P.unimpl g with | some v => some (Ev.val v s) | none => callN M P n g args d s) = _
        rw [hU]
      have hb := bodies_mem hF hi
      rw [← execs_visit hsk (by omega) i.body false (argsOk_of ha hp hb) (fun e he hf => hq _ hb e he (plain_of_effects hf))] at h1
      refine execs_mono (by omega) (visits P.unimpl false i.body) ?_ ?_ s r h1
      · intro g hg args d s r hr
        have hgk := closed_visits hd hc hF hk hi g hg
        have hr' : (match P.unimpl g with | some v => some (Ev.val v s) | none => callN M P n g args d s) = some r := hr
        cases hU : P.unimpl g with
        | none => rw [hU] at hr'; exact forward hd hq ha hp hc n g args d s r hgk hr'
        | some v =>
          rw [hU] at hr'
          obtain ⟨G, hG, _, hi', he', hv⟩ := unimpl_eq hU
          obtain ⟨G', hG'⟩ := Option.isSome_iff_exists.mp hgk
          obtain ⟨G0, hG0, rfl⟩ := get_kept hd hG'
          rw [hG] at hG0; injection hG0 with hG0; subst hG0
          simp only [callN, hG', Fun.visited, he', Bool.false_eq_true, if_false, hi', List.map_nil, runImpls, hv]
          exact hr'
      · intro g hg
        exact kinds_kept hd (closed_visits hd hc hF hk hi g hg)

theorem backward {P : Prog} (hd : Distinct P) (hq : QuietStatements M P) (ha : HarmlessArgs M P) (hp : NoPicks P)
    (hc : Closed (deadStatic P)) : ∀ n f args d s r,
    callN M (deadStatic P) n f args d s = some r → callN M P (n + 1) f args d s = some r
  | 0, f, args, d, s, r, h => by simp [callN] at h
  | n + 1, f, args, d, s, r, h => by
    rw [callN] at h ⊢
    cases hF' : (deadStatic P).get f with
    | none => rw [hF'] at h; exact absurd h (by simp)
    | some F' =>
      obtain ⟨F, hF, rfl⟩ := get_kept hd hF'
      rw [hF'] at h
      simp only at h
      simp only [hF]
      by_cases he : F.ext = true
      · rw [if_pos he]; rw [if_pos (show (F.visited P.unimpl).ext = true from he)] at h; exact h
      · rw [if_neg he]; rw [if_neg (show ¬ (F.visited P.unimpl).ext = true from he)] at h
        refine runImpls_le F.dflt args d (Impls.map' (fun i => { i with body := visits P.unimpl false i.body }) _ fun i hi => ⟨rfl, fun env s r h => ?_⟩) s r h
        have hk : ((deadStatic P).get f).isSome := by rw [hF']; rfl
        have h1 := execs_mono (n' := n + 2) (c' := callN M P (n + 1)) (K' := P.kinds) (by omega) (visits P.unimpl false i.body)
          (fun g _ args d s r hr => backward hd hq ha hp hc n g args d s r hr)
          (fun g hg => (kinds_kept hd (closed_visits hd hc hF hk hi g hg)).symm) s r h
        have hb := bodies_mem hF hi
        rw [execs_visit (fun g v hU args d s => callN_unimpl hU n args d s) (by omega) i.body false (argsOk_of ha hp hb)
          (fun e he hf => hq _ hb e he (plain_of_effects hf))] at h1
        exact h1

/-- **C83**: a function that is still there does what it did. For all programs, functions, arguments and states, if every function that is
    still called is still declared, arguments of calls of hooks without implementation have no effects, expression statements made
    of constants, variables and operators only do not throw, and no argument is a ternary operator with a constant condition
    that picks a variable. -/
theorem dead_code_static_partial {P : Prog} (hd : Distinct P) (hc : Closed (deadStatic P)) (ha : HarmlessArgs M P)
    (hq : QuietStatements M P) (hp : NoPicks P) (f : Fn) (hf : ((deadStatic P).get f).isSome) (args : List Arg) (d : Nat) (s : St M)
    (r : Ev M) : Does M P f args d s r ↔ Does M (deadStatic P) f args d s r :=
  ⟨fun ⟨n, h⟩ => ⟨n + 1, forward hd hq ha hp hc n f args d s r hf h⟩,
   fun ⟨n, h⟩ => ⟨n + 1, backward hd hq ha hp hc n f args d s r h⟩⟩

/-- What is not removed: functions that must be kept or that are called, unless they are hooks or methods without implementation. -/
theorem kept_stays {P : Prog} (hd : Distinct P) {f : Fn} {F : Fun} (h : P.get f = some F) (hdef : F.impls ≠ [] ∨ F.ext = true)
    (hr : F.keep = true ∨ f ∈ P.calls ∨ F.hook = true) : ((deadStatic P).get f).isSome := by
  have h1 : F.defined = true := by
    simp only [Fun.defined, Bool.or_eq_true, Bool.not_eq_true']
    rcases hdef with h | h
    · left; cases hi : F.impls with
      | nil => exact absurd hi h
      | cons => rfl
    · exact .inr h
  have h2 : P.droppable f F = false := by
    simp only [Prog.droppable, h1]
    rcases hr with h | h | h
    · have : P.referenced f F = true := by simp [Prog.referenced, h]
      simp [this]
    · have : P.referenced f F = true := by simp [Prog.referenced, h]
      simp [this]
    · simp [h]
  rw [get_deadStatic hd, h]
  simp [h2]

/-- What is removed: functions and methods nobody calls that need not be kept, and hooks and methods without implementation. -/
theorem removed_only {P : Prog} (hd : Distinct P) {f : Fn} {F : Fun} (h : P.get f = some F) (hn : (deadStatic P).get f = none) :
    (f ∉ P.calls ∧ F.keep = false) ∨ Unimplemented P f := by
  by_cases hdef : F.impls ≠ [] ∨ F.ext = true
  · left
    refine ⟨fun hc => ?_, ?_⟩
    · have := kept_stays hd h hdef (.inr (.inl hc)); rw [hn] at this; simp at this
    · cases hk : F.keep with
      | false => rfl
      | true => have := kept_stays hd h hdef (.inl hk); rw [hn] at this; simp at this
  · have h1 : F.impls = [] := Classical.byContradiction fun h => hdef (.inl h)
    have h2 : F.ext = false := by cases he : F.ext with
      | false => rfl
      | true => exact absurd (.inr he) hdef
    by_cases hm : F.hook = true ∨ F.method = true
    · exact .inr ⟨F, h, hm, h1, h2⟩
    · left
      have h3 : F.hook = false := by cases hh : F.hook with
        | false => rfl
        | true => exact absurd (.inl hh) hm
      have h4 : F.method = false := by cases hh : F.method with
        | false => rfl
        | true => exact absurd (.inr hh) hm
      rw [get_deadStatic hd, h] at hn
      simp only at hn
      by_cases hp : P.droppable f F = true
      · simp only [Prog.droppable, h3, h4, Bool.false_eq_true, if_false, Bool.false_and, Bool.false_or, Bool.not_false,
          Bool.true_and, Bool.not_eq_true'] at hp
        simp only [Prog.referenced, Bool.or_eq_false_iff] at hp
        refine ⟨fun hc => ?_, hp.2⟩
        have := List.contains_iff_mem.mpr hc
        rw [this] at hp; simp at hp
      · rw [if_neg hp] at hn; simp at hn

end Verif.Opt.Whole
