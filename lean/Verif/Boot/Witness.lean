import Verif.Boot.Main

/-!
# Modules and their globals at runtime: cases
-/

namespace Verif.Boot

/-- Three modules, the first registered again, with other content. -/
def pre : List Mod := [⟨7, true, false, 0⟩, ⟨3, true, true, 30⟩, ⟨5, false, true, 50⟩, ⟨3, false, false, 9⟩]

/-- Assignments, a late module, and a second `init()`. -/
def post : List Op := [.write 3 31, .write 5 51, .register ⟨8, true, true, 80⟩, .init, .write 3 32]

theorem post_legal : ∀ op ∈ post, Legal pre op := by
  intro op h
  simp only [post, List.mem_cons, List.not_mem_nil, or_false] at h
  rcases h with rfl | rfl | rfl | rfl | rfl
  · exact ⟨⟨3, true, true, 30⟩, by decide, rfl⟩
  · exact ⟨⟨5, false, true, 50⟩, by decide, rfl⟩
  · trivial
  · trivial
  · exact ⟨⟨3, true, true, 30⟩, by decide, rfl⟩

/-- The theorem applies; the values and the order. -/
theorem startup_case :
    ((run (pre.map .register ++ .init :: post) s0).bind (look 3)) = some 32 ∧
    ((run (pre.map .register ++ .init :: post) s0).bind (look 5)) = some 51 ∧
    ((run (pre.map .register ++ .init :: post) s0).map (·.log)) =
      some [.globals 3, .globals 5, .code 7, .code 3] := by decide +kernel

/-- A module registered after `init()` has no globals. -/
theorem late_module : ((run (pre.map .register ++ .init :: post) s0).bind (look 8)) = none := by decide +kernel

/-- **A further context**: it has no globals, and those of the current context are reset to their initial values. -/
theorem new_context_resets :
    ((run (pre.map .register ++ [.init, .write 3 31, .newContext]) s0).bind (look 3)) = some 30 ∧
    ((run (pre.map .register ++ [.init, .write 3 31, .newContext, .setContext 1]) s0).bind (look 3)) = none := by
  decide +kernel

/-- The same for all modules and all histories: what was assigned before is lost. -/
theorem new_context_resets_all (pre : List Mod) (post : List Op) (hl : ∀ op ∈ post, Legal pre op)
    (hr : ∀ m, Op.register m ∉ post) :
    ∃ s s', run (pre.map .register ++ .init :: post) s0 = some s ∧ step .newContext s = some s' ∧
      (∀ k m, firstOf k pre = some m → m.globals = true → look k s' = some m.value) ∧
      (∀ k, look k { s' with cur := 1 } = none) := by
  obtain ⟨s1, e1, r1, i1, l1⟩ := register_all s0_reg pre
  rw [List.nil_append] at r1
  have hup := init_up r1 i1
  obtain ⟨s2, e2, u2⟩ := run_up post hup hl
  have keep : ∀ (ops : List Op) (s s' : S), (∀ m, Op.register m ∉ ops) → (∀ op ∈ ops, Legal pre op) →
      s.inited = true → run ops s = some s' → s'.mods = s.mods ∧ s'.cells = s.cells := by
    intro ops
    induction ops with
    | nil => intro s s' _ _ _ h; injection h with h; subst h; exact ⟨rfl, rfl⟩
    | cons op ops ih =>
      intro s s' hno hlg hin h
      simp only [run, Option.bind_eq_some_iff] at h
      obtain ⟨s1, h1, h2⟩ := h
      have hs1 : s1.mods = s.mods ∧ s1.cells = s.cells ∧ s1.inited = true := by
        cases op with
        | register m => exact absurd (List.mem_cons_self ..) (hno m)
        | init =>
          simp only [step, init, hin, if_true, Option.some.injEq] at h1
          subst h1; exact ⟨rfl, rfl, hin⟩
        | write k v =>
          simp only [step, write, Option.bind_eq_bind, Option.bind_eq_some_iff] at h1
          obtain ⟨g, _, x, _, y, _, h1⟩ := h1
          split at h1
          · injection h1 with h1; subst h1; exact ⟨rfl, rfl, hin⟩
          · cases h1
        | newContext => exact (hlg _ (List.mem_cons_self ..)).elim
        | setContext c => exact (hlg _ (List.mem_cons_self ..)).elim
      obtain ⟨q1, q2⟩ := ih s1 s' (fun m hm => hno m (List.mem_cons_of_mem _ hm))
        (fun o ho => hlg o (List.mem_cons_of_mem _ ho)) hs1.2.2 h2
      exact ⟨q1.trans hs1.1, q2.trans hs1.2.1⟩
  obtain ⟨k1, k2⟩ := keep post _ _ hr hl hup.inited e2
  have hm0 : (init s1).mods = s1.mods ∧ (init s1).cells = s1.cells := by
    unfold init
    rw [if_neg (by rw [i1]; simp [s0])]
    exact ⟨rfl, rfl⟩
  obtain ⟨g, hg, hc, _⟩ := u2.ctx
  have P := (placeAll_get s2.cells s2.mods g 0 (fun i m hm hgm => by
    rw [Nat.zero_add, k2, hm0.2]
    rw [k1, hm0.1] at hm
    exact r1.cell i m hm hgm)).2
  refine ⟨s2, { s2 with ctxs := [placeAll s2.cells s2.mods g, []] }, ?_, ?_, ?_, ?_⟩
  · rw [run_append, e1, Option.bind_some]
    simp only [run, step, Option.bind_some]
    exact e2
  · simp only [step, newContext, hg, hc, Option.bind_eq_bind, List.getElem?_cons_zero, Option.bind_some]
    rfl
  · intro k m hm hgm
    have hk := firstOf_key hm
    rw [← r1.first k] at hm
    obtain ⟨i, hi⟩ := List.mem_iff_getElem?.mp (List.mem_of_find?_eq_some hm)
    have hcell := r1.cell i m hi hgm
    have h2 : s2.mods[i]? = some m := by rw [k1, hm0.1]; exact hi
    have hp := P i m h2 hgm
    have hci : s2.cells k = i := by rw [k2, hm0.2, ← hk]; exact hcell
    rw [Nat.zero_add, hk] at hp
    simp only [look, hc, hci, Option.bind_eq_bind, List.getElem?_cons_zero, Option.bind_some, hp, if_true]
  · intro k
    simp [look]

end Verif.Boot
