import Verif.Filter.SinkReassembly
/-!
# Sinks with filters: histories (C71)
-/

namespace Verif.Filter
open Verif.Stream (Byte)
open Verif.Parse
open Verif.Sink (Sink Op Event Chunk Status add64 sub64 Calm deliveredData Open OnlyData StaysOpen Always)

variable {Γ : Nat → G} {f n : Nat}

theorem tryDeliver_grows (s : Sink) (i : Nat) : Grows s (s.tryDeliver i) := by
  have h := loop_grows (s.chunks.drop i) s
  unfold Sink.Sink.tryDeliver
  unfold Grows at h ⊢
  cases hl : Sink.deliverLoop (s.chunks.drop i) s with
  | ok a s1 =>
    rw [hl] at h
    show deliveredData s.log <+: deliveredData (if s1.autoTrim = true then s1.trimTo s1.last else s1).log
    split
    · rw [trimTo_data]; exact h
    · exact h
  | throw e s1 => rw [hl] at h; exact h
  | ub => trivial

/-- A change of the state that passes on nothing, followed by something that does. -/
theorem Grows.after {α : Type} {s s1 : Sink} {r : Sink.R α} (h : Grows s1 r) (he : deliveredData s.log <+: deliveredData s1.log) : Grows s r := by
  unfold Grows at h ⊢
  cases r with
  | ok a s2 => exact he.trans h
  | throw e s2 => exact he.trans h
  | ub => trivial

theorem buffer_grows (s : Sink) (d : Option (List Byte)) (a b l : Nat) : Grows s (s.buffer d a b l) := by
  unfold Sink.Sink.buffer
  dsimp only
  generalize (if s.chunks.isEmpty = true then (⟨.ok (some 0), [⟨d, a, add64 a l⟩], []⟩ : Sink.Added)
    else Sink.addAndCheck d a b [] s.chunks) = r
  obtain ⟨res, cs, lg⟩ := r
  dsimp only
  have hp : deliveredData s.log <+: deliveredData (s.log ++ lg) := by rw [Sink.deliveredData_append]; exact List.prefix_append _ _
  cases res with
  | throw e => exact hp
  | ub => trivial
  | ok i =>
    cases i with
    | none => trivial
    | some i =>
      dsimp only
      cases cs[i]? with
      | none => trivial
      | some c =>
        dsimp only
        split
        · exact hp
        · exact (tryDeliver_grows { s with chunks := cs, log := s.log ++ lg } i).after hp

theorem newData_grows (s : Sink) (d : Option (List Byte)) (a l : Nat) : Grows s (s.newData d a l) := by
  unfold Sink.Sink.newData
  dsimp only
  split
  · exact List.prefix_refl _
  · split
    · have h := deliver_grows s d a (add64 a l)
      unfold Grows at h ⊢
      cases hd : s.deliver d a (add64 a l) with
      | ok x s1 => rw [hd] at h; exact h
      | throw e s1 => rw [hd] at h; exact h
      | ub => trivial
    · split
      · exact List.prefix_refl _
      · split
        · cases d with
          | none => exact buffer_grows ..
          | some bs =>
            dsimp only
            cases Sink.dropBytes bs (s.trim - a) with
            | ok bs' => exact buffer_grows ..
            | throw e => exact List.prefix_refl _
            | ub => trivial
        · exact buffer_grows ..

theorem step_grows (s : Sink) (o : Op) : Grows s (s.step o) := by
  cases o with
  | connect beh => simp only [Sink.Sink.step]; split <;> exact List.prefix_refl _
  | write bs seq len =>
    simp only [Sink.Sink.step]
    split
    · exact List.prefix_refl _
    · exact newData_grows ..
  | gap seq len => exact newData_grows ..
  | skip seq =>
    refine (tryDeliver_grows _ 0).after ?_
    simp only [Sink.Sink.emit]
    rw [Sink.deliveredData_append]
    refine List.IsPrefix.trans ?_ (List.prefix_append _ _)
    split
    · rw [trimTo_data]; exact List.prefix_refl _
    · unfold Sink.Sink.reportUpTo; dsimp only; rw [Sink.deliveredData_append]; exact List.prefix_append _ _
  | trim seq => simp only [Sink.Sink.step, Grows, Sink.R.After]; rw [trimTo_data]; exact List.prefix_refl _
  | setAutoTrim b => exact List.prefix_refl _
  | setInitial seq =>
    simp only [Sink.Sink.step]
    split
    · simp only [Grows, Sink.R.After, Sink.Sink.close]; rw [Sink.deliveredData_append]; exact List.prefix_append _ _
    · exact List.prefix_refl _
  | close => simp only [Sink.Sink.step, Grows, Sink.R.After, Sink.Sink.close]; rw [Sink.deliveredData_append]; exact List.prefix_append _ _

theorem run_grows (s s' : Sink) (ops : List Op) (h : s.run ops = some s') : deliveredData s.log <+: deliveredData s'.log := by
  induction ops generalizing s with
  | nil => simp only [Sink.Sink.run, Option.some.injEq] at h; subst h; exact List.prefix_refl _
  | cons o ops ih =>
    have hg := step_grows s o
    unfold Sink.Sink.run at h
    unfold Grows at hg
    cases hs : s.step o with
    | ok a s1 => rw [hs] at h hg; exact hg.trans (ih s1 h)
    | throw e s1 => rw [hs] at h hg; exact hg.trans (ih s1 h)
    | ub => rw [hs] at h; cases h

section
variable (hΓ : ∀ i, Parse.Sound (Γ i)) {fs : List Filter} (hfs : ∀ F ∈ fs, F.Sound) (hne : fs ≠ []) {N : Nat} (hst : Steady Γ f n fs N)
include hΓ hfs hne hst

theorem run_sim : ∀ (ops : List Op) {s s' : Sink} {t : FSink}, Rel Γ f n fs s t → Always StaysOpen s ops →
    (∀ beh, Op.connect beh ∈ ops → ∀ d, beh d ≠ .finished) → s.run ops = some s' → (deliveredData s'.log).length ≤ N →
    ∃ t', FSink.run Γ f n t (ops.map .op) = some t' ∧ Rel Γ f n fs s' t' := by
  intro ops
  induction ops with
  | nil =>
    intro s s' t h _ _ hr hN
    simp only [Sink.Sink.run, Option.some.injEq] at hr
    subst hr
    exact ⟨t, rfl, h⟩
  | cons o ops ih =>
    intro s s' t h ha hc hr hN
    have hsim := step_sim hΓ hfs hne hst h o ha.1 (fun beh e => hc beh (by rw [e]; exact List.mem_cons_self ..))
    have hc' : ∀ beh, Op.connect beh ∈ ops → ∀ d, beh d ≠ .finished := fun beh hb => hc beh (List.mem_cons_of_mem _ hb)
    have ha2 := ha.2
    unfold Sink.Sink.run at hr
    rw [List.map_cons]
    unfold FSink.run
    cases hs : s.step o with
    | ok a s1 =>
      rw [hs] at hr hsim ha2
      obtain ⟨t1, k1, k2⟩ := hsim (Nat.le_trans (run_grows s1 s' ops hr).length_le hN)
      rw [k1]
      exact ih k2 ha2 hc' hr hN
    | throw e s1 =>
      rw [hs] at hr hsim ha2
      obtain ⟨t1, k1, k2⟩ := hsim (Nat.le_trans (run_grows s1 s' ops hr).length_le hN)
      rw [k1]
      exact ih k2 ha2 hc' hr hN
    | ub => rw [hs] at hr; cases hr

omit hΓ hfs hne hst in
theorem connected_rel {behs : List (List Byte → Status)} (hb : ∀ b ∈ behs, Open b) :
    Rel Γ f n fs { units := behs.map (fun b => ⟨[], b [], b⟩) } { core := { units := behs.map (fun b => ⟨[], b [], b⟩) }, filters := fs } :=
  ⟨rfl, rfl, rfl, rfl, rfl, rfl, rfl, ⟨rfl, rfl, rfl, rfl⟩, rfl, calm_start hb, calm_start hb⟩

omit hΓ hfs hne hst in
theorem run_of_completes {ops ops' : List FOp} {t t' : FSink} (h : FSink.Completes Γ f n t ops t') :
    FSink.run Γ f n t (ops ++ ops') = FSink.run Γ f n t' ops' := by
  induction ops generalizing t with
  | nil => cases h; rfl
  | cons o ops ih =>
    obtain ⟨t1, h1, h2⟩ := h
    rw [List.cons_append]
    rw [show FSink.run Γ f n t (o :: (ops ++ ops')) = FSink.run Γ f n t1 (ops ++ ops') by unfold FSink.run; rw [h1]; cases ops ++ ops' <;> rfl]
    exact ih h2

omit hΓ hfs hne hst in
theorem plain_connects {behs : List (List Byte → Status)} (hb : ∀ b ∈ behs, Open b) (s : Sink) (ops : List Op) :
    s.run (Sink.connects behs ++ ops) = Sink.Sink.run { s with units := s.units ++ behs.map (fun b => ⟨[], b [], b⟩) } ops := by
  induction behs generalizing s with
  | nil => simp [Sink.connects]
  | cons b behs ih =>
    have hb1 := hb b (by simp)
    show Sink.Sink.run s (Op.connect b :: (Sink.connects behs ++ ops)) = _
    have := ih (fun b hm => hb b (by simp [hm])) { s with units := s.units ++ [⟨[], b [], b⟩] }
    rw [show Sink.Sink.run s (Op.connect b :: (Sink.connects behs ++ ops)) =
      Sink.Sink.run { s with units := s.units ++ [⟨[], b [], b⟩] } (Sink.connects behs ++ ops) by
        rw [Sink.Sink.run, Sink.Sink.step]; rw [if_neg hb1.1]]
    rw [this]
    simp [List.append_assoc]

/-- C71. With filters that forward something for all data, reassembly is not affected by them: whatever happens to a sink (data
    at any positions, gaps, skips, trimming, exceptions), its units are told the same as those of a sink without filters, at the
    same positions, and get what the filters make of the data those would get. -/
theorem C71_reassembled_data_is_filtered_partial {behs : List (List Byte → Status)} (hb : ∀ b ∈ behs, Open b) {ops : List Op} {s : Sink}
    (ha : Always StaysOpen { units := behs.map (fun b => ⟨[], b [], b⟩) } ops) (hc : ∀ beh, Op.connect beh ∈ ops → ∀ d, beh d ≠ .finished)
    (hs : ({} : Sink).run (Sink.connects behs ++ ops) = some s) (hN : (deliveredData s.log).length ≤ N) :
    ∃ t, FSink.run Γ f n {} (setup fs behs ++ ops.map .op) = some t ∧
      deliveredData t.core.log = filtered Γ f n fs (deliveredData s.log) ∧
      t.core.log.map blank = s.log.map blank ∧ t.core.sequenceNumber = s.sequenceNumber := by
  rw [plain_connects hb] at hs
  obtain ⟨t, h1, h2⟩ := run_sim hΓ hfs hne hst ops (connected_rel hb) ha hc hs hN
  refine ⟨t, ?_, h2.data, h2.log, ?_⟩
  · rw [run_of_completes (setup_complete fs hb)]; exact h1
  · unfold Sink.Sink.sequenceNumber; rw [h2.initial, h2.cur]

omit hΓ hfs hne hst in
theorem completes_run {s s' : Sink} {ops : List Op} (h : s.Completes ops s') : s.run ops = some s' := by
  induction ops generalizing s with
  | nil => cases h; rfl
  | cons o ops ih =>
    obtain ⟨s1, h1, h2⟩ := h
    unfold Sink.Sink.run
    rw [h1]
    exact ih h2

omit hΓ hfs hne hst in
theorem always_writes (init : Nat) (s : Sink) (W : List (Nat × List Byte)) : Always StaysOpen s (Sink.writes init W) := by
  induction W generalizing s with
  | nil => trivial
  | cons w W ih =>
    refine ⟨trivial, ?_⟩
    cases Sink.Sink.step s _ with
    | ok a s1 => exact ih s1
    | throw e s1 => exact ih s1
    | ub => trivial

/-- C71. Segments written in any order: the units get what the filters make of the data in its order. -/
theorem C71_any_order_partial {behs : List (List Byte → Status)} (hb : ∀ b ∈ behs, Open b) {init : Nat} {segments : List (List Byte)}
    {W : List (Nat × List Byte)} (hperm : W.Perm (Sink.place 0 segments)) (hlt : segments.flatten.length < 2 ^ 63) (hN : segments.flatten.length ≤ N) :
    ∃ t, FSink.run Γ f n {} (setup fs behs ++ (.setInitial init :: Sink.writes init W).map .op) = some t ∧
      deliveredData t.core.log = filtered Γ f n fs segments.flatten ∧ OnlyData t.core.log := by
  obtain ⟨s, h1, h2, h3⟩ := Sink.C17_any_order hb (init := init) hperm hlt
  have hrun := completes_run h1
  rw [List.append_assoc] at hrun
  obtain ⟨t, g1, g2, g3, -⟩ := C71_reassembled_data_is_filtered_partial hΓ hfs hne hst hb (ops := .setInitial init :: Sink.writes init W) (s := s)
    ⟨⟨rfl, rfl⟩, (by exact always_writes init _ W)⟩ (by
      intro beh hm
      rcases List.mem_cons.mp hm with hm | hm
      · cases hm
      · unfold Sink.writes at hm
        obtain ⟨w, -, hw⟩ := List.mem_map.mp hm
        cases hw) hrun (by rw [h2]; exact hN)
  refine ⟨t, g1, by rw [g2, h2], ?_⟩
  intro e he
  have hm : blank e ∈ s.log.map blank := by rw [← g3]; exact List.mem_map_of_mem he
  obtain ⟨e', he', hbl⟩ := List.mem_map.mp hm
  obtain ⟨a, b, bs, rfl⟩ := h3 e' he'
  cases e <;> first | exact ⟨_, _, _, rfl⟩ | (simp [blank] at hbl)

end

end Verif.Filter
