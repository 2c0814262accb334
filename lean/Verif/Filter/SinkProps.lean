import Verif.Filter.SinkSim
/-!
# Sinks with filters: property theorems (C71)
-/

namespace Verif.Filter
open Verif.Stream (Byte)
open Verif.Parse
open Verif.Sink (Sink Op Event Chunk Status add64 sub64 Calm deliveredData Open OnlyData)

variable {Γ : Nat → G} {f n : Nat}

/-! ## Without filters -/

theorem lift_core (s : Sink) {α : Type} (r : Sink.R α) : FSink.lift ({ core := s } : FSink) r = FSink.lift {} r := by cases r <;> rfl

theorem deliver_plain (s : Sink) (d : Option (List Byte)) (a b : Nat) :
    FSink.deliver Γ f n { core := s } d a b = FSink.lift {} (s.deliver d a b) := by
  cases d with
  | none => exact lift_core s _
  | some bs =>
    unfold FSink.deliver
    dsimp only
    by_cases h : bs.length = 0
    · rw [if_pos h]; unfold Sink.deliver; dsimp only; rw [if_pos h]; rfl
    · rw [if_neg h]; exact lift_core s _

theorem loop_plain : ∀ (cs : List Chunk) (s : Sink),
    fdeliverLoop Γ f n cs { core := s } = FSink.lift {} (Sink.deliverLoop cs s) := by
  intro cs
  induction cs with
  | nil => intro s; rfl
  | cons c cs ih =>
    intro s
    unfold fdeliverLoop Sink.deliverLoop
    dsimp only
    split
    · rw [deliver_plain]
      cases Sink.deliver { s with last := add64 s.last (sub64 c.rupper c.rseq) } c.data c.rseq c.rupper with
      | ok b s' =>
        cases b with
        | true => exact ih s'
        | false => simp only [FSink.lift]; split <;> rfl
      | throw e s' => rfl
      | ub => rfl
    · exact ih s

theorem tryDeliver_plain (s : Sink) (i : Nat) : FSink.tryDeliver Γ f n { core := s } i = FSink.lift {} (s.tryDeliver i) := by
  unfold FSink.tryDeliver Sink.tryDeliver
  rw [loop_plain]
  cases Sink.deliverLoop (s.chunks.drop i) s with
  | ok a s' => simp only [FSink.lift, FR.bind, Sink.R.bind]; split <;> rfl
  | throw e s' => rfl
  | ub => rfl

theorem buffer_plain (s : Sink) (d : Option (List Byte)) (a b l : Nat) :
    FSink.buffer Γ f n { core := s } d a b l = FSink.lift {} (s.buffer d a b l) := by
  unfold FSink.buffer Sink.buffer
  dsimp only
  generalize (if s.chunks.isEmpty = true then (⟨.ok (some 0), [⟨d, a, add64 a l⟩], []⟩ : Sink.Added)
    else Sink.addAndCheck d a b [] s.chunks) = r
  obtain ⟨res, cs, lg⟩ := r
  dsimp only
  cases res with
  | throw e => rfl
  | ub => rfl
  | ok i =>
    cases i with
    | none => rfl
    | some i =>
      dsimp only
      cases cs[i]? with
      | none => rfl
      | some c =>
        dsimp only
        split
        · rfl
        · exact tryDeliver_plain _ i

theorem newData_plain (s : Sink) (d : Option (List Byte)) (a l : Nat) :
    FSink.newData Γ f n { core := s } d a l = FSink.lift {} (s.newData d a l) := by
  unfold FSink.newData Sink.newData
  dsimp only
  split
  · rfl
  · split
    · rw [deliver_plain]
      cases s.deliver d a (add64 a l) <;> rfl
    · split
      · rfl
      · split
        · cases d with
          | none => exact buffer_plain ..
          | some bs =>
            dsimp only
            cases Sink.dropBytes bs (s.trim - a) with
            | ok bs' => exact buffer_plain ..
            | throw e => rfl
            | ub => rfl
        · exact buffer_plain ..

theorem step_plain (s : Sink) (o : Op) : FSink.step Γ f n { core := s } (.op o) = FSink.lift {} (s.step o) := by
  cases o with
  | connect beh => exact lift_core s _
  | write bs seq len =>
    simp only [FSink.step, Sink.step]
    split
    · rfl
    · exact newData_plain ..
  | gap seq len => exact newData_plain ..
  | skip seq => exact tryDeliver_plain ..
  | trim seq => rfl
  | setAutoTrim b => rfl
  | setInitial seq => simp only [FSink.step, Sink.step]; split <;> rfl
  | close => rfl

/-- C71. A sink no filters are connected to is the sink of C16-C22 and C45, for every history. -/
theorem C71_without_filters (s : Sink) (ops : List Op) :
    FSink.run Γ f n { core := s } (ops.map .op) = (s.run ops).map (fun s => { core := s }) := by
  induction ops generalizing s with
  | nil => rfl
  | cons o ops ih =>
    rw [List.map_cons]
    unfold FSink.run Sink.run
    rw [step_plain]
    cases s.step o with
    | ok a s' => exact ih s'
    | throw e s' => exact ih s'
    | ub => rfl

/-- C71. Closing a sink takes its filters away: whatever was done before, from then on it is a sink without filters that has been
    closed. -/
theorem C71_close_disconnects (t : FSink) (ops : List Op) :
    FSink.run Γ f n t (.op .close :: ops.map .op) = (t.core.run (.close :: ops)).map (fun s => { core := s }) :=
  C71_without_filters t.core.close ops

/-! ## Writing in order, without sequence numbers -/

/-- Connecting filters and units, and then writing. -/
def setup (fs : List Filter) (behs : List (List Byte → Status)) : List FOp := fs.map .filter ++ behs.map (fun b => .op (.connect b))

def appends (ws : List (List Byte)) : List FOp := ws.map (fun w => .op (.write w none none))

theorem Completes_append {ops ops' : List FOp} {t t' t'' : FSink} (h : FSink.Completes Γ f n t ops t')
    (h' : FSink.Completes Γ f n t' ops' t'') : FSink.Completes Γ f n t (ops ++ ops') t'' := by
  induction ops generalizing t with
  | nil => cases h; exact h'
  | cons o ops ih =>
    obtain ⟨t1, h1, h2⟩ := h
    exact ⟨t1, h1, ih h2⟩

theorem filters_complete (fs gs : List Filter) : FSink.Completes Γ f n { filters := gs } (fs.map .filter) { filters := gs ++ fs } := by
  induction fs generalizing gs with
  | nil => simp [FSink.Completes]
  | cons F fs ih =>
    refine ⟨{ filters := gs ++ [F] }, rfl, ?_⟩
    have := ih (gs ++ [F])
    rwa [List.append_assoc] at this

theorem connects_complete (behs : List (List Byte → Status)) (hb : ∀ b ∈ behs, Open b) (fs : List Filter) (s : Sink) :
    FSink.Completes Γ f n { core := s, filters := fs } (behs.map (fun b => .op (.connect b)))
      { core := { s with units := s.units ++ behs.map (fun b => ⟨[], b [], b⟩) }, filters := fs } := by
  induction behs generalizing s with
  | nil => simp [FSink.Completes]
  | cons b behs ih =>
    refine ⟨{ core := { s with units := s.units ++ [⟨[], b [], b⟩] }, filters := fs }, ?_, ?_⟩
    · simp only [FSink.step, Sink.step]
      rw [if_neg (hb b (by simp)).1]
      rfl
    · have := ih (fun b hm => hb b (by simp [hm])) { s with units := s.units ++ [⟨[], b [], b⟩] }
      simpa [List.append_assoc] using this

theorem setup_complete (fs : List Filter) {behs : List (List Byte → Status)} (hb : ∀ b ∈ behs, Open b) :
    FSink.Completes Γ f n {} (setup fs behs) { core := { units := behs.map (fun b => ⟨[], b [], b⟩) }, filters := fs } := by
  have h1 := filters_complete (Γ := Γ) (f := f) (n := n) fs []
  have h2 := connects_complete (Γ := Γ) (f := f) (n := n) behs hb fs {}
  exact Completes_append h1 h2

theorem calm_start {behs : List (List Byte → Status)} (hb : ∀ b ∈ behs, Open b) :
    Calm { units := behs.map (fun b => ⟨[], b [], b⟩) } := by
  intro u hu
  simp only [List.mem_map] at hu
  obtain ⟨b, hm, rfl⟩ := hu
  exact ⟨(hb b hm).2 _, (hb b hm).2⟩

theorem appends_run (hΓ : ∀ i, Parse.Sound (Γ i)) {fs : List Filter} (hfs : ∀ F ∈ fs, F.Sound) (hne : fs ≠ []) :
    ∀ (ws : List (List Byte)) {d : List Byte} {t : FSink}, Given Γ f n fs d t → Fits Γ f n fs ⟨d ++ ws.flatten, false⟩ →
      Waits Γ f n fs (d ++ ws.flatten) → t.core.autoTrim = true → t.core.chunks = [] → Calm t.core →
      deliveredData t.core.log = filtered Γ f n fs d → OnlyData t.core.log →
      ∃ t', FSink.Completes Γ f n t (appends ws) t' ∧ deliveredData t'.core.log = filtered Γ f n fs (d ++ ws.flatten) ∧ OnlyData t'.core.log := by
  intro ws
  induction ws with
  | nil => intro d t hg _ _ _ _ _ hd ho; exact ⟨t, rfl, by simpa using hd, ho⟩
  | cons w ws ih =>
    intro d t hg hfit hw ha hc hcalm hd ho
    have hassoc : d ++ (w :: ws).flatten = (d ++ w) ++ ws.flatten := by simp
    rw [hassoc] at hfit hw ⊢
    by_cases hwe : w.length = 0
    · have hw0 : w = [] := List.length_eq_zero_iff.mp hwe
      subst hw0
      rw [List.append_nil] at hfit hw ⊢
      obtain ⟨t', h1, h2⟩ := ih hg hfit hw ha hc hcalm hd ho
      exact ⟨t', ⟨t, rfl, h1⟩, h2⟩
    · obtain ⟨-, k2, k3⟩ := after_prefix (d ++ w) ws.flatten hw hfit
      obtain ⟨new, t1, e1, e2, e3, e4⟩ := filter_spec hΓ hfs hg (by intro h; subst h; exact hwe rfl) k3 k2
      have hstep : ∀ (t2 : FSink), FSink.deliver Γ f n t (some w) t.core.cur (add64 t.core.cur w.length) = .ok true t2 →
          FSink.step Γ f n t (.op (.write w none none)) = .ok () t2 := by
        intro t2 h
        simp only [FSink.step]
        rw [if_neg hwe]
        unfold FSink.newData
        simp only [Option.getD_none, if_neg hwe, ha, hc, List.isEmpty_nil, Bool.and_true, decide_true, if_true, h]
        rfl
      have hdel : FSink.deliver Γ f n t (some w) t.core.cur (add64 t.core.cur w.length) =
          if new.length = 0 then .ok true t1 else t1.lift (t1.core.deliver (some new) t.core.cur (add64 t.core.cur w.length)) := by
        unfold FSink.deliver
        dsimp only
        rw [if_neg hwe, if_neg (by rw [hg.filters]; cases fs with
          | nil => exact absurd rfl hne
          | cons _ _ => simp), e1]
      by_cases hnew : new.length = 0
      · rw [if_pos hnew] at hdel
        have hn0 : new = [] := List.length_eq_zero_iff.mp hnew
        rw [hn0, List.append_nil] at e2
        obtain ⟨t', h1, h2⟩ := ih e4 hfit hw (by rw [e3]; exact ha) (by rw [e3]; exact hc) (by rw [e3]; exact hcalm)
          (by rw [e3, hd, e2]) (by rw [e3]; exact ho)
        exact ⟨t', ⟨t1, hstep _ hdel, h1⟩, h2⟩
      · rw [if_neg hnew, e3, Sink.deliver_calm hcalm (by intro h; subst h; exact hnew rfl)] at hdel
        obtain ⟨t', h1, h2⟩ := ih (t := { t1 with core := t.core.passed new t.core.cur (add64 t.core.cur w.length) })
          ⟨e4.filters, e4.late, e4.given, e4.seen⟩ hfit hw ha hc (hcalm.passed _ _ _)
          (by simp only [Sink.Sink.passed, Sink.deliveredData_append, hd, e2]; simp [deliveredData])
          (by
            intro e he
            simp only [Sink.Sink.passed, List.mem_append, List.mem_singleton] at he
            rcases he with he | he
            · exact ho e he
            · exact ⟨_, _, _, he⟩)
        exact ⟨t', ⟨_, hstep _ hdel, h1⟩, h2⟩

/-- C71. Data appended to a sink passes through the filters: after each write, the units have got exactly what the filters make of
    all the data written, and nothing else was reported to them. (For units see C45.) -/
theorem C71_appended_data_is_filtered_partial (hΓ : ∀ i, Parse.Sound (Γ i)) {fs : List Filter} (hfs : ∀ F ∈ fs, F.Sound) (hne : fs ≠ [])
    {behs : List (List Byte → Status)} (hb : ∀ b ∈ behs, Open b) (ws : List (List Byte)) (hfit : Fits Γ f n fs ⟨ws.flatten, false⟩)
    (hw : Waits Γ f n fs ws.flatten) :
    ∃ t, FSink.Completes Γ f n {} (setup fs behs ++ appends ws) t ∧ deliveredData t.core.log = filtered Γ f n fs ws.flatten ∧
      OnlyData t.core.log := by
  obtain ⟨t, h1, h2, h3⟩ := appends_run hΓ hfs hne ws (d := [])
    (t := { core := { units := behs.map (fun b => ⟨[], b [], b⟩) }, filters := fs })
    ⟨rfl, rfl, rfl, rfl⟩ (by simpa using hfit) (by simpa using hw) rfl rfl (calm_start hb) rfl (by intro e he; cases he)
  exact ⟨t, Completes_append (setup_complete fs hb) h1, by simpa using h2, h3⟩

end Verif.Filter
