import Verif.Fiber.Count

/-!
# C39, C40: resumables follow their life cycle; the fiber cache is accounted for
-/

namespace Verif.Fiber

variable {cap : Nat} {main : Prog} {w w' : World} {s : Spec}

theorem reach_sim (h : Reach cap main w) : ∃ s, readLog w.log = some s ∧ Sim w s [] := by
  induction h with
  | start => exact ⟨_, rfl, sim_start cap main⟩
  | step _ hl hlegal hst ih =>
    obtain ⟨s0, hl0, hsim⟩ := ih
    rw [hl] at hl0; injection hl0 with hl0; subst hl0
    obtain ⟨w1, s1, h1, h2, h3⟩ := sim_step hsim hl hlegal
    rw [hst] at h1; injection h1 with h1; subst h1
    exact ⟨s1, h2, h3⟩

/-- **C39**. Whatever main and the functions do (legally), everything that happens is accepted by the specification: each
    function is started once, by `run` only; control passes to it again only by `resume`, or `abort`/destruction while it is
    suspended; giving up control gives it to whoever passed it last, together with the right answer (in particular the exception,
    if there was one); after the end nothing of it is executed any more; observers report completion and the value exactly if the
    function ended normally, and what was destroyed while suspended was unwound. -/
theorem C39_lifecycle (h : Reach cap main w) : ∃ s, readLog w.log = some s :=
  let ⟨s, hs, _⟩ := reach_sim h; ⟨s, hs⟩

/-- **C39**. Legal programs never run into undefined behaviour (nor a failed assertion, nor an unexpected exception). -/
theorem C39_defined (h : Reach cap main w) (hl : readLog w.log = some s) (hlegal : Legal s w.cur) :
    ∃ w', step w = .ok w' ∧ Reach cap main w' := by
  obtain ⟨s0, hl0, hsim⟩ := reach_sim h
  rw [hl] at hl0; injection hl0 with hl0; subst hl0
  obtain ⟨w1, s1, h1, h2, h3⟩ := sim_step hsim hl hlegal
  exact ⟨w1, h1, .step h hl hlegal h1⟩

/-- **C39**. What a resumable says about itself is what happened to its function, at any time. -/
theorem C39_observers (h : Reach cap main w) (hl : readLog w.log = some s) {r : Nat} {o : Resum} (ho : w.res r = some o) :
    ((o.done, if o.done then o.result else none) = (s.phase r).shows) ∧
      ((∃ v, o.done = true ∧ o.result = some v) ↔ ∃ v, s.phase r = .finished v) := by
  obtain ⟨s0, hl0, hsim⟩ := reach_sim h
  rw [hl] at hl0; injection hl0 with hl0; subst hl0
  have hob := hsim.obj r
  rw [ho] at hob
  cases hp : s.phase r <;> rw [hp] at hob <;> first
    | (obtain ⟨f, hf⟩ := hob; injection hf with hf; subst hf; simp [Phase.shows])
    | (injection hob with hob; subst hob; simp [Phase.shows])
    | (rcases hob with ⟨f, hf, _⟩ | ⟨hf, _⟩
       · injection hf with hf; subst hf; simp [Phase.shows]
       · cases hf)
    | cases hob

/-- **C39**. Using a resumable whose function has ended is rejected, and changes nothing. -/
theorem C39_rejected (h : Reach cap main w) (hl : readLog w.log = some s) {r : Nat} (hp : (s.phase r).closed = true)
    {op : Op} (hop : op = .run ∨ op = .resume) {k : Answer → Prog} (hc : w.cur = .call op r k) :
    step w = .ok { w with cur := k .rejected, log := .answered op r .rejected :: w.log } := by
  obtain ⟨s0, hl0, hsim⟩ := reach_sim h
  rw [hl] at hl0; injection hl0 with hl0; subst hl0
  obtain ⟨o, ho1, ho2⟩ := closed_obj (hsim.obj r) hp
  unfold step
  rw [hc]
  rcases hop with h1 | h1 <;> subst h1
  · show resRun r k w = _
    unfold resRun; simp only [ho1, ho2]
  · show resResume r k w = _
    unfold resResume; simp only [ho1, ho2]

/-! ### What the specification implies -/

/-- Event `e` executes something of function `t`. -/
def executes (t : Nat) : Ev → Bool
  | .started _ _ t' | .continued _ _ t' | .unwinding _ _ t' => t' == t
  | .effect t' _ | .left t' .. => t' == some t
  | _ => false

/-- `e` is the end of function `t`. -/
def ends (t : Nat) : Ev → Bool
  | .left t' how .. => t' == some t && how != .yielded
  | _ => false

def starts (t : Nat) : Ev → Bool
  | .started _ _ t' => t' == t
  | _ => false

/-- The function is over. -/
def Phase.over : Phase → Bool
  | .finished _ | .raised _ | .aborted | .vacant | .gone => true
  | _ => false

theorem readLog_cons {e : Ev} {l : List Ev} {s' : Spec} (h : readLog (e :: l) = some s') :
    ∃ s, readLog l = some s ∧ s.read e = some s' := by
  change (match readLog l with | some s => s.read e | none => none) = some s' at h
  cases hl : readLog l with
  | none => rw [hl] at h; cases h
  | some s => rw [hl] at h; exact ⟨s, rfl, h⟩

/-- Consistency of phases and calls in the specification itself. -/
structure SpecOk (s : Spec) : Prop where
  calls : ∀ c, c ∈ s.calls → s.phase c.1 = opPhase c.2
  nodup : (s.calls.map Prod.fst).Nodup

theorem specOk_set {s : Spec} (h : SpecOk s) {r : Nat} {p : Phase} (hr : ∀ c, c ∈ s.calls → c.1 ≠ r) :
    SpecOk (s.set r p) :=
  ⟨fun c hc => by show upd s.phase r p c.1 = _; rw [upd_ne _ _ (hr c hc)]; exact h.calls c hc, h.nodup⟩

theorem specOk_push {s : Spec} (h : SpecOk s) {r : Nat} {op : Op} (hr : ∀ c, c ∈ s.calls → c.1 ≠ r) :
    SpecOk { s.set r (opPhase op) with calls := (r, op) :: s.calls } := by
  refine ⟨fun c hc => ?_, ?_⟩
  · show upd s.phase r _ c.1 = _
    rcases List.mem_cons.mp hc with he | hc
    · rw [he]; exact upd_same _ _ _
    · rw [upd_ne _ _ (hr c hc)]; exact h.calls c hc
  · refine List.nodup_cons.mpr ⟨fun hm => ?_, h.nodup⟩
    obtain ⟨c, hc, he⟩ := List.mem_map.mp hm
    exact hr c hc he

theorem not_called {s : Spec} (h : SpecOk s) {r : Nat} (h1 : s.phase r ≠ .active) (h2 : s.phase r ≠ .unwinding) :
    ∀ c, c ∈ s.calls → c.1 ≠ r := by
  intro c hc he
  have := h.calls c hc
  rw [he] at this
  cases hop : c.2 <;> rw [hop] at this <;> first | exact h1 this | exact h2 this

theorem not_called_closed {s : Spec} (h : SpecOk s) {r : Nat}
    (hp : (s.phase r).closed = true ∨ s.phase r = .fresh ∨ s.phase r = .aborted) : ∀ c, c ∈ s.calls → c.1 ≠ r := by
  refine not_called h ?_ ?_ <;> intro he <;> rw [he] at hp <;> rcases hp with h1 | h1 | h1 <;> cases h1

/-- What one event does to phases. -/
theorem read_facts {s s' : Spec} {e : Ev} (h : SpecOk s) (hr : s.read e = some s') :
    SpecOk s' ∧
    (∀ t, (s.phase t).over = true → (s'.phase t).over = true ∧ executes t e = false) ∧
    (∀ t, starts t e = true → s.phase t = .fresh ∧ s'.phase t ≠ .fresh ∧ s'.phase t ≠ .absent) ∧
    (∀ t, s.phase t ≠ .absent → s.phase t ≠ .fresh → s'.phase t ≠ .absent ∧ s'.phase t ≠ .fresh) ∧
    (∀ t, ends t e = true → (s'.phase t).over = true) := by
  have base : ∀ {r : Nat} {p : Phase} {s1 : Spec}, (s1.phase = upd s.phase r p) →
      ((s.phase r).over = true → p.over = true) →
      (∀ t, (s.phase t).over = true → (s1.phase t).over = true) := by
    intro r p s1 hs hov t ht
    rw [hs]
    by_cases he : t = r
    · rw [he, upd_same]; rw [he] at ht; exact hov ht
    · rw [upd_ne _ _ he]; exact ht
  have base2 : ∀ {r : Nat} {p : Phase} {s1 : Spec}, (s1.phase = upd s.phase r p) →
      (s.phase r ≠ .absent → s.phase r ≠ .fresh → p ≠ .absent ∧ p ≠ .fresh) →
      (∀ t, s.phase t ≠ .absent → s.phase t ≠ .fresh → s1.phase t ≠ .absent ∧ s1.phase t ≠ .fresh) := by
    intro r p s1 hs hov t ht ht2
    rw [hs]
    by_cases he : t = r
    · rw [he, upd_same]; rw [he] at ht ht2; exact hov ht ht2
    · rw [upd_ne _ _ he]; exact ⟨ht, ht2⟩
  cases e with
  | created r =>
    simp only [Spec.read] at hr
    split at hr
    · rename_i hp
      injection hr with hr; subst hr
      refine ⟨specOk_set h (not_called h (by rw [hp]; simp) (by rw [hp]; simp)), ?_, (by intro t ht; cases ht), ?_, (by intro t ht; cases ht)⟩
      · exact fun t ht => ⟨base rfl (by rw [hp]; intro hx; cases hx) t ht, rfl⟩
      · exact base2 rfl (by rw [hp]; intro hx; exact absurd rfl hx)
    · cases hr
  | started op r t0 =>
    simp only [Spec.read] at hr
    split at hr
    · rename_i hc
      obtain ⟨h1, h2, hp⟩ := hc
      subst h1; subst h2
      injection hr with hr; subst hr
      refine ⟨specOk_push (op := .run) h (not_called h (by rw [hp]; simp) (by rw [hp]; simp)), ?_, ?_, ?_, (by intro t ht; cases ht)⟩
      · refine fun t ht => ⟨base rfl (by rw [hp]; intro hx; cases hx) t ht, ?_⟩
        have : t ≠ t0 := by intro he; rw [he, hp] at ht; cases ht
        simp only [executes, beq_eq_false_iff_ne]; exact fun hx => this hx.symm
      · intro t ht
        have : t0 = t := by simpa [starts] using ht
        subst this
        refine ⟨hp, ?_⟩
        show upd s.phase t0 _ t0 ≠ _ ∧ upd s.phase t0 _ t0 ≠ _
        rw [upd_same]; simp
      · exact base2 (p := .active) rfl (fun _ _ => by simp)
    · cases hr
  | continued op r t0 =>
    simp only [Spec.read] at hr
    split at hr
    · rename_i hc
      obtain ⟨h1, h2, hp⟩ := hc
      subst h1; subst h2
      injection hr with hr; subst hr
      refine ⟨specOk_push (op := .resume) h (not_called h (by rw [hp]; simp) (by rw [hp]; simp)), ?_, (by intro t ht; cases ht), ?_, (by intro t ht; cases ht)⟩
      · refine fun t ht => ⟨base rfl (by rw [hp]; intro hx; cases hx) t ht, ?_⟩
        have : t ≠ t0 := by intro he; rw [he, hp] at ht; cases ht
        simp only [executes, beq_eq_false_iff_ne]; exact fun hx => this hx.symm
      · exact base2 (p := .active) rfl (fun _ _ => by simp)
    · cases hr
  | unwinding op r t0 =>
    simp only [Spec.read] at hr
    split at hr
    · rename_i hc
      obtain ⟨h1, h2, hp⟩ := hc
      subst h2
      injection hr with hr; subst hr
      have hop : opPhase op = .unwinding := by rcases h1 with h1 | h1 <;> rw [h1] <;> rfl
      refine ⟨?_, ?_, (by intro t ht; cases ht), ?_, (by intro t ht; cases ht)⟩
      · have := specOk_push (op := op) h (not_called h (r := t0) (by rw [hp]; simp) (by rw [hp]; simp))
        rw [hop] at this; exact this
      · refine fun t ht => ⟨base rfl (by rw [hp]; intro hx; cases hx) t ht, ?_⟩
        have : t ≠ t0 := by intro he; rw [he, hp] at ht; cases ht
        simp only [executes, beq_eq_false_iff_ne]; exact fun hx => this hx.symm
      · exact base2 (p := .unwinding) rfl (fun _ _ => by simp)
    · cases hr
  | effect t0 n =>
    simp only [Spec.read] at hr
    split at hr
    · rename_i hc
      injection hr with hr; subst hr
      refine ⟨h, fun t ht => ⟨ht, ?_⟩, (by intro t ht; cases ht), fun t a b => ⟨a, b⟩, (by intro t ht; cases ht)⟩
      simp only [executes, beq_eq_false_iff_ne]
      intro he
      rw [he] at hc
      cases hcs : s.calls with
      | nil => rw [hcs] at hc; cases hc
      | cons c cs =>
        rw [hcs] at hc
        injection hc with hc
        have := h.calls c (by rw [hcs]; exact List.mem_cons_self)
        rw [← hc] at this
        rw [this] at ht
        cases hop : c.2 <;> rw [hop] at ht <;> cases ht
    · cases hr
  | left t0 how op r a c =>
    simp only [Spec.read] at hr
    cases hcs : s.calls with
    | nil => rw [hcs] at hr; cases hr
    | cons call rest =>
      simp only [hcs] at hr
      split at hr
      · rename_i hc
        obtain ⟨h1, h2, h3⟩ := hc
        have hph := h.calls (r, op) (by rw [hcs, h1]; exact List.mem_cons_self)
        dsimp only at hph
        cases hlv : leaving (s.phase r) op how with
        | none => rw [hlv] at hr; cases hr
        | some ap =>
          obtain ⟨a', p⟩ := ap
          simp only [hlv] at hr
          split at hr
          · injection hr with hr; subst hr
            have hnot : (s.phase r).over = false := by rw [hph]; cases op <;> rfl
            have hp : p ≠ .absent ∧ p ≠ .fresh ∧ (how ≠ .yielded → p.over = true) := by
              rw [hph] at hlv
              cases op <;> cases how <;> simp [opPhase, leaving] at hlv <;> obtain ⟨_, hlv⟩ := hlv <;> subst hlv <;>
                simp [Phase.over]
            have hnd := h.nodup
            rw [hcs, List.map_cons, List.nodup_cons] at hnd
            refine ⟨⟨fun c0 hc0 => ?_, hnd.2⟩, ?_, (by intro t ht; cases ht), base2 rfl (fun _ _ => ⟨hp.1, hp.2.1⟩), ?_⟩
            · show upd s.phase r p c0.1 = _
              rw [upd_ne]
              · exact h.calls c0 (by rw [hcs]; exact List.mem_cons_of_mem _ hc0)
              · intro he
                apply hnd.1
                rw [h1]
                exact List.mem_map.mpr ⟨c0, hc0, he⟩
            · refine fun t ht => ⟨base rfl (by rw [hnot]; intro hx; cases hx) t ht, ?_⟩
              simp only [executes, beq_eq_false_iff_ne]
              rw [h2]
              intro he
              injection he with he
              rw [he, ht] at hnot; cases hnot
            · intro t ht
              simp only [ends, Bool.and_eq_true, beq_iff_eq, bne_iff_ne] at ht
              have : r = t := by rw [h2] at ht; injection ht.1
              subst this
              show (upd s.phase r p r).over = true
              rw [upd_same]; exact hp.2.2 ht.2
          · cases hr
      · cases hr
  | answered op r a =>
    cases op with
    | run =>
      simp only [Spec.read] at hr
      split at hr
      · injection hr with hr; subst hr
        exact ⟨h, fun t ht => ⟨ht, rfl⟩, (by intro t ht; cases ht), fun t a b => ⟨a, b⟩, (by intro t ht; cases ht)⟩
      · cases hr
    | resume =>
      simp only [Spec.read] at hr
      split at hr
      · injection hr with hr; subst hr
        exact ⟨h, fun t ht => ⟨ht, rfl⟩, (by intro t ht; cases ht), fun t a b => ⟨a, b⟩, (by intro t ht; cases ht)⟩
      · cases hr
    | abort =>
      simp only [Spec.read] at hr
      split at hr
      · injection hr with hr; subst hr
        exact ⟨h, fun t ht => ⟨ht, rfl⟩, (by intro t ht; cases ht), fun t a b => ⟨a, b⟩, (by intro t ht; cases ht)⟩
      · cases hr
    | drop =>
      simp only [Spec.read] at hr
      split at hr
      · rename_i hc
        injection hr with hr; subst hr
        exact ⟨specOk_set h (not_called_closed h hc.1), fun t ht => ⟨base rfl (fun _ => rfl) t ht, rfl⟩,
          (by intro t ht; cases ht), base2 rfl (fun _ _ => by simp), (by intro t ht; cases ht)⟩
      · cases hr
  | asked r d v =>
    simp only [Spec.read] at hr
    split at hr
    · injection hr with hr; subst hr
      exact ⟨h, fun t ht => ⟨ht, rfl⟩, (by intro t ht; cases ht), fun t a b => ⟨a, b⟩, (by intro t ht; cases ht)⟩
    · cases hr
  | clobbered r =>
    simp only [Spec.read] at hr
    split at hr
    · rename_i hc
      injection hr with hr; subst hr
      exact ⟨specOk_set h (not_called_closed h hc), fun t ht => ⟨base rfl (fun _ => rfl) t ht, rfl⟩,
        (by intro t ht; cases ht), base2 rfl (fun _ _ => by simp), (by intro t ht; cases ht)⟩
    · cases hr
  | refusedYield =>
    simp only [Spec.read] at hr
    split at hr
    · injection hr with hr; subst hr
      exact ⟨h, fun t ht => ⟨ht, rfl⟩, (by intro t ht; cases ht), fun t a b => ⟨a, b⟩, (by intro t ht; cases ht)⟩
    · cases hr

theorem readLog_ok {l : List Ev} : ∀ {s : Spec}, readLog l = some s → SpecOk s := by
  induction l with
  | nil => intro s h; injection h with h; subst h; exact ⟨fun c hc => (nomatch hc), List.nodup_nil⟩
  | cons e l ih =>
    intro s h
    obtain ⟨s0, h0, hr⟩ := readLog_cons h
    exact (read_facts (ih h0) hr).1

/-- **C39** (consequence). A function is started at most once. -/
theorem C39_started_once (h : Reach cap main w) (t : Nat) : (w.log.filter (starts t)).length ≤ 1 := by
  obtain ⟨s, hs⟩ := C39_lifecycle h
  have key : ∀ (l : List Ev) (s : Spec), readLog l = some s → (l.filter (starts t)).length ≤ 1 ∧
      ((l.filter (starts t)).length = 0 ∨ (s.phase t ≠ .absent ∧ s.phase t ≠ .fresh)) := by
    intro l
    induction l with
    | nil => intro s _; exact ⟨by simp, Or.inl rfl⟩
    | cons e l ih =>
      intro s h
      obtain ⟨s0, h0, hr⟩ := readLog_cons h
      obtain ⟨i1, i2⟩ := ih s0 h0
      obtain ⟨_, _, f3, f4, _⟩ := read_facts (readLog_ok h0) hr
      by_cases hst : starts t e = true
      · obtain ⟨g1, g2, g3⟩ := f3 t hst
        have hz : (l.filter (starts t)).length = 0 := by
          rcases i2 with i2 | i2
          · exact i2
          · exact absurd g1 i2.2
        simp only [List.filter_cons, hst, if_true, List.length_cons, hz]
        exact ⟨by omega, Or.inr ⟨g3, g2⟩⟩
      · simp only [List.filter_cons, hst]
        refine ⟨i1, ?_⟩
        rcases i2 with i2 | i2
        · exact Or.inl i2
        · exact Or.inr (f4 t i2.1 i2.2)
  exact (key _ _ hs).1

/-- **C39** (consequence). After a function has ended (returned, thrown, or was aborted) nothing of it is executed again. -/
theorem C39_no_rerun (h : Reach cap main w) {t : Nat} {later earlier : List Ev} {e : Ev}
    (hlog : w.log = later ++ e :: earlier) (he : ends t e = true) : ∀ e', e' ∈ later → executes t e' = false := by
  obtain ⟨s, hs⟩ := C39_lifecycle h
  rw [hlog] at hs
  clear hlog h
  have key : ∀ (l : List Ev) (s : Spec), readLog (l ++ e :: earlier) = some s →
      (s.phase t).over = true ∧ ∀ e', e' ∈ l → executes t e' = false := by
    intro l
    induction l with
    | nil =>
      intro s h
      obtain ⟨s0, h0, hr⟩ := readLog_cons h
      exact ⟨(read_facts (readLog_ok h0) hr).2.2.2.2 t he, fun e' h' => (nomatch h')⟩
    | cons a l ih =>
      intro s h
      obtain ⟨s0, h0, hr⟩ := readLog_cons h
      obtain ⟨i1, i2⟩ := ih s0 h0
      have := (read_facts (readLog_ok h0) hr).2.1 t i1
      refine ⟨this.1, fun e' h' => ?_⟩
      rcases List.mem_cons.mp h' with h' | h'
      · rw [h']; exact this.2
      · exact i2 e' h'
  exact (key _ _ hs).2

/-- `e` gives the exception of `r`'s function to somebody. -/
def raises (r : Nat) : Ev → Bool
  | .left _ _ _ r' (.raised _) _ => r' == r
  | .answered _ r' (.raised _) => r' == r
  | _ => false

/-- **C39** (consequence). An exception is reported at most once, when and only when the function ended with it. -/
theorem C39_raised_once (h : Reach cap main w) (r : Nat) : (w.log.filter (raises r)).length ≤ 1 := by
  obtain ⟨s, hs⟩ := C39_lifecycle h
  have key : ∀ (l : List Ev) (s : Spec), readLog l = some s → (l.filter (raises r)).length ≤ 1 ∧
      ((l.filter (raises r)).length = 0 ∨ (s.phase r).over = true) := by
    intro l
    induction l with
    | nil => intro s _; exact ⟨by simp, Or.inl rfl⟩
    | cons e l ih =>
      intro s h
      obtain ⟨s0, h0, hr⟩ := readLog_cons h
      obtain ⟨i1, i2⟩ := ih s0 h0
      obtain ⟨_, f2, _, _, f5⟩ := read_facts (readLog_ok h0) hr
      by_cases hra : raises r e = true
      · have hx : executes r e = true ∧ ends r e = true := by
          cases e with
          | left t0 how op r0 a c =>
            cases a with
            | raised ex =>
              have hr0 : r0 = r := by simpa [raises] using hra
              subst hr0
              simp only [Spec.read] at hr
              cases hcs : s0.calls with
              | nil => rw [hcs] at hr; cases hr
              | cons call rest =>
                simp only [hcs] at hr
                split at hr
                · rename_i hc
                  cases hlv : leaving (s0.phase r0) op how with
                  | none => rw [hlv] at hr; cases hr
                  | some ap =>
                    obtain ⟨a', p⟩ := ap
                    simp only [hlv] at hr
                    split at hr
                    · rename_i ha
                      have hne : how ≠ .yielded := by
                        intro hh
                        subst hh
                        rw [← ha] at hlv
                        cases hp0 : s0.phase r0 <;> rw [hp0] at hlv <;> cases op <;> simp [leaving] at hlv
                      simp [executes, ends, hc.2.1, hne]
                    · cases hr
                · cases hr
            | returned => cases hra
            | rejected => cases hra
          | answered op r0 a =>
            cases a with
            | raised ex =>
              cases op <;> simp [Spec.read] at hr
            | returned => cases hra
            | rejected => cases hra
          | _ => cases hra
        have hz : (l.filter (raises r)).length = 0 := by
          rcases i2 with i2 | i2
          · exact i2
          · have := (f2 r i2).2; rw [hx.1] at this; cases this
        simp only [List.filter_cons, hra, if_true, List.length_cons, hz]
        exact ⟨by omega, Or.inr (f5 r hx.2)⟩
      · simp only [List.filter_cons, hra]
        refine ⟨i1, ?_⟩
        rcases i2 with i2 | i2
        · exact Or.inl i2
        · exact Or.inr (f2 r i2).1
  exact (key _ _ hs).1

/-! ### What goes wrong otherwise -/

/-- Executing `n` steps. -/
def runN : Nat → World → Res World
  | 0, w => .ok w
  | n + 1, w => match step w with | .ok w' => runN n w' | .throw e => .throw e | .ub => .ub

/-- `abort()` of a resumable that was not started yet is undefined (an assertion otherwise). -/
theorem C39_abort_unstarted : runN 2 (start 8 (.spawn (.ret 1) fun r => .call .abort r fun _ => .ret 0)) = .ub := rfl

/-- So is using a resumable after `abort()`: its fiber's function is gone, but the fiber is not. -/
theorem C39_resume_aborted :
    runN 5 (start 8 (.spawn (.yield fun _ => .fail .abort) fun r => .call .run r fun _ => .call .abort r fun _ =>
      .call .resume r fun _ => .ret 0)) ≠ .ub ∧
    runN 6 (start 8 (.spawn (.yield fun _ => .fail .abort) fun r => .call .run r fun _ => .call .abort r fun _ =>
      .call .resume r fun _ => .ret 0)) = .ub := ⟨(fun h => by cases h), rfl⟩

theorem C39_abort_twice :
    runN 6 (start 8 (.spawn (.yield fun _ => .fail .abort) fun r => .call .run r fun _ => .call .abort r fun _ =>
      .call .abort r fun _ => .ret 0)) = .ub := rfl

def okLog : Res World → List Ev
  | .ok w => w.log
  | _ => []

/-- `run()` on a suspended function goes on with it; nothing starts. -/
theorem C39_run_twice :
    okLog (runN 4 (start 8 (.spawn (.yield fun _ => .ret 7) fun r => .call .run r fun _ => .call .run r fun _ => .ret 0))) =
      [.continued .run 0 0, .left (some 0) .yielded .run 0 .returned none, .started .run 0 0, .created 0] := rfl

/-- Assigning over a suspended resumable does not unwind its function (unlike destroying it): the log is not one the
    specification accepts, and the effects of unwinding (9) are missing. -/
theorem C39_overwrite_suspended :
    okLog (runN 4 (start 8 (.spawn (.yield fun _ => .emit 9 (.fail .abort)) fun r => .call .run r fun _ => .clobber r (.ret 0)))) =
      [.clobbered 0, .left (some 0) .yielded .run 0 .returned none, .started .run 0 0, .created 0] ∧
    (readLog [.clobbered 0, .left (some 0) .yielded .run 0 .returned none, .started .run 0 0, .created 0]).isNone = true :=
  ⟨rfl, rfl⟩

/-! ### A legal program: two functions, one resuming the other -/

def inner : Prog := .emit 1 (.yield fun _ => .emit 2 (.fail (.user 5)))
def outer (r : Nat) : Prog :=
  .call .run r fun _ => .yield fun _ => .call .resume r fun a => match a with
    | .raised (.user n) => .ret (n + 100)
    | _ => .ret 0
def demo : Prog :=
  .spawn inner fun r => .spawn (outer r) fun q => .call .run q fun _ => .emit 3 (.call .resume q fun _ =>
    .ask q fun _ _ => .ask r fun _ _ => .call .resume r fun _ => .call .drop q fun _ => .ret 0)

theorem demo_log : okLog (runN 19 (start 8 demo)) =
    [.answered .drop 1 .returned, .answered .resume 0 .rejected, .asked 0 true none, .asked 1 true (some 105),
     .left (some 1) (.finished 105) .resume 1 .returned none,
     .left (some 0) (.failed (.user 5)) .resume 0 (.raised (.user 5)) (some 1), .effect (some 0) 2, .continued .resume 0 0,
     .continued .resume 1 1, .effect none 3, .left (some 1) .yielded .run 1 .returned none,
     .left (some 0) .yielded .run 0 .returned (some 1), .effect (some 0) 1, .started .run 0 0, .started .run 1 1,
     .created 1, .created 0] := rfl

/-- It is accepted. -/
theorem demo_accepted : (readLog (okLog (runN 19 (start 8 demo)))).isSome = true := rfl

/-- The spec accepts nothing wrong: e.g. giving the exception to the wrong one, or losing it. -/
theorem spec_sharp :
    (readLog [.left (some 0) (.failed (.user 5)) .run 0 .returned none, .started .run 0 0, .created 0]).isNone = true ∧
    (readLog [.started .run 0 0, .left (some 0) (.finished 1) .run 0 .returned none, .started .run 0 0, .created 0]).isNone =
      true ∧
    (readLog [.asked 0 true (some 2), .left (some 0) (.finished 1) .run 0 .returned none, .started .run 0 0,
      .created 0]).isNone = true := ⟨rfl, rfl, rfl⟩

/-! ## C40 -/

/-- States reached by legal programs that call `reset()` only while no resumable holds a fiber; `base` is the number of
    fibers ever created before the last reset. -/
inductive ReachC (cap : Nat) (main : Prog) : Nat → World → Prop
  | start : ReachC cap main 0 (start cap main)
  | step {w w' : World} {s : Spec} {base : Nat} : ReachC cap main base w → readLog w.log = some s → Legal s w.cur →
      step w = .ok w' → (∀ k, w.cur ≠ .reset k) → ReachC cap main base w'
  | reset {w w' : World} {s : Spec} {base : Nat} {k : Prog} : ReachC cap main base w → readLog w.log = some s →
      w.cur = .reset k → (∀ r, s.phase r ∈ [.absent, .vacant, .gone] ∨ (s.phase r).closed = true) →
      step w = .ok w' → ReachC cap main w.nextF w'

theorem reachC_reach {base : Nat} (h : ReachC cap main base w) : Reach cap main w := by
  induction h with
  | start => exact .start
  | step _ hl hlegal hst _ ih => exact .step ih hl hlegal hst
  | reset _ hl hc _ hst ih => exact .step ih hl (by rw [hc]; exact trivial) hst

theorem change_cinv {s : Spec} (hsim : Sim w s []) (hc : CInv w) (hch : Change w w') (hnr : ∀ k, w.cur ≠ .reset k) :
    CInv w' ∧ (w'.max = w.max ∨ w'.max = live w') ∧ w'.total + w.nextF = w.total + w'.nextF := by
  cases hch with
  | same h => exact ⟨hc.same h, Or.inl h.max, by rw [h.total, h.nextF]⟩
  | created h =>
    obtain ⟨a1, a2, a3, a4⟩ := cinv_create hc
    exact ⟨a1.same h, by rw [h.max, h.live]; exact a2, by rw [h.total, h.nextF]; exact a4⟩
  | recycled w1 f h1 hf h2 =>
    have hb : f < w1.nextF := by rw [h1.nextF]; exact isLive_lt hsim.bound (by rw [← h1.fibs]; exact hf)
    obtain ⟨b1, b2, b3, b4⟩ := cinv_recycle (hc.same h1) hf hb
    exact ⟨b1.same h2, Or.inl (by rw [h2.max, b2, h1.max]), by rw [h2.total, h2.nextF, b3, b4, h1.total, h1.nextF]⟩
  | freed w1 f h1 hf h2 =>
    have hb : f < w1.nextF := by rw [h1.nextF]; exact isLive_lt hsim.bound (by rw [← h1.fibs]; exact hf)
    refine ⟨(cinv_free (hc.same h1) hf hb).same h2, Or.inl (by rw [h2.max]; exact h1.max), ?_⟩
    rw [h2.total, h2.nextF]
    show w1.total + w.nextF = w.total + w1.nextF
    rw [h1.total, h1.nextF]
  | primed k hk h2 =>
    obtain ⟨a1, a2, a3, _⟩ := cinv_prime hsim hc k
    rw [h2]; exact ⟨a1, a2, a3⟩
  | reset k hk _ => exact absurd hk (hnr k)

/-- **C40**. At any time the statistics say: as many fibers are cached as the cache has, which is never more than configured;
    as many exist as actually do; as many were created as actually were (since the last reset); never did more exist than the
    maximum says. -/
theorem C40_counters {base : Nat} (h : ReachC cap main base w) :
    (statistics w).cached = w.cache.length ∧ w.cache.length ≤ cap ∧ (statistics w).current = live w ∧
      live w ≤ (statistics w).max ∧ (statistics w).total + base = w.nextF := by
  have key : CInv w ∧ w.total + base = w.nextF ∧ w.cap = cap := by
    induction h with
    | start => exact ⟨⟨rfl, Nat.zero_le _, rfl, Nat.le_refl _⟩, rfl, rfl⟩
    | @step w w' s base hr hl hlegal hst hnr ih =>
      obtain ⟨s0, hl0, hsim⟩ := reach_sim (reachC_reach hr)
      have hch := step_change hst
      obtain ⟨a1, a2, a3⟩ := change_cinv hsim ih.1 hch hnr
      refine ⟨a1, by omega, ?_⟩
      rw [← ih.2.2]
      cases hch with
      | same h => exact h.cap
      | created h => rw [h.cap]; unfold create newFiber; split <;> rfl
      | recycled w1 f h1 hf h2 => rw [h2.cap, ← h1.cap]; unfold recycle freeFiber; split <;> rfl
      | freed w1 f h1 hf h2 => rw [h2.cap, ← h1.cap]; rfl
      | primed k hk h2 =>
        rw [h2]
        show (recycleAll _ _).cap = _
        rw [(cinv_recycleAll _ (sim_createN w.cap hsim) (cinv_createN w.cap hsim ih.1).1).2.2.2.2.2]
        exact (cinv_createN w.cap hsim ih.1).2.2.2.2.2.1
      | reset k hk _ => exact absurd hk (hnr k)
    | @reset w w' s base k hr hl hc hno hst ih =>
      obtain ⟨s0, hl0, hsim⟩ := reach_sim (reachC_reach hr)
      rw [hl] at hl0; injection hl0 with hl0; subst hl0
      have hw : w' = doReset k w := by
        unfold step at hst; rw [hc] at hst; injection hst with hst; exact hst.symm
      obtain ⟨f1, f2, f3, f4, f5, f6, f7, f8, f9, f10⟩ := freeAll_fields w.cache w
      have hlive : live (doReset k w) = 0 := by
        rw [live_eq]
        refine cnt_zero (fun i => ?_)
        show ((freeAll w.cache w).fibs i).isSome = false
        rw [f10]
        by_cases hi : i ∈ w.cache
        · rw [if_pos hi]; rfl
        · rw [if_neg hi]
          cases hx : w.fibs i with
          | none => rfl
          | some x =>
            rcases hsim.noleak i (by rw [hx]; rfl) with a | ⟨r, a⟩ | a
            · exact absurd a hi
            · obtain ⟨y, _, _, hok⟩ := hsim.hold r i a
              rcases hno r with h1 | h1
              · simp only [List.mem_cons, List.not_mem_nil, or_false] at h1
                rcases h1 with h1 | h1 | h1 <;> rw [h1] at hok <;> exact hok.elim
              · cases hp : s.phase r <;> rw [hp] at h1 hok <;> first | exact hok.elim | cases h1
            · nomatch a
      rw [hw]
      refine ⟨⟨rfl, Nat.zero_le _, hlive.symm, by rw [hlive]; exact Nat.zero_le _⟩, ?_, ?_⟩
      · show 0 + w.nextF = (freeAll w.cache w).nextF
        rw [f6]; omega
      · show (freeAll w.cache w).cap = _
        rw [f9]; exact ih.2.2
  exact ⟨key.1.cached, by rw [← key.2.2]; exact key.1.le, key.1.current, key.1.peak, key.2.1⟩

/-- **C40**. The maximum is reached: whenever it changes (other than by a reset), it becomes the number of fibers existing. -/
theorem C40_max_attained {base : Nat} {w' : World} {s : Spec} (h : ReachC cap main base w) (hl : readLog w.log = some s)
    (hlegal : Legal s w.cur) (hst : step w = .ok w') (hnr : ∀ k, w.cur ≠ .reset k) :
    w'.max = w.max ∨ (w'.max = live w' ∧ w.max ≤ w'.max) := by
  obtain ⟨s0, hl0, hsim⟩ := reach_sim (reachC_reach h)
  have hcs := C40_counters h
  have hcs' := C40_counters (.step h hl hlegal hst hnr)
  have hcap : w.cap = cap ∨ True := Or.inr trivial
  have hinv : CInv w := by
    refine ⟨hcs.1, ?_, hcs.2.2.1, hcs.2.2.2.1⟩
    have : ∀ {b : Nat} {v : World}, ReachC cap main b v → CInv v := by
      intro b v hv
      induction hv with
      | start => exact ⟨rfl, Nat.zero_le _, rfl, Nat.le_refl _⟩
      | step hr hl hlegal hst hnr ih =>
        obtain ⟨s0, hl0, hsim⟩ := reach_sim (reachC_reach hr)
        exact (change_cinv hsim ih (step_change hst) hnr).1
      | @reset w w' s base k hr hl hc hno hst ih =>
        have hw : w' = doReset k w := by
          unfold step at hst; rw [hc] at hst; injection hst with hst; exact hst.symm
        have := C40_counters (.reset hr hl hc hno hst)
        exact ⟨this.1, by rw [hw]; exact Nat.zero_le _, this.2.2.1, this.2.2.2.1⟩
    exact (this h).le
  have hch := step_change hst
  obtain ⟨a1, a2, _⟩ := change_cinv hsim hinv hch hnr
  rcases a2 with a2 | a2
  · exact Or.inl a2
  · refine Or.inr ⟨a2, ?_⟩
    cases hch with
    | same h => rw [h.max]; exact Nat.le_refl _
    | created h => rw [h.max]; exact (cinv_create hinv).2.2.1
    | recycled w1 f h1 hf h2 =>
      rw [h2.max, ← h1.max]; unfold recycle freeFiber; split <;> exact Nat.le_refl _
    | freed w1 f h1 hf h2 => rw [h2.max, ← h1.max]; exact Nat.le_refl _
    | primed k hk h2 =>
      rw [h2]
      show w.max ≤ (recycleAll _ _).max
      rw [(cinv_recycleAll _ (sim_createN w.cap hsim) (cinv_createN w.cap hsim hinv).1).2.1]
      exact (cinv_createN w.cap hsim hinv).2.2.1
    | reset k hk _ => exact absurd hk (hnr k)

/-- **C40**. No fiber is lost: each one existing is in the cache, or belongs to exactly one resumable (or to its destructor that
    is in progress). -/
theorem C40_no_leak (h : Reach cap main w) {f : Nat} (hf : (w.fibs f).isSome = true) :
    (f ∈ w.cache ∨ ∃ r, Holds w r f) ∧ ¬ (f ∈ w.cache ∧ ∃ r, Holds w r f) ∧
      ∀ r r', Holds w r f → Holds w r' f → r = r' := by
  obtain ⟨s, _, hsim⟩ := reach_sim h
  refine ⟨?_, ?_, fun r r' => hsim.inj r r' f⟩
  · rcases hsim.noleak f hf with a | a | a
    · exact Or.inl a
    · exact Or.inr a
    · nomatch a
  · rintro ⟨a, r, b⟩
    obtain ⟨_, _, c, _⟩ := hsim.hold r f b
    exact c a

/-- **C40**. `primeCache()` fills the cache. -/
theorem C40_prime {base : Nat} (h : ReachC cap main base w) (k : Prog) :
    (doPrime k w).cache.length = w.cap := by
  obtain ⟨s, _, hsim⟩ := reach_sim (reachC_reach h)
  have key : ∀ {b : Nat} {v : World}, ReachC cap main b v → CInv v := by
    intro b v hv
    induction hv with
    | start => exact ⟨rfl, Nat.zero_le _, rfl, Nat.le_refl _⟩
    | step hr hl hlegal hst hnr ih =>
      obtain ⟨s0, hl0, hsim⟩ := reach_sim (reachC_reach hr)
      exact (change_cinv hsim ih (step_change hst) hnr).1
    | @reset w w' s base k hr hl hc hno hst ih =>
      have hw : w' = doReset k w := by
        unfold step at hst; rw [hc] at hst; injection hst with hst; exact hst.symm
      have := C40_counters (.reset hr hl hc hno hst)
      exact ⟨this.1, by rw [hw]; exact Nat.zero_le _, this.2.2.1, this.2.2.2.1⟩
  exact (cinv_prime hsim (key h) k).2.2.2

def okStats : Res World → Option Stats
  | .ok w => some (statistics w)
  | _ => none

/-- `reset()` while a resumable exists: once it is gone, as many fibers exist as a wrapped-around counter can say. (The cache
    has no room here, so the fiber is deleted.) -/
theorem C40_reset_underflow :
    okStats (runN 5 (start 0 (.spawn (.ret 1) fun r => .reset (.call .run r fun _ => .ret 0)))) =
      some ⟨0, 2 ^ 64 - 1, 0, 0, 1⟩ := rfl

/-- The counters of `demo`: two fibers, both cached again. -/
theorem demo_stats : okStats (runN 19 (start 8 demo)) = some ⟨2, 2, 2, 2, 2⟩ := rfl

/-! ### The demonstration is legal throughout, so that the theorems apply to it -/

/-- Decides `Legal`, and that nothing is reset. -/
def legalB (s : Spec) : Prog → Bool
  | .yield _ => match running s.calls with | none => true | some r => s.phase r == .active
  | .call .run r _ => s.phase r == .fresh || (s.phase r).closed
  | .call .resume r _ | .call .abort r _ => s.phase r == .suspended || (s.phase r).closed
  | .call .drop r _ => s.phase r == .fresh || s.phase r == .suspended || s.phase r == .aborted || (s.phase r).closed
  | .clobber r _ => s.phase r == .fresh || s.phase r == .aborted || (s.phase r).closed
  | .ask r _ => s.phase r != .absent && s.phase r != .gone && s.phase r != .unwinding
  | .reset _ => false
  | _ => true

theorem legalB_sound {s : Spec} {p : Prog} (h : legalB s p = true) : Legal s p ∧ ∀ k, p ≠ .reset k := by
  cases p with
  | yield k =>
    refine ⟨?_, by intro k hk; cases hk⟩
    intro r hr
    simp only [legalB, hr] at h
    simpa using h
  | call op r k =>
    refine ⟨?_, by intro k hk; cases hk⟩
    cases op <;> simp [legalB] at h <;> simp only [Legal]
    · exact h
    · exact h
    · exact h
    · rcases h with ((h | h) | h) | h
      · exact Or.inl h
      · exact Or.inr (Or.inl h)
      · exact Or.inr (Or.inr (Or.inl h))
      · exact Or.inr (Or.inr (Or.inr h))
  | clobber r k =>
    refine ⟨?_, by intro k hk; cases hk⟩
    simp [legalB] at h; simp only [Legal]
    rcases h with (h | h) | h
    · exact Or.inl h
    · exact Or.inr (Or.inl h)
    · exact Or.inr (Or.inr h)
  | ask r k =>
    refine ⟨?_, by intro k hk; cases hk⟩
    simp [legalB] at h; simp only [Legal]
    exact ⟨h.1.1, h.1.2, h.2⟩
  | reset k => cases h
  | _ => exact ⟨trivial, by intro k hk; cases hk⟩

/-- Executes `n` steps, checking that each is legal. -/
def runLegal : Nat → World → Option World
  | 0, w => some w
  | n + 1, w =>
    match readLog w.log with
    | none => none
    | some s => if legalB s w.cur then match step w with | .ok w' => runLegal n w' | _ => none else none

theorem runLegal_reach {base : Nat} : ∀ (n : Nat) {v v' : World}, ReachC cap main base v → runLegal n v = some v' →
    ReachC cap main base v' := by
  intro n
  induction n with
  | zero => intro v v' h hr; injection hr with hr; subst hr; exact h
  | succ n ih =>
    intro v v' h hr
    simp only [runLegal] at hr
    cases hl : readLog v.log with
    | none => rw [hl] at hr; cases hr
    | some s =>
      simp only [hl] at hr
      split at hr
      · rename_i hb
        obtain ⟨b1, b2⟩ := legalB_sound hb
        cases hst : step v with
        | ok v1 => simp only [hst] at hr; exact ih (.step h hl b1 hst b2) hr
        | throw e => simp only [hst] at hr; cases hr
        | ub => simp only [hst] at hr; cases hr
      · cases hr

/-- `demo` runs to its end, and every step of it is legal. -/
theorem demo_legal : ∃ w, ReachC 8 demo 0 w ∧ runN 19 (start 8 demo) = .ok w ∧ w.log.length = 17 := by
  have h : (runLegal 19 (start 8 demo)).isSome = true := rfl
  obtain ⟨w, hw⟩ := Option.isSome_iff_exists.mp h
  refine ⟨w, runLegal_reach 19 .start hw, ?_, ?_⟩
  · have : runN 19 (start 8 demo) = match runLegal 19 (start 8 demo) with | some w => .ok w | none => .ub := rfl
    rw [this, hw]
  · have : (match runLegal 19 (start 8 demo) with | some w => w.log.length | none => 0) = 17 := rfl
    rw [hw] at this; exact this

end Verif.Fiber
