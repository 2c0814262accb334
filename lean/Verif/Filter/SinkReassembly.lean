import Verif.Filter.SinkProps
import Verif.Sink.History
/-!
# Sinks with filters: reassembly

If the filters give some output for all input, a sink with filters does whatever the sink without filters does; the units get
what the filters make of the data they would get otherwise.
-/

namespace Verif.Filter
open Verif.Stream (Byte)
open Verif.Parse
open Verif.Sink (Sink Op Event Chunk Status add64 sub64 Calm deliveredData Open OnlyData StaysOpen Always)

variable {Γ : Nat → G} {f n : Nat}

/-- For all data up to some size, the filters go on to the end of the data, and forward something for all further data. -/
structure Steady (Γ : Nat → G) (f n : Nat) (fs : List Filter) (N : Nat) : Prop where
  fits : ∀ d : List Byte, d.length ≤ N → Fits Γ f n fs ⟨d, false⟩
  waits : ∀ d : List Byte, d.length ≤ N → Waits Γ f n fs d
  more : ∀ d e : List Byte, e ≠ [] → (d ++ e).length ≤ N → filtered Γ f n fs (d ++ e) ≠ filtered Γ f n fs d

/-- An event without its data. -/
def blank : Event → Event
  | .data a b _ => .data a b []
  | e => e

/-- The sink with filters `t` is where the sink without filters `s` is. -/
structure Rel (Γ : Nat → G) (f n : Nat) (fs : List Filter) (s : Sink) (t : FSink) : Prop where
  auto : t.core.autoTrim = s.autoTrim
  initial : t.core.initial = s.initial
  cur : t.core.cur = s.cur
  last : t.core.last = s.last
  trim : t.core.trim = s.trim
  chunks : t.core.chunks = s.chunks
  log : t.core.log.map blank = s.log.map blank
  given : Given Γ f n fs (deliveredData s.log) t
  data : deliveredData t.core.log = filtered Γ f n fs (deliveredData s.log)
  calm : Calm s
  calm' : Calm t.core

/-- A change that does not concern data passed on. -/
def upd (s : Sink) (autoTrim : Bool) (initial cur last trim : Nat) (chunks : List Chunk) (evs : List Event) : Sink :=
  { s with autoTrim := autoTrim, initial := initial, cur := cur, last := last, trim := trim, chunks := chunks, log := s.log ++ evs }

theorem Rel.upd {fs : List Filter} {s : Sink} {t : FSink} (h : Rel Γ f n fs s t) (au : Bool) (ini cur last trim : Nat) (cs : List Chunk)
    {evs : List Event} (he : deliveredData evs = []) :
    Rel Γ f n fs (upd s au ini cur last trim cs evs) { t with core := upd t.core au ini cur last trim cs evs } := by
  have e1 : deliveredData (s.log ++ evs) = deliveredData s.log := by rw [Sink.deliveredData_append, he, List.append_nil]
  have e2 : deliveredData (t.core.log ++ evs) = deliveredData t.core.log := by rw [Sink.deliveredData_append, he, List.append_nil]
  refine ⟨rfl, rfl, rfl, rfl, rfl, rfl, ?_, ?_, ?_, h.calm, h.calm'⟩
  · simp only [Filter.upd, List.map_append, h.log]
  · simp only [Filter.upd, e1]; exact ⟨h.given.filters, h.given.late, h.given.given, h.given.seen⟩
  · simp only [Filter.upd, e1, e2]; exact h.data

/-- Data passed on is never taken back. -/
def Grows {α : Type} (s : Sink) (r : Sink.R α) : Prop := r.After (fun s' => deliveredData s.log <+: deliveredData s'.log)

theorem quiet_reports (cur : Nat) (cs : List Chunk) : deliveredData (cs.flatMap (Sink.undeliveredReport cur)) = [] := by
  induction cs with
  | nil => rfl
  | cons c cs ih =>
    rw [List.flatMap_cons, Sink.deliveredData_append, ih, List.append_nil]
    unfold Sink.undeliveredReport
    split
    · split <;> rfl
    · rfl

theorem quiet_upTo (r : Nat) (cs : List Chunk) : deliveredData (cs.flatMap (Sink.upToReport r)) = [] := by
  induction cs with
  | nil => rfl
  | cons c cs ih =>
    rw [List.flatMap_cons, Sink.deliveredData_append, ih, List.append_nil]
    unfold Sink.upToReport
    split <;> rfl

theorem trimTo_data (s : Sink) (r : Nat) : deliveredData (s.trimTo r).log = deliveredData s.log := by
  unfold Sink.Sink.trimTo
  rw [Sink.deliveredData_append, quiet_reports, List.append_nil]

theorem deliver_grows (s : Sink) (d : Option (List Byte)) (a b : Nat) : Grows s (s.deliver d a b) := by
  unfold Sink.Sink.deliver
  cases d with
  | none =>
    dsimp only
    split
    · simp only [Grows, Sink.R.After, Sink.Sink.emit, Sink.deliveredData_append]; exact List.prefix_append _ _
    · exact List.prefix_refl _
  | some bs =>
    dsimp only
    split
    · exact List.prefix_refl _
    · split
      · exact List.prefix_refl _
      · simp only [Grows, Sink.R.After, Sink.Sink.emit, Sink.deliveredData_append]; exact List.prefix_append _ _

theorem loop_grows : ∀ (cs : List Chunk) (s : Sink), Grows s (Sink.deliverLoop cs s) := by
  intro cs
  induction cs with
  | nil => intro s; exact List.prefix_refl _
  | cons c cs ih =>
    intro s
    unfold Sink.deliverLoop
    dsimp only
    split
    · have hg := deliver_grows { s with last := add64 s.last (sub64 c.rupper c.rseq) } c.data c.rseq c.rupper
      cases hd : Sink.Sink.deliver { s with last := add64 s.last (sub64 c.rupper c.rseq) } c.data c.rseq c.rupper with
      | ok x s' =>
        rw [hd] at hg
        cases x with
        | true =>
          dsimp only
          have h2 := ih s'
          unfold Grows at h2 hg ⊢
          cases hl : Sink.deliverLoop cs s' with
          | ok _ s2 => rw [hl] at h2; exact hg.trans h2
          | throw _ s2 => rw [hl] at h2; exact hg.trans h2
          | ub => trivial
        | false =>
          dsimp only
          show deliveredData s.log <+: deliveredData (if s'.autoTrim = true then s'.trimTo c.rseq else s').log
          split
          · rw [trimTo_data]; exact hg
          · exact hg
      | throw e s' => rw [hd] at hg; exact hg
      | ub => trivial
    · exact ih s

/-- The operations have the same outcome, unless too much data is passed on. -/
def Sim (Γ : Nat → G) (f n : Nat) (fs : List Filter) (N : Nat) {α : Type} (r : Sink.R α) (x : FR α) : Prop := match r with
  | .ok a s => (deliveredData s.log).length ≤ N → ∃ t, x = .ok a t ∧ Rel Γ f n fs s t
  | .throw e s => (deliveredData s.log).length ≤ N → ∃ t, x = .throw e t ∧ Rel Γ f n fs s t
  | .ub => True

/-- Adding data to the buffer passes on nothing. -/
def quietNext : Sink.Next → Prop
  | .done r => deliveredData r.log = []
  | .again _ _ _ ev => deliveredData [ev] = []

section
variable (hΓ : ∀ i, Parse.Sound (Γ i)) {fs : List Filter} (hfs : ∀ F ∈ fs, F.Sound) (hne : fs ≠ []) {N : Nat} (hst : Steady Γ f n fs N)
include hΓ hfs hne hst

theorem deliver_sim {s : Sink} {t : FSink} (h : Rel Γ f n fs s t) (d : Option (List Byte)) (a b : Nat) :
    Sim Γ f n fs N (s.deliver d a b) (t.deliver Γ f n d a b) := by
  cases d with
  | none =>
    simp only [FSink.deliver, Sink.Sink.deliver, h.cur]
    split
    · intro _
      refine ⟨_, rfl, ?_⟩
      have := h.upd (evs := [Event.gap a (sub64 b a)]) s.autoTrim s.initial b s.last s.trim s.chunks rfl
      unfold Filter.upd at this
      unfold Sink.Sink.emit
      obtain ⟨core, filters, late, given, seen⟩ := t
      have h1 := h.auto; have h2 := h.initial; have h3 := h.last; have h4 := h.trim; have h5 := h.chunks
      dsimp only at h1 h2 h3 h4 h5
      rw [← h1, ← h2, ← h3, ← h4, ← h5] at this
      obtain ⟨au, sz, ini, cur, la, tr, cs, us, lg⟩ := s
      dsimp only at *
      subst h1 h2 h3 h4 h5
      exact this
    · intro _; exact ⟨_, rfl, h⟩
  | some bs =>
    simp only [FSink.deliver]
    by_cases hbs : bs.length = 0
    · rw [if_pos hbs]; simp only [Sink.Sink.deliver]; rw [if_pos hbs]; intro _; exact ⟨t, rfl, h⟩
    · have hbn : bs ≠ [] := by intro e; subst e; exact hbs rfl
      rw [if_neg hbs, if_neg (by rw [h.given.filters]; cases fs with
          | nil => exact absurd rfl hne
          | cons _ _ => simp), Sink.deliver_calm h.calm hbn]
      intro hN
      have hdel : deliveredData (s.passed bs a b).log = deliveredData s.log ++ bs := by
        simp only [Sink.Sink.passed, Sink.deliveredData_append]; simp [deliveredData]
      rw [hdel] at hN
      obtain ⟨new, t1, e1, e2, e3, e4⟩ := filter_spec hΓ hfs h.given hbn (hst.fits _ hN) (hst.waits _ hN)
      have hnew : new ≠ [] := by
        intro e0
        rw [e0, List.append_nil] at e2
        exact hst.more _ _ hbn hN e2
      have hl := List.length_pos_iff.2 hnew
      rw [e1]
      dsimp only
      rw [if_neg (by omega), e3, Sink.deliver_calm h.calm' hnew]
      refine ⟨_, rfl, ?_⟩
      refine ⟨h.auto, h.initial, rfl, rfl, h.trim, h.chunks, ?_, ?_, ?_, h.calm.passed _ _ _, h.calm'.passed _ _ _⟩
      · simp only [Sink.Sink.passed, List.map_append, h.log]; rfl
      · rw [hdel]; exact ⟨e4.filters, e4.late, e4.given, e4.seen⟩
      · rw [hdel, e2, ← h.data]; simp only [Sink.Sink.passed, Sink.deliveredData_append]; simp [deliveredData]

omit hΓ hfs hne hst in
theorem Rel.trimTo {s : Sink} {t : FSink} (h : Rel Γ f n fs s t) (r : Nat) : Rel Γ f n fs (s.trimTo r) { t with core := t.core.trimTo r } := by
  have := h.upd s.autoTrim s.initial s.cur s.last r (Sink.kept r s.chunks) (quiet_reports s.cur (Sink.trimmed r s.chunks))
  unfold Filter.upd at this
  unfold Sink.Sink.trimTo
  rw [h.chunks, h.cur]
  obtain ⟨core, filters, late, given, seen⟩ := t
  obtain ⟨au, sz, ini, cur, la, tr, cs, us, lg⟩ := core
  have h1 := h.auto; have h2 := h.initial; have h3 := h.last; have h4 := h.cur
  dsimp only at h1 h2 h3 h4 this ⊢
  subst h1 h2 h3 h4
  exact this

omit hΓ hfs hne hst in
theorem Rel.setLast {s : Sink} {t : FSink} (h : Rel Γ f n fs s t) (l : Nat) :
    Rel Γ f n fs { s with last := l } { t with core := { t.core with last := l } } := by
  exact ⟨h.auto, h.initial, h.cur, rfl, h.trim, h.chunks, h.log, ⟨h.given.filters, h.given.late, h.given.given, h.given.seen⟩, h.data,
    h.calm, h.calm'⟩

theorem loop_sim : ∀ (cs : List Chunk) {s : Sink} {t : FSink}, Rel Γ f n fs s t →
    Sim Γ f n fs N (Sink.deliverLoop cs s) (fdeliverLoop Γ f n cs t) := by
  intro cs
  induction cs with
  | nil => intro s t h _; exact ⟨t, rfl, h⟩
  | cons c cs ih =>
    intro s t h
    unfold fdeliverLoop Sink.deliverLoop
    dsimp only
    rw [h.last]
    by_cases hc : c.rseq = s.last
    · rw [if_pos hc, if_pos hc]
      have hd := deliver_sim hΓ hfs hne hst (h.setLast (add64 s.last (sub64 c.rupper c.rseq))) c.data c.rseq c.rupper
      cases hr : Sink.Sink.deliver { s with last := add64 s.last (sub64 c.rupper c.rseq) } c.data c.rseq c.rupper with
      | ok x s1 =>
        rw [hr] at hd
        cases x with
        | true =>
          have hg := loop_grows cs s1
          have key : (deliveredData s1.log).length ≤ N → Sim Γ f n fs N (Sink.deliverLoop cs s1) (match
              FSink.deliver Γ f n { t with core := { t.core with last := add64 s.last (sub64 c.rupper c.rseq) } } c.data c.rseq c.rupper with
            | .ok true t' => fdeliverLoop Γ f n cs t'
            | .ok false t' => .ok () (if t'.core.autoTrim = true then { t' with core := t'.core.trimTo c.rseq } else t')
            | .throw e t' => .throw e t'
            | .ub => .ub
            | .diverge => .diverge) := by
            intro hN
            obtain ⟨t1, k1, k2⟩ := hd hN
            rw [k1]
            exact ih k2
          dsimp only
          unfold Grows at hg
          unfold Sim at key ⊢
          cases hl : Sink.deliverLoop cs s1 with
          | ok _ s2 =>
            rw [hl] at hg key
            intro hN
            exact key (Nat.le_trans hg.length_le hN) hN
          | throw _ s2 =>
            rw [hl] at hg key
            intro hN
            exact key (Nat.le_trans hg.length_le hN) hN
          | ub => trivial
        | false =>
          dsimp only
          intro hN
          have hN' : (deliveredData s1.log).length ≤ N := by
            have : deliveredData (if s1.autoTrim = true then s1.trimTo c.rseq else s1).log = deliveredData s1.log := by
              split
              · exact trimTo_data _ _
              · rfl
            rwa [this] at hN
          obtain ⟨t1, k1, k2⟩ := hd hN'
          rw [k1]
          dsimp only
          rw [k2.auto]
          refine ⟨_, rfl, ?_⟩
          split
          · exact k2.trimTo _
          · exact k2
      | throw e s1 =>
        rw [hr] at hd
        dsimp only
        intro hN
        obtain ⟨t1, k1, k2⟩ := hd hN
        rw [k1]
        exact ⟨t1, rfl, k2⟩
      | ub => trivial
    · rw [if_neg hc, if_neg hc]
      exact ih h

theorem tryDeliver_sim {s : Sink} {t : FSink} (h : Rel Γ f n fs s t) (i : Nat) :
    Sim Γ f n fs N (s.tryDeliver i) (t.tryDeliver Γ f n i) := by
  unfold FSink.tryDeliver Sink.Sink.tryDeliver
  rw [h.chunks]
  have hl := loop_sim hΓ hfs hne hst (s.chunks.drop i) h
  cases hr : Sink.deliverLoop (s.chunks.drop i) s with
  | ok a s1 =>
    rw [hr] at hl
    intro hN
    have hN' : (deliveredData s1.log).length ≤ N := by
      have : deliveredData (if s1.autoTrim = true then s1.trimTo s1.last else s1).log = deliveredData s1.log := by
        split
        · exact trimTo_data _ _
        · rfl
      rwa [this] at hN
    obtain ⟨t1, k1, k2⟩ := hl hN'
    rw [k1]
    simp only [FR.bind]
    refine ⟨_, rfl, ?_⟩
    rw [k2.auto, k2.last]
    split
    · exact k2.trimTo _
    · exact k2
  | throw e s1 =>
    rw [hr] at hl
    intro hN
    obtain ⟨t1, k1, k2⟩ := hl hN
    rw [k1]
    exact ⟨t1, rfl, k2⟩
  | ub => trivial

omit hΓ hfs hne hst in
theorem resolve_quiet (d : Option (List Byte)) (a b : Nat) (pre : List Chunk) (c : Chunk) (post : List Chunk) (nc : Option Nat) :
    quietNext (Sink.resolve d a b pre c post nc) := by
  unfold Sink.resolve
  dsimp only
  generalize (if sub64 b a < sub64 c.rupper a then sub64 b a else sub64 c.rupper a) = len
  repeat' split
  all_goals simp only [quietNext, deliveredData]

omit hΓ hfs hne hst in
theorem overlap_quiet (d : Option (List Byte)) (a b : Nat) (pre : List Chunk) (c : Chunk) (post : List Chunk) :
    quietNext (Sink.overlapWith d a b pre c post) := by
  unfold Sink.overlapWith
  dsimp only
  generalize Sink.afterPrefix d (decide (a < c.rseq)) (c.rseq - a) = q
  cases q with
  | throw e => simp only [quietNext, deliveredData]
  | ub => simp only [quietNext, deliveredData]
  | ok d' => exact resolve_quiet ..

omit hΓ hfs hne hst in
theorem add_quiet : ∀ (post pre : List Chunk) (d : Option (List Byte)) (a b : Nat), deliveredData (Sink.addAndCheck d a b pre post).log = [] := by
  intro post
  induction post with
  | nil => intro pre d a b; unfold Sink.addAndCheck; simp only [deliveredData]
  | cons c post ih =>
    intro pre d a b
    unfold Sink.addAndCheck
    split
    · simp only [deliveredData]
    · split
      · exact ih _ _ _ _
      · split
        · simp only [deliveredData]
        · have h := overlap_quiet d a b pre c post
          generalize Sink.overlapWith d a b pre c post = o at h
          cases o with
          | done r => exact h
          | again bs a' pre' ev =>
            simp only [quietNext] at h
            dsimp only
            generalize hr : Sink.addAndCheck (some bs) a' b (pre' ++ [c]) post = r
            have hi := ih (pre' ++ [c]) (some bs) a' b
            rw [hr] at hi
            rw [show ev :: r.log = [ev] ++ r.log from rfl, Sink.deliveredData_append, h, hi, List.append_nil]

theorem buffer_sim {s : Sink} {t : FSink} (h : Rel Γ f n fs s t) (d : Option (List Byte)) (a b l : Nat) :
    Sim Γ f n fs N (s.buffer d a b l) (t.buffer Γ f n d a b l) := by
  unfold FSink.buffer Sink.Sink.buffer
  dsimp only
  rw [h.chunks]
  have hq : deliveredData (if s.chunks.isEmpty = true then (⟨.ok (some 0), [⟨d, a, add64 a l⟩], []⟩ : Sink.Added)
    else Sink.addAndCheck d a b [] s.chunks).log = [] := by
    split
    · rfl
    · exact add_quiet ..
  generalize (if s.chunks.isEmpty = true then (⟨.ok (some 0), [⟨d, a, add64 a l⟩], []⟩ : Sink.Added)
    else Sink.addAndCheck d a b [] s.chunks) = r at hq ⊢
  obtain ⟨res, cs, lg⟩ := r
  dsimp only at hq ⊢
  have h2 := h.upd s.autoTrim s.initial s.cur s.last s.trim cs hq
  unfold Filter.upd at h2
  have e1 := h.auto; have e2 := h.initial; have e3 := h.cur; have e4 := h.last; have e5 := h.trim
  obtain ⟨core, filters, late, given, seen⟩ := t
  obtain ⟨au, sz, ini, cur, la, tr, cs', us, lg'⟩ := core
  dsimp only at e1 e2 e3 e4 e5 h2 ⊢
  subst e1 e2 e3 e4 e5
  cases res with
  | throw e => intro _; exact ⟨_, rfl, h2⟩
  | ub => trivial
  | ok i =>
    cases i with
    | none => trivial
    | some i =>
      dsimp only
      cases cs[i]? with
      | none => trivial
      | some c =>
        dsimp only
        split
        · intro _; exact ⟨_, rfl, h2⟩
        · exact tryDeliver_sim hΓ hfs hne hst h2 i

theorem newData_sim {s : Sink} {t : FSink} (h : Rel Γ f n fs s t) (d : Option (List Byte)) (a l : Nat) :
    Sim Γ f n fs N (s.newData d a l) (t.newData Γ f n d a l) := by
  unfold FSink.newData Sink.Sink.newData
  dsimp only
  rw [h.auto, h.chunks, h.cur, h.trim]
  split
  · intro _; exact ⟨t, rfl, h⟩
  · split
    · have hd := deliver_sim hΓ hfs hne hst h d a (add64 a l)
      cases hr : s.deliver d a (add64 a l) with
      | ok x s1 =>
        rw [hr] at hd
        intro hN
        obtain ⟨t1, k1, k2⟩ := hd hN
        rw [k1]
        exact ⟨t1, rfl, k2⟩
      | throw e s1 =>
        rw [hr] at hd
        intro hN
        obtain ⟨t1, k1, k2⟩ := hd hN
        rw [k1]
        exact ⟨t1, rfl, k2⟩
      | ub => trivial
    · split
      · intro _; exact ⟨t, rfl, h⟩
      · split
        · cases d with
          | none => exact buffer_sim hΓ hfs hne hst h ..
          | some bs =>
            dsimp only
            cases Sink.dropBytes bs (s.trim - a) with
            | ok bs' => exact buffer_sim hΓ hfs hne hst h ..
            | throw e => intro _; exact ⟨t, rfl, h⟩
            | ub => trivial
        · exact buffer_sim hΓ hfs hne hst h ..

omit hΓ hfs hne hst in
theorem Rel.skipped {s : Sink} {t : FSink} (h : Rel Γ f n fs s t) (r : Nat) :
    Rel Γ f n fs ({ (if s.autoTrim = true then s.trimTo r else s.reportUpTo r) with cur := r, last := r }.emit (.skipped r))
      { t with core := { (if t.core.autoTrim = true then t.core.trimTo r else t.core.reportUpTo r) with cur := r, last := r }.emit (.skipped r) } := by
  have h1 : Rel Γ f n fs (if s.autoTrim = true then s.trimTo r else s.reportUpTo r)
      { t with core := if t.core.autoTrim = true then t.core.trimTo r else t.core.reportUpTo r } := by
    rw [h.auto]
    split
    · exact h.trimTo r
    · have := h.upd s.autoTrim s.initial s.cur s.last s.trim s.chunks (quiet_upTo r (s.chunks.takeWhile (fun c => c.rseq < r)))
      unfold Filter.upd at this
      unfold Sink.Sink.reportUpTo
      rw [h.chunks]
      have e1 := h.auto; have e2 := h.initial; have e3 := h.cur; have e4 := h.last; have e5 := h.trim; have e6 := h.chunks
      obtain ⟨core, filters, late, given, seen⟩ := t
      obtain ⟨au, sz, ini, cur, la, tr, cs', us, lg'⟩ := core
      dsimp only at e1 e2 e3 e4 e5 e6 this ⊢
      subst e1 e2 e3 e4 e5 e6
      exact this
  generalize (if s.autoTrim = true then s.trimTo r else s.reportUpTo r) = s1 at h1 ⊢
  generalize (if t.core.autoTrim = true then t.core.trimTo r else t.core.reportUpTo r) = c1 at h1 ⊢
  have := h1.upd s1.autoTrim s1.initial r r s1.trim s1.chunks (evs := [.skipped r]) rfl
  unfold Filter.upd at this
  unfold Sink.Sink.emit
  have e1 := h1.auto; have e2 := h1.initial; have e5 := h1.trim; have e6 := h1.chunks
  obtain ⟨au, sz, ini, cur, la, tr, cs', us, lg'⟩ := c1
  dsimp only at e1 e2 e5 e6 this ⊢
  subst e1 e2 e5 e6
  exact this

theorem step_sim {s : Sink} {t : FSink} (h : Rel Γ f n fs s t) (o : Op) (ho : StaysOpen s o) (hc : ∀ beh, o = .connect beh → ∀ d, beh d ≠ .finished) :
    Sim Γ f n fs N (s.step o) (t.step Γ f n (.op o)) := by
  cases o with
  | connect beh =>
    have hb := hc beh rfl
    simp only [FSink.step, Sink.Sink.step]
    split
    · intro _; exact ⟨_, rfl, h⟩
    · intro _
      refine ⟨_, rfl, ⟨h.auto, h.initial, h.cur, h.last, h.trim, h.chunks, h.log, ⟨h.given.filters, h.given.late, h.given.given, h.given.seen⟩,
        h.data, ?_, ?_⟩⟩
      · intro u hu
        rcases List.mem_append.1 hu with hu | hu
        · exact h.calm u hu
        · simp at hu; subst hu; exact ⟨hb [], hb⟩
      · intro u hu
        rcases List.mem_append.1 hu with hu | hu
        · exact h.calm' u hu
        · simp at hu; subst hu; exact ⟨hb [], hb⟩
  | write bs seq len =>
    simp only [FSink.step, Sink.Sink.step]
    split
    · intro _; exact ⟨t, rfl, h⟩
    · have e1 : t.core.rel = s.rel := by funext q; unfold Sink.Sink.rel; rw [h.initial]
      rw [e1, h.cur]
      exact newData_sim hΓ hfs hne hst h ..
  | gap seq len =>
    simp only [FSink.step, Sink.Sink.step]
    have e1 : t.core.rel = s.rel := by funext q; unfold Sink.Sink.rel; rw [h.initial]
    rw [e1]
    exact newData_sim hΓ hfs hne hst h ..
  | skip seq =>
    simp only [FSink.step, Sink.Sink.step]
    have e1 : t.core.rel = s.rel := by funext q; unfold Sink.Sink.rel; rw [h.initial]
    rw [e1]
    exact tryDeliver_sim hΓ hfs hne hst (h.skipped _) 0
  | trim seq =>
    intro _
    refine ⟨_, rfl, ?_⟩
    have e1 : t.core.rel seq = s.rel seq := by unfold Sink.Sink.rel; rw [h.initial]
    rw [e1]
    exact h.trimTo _
  | setAutoTrim b =>
    intro _
    exact ⟨_, rfl, ⟨rfl, h.initial, h.cur, h.last, h.trim, h.chunks, h.log, ⟨h.given.filters, h.given.late, h.given.given, h.given.seen⟩, h.data,
      h.calm, h.calm'⟩⟩
  | setInitial seq =>
    have hcond : ¬ (s.cur ≠ 0 ∨ s.chunks ≠ []) := by
      rintro (hh | hh)
      · exact hh ho.1
      · exact hh ho.2
    simp only [FSink.step, Sink.Sink.step]
    rw [h.cur, h.chunks, if_neg hcond, if_neg hcond]
    intro _
    exact ⟨_, rfl, ⟨h.auto, rfl, rfl, h.last, h.trim, rfl, h.log, ⟨h.given.filters, h.given.late, h.given.given, h.given.seen⟩, h.data,
      h.calm, h.calm'⟩⟩
  | close => exact absurd ho id

end

end Verif.Filter
