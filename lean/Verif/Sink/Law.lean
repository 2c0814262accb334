import Verif.Sink.General
/-!
# Induction over histories

`Law K J`: `K` holds for buffered chunks, `J` for the current position, the reassembly position, what the units have seen,
and the units. The fields say what has to be shown to conclude that both hold throughout.
-/

namespace Verif.Sink

abbrev Pred := Nat → Nat → List Event → List Unit_ → Prop

structure Law (K : Chunk → Prop) (J : Pred) (S : Nat → Nat → Prop) (C : (List Byte → Status) → Prop) : Prop where
  ord : ∀ {c}, K c → c.rseq ≤ c.rupper ∧ c.rupper < 2 ^ 64
  overlap : ∀ {cur last log units} p o n, J cur last log units → J cur last (log ++ [.overlap p o n]) units
  undelivered : ∀ {cur last log units} c bs n, J cur last log units → K c → c.data = some bs →
    J cur last (log ++ [.undelivered c.rseq (bs.take n)]) units
  loopData : ∀ {cur last log units} c bs, J cur last log units → K c → c.rseq = last → c.data = some bs → bs ≠ [] →
    (∀ u ∈ units, u.status ≠ .finished) →
    J c.rupper c.rupper (log ++ [.data c.rseq c.rupper bs]) (units.map (·.deliver bs))
  loopEmpty : ∀ {cur last log units} c, J cur last log units → K c → c.rseq = last → c.data = some [] →
    J cur c.rupper log units
  loopThrow : ∀ {cur last log units} c u, J cur last log units → K c → c.rseq = last → u ∈ units → u.status = .finished →
    J cur c.rupper log units
  loopGap : ∀ {cur last log units} c, J cur last log units → K c → c.rseq = last → c.data = none → cur ≠ c.rupper →
    J c.rupper c.rupper (log ++ [.gap c.rseq (c.rupper - c.rseq)]) units
  loopNoGap : ∀ {cur last log units} c, J cur last log units → K c → c.rseq = last → c.data = none → cur = c.rupper →
    J cur c.rupper log units
  fastData : ∀ {cur last log units} c bs, J cur last log units → K c → c.rseq = cur → c.data = some bs → bs ≠ [] →
    (∀ u ∈ units, u.status ≠ .finished) →
    J c.rupper c.rupper (log ++ [.data c.rseq c.rupper bs]) (units.map (·.deliver bs))
  fastGap : ∀ {cur last log units} c, J cur last log units → K c → c.rseq = cur → c.data = none →
    J c.rupper last (log ++ [.gap c.rseq (c.rupper - c.rseq)]) units
  skip : ∀ {cur last log units} r, J cur last log units → S cur r → J r r (log ++ [.skipped r]) units
  connect : ∀ {cur last log units} beh, J cur last log units → C beh → J cur last log (units ++ [⟨[], beh [], beh⟩])

/-- The state satisfies a law. -/
def Holds (K : Chunk → Prop) (J : Pred) (s : Sink) : Prop := J s.cur s.last s.log s.units ∧ ∀ c ∈ s.chunks, K c

/-- The state after an operation, whether it threw or not. -/
def R.After {α} (r : R α) (Q : Sink → Prop) : Prop := match r with
  | .ok _ s => Q s
  | .throw _ s => Q s
  | .ub => True

theorem R.After.bind {α β} {r : R α} {f : α → Sink → R β} {Q P : Sink → Prop} (h : r.After Q) (hf : ∀ a s, Q s → (f a s).After P)
    (ht : ∀ s, Q s → P s) : (r.bind f).After P := by
  cases r with
  | ok a s => exact hf a s h
  | throw e s => exact ht s h
  | ub => trivial

variable {K : Chunk → Prop} {J : Pred} {S : Nat → Nat → Prop} {C : (List Byte → Status) → Prop}

theorem Law.overlaps (L : Law K J S C) {cur last : Nat} {units : List Unit_} : ∀ {evs log : List Event},
    (∀ e ∈ evs, ∃ p o n, e = Event.overlap p o n) → J cur last log units → J cur last (log ++ evs) units := by
  intro evs
  induction evs with
  | nil => intro log _ h; simpa using h
  | cons e evs ih =>
    intro log he h
    obtain ⟨p, o, n, rfl⟩ := he e (by simp)
    rw [show log ++ Event.overlap p o n :: evs = (log ++ [Event.overlap p o n]) ++ evs by simp]
    exact ih (fun e he' => he e (by simp [he'])) (L.overlap p o n h)

theorem Law.reports (L : Law K J S C) {cur last : Nat} {units : List Unit_} (cur' : Nat) : ∀ {cs : List Chunk} {log : List Event},
    (∀ c ∈ cs, K c) → J cur last log units → J cur last (log ++ cs.flatMap (undeliveredReport cur')) units := by
  intro cs
  induction cs with
  | nil => intro log _ h; simpa using h
  | cons c cs ih =>
    intro log hk h
    rw [List.flatMap_cons, ← List.append_assoc]
    refine ih (fun d hd => hk d (by simp [hd])) ?_
    unfold undeliveredReport
    split
    · next bs hb =>
      split
      · have := L.undelivered c bs bs.length h (hk c (by simp)) hb
        rwa [List.take_length] at this
      · simpa using h
    · simpa using h

theorem Law.upTo (L : Law K J S C) {cur last : Nat} {units : List Unit_} (r : Nat) : ∀ {cs : List Chunk} {log : List Event},
    (∀ c ∈ cs, K c) → J cur last log units → J cur last (log ++ cs.flatMap (upToReport r)) units := by
  intro cs
  induction cs with
  | nil => intro log _ h; simpa using h
  | cons c cs ih =>
    intro log hk h
    rw [List.flatMap_cons, ← List.append_assoc]
    refine ih (fun d hd => hk d (by simp [hd])) ?_
    unfold upToReport
    split
    · simpa using h
    · next bs hb =>
      split
      · have := L.undelivered c bs bs.length h (hk c (by simp)) hb
        rwa [List.take_length] at this
      · exact L.undelivered c bs _ h (hk c (by simp)) hb

theorem mem_of_kept {l : List Chunk} {k : Nat} {c : Chunk} (h : c ∈ kept k l) : c ∈ l := by
  have := List.takeWhile_append_dropWhile (p := fun c : Chunk => decide (c.rseq < k)) (l := l)
  rw [← this]
  exact List.mem_append_right _ h

theorem mem_of_trimmed {l : List Chunk} {k : Nat} {c : Chunk} (h : c ∈ trimmed k l) : c ∈ l := by
  have := List.takeWhile_append_dropWhile (p := fun c : Chunk => decide (c.rseq < k)) (l := l)
  rw [← this]
  exact List.mem_append_left _ h

theorem Law.trimTo (L : Law K J S C) {s : Sink} (h : Holds K J s) (r : Nat) : Holds K J (s.trimTo r) :=
  ⟨L.reports s.cur (fun c hc => h.2 c (mem_of_trimmed hc)) h.1, fun c hc => h.2 c (mem_of_kept hc)⟩

/-- One delivery, from the loop. -/
theorem Law.loop1 (L : Law K J S C) {s : Sink} (h : Holds K J s) {c : Chunk} (hc : K c) (he : c.rseq = s.last) :
    (({ s with last := add64 s.last (sub64 c.rupper c.rseq) } : Sink).deliver c.data c.rseq c.rupper).After (Holds K J) := by
  obtain ⟨o1, o2⟩ := L.ord hc
  have e : add64 s.last (sub64 c.rupper c.rseq) = c.rupper := by rw [sub64_eq o2 o1, add64_eq (by omega)]; omega
  rw [e]
  unfold Sink.deliver
  cases hd : c.data with
  | none =>
    dsimp only
    split
    · next hn =>
      rw [sub64_eq o2 o1]
      exact ⟨L.loopGap c h.1 hc he hd hn, h.2⟩
    · next hn => exact ⟨L.loopNoGap c h.1 hc he hd (by simpa using hn), h.2⟩
  | some bs =>
    dsimp only
    split
    · next hl =>
      have : bs = [] := List.length_eq_zero_iff.1 hl
      subst this
      exact ⟨L.loopEmpty c h.1 hc he hd, h.2⟩
    · next hl =>
      split
      · next hu =>
        rw [List.any_eq_true] at hu
        obtain ⟨u, hu1, hu2⟩ := hu
        exact ⟨L.loopThrow c u h.1 hc he hu1 (by simpa using hu2), h.2⟩
      · next hu =>
        have hu : ∀ u ∈ s.units, u.status ≠ .finished := by
          intro u hm hf
          apply hu
          rw [List.any_eq_true]
          exact ⟨u, hm, by simpa using hf⟩
        exact ⟨L.loopData c bs h.1 hc he hd (fun h => hl (by simp [h])) hu, h.2⟩

/-- One delivery, on the fast path. -/
theorem Law.fast (L : Law K J S C) {s : Sink} (h : Holds K J s) {c : Chunk} (hc : K c) (he : c.rseq = s.cur) :
    (s.deliver c.data c.rseq c.rupper).After (Holds K J) := by
  obtain ⟨o1, o2⟩ := L.ord hc
  unfold Sink.deliver
  cases hd : c.data with
  | none =>
    dsimp only
    split
    · rw [sub64_eq o2 o1]
      exact ⟨L.fastGap c h.1 hc he hd, h.2⟩
    · exact h
  | some bs =>
    dsimp only
    split
    · exact h
    · next hl =>
      split
      · exact h
      · next hu =>
        have hu : ∀ u ∈ s.units, u.status ≠ .finished := by
          intro u hm hf
          apply hu
          rw [List.any_eq_true]
          exact ⟨u, hm, by simpa using hf⟩
        exact ⟨L.fastData c bs h.1 hc he hd (fun h => hl (by simp [h])) hu, h.2⟩

theorem Law.deliverLoop (L : Law K J S C) : ∀ {cs : List Chunk} {s : Sink}, (∀ c ∈ cs, K c) → Holds K J s →
    (Sink.deliverLoop cs s).After (Holds K J) := by
  intro cs
  induction cs with
  | nil => intro s _ h; exact h
  | cons c cs ih =>
    intro s hk h
    unfold Sink.deliverLoop
    split
    · next he =>
      have h1 := L.loop1 h (hk c (by simp)) he
      dsimp only
      generalize Sink.deliver _ c.data c.rseq c.rupper = r at h1 ⊢
      cases r with
      | ok b s' =>
        cases b with
        | true => exact ih (fun d hd => hk d (by simp [hd])) h1
        | false =>
          dsimp only
          split
          · exact L.trimTo h1 _
          · exact h1
      | throw e s' => exact h1
      | ub => trivial
    · exact ih (fun d hd => hk d (by simp [hd])) h

theorem Law.tryDeliver (L : Law K J S C) {s : Sink} (h : Holds K J s) (i : Nat) : (s.tryDeliver i).After (Holds K J) := by
  unfold Sink.tryDeliver
  refine R.After.bind (L.deliverLoop (fun c hc => h.2 c (List.mem_of_mem_drop hc)) h) ?_ (fun _ h => h)
  intro _ s' h'
  dsimp only [R.After]
  split
  · exact L.trimTo h' _
  · exact h'

/-- The data fits, and pieces of it may be buffered. -/
def NewOk (K : Chunk → Prop) (s : Sink) (data : Option (List Byte)) (rseq len : Nat) : Prop :=
  rseq + len < 2 ^ 64 ∧ (∀ c, Piece data rseq (rseq + len) c → K c) ∧
  (rseq < s.trim → s.trim < rseq + len → ∀ data', (data = none ∧ data' = none ∨
      ∃ bs, data = some bs ∧ data' = some (bs.drop (s.trim - rseq))) →
    s.trim + len < 2 ^ 64 ∧ K ⟨data', s.trim, s.trim + len⟩)

theorem Law.buffer (L : Law K J S C) {s : Sink} (h : Holds K J s) {data : Option (List Byte)} {rseq rupper len : Nat}
    (hr : rseq < rupper) (hlt : rupper < 2 ^ 64) (hl : rseq + len < 2 ^ 64)
    (hp : ∀ c, Piece data rseq rupper c → K c) (he : K ⟨data, rseq, rseq + len⟩) :
    (s.buffer data rseq rupper len).After (Holds K J) := by
  unfold Sink.buffer
  obtain ⟨A1, A2⟩ : (∀ c ∈ (if s.chunks.isEmpty then (⟨.ok (some 0), [⟨data, rseq, add64 rseq len⟩], []⟩ : Added)
      else addAndCheck data rseq rupper [] s.chunks).chunks, K c) ∧
      (∀ e ∈ (if s.chunks.isEmpty then (⟨.ok (some 0), [⟨data, rseq, add64 rseq len⟩], []⟩ : Added)
      else addAndCheck data rseq rupper [] s.chunks).log, ∃ p o n, e = Event.overlap p o n) := by
    split
    · rw [add64_eq hl]
      refine ⟨?_, by simp⟩
      intro c hc
      simp at hc; subst hc; exact he
    · have A := (add_any rupper hlt s.chunks [] data rseq hr (fun c hc => L.ord (h.2 c hc))).1
      refine ⟨?_, A.log⟩
      intro c hc
      rcases A.chunks c hc with hc | hc
      · exact h.2 c hc
      · exact hp c hc
  generalize (if s.chunks.isEmpty then (⟨.ok (some 0), [⟨data, rseq, add64 rseq len⟩], []⟩ : Added)
      else addAndCheck data rseq rupper [] s.chunks) = r at A1 A2 ⊢
  have h1 : Holds K J { s with chunks := r.chunks, log := s.log ++ r.log } := ⟨L.overlaps A2 h.1, A1⟩
  dsimp only
  cases r.res with
  | throw e => exact h1
  | ub => trivial
  | ok o =>
    cases o with
    | none => trivial
    | some i =>
      dsimp only
      split
      · trivial
      · split
        · exact h1
        · exact L.tryDeliver h1 _

theorem Law.newData (L : Law K J S C) {s : Sink} (h : Holds K J s) {data : Option (List Byte)} {rseq len : Nat}
    (hn : NewOk K s data rseq len) : (s.newData data rseq len).After (Holds K J) := by
  obtain ⟨hlt, hp, hs⟩ := hn
  unfold Sink.newData
  by_cases h0 : len = 0
  · rw [if_pos h0]; exact h
  rw [if_neg h0, add64_eq hlt]
  have hw : K ⟨data, rseq, rseq + len⟩ := hp _ (.whole _ (by omega))
  split
  · next hf =>
    simp only [Bool.and_eq_true, decide_eq_true_eq] at hf
    exact R.After.bind (L.fast h hw hf.2) (fun _ _ h => h) (fun _ h => h)
  · dsimp only
    split
    · exact h
    · next h1 =>
      split
      · next h2 =>
        cases data with
        | none =>
          obtain ⟨g1, g2⟩ := hs h2 (by omega) none (Or.inl ⟨rfl, rfl⟩)
          refine L.buffer h (by omega) hlt g1 ?_ g2
          intro c hc
          refine hp c ⟨?_, hc.mid, hc.hi, ?_⟩
          · have := hc.lo; omega
          · have := hc.bytes; simpa using this
        | some bs =>
          dsimp only
          cases hd : dropBytes bs (s.trim - rseq) with
          | throw e => exact h
          | ub => trivial
          | ok bs' =>
            rw [dropBytes_ok hd]
            obtain ⟨g1, g2⟩ := hs h2 (by omega) _ (Or.inr ⟨bs, rfl, rfl⟩)
            refine L.buffer h (by omega) hlt g1 ?_ g2
            intro c hc
            refine hp c (Piece.drop (k := s.trim - rseq) ?_)
            rw [show rseq + (s.trim - rseq) = s.trim by omega]
            exact hc
      · exact L.buffer h (by omega) hlt hlt hp hw

/-- What an operation has to satisfy. -/
def OpOk (K : Chunk → Prop) (S : Nat → Nat → Prop) (C : (List Byte → Status) → Prop) (s : Sink) : Op → Prop
  | .connect beh => C beh
  | .write bs seq len => bs ≠ [] → NewOk K s (some bs) (match seq with
      | some q => s.rel q
      | none => s.cur) (len.getD bs.length)
  | .gap seq len => NewOk K s none (s.rel seq) len
  | .skip seq => S s.cur (s.rel seq)
  | .trim _ => True
  | .setAutoTrim _ => True
  | .setInitial _ => s.cur = 0 ∧ s.chunks = []
  | .close => False

theorem Law.skipTo (L : Law K J S C) {s : Sink} (h : Holds K J s) {r : Nat} (ho : S s.cur r) : (s.skipTo r).After (Holds K J) := by
  unfold Sink.skipTo
  cases ha : s.autoTrim with
  | true =>
    have h1 := L.trimTo h r
    exact L.tryDeliver (s := ({ (s.trimTo r) with cur := r, last := r } : Sink).emit (.skipped r)) ⟨L.skip r h1.1 ho, h1.2⟩ 0
  | false =>
    have h1 : Holds K J (s.reportUpTo r) := ⟨L.upTo _ (fun c hc => h.2 c (mem_of_trimmed hc)) h.1, h.2⟩
    exact L.tryDeliver (s := ({ (s.reportUpTo r) with cur := r, last := r } : Sink).emit (.skipped r)) ⟨L.skip r h1.1 ho, h1.2⟩ 0

theorem Law.connectStep (L : Law K J S C) {s : Sink} (h : Holds K J s) {beh} (ho : C beh) :
    (s.step (.connect beh)).After (Holds K J) := by
  rw [Sink.step]
  split
  · exact h
  · exact ⟨L.connect beh h.1 ho, h.2⟩

theorem Law.writeStep (L : Law K J S C) {s : Sink} (h : Holds K J s) {bs seq len} (ho : OpOk K S C s (.write bs seq len)) :
    (s.step (.write bs seq len)).After (Holds K J) := by
  unfold Sink.step
  dsimp only
  by_cases hl : bs.length = 0
  · rw [if_pos hl]; exact h
  · rw [if_neg hl]; exact L.newData h (ho (fun h => hl (by simp [h])))

theorem Law.initStep {s : Sink} (h : Holds K J s) {seq} (ho : s.cur = 0 ∧ s.chunks = []) :
    (s.step (.setInitial seq)).After (Holds K J) := by
  rw [Sink.step]
  rw [if_neg (by rintro (hh | hh); exact hh ho.1; exact hh ho.2)]
  exact h

theorem Law.step (L : Law K J S C) {s : Sink} (h : Holds K J s) {op : Op} (ho : OpOk K S C s op) :
    (s.step op).After (Holds K J) := by
  cases op with
  | connect beh => exact L.connectStep h ho
  | write bs seq len => exact L.writeStep h ho
  | gap seq len => rw [Sink.step]; exact L.newData h ho
  | skip seq => rw [Sink.step]; exact L.skipTo h ho
  | trim seq => rw [Sink.step]; exact L.trimTo h _
  | setAutoTrim b => rw [Sink.step]; exact h
  | setInitial seq => exact Law.initStep h ho
  | close => exact ho.elim

/-- `P` holds for every call at the time it is made. -/
def Always (P : Sink → Op → Prop) : Sink → List Op → Prop
  | _, [] => True
  | s, op :: ops => P s op ∧ (s.step op).After (fun s' => Always P s' ops)

theorem Law.run (L : Law K J S C) : ∀ {ops : List Op} {s s' : Sink}, Holds K J s → Always (OpOk K S C) s ops →
    s.run ops = some s' → Holds K J s' := by
  intro ops
  induction ops with
  | nil => intro s s' h _ hr; simp only [Sink.run, Option.some.injEq] at hr; exact hr ▸ h
  | cons op ops ih =>
    intro s s' h ha hr
    obtain ⟨a1, a2⟩ := ha
    have h1 := L.step h a1
    unfold Sink.run at hr
    cases hs : s.step op with
    | ok u s1 => rw [hs] at h1 a2 hr; exact ih h1 a2 hr
    | throw e s1 => rw [hs] at h1 a2 hr; exact ih h1 a2 hr
    | ub => rw [hs] at hr; cases hr

end Verif.Sink
