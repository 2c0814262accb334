import Verif.Sink.History
/-!
# Sinks whose units complete

Once a connected unit has parsed all it wants, delivering more data to the sink throws. Without gaps all positions are still
accounted for; with gaps they are not.
-/

namespace Verif.Sink

/-- Some unit has completed. -/
def Done (units : List Unit_) : Prop := ∃ u ∈ units, u.status = .finished

/-- Below the position of the reassembly everything is accounted for unless some unit has completed. -/
def DoneJ (cur last : Nat) (log : List Event) (units : List Unit_) : Prop :=
  posAfter 0 log = cur ∧ (∀ p, p < cur → Accounted log p) ∧ (∀ p, p < last → Accounted log p ∨ Done units)

/-- Data that fills its interval, no gap. -/
def FullC (c : Chunk) : Prop := ExactC c ∧ c.data ≠ none

theorem DoneJ.quiet {cur last : Nat} {log : List Event} {units : List Unit_} (h : DoneJ cur last log units) {e : Event}
    (h1 : ∀ pos, posAfter pos [e] = pos) : DoneJ cur last (log ++ [e]) units := by
  refine ⟨by rw [posAfter_append, h1]; exact h.1, fun p hp => (accounted_append _ _ _ _).2 (Or.inl (h.2.1 p hp)), fun p hp => ?_⟩
  rcases h.2.2 p hp with h2 | h2
  · exact Or.inl ((accounted_append _ _ _ _).2 (Or.inl h2))
  · exact Or.inr h2

theorem DoneJ.move {cur last : Nat} {log : List Event} {units units' : List Unit_} (h : DoneJ cur last log units) {e : Event} {r : Nat}
    (h1 : posAfter cur [e] = r) (h2 : ∀ p, p < r → Accounted log p ∨ AccountedFrom cur [e] p) : DoneJ r r (log ++ [e]) units' := by
  have h3 : ∀ p, p < r → Accounted (log ++ [e]) p := by
    intro p hp
    rcases h2 p hp with h4 | h4
    · exact (accounted_append _ _ _ _).2 (Or.inl h4)
    · exact (accounted_append _ _ _ _).2 (Or.inr (by rw [h.1]; exact h4))
  exact ⟨by rw [posAfter_append, h.1]; exact h1, h3, fun p hp => Or.inl (h3 p hp)⟩

theorem done_law : Law FullC DoneJ (fun _ _ => True) (fun _ => True) where
  ord h := h.1.1
  overlap p o n h := h.quiet (fun _ => rfl)
  undelivered c bs n h _ _ := h.quiet (fun _ => rfl)
  loopData c bs h hc he hd _ hu := by
    have := hc.1.2 bs hd
    refine h.move rfl (fun p hp => ?_)
    rcases Nat.lt_or_ge p c.rseq with h1 | h1
    · rcases h.2.2 p (by omega) with h2 | ⟨u, hm, hf⟩
      · exact Or.inl h2
      · exact absurd hf (hu u hm)
    · exact Or.inr (Or.inl ⟨h1, by omega, this⟩)
  loopEmpty c h hc he hd := by
    have := hc.1.2 _ hd
    rw [show c.rupper = _ by rw [this, he]]; exact h
  loopThrow c u h hc he hu hf := ⟨h.1, h.2.1, fun p _ => Or.inr ⟨u, hu, hf⟩⟩
  loopGap c h hc he hd _ := absurd hd hc.2
  loopNoGap c h hc he hd hr := absurd hd hc.2
  fastData c bs h hc he hd _ _ := by
    have := hc.1.2 bs hd
    refine h.move rfl (fun p hp => ?_)
    rcases Nat.lt_or_ge p c.rseq with h1 | h1
    · exact Or.inl (h.2.1 p (by omega))
    · exact Or.inr (Or.inl ⟨h1, by omega, this⟩)
  fastGap c h hc he hd := absurd hd hc.2
  skip r h _ := by
    refine h.move rfl (fun p hp => ?_)
    rcases Nat.lt_or_ge p _ with h1 | h1
    · exact Or.inl (h.2.1 p h1)
    · exact Or.inr (Or.inl ⟨h1, hp⟩)
  connect beh h _ := by
    refine ⟨h.1, h.2.1, fun p hp => ?_⟩
    rcases h.2.2 p hp with h2 | ⟨u, hu, hf⟩
    · exact Or.inl h2
    · exact Or.inr ⟨u, List.mem_append_left _ hu, hf⟩

/-- Data is written with its own length, and not so that only its end is new with respect to what has been trimmed; there are no
    gaps. Any unit may be connected. -/
def NoGaps (s : Sink) : Op → Prop
  | .write bs seq len => (len = none ∨ len = some bs.length) ∧ (s.trim ≤ s.posOf seq ∨ s.posOf seq + bs.length ≤ s.trim)
  | .gap _ _ => False
  | _ => True

theorem newOk_full {s : Sink} {d : List Byte} {a n : Nat} (h : a + n < 2 ^ 63) (hl : n = d.length)
    (ht : s.trim ≤ a ∨ a + n ≤ s.trim) : NewOk FullC s (some d) a n := by
  obtain ⟨h1, h2, h3⟩ := newOk_exact (s := s) (data := some d) h (by intro bs hb; injection hb with hb; rw [← hb]; exact hl) (fun _ => ht)
  refine ⟨h1, fun c hc => ⟨h2 c hc, ?_⟩, fun h4 h5 data' hd => ?_⟩
  · rcases hc.bytes with e | ⟨_, e⟩ <;> rw [e] <;> intro hn <;> cases hn
  · obtain ⟨h6, h7⟩ := h3 h4 h5 data' hd
    refine ⟨h6, h7, ?_⟩
    rcases hd with ⟨hn, _⟩ | ⟨bs, _, hb⟩
    · cases hn
    · dsimp only; rw [hb]; intro hn; cases hn

/-- C20 for units that may complete at any time, without gaps: all positions below the current one are accounted for. Writes that
    throw because a unit has completed do not move the current position. -/
theorem C20_accounted_completing_partial {ops : List Op} {s' : Sink}
    (h : Always (fun s op => InRange s op ∧ StaysOpen s op ∧ NoGaps s op) {} ops) (hr : ({} : Sink).run ops = some s') :
    ∀ p, p < s'.cur → Accounted s'.log p := by
  have ha : Always (OpOk FullC (fun _ _ => True) (fun _ => True)) {} ops := by
    refine h.imp (fun s op h => ?_)
    obtain ⟨h1, h2, h3⟩ := h
    cases op with
    | connect beh => trivial
    | write bs seq len =>
      intro _
      obtain ⟨hl, ht⟩ := h3
      have hg : len.getD bs.length = bs.length := by rcases hl with rfl | rfl <;> rfl
      have h1 : s.posOf seq + len.getD bs.length < 2 ^ 63 := h1
      rw [hg] at h1 ⊢
      have := newOk_full (s := s) (d := bs) h1 rfl ht
      cases seq <;> exact this
    | gap seq len => exact h3.elim
    | skip seq => trivial
    | trim seq => trivial
    | setAutoTrim b => trivial
    | setInitial seq => exact h2
    | close => exact h2.elim
  exact (done_law.run (s := {}) ⟨⟨rfl, (by intro p hp; exact absurd hp (Nat.not_lt_zero _)), (by intro p hp; exact absurd hp (Nat.not_lt_zero _))⟩,
    by intro c hc; cases hc⟩ ha hr).1.2.1

/-- A unit that takes one byte. -/
def oneByte (d : List Byte) : Status := if d.isEmpty then .waiting else .finished

instance (s : Sink) (op : Op) : Decidable (NoGaps s op) := match op with
  | .write bs seq len => inferInstanceAs (Decidable ((len = none ∨ len = some bs.length) ∧ (s.trim ≤ s.posOf seq ∨ s.posOf seq + bs.length ≤ s.trim)))
  | .gap _ _ => isFalse id
  | .connect _ | .skip _ | .close | .trim _ | .setAutoTrim _ | .setInitial _ => isTrue trivial

/-- The hypotheses are met by a unit that completes; the next two writes throw. -/
theorem completing_case :
    Always (fun s op => InRange s op ∧ StaysOpen s op ∧ NoGaps s op) {}
      [.connect oneByte, .write [1] none none, .write [3] (some 2) none, .write [2] (some 1) none, .skip 5] ∧
    ({} : Sink).seen [.connect oneByte, .write [1] none none, .write [3] (some 2) none, .write [2] (some 1) none, .skip 5] =
      some (5, [.data 0 1 [1], .undelivered 2 [3], .skipped 5]) := by
  decide

/-- C20 fails if a unit completes and then a gap is reached: the bytes at 1 and 2, which could not be delivered, are not reported. -/
theorem C20_fails_gap_after_completion :
    ({} : Sink).seen [.connect oneByte, .write [1] none none, .write [3] (some 2) none, .write [2] (some 1) none, .gap 2 1, .gap 3 2] =
      some (5, [.data 0 1 [1], .overlap 2 [3] [], .gap 3 2]) ∧
    ¬ Accounted [.data 0 1 [1], .overlap 2 [3] [], .gap 3 2] 1 ∧ ¬ Accounted [.data 0 1 [1], .overlap 2 [3] [], .gap 3 2] 2 := by
  refine ⟨by decide, ?_, ?_⟩ <;> simp [Accounted, AccountedFrom]

end Verif.Sink
