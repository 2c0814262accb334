import Verif.Sink.Add
/-!
# Delivering buffered data
-/

namespace Verif.Sink

/-- No connected unit ever completes while there is still data to come. -/
def Calm (s : Sink) : Prop := ∀ u ∈ s.units, u.status ≠ .finished ∧ ∀ d, u.beh d ≠ .finished

theorem Unit_.deliver_beh (u : Unit_) (bs : List Byte) : (u.deliver bs).beh = u.beh := by
  unfold Unit_.deliver; split <;> rfl

theorem Unit_.deliver_calm {u : Unit_} (h : u.status ≠ .finished ∧ ∀ d, u.beh d ≠ .finished) (bs : List Byte) :
    (u.deliver bs).status ≠ .finished ∧ ∀ d, (u.deliver bs).beh d ≠ .finished := by
  refine ⟨?_, by rw [Unit_.deliver_beh]; exact h.2⟩
  unfold Unit_.deliver
  split
  · exact h.1
  · exact h.2 _

theorem Calm.any {s : Sink} (h : Calm s) : s.units.any (fun u => u.status = .finished) = false := by
  rw [List.any_eq_false]
  intro u hu
  simpa using (h u hu).1

theorem deliveredData_append (l m : List Event) : deliveredData (l ++ m) = deliveredData l ++ deliveredData m := by
  induction l with
  | nil => rfl
  | cons e l ih => cases e <;> simp [deliveredData, ih]

/-- The state after passing on data. -/
def Sink.passed (s : Sink) (bs : List Byte) (a b : Nat) : Sink :=
  { s with size := add64 s.size bs.length, log := s.log ++ [.data a b bs], units := s.units.map (·.deliver bs),
           cur := b, last := b }

theorem deliver_calm {s : Sink} (h : Calm s) {bs : List Byte} (hbs : bs ≠ []) (a b : Nat) :
    s.deliver (some bs) a b = .ok true (s.passed bs a b) := by
  have hl := List.length_pos_iff.2 hbs
  unfold Sink.deliver
  simp only [if_neg (show ¬ bs.length = 0 by omega), h.any, Bool.false_eq_true, if_false]
  rfl

theorem Calm.passed {s : Sink} (h : Calm s) (bs : List Byte) (a b : Nat) : Calm (s.passed bs a b) := by
  intro u hu
  simp only [Sink.passed, List.mem_map] at hu
  obtain ⟨v, hv, rfl⟩ := hu
  exact Unit_.deliver_calm (h v hv) bs

/-- Result of delivering from a sorted list of chunks on: everything contiguous with the current position. -/
structure Delivered (cs : List Chunk) (s s' : Sink) (d : List Byte) : Prop where
  autoTrim : s'.autoTrim = s.autoTrim
  initial : s'.initial = s.initial
  trim : s'.trim = s.trim
  chunks : s'.chunks = s.chunks
  last : s'.last = s.last + d.length
  cur : s'.cur = s'.last
  split : ∀ c ∈ cs, c.rupper ≤ s'.last ∨ s'.last < c.rseq
  data : deliveredData s'.log = deliveredData s.log ++ d
  value : ∀ p, s.last ≤ p → p < s'.last → chunkAt cs p = d[p - s.last]?
  log : ∃ evs, s'.log = s.log ++ evs ∧ ∀ e ∈ evs, ∃ a b bs, e = .data a b bs
  calm : Calm s'

theorem deliverLoop_spec : ∀ (cs : List Chunk) (s : Sink), WF cs → (∀ c ∈ cs, s.last ≤ c.rseq) → s.cur = s.last → Calm s →
    ∃ s' d, deliverLoop cs s = .ok () s' ∧ Delivered cs s s' d := by
  intro cs
  induction cs with
  | nil =>
    intro s _ _ hcur hcalm
    exact ⟨s, [], rfl, rfl, rfl, rfl, rfl, rfl, hcur, by simp, by simp, by intro p h1 h2; omega, ⟨[], by simp, by simp⟩, hcalm⟩
  | cons c cs ih =>
    intro s hwf hge hcur hcalm
    obtain ⟨hc, hwf', hcs⟩ := WF.cons.1 hwf
    obtain ⟨bs, hd, hbs, hr, hlt⟩ := hc
    have hl := List.length_pos_iff.2 hbs
    by_cases heq : c.rseq = s.last
    · have e1 : add64 s.last (sub64 c.rupper c.rseq) = c.rupper := by
        rw [sub64_eq hlt (by omega), add64_eq (by omega)]; omega
      unfold deliverLoop
      rw [if_pos heq, e1, hd]
      have hcalm' : Calm { s with last := c.rupper } := hcalm
      simp only [deliver_calm hcalm' hbs]
      obtain ⟨s', d, h1, h2⟩ := ih (({ s with last := c.rupper } : Sink).passed bs c.rseq c.rupper) hwf' hcs rfl (hcalm'.passed _ _ _)
      refine ⟨s', bs ++ d, h1, h2.autoTrim, h2.initial, h2.trim, h2.chunks, ?_, h2.cur, ?_, ?_, ?_, ?_, h2.calm⟩
      · rw [h2.last]; show c.rupper + _ = _; simp; omega
      · intro x hx
        rcases List.mem_cons.1 hx with rfl | hx
        · left; rw [h2.last]; exact Nat.le_add_right _ _
        · exact h2.split x hx
      · rw [h2.data]
        simp only [Sink.passed, deliveredData_append, deliveredData, List.append_nil, List.append_assoc]
      · intro p p1 p2
        rw [chunkAt_cons, hd, Option.getD_some]
        rcases Nat.lt_or_ge p c.rupper with h | h
        · have : byteAt c.rseq bs p = bs[p - s.last]? := by unfold byteAt; rw [if_pos (by omega), heq]
          rw [this, List.getElem?_append_left (by omega), List.getElem?_eq_getElem (by omega)]
          rfl
        · have : byteAt c.rseq bs p = none := by rw [byteAt_none]; omega
          rw [this, Option.none_or, h2.value p h p2, List.getElem?_append_right (by omega)]
          congr 1
          show p - c.rupper = _; omega
      · obtain ⟨evs, e2, e3⟩ := h2.log
        refine ⟨.data c.rseq c.rupper bs :: evs, ?_, ?_⟩
        · rw [e2]; simp [Sink.passed]
        · intro e he
          rcases List.mem_cons.1 he with rfl | he
          · exact ⟨_, _, _, rfl⟩
          · exact e3 e he
    · have hge' : ∀ x ∈ cs, s.last < x.rseq := by
        intro x hx
        have := hcs x hx; have := hge c (by simp); omega
      have hrest : ∀ (l : List Chunk), (∀ x ∈ l, s.last < x.rseq) → deliverLoop l s = .ok () s := by
        intro l
        induction l with
        | nil => intro _; rfl
        | cons x l ihl =>
          intro h
          unfold deliverLoop
          rw [if_neg (by have := h x (by simp); omega)]
          exact ihl (fun y hy => h y (by simp [hy]))
      refine ⟨s, [], ?_, rfl, rfl, rfl, rfl, rfl, hcur, ?_, by simp, ?_, ⟨[], by simp, by simp⟩, hcalm⟩
      · apply hrest
        intro x hx
        rcases List.mem_cons.1 hx with rfl | hx
        · have := hge x (by simp); omega
        · exact hge' x hx
      · intro x hx
        rcases List.mem_cons.1 hx with rfl | hx
        · have := hge x (by simp); right; omega
        · exact Or.inr (hge' x hx)
      · intro p p1 p2; omega

/-! ## Trimming what has been delivered -/

theorem of_mem_takeWhile {α} {q : α → Bool} {l : List α} {x : α} (h : x ∈ l.takeWhile q) : q x = true := by
  induction l with
  | nil => cases h
  | cons y l ih =>
    rw [List.takeWhile_cons] at h
    split at h
    · next hy =>
      rcases List.mem_cons.1 h with rfl | h
      · exact hy
      · exact ih h
    · cases h

theorem kept_eq {l : List Chunk} (h : WF l) (k : Nat) :
    ∃ t, l = t ++ kept k l ∧ trimmed k l = t ∧ (∀ c ∈ t, c.rseq < k) ∧ ∀ c ∈ kept k l, k ≤ c.rseq := by
  refine ⟨trimmed k l, (List.takeWhile_append_dropWhile).symm, rfl, ?_, ?_⟩
  · intro c hc
    have := of_mem_takeWhile hc
    simpa using this
  · induction l with
    | nil => intro c hc; simp [kept] at hc
    | cons x l ih =>
      intro c hc
      unfold kept at hc
      rw [List.dropWhile_cons] at hc
      obtain ⟨hx, hw, hxl⟩ := WF.cons.1 h
      split at hc
      · exact ih hw c hc
      · next hn =>
        have hn : k ≤ x.rseq := by simpa using hn
        rcases List.mem_cons.1 hc with rfl | hc
        · exact hn
        · have := hxl c hc; have := hx.lt; omega

theorem reports_none {l : List Chunk} {cur : Nat} (h : ∀ c ∈ l, c.rseq ≤ cur) : l.flatMap (undeliveredReport cur) = [] := by
  induction l with
  | nil => rfl
  | cons c l ih =>
    rw [List.flatMap_cons, ih (fun d hd => h d (by simp [hd])), List.append_nil]
    unfold undeliveredReport
    split
    · rw [if_neg (by have := h c (by simp); omega)]
    · rfl

/-! ## The invariant of reassembly -/

/-- The sink has seen the writes `W`. -/
structure Inv (W : List (Nat × List Byte)) (s : Sink) : Prop where
  cur : s.cur = s.last
  trim : s.trim ≤ s.last
  wf : WF s.chunks
  split : ∀ c ∈ s.chunks, c.rupper ≤ s.last ∨ s.last < c.rseq
  len : (deliveredData s.log).length = s.last
  done : ∀ p, p < s.last → valueAt W p = (deliveredData s.log)[p]?
  pending : ∀ p, s.last ≤ p → valueAt W p = chunkAt s.chunks p
  calm : Calm s
  log : ∀ e ∈ s.log, (∃ a b bs, e = .data a b bs) ∨ (∃ p o n, e = .overlap p o n)
  bound : s.last < 2 ^ 64

theorem Inv.hole {W : List (Nat × List Byte)} {s : Sink} (h : Inv W s) : valueAt W s.last = none := by
  rw [h.pending _ (Nat.le_refl _), chunkAt_none h.wf.full]
  intro c hc
  rcases h.split c hc with h | h
  · exact Or.inr h
  · exact Or.inl h

theorem Inv.reassembled {W : List (Nat × List Byte)} {s : Sink} (h : Inv W s) : Reassembled W (deliveredData s.log) :=
  ⟨fun p hp => h.done p (by rw [← h.len]; exact hp), by rw [h.len]; exact h.hole⟩

/-- A state in which delivery starts: the buffer has been extended, from position `i` on there is data for `last`. -/
theorem tryDeliver_inv {W : List (Nat × List Byte)} {s : Sink} {i : Nat} {x : Chunk}
    (hcur : s.cur = s.last) (htrim : s.trim ≤ s.last) (hwf : WF s.chunks) (hi : s.chunks[i]? = some x) (hx : x.rseq = s.last)
    (hlen : (deliveredData s.log).length = s.last)
    (hdone : ∀ p, p < s.last → valueAt W p = (deliveredData s.log)[p]?)
    (hpend : ∀ p, s.last ≤ p → valueAt W p = chunkAt s.chunks p)
    (hcalm : Calm s) (hlog : ∀ e ∈ s.log, (∃ a b bs, e = .data a b bs) ∨ (∃ p o n, e = .overlap p o n)) :
    ∃ s', s.tryDeliver i = .ok () s' ∧ Inv W s' ∧ s'.autoTrim = s.autoTrim ∧ s'.initial = s.initial ∧
      (s.autoTrim = false → s'.chunks = s.chunks ∧ s'.trim = s.trim) ∧ s.last ≤ s'.last ∧ (∀ p, s.last ≤ p → p < s'.last → valueAt W p ≠ none) ∧
      (∃ evs, s'.log = s.log ++ evs ∧ ∀ e ∈ evs, ∃ a b bs, e = Event.data a b bs) ∧ (s'.trim = s.trim ∨ s'.trim = s'.last) := by
  obtain ⟨hil, hix⟩ := List.getElem?_eq_some_iff.1 hi
  have hdec : s.chunks = s.chunks.take i ++ s.chunks.drop i := (List.take_append_drop i _).symm
  have hdrop : s.chunks.drop i = x :: s.chunks.drop (i + 1) := by rw [List.drop_eq_getElem_cons hil, hix]
  have hwf2 : WF (s.chunks.take i ++ s.chunks.drop i) := by rw [← hdec]; exact hwf
  obtain ⟨wt, wd, hcross⟩ := WF.append.1 hwf2
  have hge : ∀ c ∈ s.chunks.drop i, s.last ≤ c.rseq := by
    intro c hc
    rw [hdrop] at hc wd
    obtain ⟨w1, w2, w3⟩ := WF.cons.1 wd
    rcases List.mem_cons.1 hc with rfl | hc
    · omega
    · have := w3 c hc; have := w1.lt; omega
  have hle : ∀ c ∈ s.chunks.take i, c.rupper ≤ s.last := by
    intro c hc
    have := hcross c hc x (by rw [hdrop]; simp); omega
  obtain ⟨s1, d, e1, D⟩ := deliverLoop_spec _ s wd hge hcur hcalm
  have hsplit1 : ∀ c ∈ s.chunks, c.rupper ≤ s1.last ∨ s1.last < c.rseq := by
    intro c hc
    rw [hdec] at hc
    rcases List.mem_append.1 hc with hc | hc
    · left; have := hle c hc; have := D.last; omega
    · exact D.split c hc
  have hdat : ∀ p, s.last ≤ p → chunkAt s.chunks p = chunkAt (s.chunks.drop i) p := by
    intro p hp
    conv => lhs; rw [hdec]
    rw [chunkAt_append, (chunkAt_none wt.full).2 (fun c hc => Or.inr (by have := hle c hc; omega)), Option.none_or]
  have hdone1 : ∀ p, p < s1.last → valueAt W p = (deliveredData s1.log)[p]? := by
    intro p hp
    rw [D.data]
    rcases Nat.lt_or_ge p s.last with h | h
    · rw [hdone p h, List.getElem?_append_left (by omega)]
    · rw [hpend p h, hdat p h, D.value p h hp, List.getElem?_append_right (by omega), hlen]
  have hlen1 : (deliveredData s1.log).length = s1.last := by rw [D.data, List.length_append, hlen, D.last]
  have hlast1 := D.last
  have hcov : ∀ p, s.last ≤ p → p < s1.last → valueAt W p ≠ none := by
    intro p p1 p2
    rw [hdone1 p p2, List.getElem?_eq_getElem (by omega)]; simp
  have hbound : s1.last < 2 ^ 64 := by
    have hz := hcov
    rcases Nat.eq_zero_or_pos d.length with h | h
    · have := (hwf.full x (List.mem_of_getElem? hi)).lt
      obtain ⟨_, _, _, _, hb⟩ := hwf.full x (List.mem_of_getElem? hi)
      omega
    · have hv := hcov (s1.last - 1) (by omega) (by omega)
      rw [hpend _ (by omega), Ne, chunkAt_none hwf.full] at hv
      apply Classical.byContradiction
      intro hn
      apply hv
      intro c hc
      obtain ⟨_, _, _, _, hb⟩ := hwf.full c hc
      right; omega
  have hlog1 : ∀ e ∈ s1.log, (∃ a b bs, e = Event.data a b bs) ∨ (∃ p o n, e = Event.overlap p o n) := by
    obtain ⟨evs, g1, g2⟩ := D.log
    intro e he
    rw [g1] at he
    rcases List.mem_append.1 he with h | h
    · exact hlog e h
    · exact Or.inl (g2 e h)
  unfold Sink.tryDeliver
  rw [e1]
  unfold R.bind
  dsimp only
  cases ha : s1.autoTrim with
  | false =>
    rw [if_neg (by simp)]
    refine ⟨s1, rfl, ⟨D.cur, ?_, ?_, ?_, hlen1, hdone1, ?_, D.calm, hlog1, hbound⟩, D.autoTrim, D.initial, fun _ => ⟨D.chunks, D.trim⟩, by omega, hcov, D.log, Or.inl D.trim⟩
    · rw [D.trim]; omega
    · rw [D.chunks]; exact hwf
    · rw [D.chunks]; exact hsplit1
    · intro p hp
      rw [D.chunks]; exact hpend p (by omega)
  | true =>
    rw [if_pos rfl]
    have hk : WF s1.chunks := by rw [D.chunks]; exact hwf
    obtain ⟨t, k1, k2, k3, k4⟩ := kept_eq hk s1.last
    have hnone : (trimmed s1.last s1.chunks).flatMap (undeliveredReport s1.cur) = [] := by
      apply reports_none
      intro c hc
      rw [k2] at hc
      have := k3 c hc; rw [D.cur]; omega
    have hk' : WF (t ++ kept s1.last s1.chunks) := by rw [← k1]; exact hk
    obtain ⟨wt', wk, _⟩ := WF.append.1 hk'
    refine ⟨s1.trimTo s1.last, rfl, ⟨D.cur, Nat.le_refl _, wk, ?_, ?_, ?_, ?_, D.calm, ?_, hbound⟩, D.autoTrim, D.initial,
      fun h => ?_, ?_, hcov, ?_, Or.inr rfl⟩
    · intro c hc
      have := k4 c hc
      have hm : c ∈ s.chunks := by rw [← D.chunks, k1]; exact List.mem_append_right _ hc
      exact hsplit1 c hm
    · show (deliveredData (s1.log ++ _)).length = _
      rw [hnone, List.append_nil]; exact hlen1
    · show ∀ p, p < s1.last → valueAt W p = (deliveredData (s1.log ++ _))[p]?
      rw [hnone, List.append_nil]; exact hdone1
    · intro p hp
      show valueAt W p = chunkAt (kept s1.last s1.chunks) p
      have hp : s1.last ≤ p := hp
      have e2 : chunkAt s1.chunks p = chunkAt (kept s1.last s1.chunks) p := by
        conv => lhs; rw [k1]
        rw [chunkAt_append, (chunkAt_none wt'.full).2, Option.none_or]
        intro c hc
        have hm : c ∈ s.chunks := by rw [← D.chunks, k1]; exact List.mem_append_left _ hc
        have := k3 c hc
        rcases hsplit1 c hm with h | h
        · right; omega
        · omega
      rw [← e2, D.chunks]; exact hpend p (by omega)
    · show ∀ e ∈ s1.log ++ _, _
      rw [hnone, List.append_nil]; exact hlog1
    · rw [D.autoTrim] at ha; rw [ha] at h; cases h
    · show s.last ≤ s1.last; omega
    · show ∃ evs, s1.log ++ _ = s.log ++ evs ∧ _
      rw [hnone, List.append_nil]; exact D.log

end Verif.Sink
