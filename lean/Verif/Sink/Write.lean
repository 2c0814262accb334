import Verif.Sink.Deliver
/-!
# Writing data
-/

namespace Verif.Sink

/-- The buffer still has everything that was delivered (no trimming ever took place). -/
def Whole (s : Sink) : Prop := s.autoTrim = false ∧ s.trim = 0 ∧ ∀ p, p < s.last → chunkAt s.chunks p ≠ none

theorem valueAt_snoc (W : List (Nat × List Byte)) (a : Nat) (bs : List Byte) (p : Nat) :
    valueAt (W ++ [(a, bs)]) p = (valueAt W p).or (byteAt a bs p) := by
  rw [valueAt_append]; simp [valueAt]

theorem Inv.covered {W : List (Nat × List Byte)} {s : Sink} (h : Inv W s) {p : Nat} (hp : p < s.last) : valueAt W p ≠ none := by
  rw [h.done p hp, List.getElem?_eq_getElem (by rw [h.len]; exact hp)]; simp

theorem Inv.done_snoc {W : List (Nat × List Byte)} {s : Sink} (h : Inv W s) (a : Nat) (bs : List Byte) {p : Nat} (hp : p < s.last) :
    valueAt (W ++ [(a, bs)]) p = (deliveredData s.log)[p]? := by
  rw [valueAt_snoc]
  have := h.covered hp
  cases hv : valueAt W p with
  | none => exact absurd hv this
  | some y => rw [← h.done p hp, hv]; rfl

theorem OnlyData.append {l m : List Event} (h : OnlyData l) (h' : ∀ e ∈ m, ∃ a b bs, e = Event.data a b bs) : OnlyData (l ++ m) := by
  intro e he
  rcases List.mem_append.1 he with he | he
  · exact h e he
  · exact h' e he

theorem deliveredData_overlaps {l : List Event} (h : ∀ e ∈ l, ∃ p o n, e = .overlap p o n) : deliveredData l = [] := by
  induction l with
  | nil => rfl
  | cons e l ih =>
    obtain ⟨p, o, n, rfl⟩ := h e (by simp)
    exact ih (fun e he => h e (by simp [he]))

/-- One write. It may begin anywhere at or after the current position, or, if nothing was ever trimmed, anywhere, or it may
    be all old. -/
theorem write_inv {W : List (Nat × List Byte)} {s : Sink} (h : Inv W s) {a : Nat} {bs : List Byte} (hbs : bs ≠ [])
    (hlt : a + bs.length < 2 ^ 64) (h63 : bs.length < 2 ^ 63) (hns : s.last ≤ a ∨ Whole s ∨ (s.trim ≤ a ∧ a + bs.length ≤ s.last)) :
    ∃ s', s.newData (some bs) a bs.length = .ok () s' ∧ Inv (W ++ [(a, bs)]) s' ∧ s'.autoTrim = s.autoTrim ∧
      s'.initial = s.initial ∧ s.last ≤ s'.last ∧ (Whole s → Whole s') ∧
      ((∀ p, a ≤ p → p < a + bs.length → valueAt W p = none) → OnlyData s.log → OnlyData s'.log) ∧
      (s'.trim = s.trim ∨ s'.trim = s'.last) := by
  have hlen := List.length_pos_iff.2 hbs
  have hadd : add64 a bs.length = a + bs.length := add64_eq hlt
  unfold Sink.newData
  rw [if_neg (by omega), hadd]
  by_cases hfast : (s.autoTrim && s.chunks.isEmpty && decide (a = s.cur)) = true
  · rw [if_pos hfast, deliver_calm h.calm hbs]
    simp only [Bool.and_eq_true, decide_eq_true_eq, List.isEmpty_iff] at hfast
    obtain ⟨⟨ha, he⟩, hac⟩ := hfast
    have hal : a = s.last := by rw [hac, h.cur]
    have hdat : deliveredData (s.passed bs a (a + bs.length)).log = deliveredData s.log ++ bs := by
      simp [Sink.passed, deliveredData_append, deliveredData]
    refine ⟨_, rfl, ⟨rfl, ?_, ?_, ?_, ?_, ?_, ?_, h.calm.passed _ _ _, ?_, hlt⟩, rfl, rfl, ?_, ?_, fun _ h => h.append (by simp), Or.inl rfl⟩
    · show s.trim ≤ a + bs.length; have := h.trim; omega
    · exact h.wf
    · show ∀ c ∈ s.chunks, _; rw [he]; simp
    · show (deliveredData _).length = a + bs.length
      rw [hdat, List.length_append, h.len]; omega
    · intro p hp
      have hp : p < a + bs.length := hp
      rw [hdat]
      rcases Nat.lt_or_ge p s.last with hq | hq
      · rw [h.done_snoc a bs hq, List.getElem?_append_left (by rw [h.len]; exact hq)]
      · rw [valueAt_snoc, h.pending p hq, he, chunkAt_nil, Option.none_or, List.getElem?_append_right (by rw [h.len]; exact hq),
          h.len]
        unfold byteAt
        rw [if_pos (by omega), hal]
    · intro p hp
      have hp : a + bs.length ≤ p := hp
      show _ = chunkAt s.chunks p
      rw [valueAt_snoc, h.pending p (by omega), he, chunkAt_nil, Option.none_or, byteAt_none]; omega
    · intro e he
      have he : e ∈ s.log ++ [.data a (a + bs.length) bs] := he
      rcases List.mem_append.1 he with he | he
      · exact h.log e he
      · simp at he; exact Or.inl ⟨_, _, _, he⟩
    · show s.last ≤ a + bs.length; omega
    · intro hw; rw [hw.1] at ha; cases ha
  · rw [if_neg hfast]
    dsimp only
    have ht : s.trim ≤ a := by
      rcases hns with hn | hn | hn
      · have := h.trim; omega
      · rw [hn.2.1]; exact Nat.zero_le _
      · exact hn.1
    rw [if_neg (by omega), if_neg (by omega)]
    obtain ⟨i, x, A⟩ : ∃ i x, AddOk s.chunks [] bs a (a + bs.length)
        (if s.chunks.isEmpty then ⟨.ok (some 0), [⟨some bs, a, add64 a bs.length⟩], []⟩
          else addAndCheck (some bs) a (a + bs.length) [] s.chunks) i x := by
      cases he : s.chunks with
      | nil =>
        rw [hadd]
        exact ⟨_, _, add_append (L := []) .nil hbs rfl hlt (by simp) rfl (List.prefix_refl _)⟩
      | cons c cs =>
        have := add_spec (a + bs.length) hlt (c :: cs) [] bs a hbs rfl h63 (by rw [← he]; exact h.wf) (by simp)
        exact this
    unfold Sink.buffer
    generalize (if s.chunks.isEmpty then (⟨.ok (some 0), [⟨some bs, a, add64 a bs.length⟩], []⟩ : Added)
          else addAndCheck (some bs) a (a + bs.length) [] s.chunks) = r at A ⊢
    dsimp only
    rw [A.res]
    dsimp only
    rw [A.here]
    dsimp only
    have hdl : deliveredData (s.log ++ r.log) = deliveredData s.log := by
      rw [deliveredData_append, deliveredData_overlaps A.log, List.append_nil]
    have hdone1 : ∀ p, p < s.last → valueAt (W ++ [(a, bs)]) p = (deliveredData (s.log ++ r.log))[p]? := by
      intro p hp; rw [hdl]; exact h.done_snoc a bs hp
    have hpend1 : ∀ p, s.last ≤ p → valueAt (W ++ [(a, bs)]) p = chunkAt r.chunks p := by
      intro p hp; rw [valueAt_snoc, A.value, h.pending p hp]
    have hlog1 : ∀ e ∈ s.log ++ r.log, (∃ a b bs, e = Event.data a b bs) ∨ (∃ p o n, e = Event.overlap p o n) := by
      intro e he
      rcases List.mem_append.1 he with he | he
      · exact h.log e he
      · exact Or.inr (A.log e he)
    have hhole : chunkAt s.chunks s.last = none := by rw [← h.pending _ (Nat.le_refl _)]; exact h.hole
    -- if the new data covers the current position, it is returned
    have hfirst : a ≤ s.last → s.last < a + bs.length → x.rseq = s.last := by
      intro h1 h2
      refine A.first s.last h1 h2 ?_ hhole
      intro p p1 p2
      rcases hns with hn | hn | hn
      · omega
      · exact hn.2.2 p p2
      · omega
    have hquiet : (∀ p, a ≤ p → p < a + bs.length → valueAt W p = none) → r.log = [] := by
      intro hq
      refine A.quiet (fun p p1 p2 => ?_)
      have hp := hq p p1 p2
      rcases Nat.lt_or_ge p s.last with h1 | h1
      · exact absurd hp (h.covered h1)
      · rw [← h.pending p h1]; exact hp
    have hwhole : ∀ p, p < s.last → Whole s → chunkAt r.chunks p ≠ none := by
      intro p hp hw
      rw [A.value]
      have := hw.2.2 p hp
      cases hz : chunkAt s.chunks p with
      | none => exact absurd hz this
      | some y => simp
    by_cases hexit : x.rseq > s.last ∨ x.rupper ≤ s.last
    · rw [if_pos hexit]
      refine ⟨_, rfl, ⟨h.cur, h.trim, A.wf, ?_, ?_, hdone1, hpend1, h.calm, hlog1, h.bound⟩, rfl, rfl, Nat.le_refl _, ?_, fun hq h => ?_, Or.inl rfl⟩
      · intro c hc
        show c.rupper ≤ s.last ∨ s.last < c.rseq
        rcases A.new c hc with hl | hl
        · exact h.split c hl
        · rcases Nat.lt_or_ge s.last a with h1 | h1
          · right; omega
          · rcases Nat.lt_or_ge s.last (a + bs.length) with h2 | h2
            · have h3 := hfirst h1 h2
              have hx := (A.wf.full x (List.mem_of_getElem? A.here)).lt
              omega
            · left; omega
      · show (deliveredData _).length = s.last
        rw [hdl]; exact h.len
      · intro hw
        exact ⟨hw.1, hw.2.1, fun p hp => hwhole p hp hw⟩
      · show OnlyData (s.log ++ r.log)
        rw [hquiet hq, List.append_nil]; exact h
    · rw [if_neg hexit]
      have hx : x.rseq = s.last := by
        rcases A.new x (List.mem_of_getElem? A.here) with hl | hl
        · rcases h.split x hl with h1 | h1 <;> omega
        · exact hfirst (by omega) (by omega)
      obtain ⟨s', e1, I, e2, e3, e4, e5, e6, ⟨evs, e7, e8⟩, e9⟩ := tryDeliver_inv (W := W ++ [(a, bs)])
        (s := { s with chunks := r.chunks, log := s.log ++ r.log }) h.cur h.trim A.wf A.here hx
        (by show (deliveredData _).length = s.last; rw [hdl]; exact h.len) hdone1 hpend1 h.calm hlog1
      refine ⟨s', e1, I, e2, e3, e5, ?_, fun hq h => ?_, e9⟩
      rotate_left
      · rw [e7]
        refine OnlyData.append ?_ e8
        show OnlyData (s.log ++ r.log)
        rw [hquiet hq, List.append_nil]; exact h
      intro hw
      have hc : s'.chunks = r.chunks := (e4 hw.1).1
      refine ⟨by rw [e2]; exact hw.1, ?_, ?_⟩
      · rw [(e4 hw.1).2]; exact hw.2.1
      · intro p hp
        rw [hc]
        rcases Nat.lt_or_ge p s.last with h1 | h1
        · exact hwhole p h1 hw
        · rw [← hpend1 p h1]; exact e6 p h1 hp

/-- A write of data that has been trimmed already. -/
theorem write_old {W : List (Nat × List Byte)} {s : Sink} (h : Inv W s) {a : Nat} {bs : List Byte} (hbs : bs ≠ [])
    (ht : a + bs.length ≤ s.trim) : s.newData (some bs) a bs.length = .ok () s ∧ Inv (W ++ [(a, bs)]) s := by
  have hlen := List.length_pos_iff.2 hbs
  have := h.trim
  have hb := h.bound
  constructor
  · unfold Sink.newData
    rw [if_neg (by omega), add64_eq (by omega)]
    rw [if_neg (by simp only [Bool.and_eq_true, decide_eq_true_eq]; rintro ⟨_, hc⟩; have := h.cur; omega)]
    dsimp only
    rw [if_pos ht]
  · refine ⟨h.cur, h.trim, h.wf, h.split, h.len, fun p hp => h.done_snoc a bs hp, ?_, h.calm, h.log, h.bound⟩
    intro p hp
    rw [valueAt_snoc, h.pending p hp, byteAt_none.2 (by omega), Option.or_none]

end Verif.Sink
