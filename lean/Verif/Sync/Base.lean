import Verif.Sync.Spec
import Verif.Parse.Refine
/-! # Error recovery: moving on in the input, trimming, the end of the data -/

namespace Verif.Sync
open Verif.Stream Verif.Parse

variable {I : Input}

theorem headPos_step {k : Bool} {c c' : Chain} (st : Step k c c') (h : c.HeadPos) : c'.HeadPos := st.evolves.headPos h

/-- Trimming, with the new head of the stream. -/
theorem trimInput_head {v : View} {pos : Nat} {lim : Option Nat} {c : Chain} {s : Sched} (trim : Bool)
    (env : Env I c s) (a : At c v pos lim) :
    ∃ c', trimInput trim v c s = .done () c' s ∧ Env I c' s ∧ Step (!trim) c c' ∧ At c' v pos lim ∧ c'.stop = c.stop ∧
      c'.isFrozen = c.isFrozen ∧ (trim = true → c'.headOffset = pos) := by
  obtain ⟨c', t1, t2, t3, t4, t5, t6⟩ := trimInput_spec trim env a
  refine ⟨c', t1, t2, t3, t4, t5, t6, ?_⟩
  intro ht
  subst ht
  unfold trimInput at t1
  rw [if_pos rfl, a.off] at t1
  by_cases hne : c.chunks = []
  · rw [Chain.trim_noop env.live.isValid (Or.inl hne)] at t1
    simp only at t1
    injection t1 with _ t1 _
    subst t1
    have h1 := a.start
    have h2 := a.stop
    have : c.stop = c.headOffset := by simp [Chain.stop, Chain.base, hne]
    omega
  · have hb := Chain.base_le env.live.inv
    have hs := a.start
    obtain ⟨c2, pre, e, -, -, -, -, -, -, hho, -, -⟩ :=
      Chain.trim_spec env.live.inv env.live.isValid hne (o := pos) (by omega)
    rw [e] at t1
    simp only at t1
    injection t1 with _ t1 _
    subst t1
    exact hho

theorem advanceInput_head {v : View} {pos : Nat} {lim : Option Nat} {c : Chain} {s : Sched} (trim : Bool)
    (env : Env I c s) (a : At c v pos lim) {n : Nat} (hn : pos + n ≤ stopNow c lim) :
    ∃ v' c', advanceInput trim v n c s = .done v' c' s ∧ Env I c' s ∧ Step (!trim) c c' ∧ At c' v' (pos + n) lim ∧
      c'.stop = c.stop ∧ c'.isFrozen = c.isFrozen ∧ (trim = true → c'.headOffset = pos + n) := by
  obtain ⟨v', e, a'⟩ := a.advance env.live hn
  obtain ⟨c', t1, t2, t3, t4, t5, t6, t7⟩ := trimInput_head trim env a'
  refine ⟨v', c', ?_, t2, t3, t4, t5, t6, t7⟩
  unfold advanceInput
  rw [P.bind_done (P.read_ok e s), P.bind_done t1]
  rfl

/-- `At` without the condition that the position has not been trimmed. -/
structure CurAt (c : Chain) (v : View) (pos : Nat) (lim : Option Nat) : Prop where
  iter : c.IterOk v.begin
  off : v.begin.offset = pos
  endIter : ∀ e, v.end = some e → c.IterOk e
  «end» : v.end.map (·.offset) = lim
  stop : pos ≤ c.stop
  lim : ∀ l, lim = some l → pos ≤ l

theorem CurAt.of {c : Chain} {v : View} {pos : Nat} {lim : Option Nat} (a : At c v pos lim) : CurAt c v pos lim :=
  ⟨a.iter, a.off, a.endIter, a.end, a.stop, a.lim⟩

theorem CurAt.step {c c' : Chain} {k : Bool} {v : View} {pos : Nat} {lim : Option Nat} (a : CurAt c v pos lim)
    (st : Step k c c') : CurAt c' v pos lim :=
  ⟨a.iter.evolves st.evolves, a.off, fun e he => (a.endIter e he).evolves st.evolves, a.end,
    Nat.le_trans a.stop st.stop, a.lim⟩

theorem CurAt.at {c : Chain} {v : View} {pos : Nat} {lim : Option Nat} (a : CurAt c v pos lim) (h : c.headOffset ≤ pos) :
    At c v pos lim := ⟨a.iter, a.off, a.endIter, a.end, h, a.stop, a.lim⟩

theorem CurAt.pos_le {c : Chain} {v : View} {pos : Nat} {lim : Option Nat} (a : CurAt c v pos lim) :
    pos ≤ stopNow c lim := by
  cases hl : lim with
  | none => exact a.stop
  | some l => exact Nat.le_min.2 ⟨a.lim l hl, a.stop⟩

/-- No gaps: the first cell is data. -/
theorem no_gap {c : Chain} {s : Sched} (env : Env I c s) {a b : Nat} (_h : c.headOffset ≤ a) :
    ((c.abs.slice a b).takeWhile Option.isNone).length = 0 := by
  have : ∀ x ∈ c.abs.slice a b, x.isNone = false := by
    intro x hx
    unfold Log.slice at hx
    have hx' := List.mem_of_mem_drop (List.mem_of_mem_take hx)
    have hcc : c.abs.cells = c.content := rfl
    rw [hcc, env.content] at hx'
    obtain ⟨y, _, rfl⟩ := List.mem_map.1 hx'
    rfl
  cases hl : c.abs.slice a b with
  | nil => rfl
  | cons x xs =>
    have := this x (by rw [hl]; simp)
    simp [this]

theorem nextData_eq {v w : View} {c c' : Chain} {s : Sched} {trim : Bool} (h1 : v.advanceToNextData c = .ok w)
    (h2 : trimInput trim w c s = .done () c' s) : nextData trim v c s = .done w c' s := by
  unfold nextData
  rw [P.bind_done (P.read_ok h1 s), P.bind_done h2]
  rfl

/-- Moving on to the next byte, or to where the stream now begins. -/
theorem nextData_spec {v : View} {pos : Nat} {lim : Option Nat} {c : Chain} {s : Sched} (trim : Bool)
    (env : Env I c s) (hp : c.HeadPos) (a : CurAt c v pos lim) (ht : trim = false → c.headOffset ≤ pos)
    (h1 : pos + 1 ≤ stopNow c lim) (h2 : c.headOffset ≤ stopNow c lim)
    (hq : c.headOffset ≤ pos + 1 ∨ c.headOffset < c.stop) :
    ∃ v' c', nextData trim v c s = .done v' c' s ∧ Env I c' s ∧ Step (!trim) c c' ∧
      At c' v' (restart trim pos c.headOffset) lim ∧ c'.stop = c.stop ∧ c'.isFrozen = c.isFrozen ∧
      (trim = true → c'.headOffset = restart trim pos c.headOffset) := by
  have hr : restart trim pos c.headOffset = max (pos + 1) c.headOffset := by
    unfold restart
    cases trim with
    | true => rfl
    | false => have := ht rfl; simp only [Bool.false_eq_true, if_false]; omega
  rw [hr]
  obtain ⟨w, w1, w2, w3, w4⟩ := View.advanceToNextData_spec env.live hp a.iter
  have hle := stopNow_le c lim
  rw [a.off] at w4
  have hoff : w.begin.offset = max (pos + 1) c.headOffset := by
    rw [w4]
    split
    · rw [no_gap env (Nat.le_max_right _ _)]; rfl
    · rename_i hn
      omega
  have aw : At c w (max (pos + 1) c.headOffset) lim := by
    refine ⟨w3, hoff, by rw [w2]; exact a.endIter, by rw [w2]; exact a.end, Nat.le_max_right _ _, by omega, ?_⟩
    intro l hl
    subst hl
    simp only [stopNow] at h1 h2
    omega
  obtain ⟨c', t1, t2, t3, t4, t5, t6, t7⟩ := trimInput_head trim env aw
  refine ⟨w, c', ?_, t2, t3, t4, t5, t6, t7⟩
  unfold nextData
  rw [P.bind_done (P.read_ok w1 s), P.bind_done t1]
  rfl

/-- Everything that has arrived has been consumed by what failed: the new position is before the stream's beginning. -/
theorem nextData_lost {v : View} {pos : Nat} {lim : Option Nat} {c : Chain} {s : Sched} (trim : Bool)
    (env : Env I c s) (hp : c.HeadPos) (a : CurAt c v pos lim) (h1 : pos + 1 < c.headOffset) (h2 : c.headOffset = c.stop) :
    ∃ v', nextData trim v c s = .done v' c s ∧ v'.begin.offset < c.headOffset ∧ c.chunks = [] := by
  obtain ⟨w, w1, w2, w3, w4⟩ := View.advanceToNextData_spec env.live hp a.iter
  rw [a.off, if_neg (by omega)] at w4
  have hc : c.chunks = [] := by
    refine (Chain.content_eq_nil env.live.inv hp).1 ?_
    have := Chain.stop_eq env.live.inv
    exact List.length_eq_zero_iff.1 (by omega)
  refine ⟨w, nextData_eq w1 ?_, by omega, hc⟩
  unfold trimInput
  cases trim with
  | false => rfl
  | true =>
    simp only [if_true]
    rw [Chain.trim_noop env.live.isValid (Or.inl hc)]

theorem atEod_lost {v : View} {c : Chain} {s : Sched} (h : c.Live) (hc : c.chunks = [])
    (hv : v.begin.offset < c.headOffset) : atEod v c s = .throw .invalidIterator c s := by
  unfold atEod
  have hs : v.size c = .ok 0 := by
    unfold View.size
    rcases View.tail_endOffset h.inv with ⟨e1, e2⟩ | ⟨t, ts, e1, e2⟩
    · rw [e1]; rfl
    · exfalso
      have := h.inv.tail
      rw [hc] at this
      simp at this
      rw [this] at e1
      simp [Chain.resolve?] at e1
  rw [P.bind_done (P.read_ok hs s)]
  simp only [gt_iff_lt, Nat.lt_irrefl, if_false]
  have hi : v.isComplete c = .throw .invalidIterator := by
    unfold View.isComplete View.ensureValid
    rw [if_pos h.isValid, if_pos hv]; rfl
  rw [P.bind_apply]
  unfold P.read
  rw [hi]

theorem size_over {v : View} {c : Chain} (h : c.Live) (hv : c.stop ≤ v.begin.offset ∨ ∃ e, v.end = some e ∧ e.offset ≤ v.begin.offset) :
    v.size c = .ok 0 := by
  unfold View.size
  rcases View.tail_endOffset h.inv with ⟨e1, e2⟩ | ⟨t, ts, e1, e2⟩
  · rw [e1]; rfl
  · rw [e1]
    simp only [Res.ok_bind, e2]
    split
    · rfl
    · rename_i hn
      rcases hv with hv | ⟨e, he, hv⟩
      · cases v.end with
        | none => simp only; congr 1; omega
        | some e =>
          simp only
          split
          · congr 1; omega
          · congr 1; split <;> omega
      · rw [he]
        simp only
        split
        · congr 1; omega
        · congr 1; split <;> omega

/-- Moving on at the end of the data: it still is the end of the data. -/
theorem nextData_end {v : View} {pos : Nat} {lim : Option Nat} {c : Chain} {s : Sched} (trim : Bool)
    (env : Env I c s) (hp : c.HeadPos) (a : At c v pos lim) (h1 : completeNow c lim = true) (h2 : pos = stopNow c lim) :
    ∃ v' c', nextData trim v c s = .done v' c' s ∧ atEod v' c' s = .done true c' s := by
  obtain ⟨w, w1, w2, w3, w4⟩ := View.advanceToNextData_spec env.live hp a.iter
  have hst := a.start
  rw [a.off] at w4
  have hoff : w.begin.offset = pos + 1 := by
    rw [w4]
    split
    · rw [no_gap env (Nat.le_max_right _ _)]; omega
    · rfl
  -- whatever trimming does, the stream is live, as frozen as before, ends no earlier, and begins no later than the view
  have key : ∀ c' : Chain, c'.Live → c'.isFrozen = c.isFrozen → c'.headOffset ≤ pos + 1 → c.stop ≤ c'.stop →
      (c'.stop ≤ pos + 1 ∨ c'.stop = c.stop) → atEod w c' s = .done true c' s := by
    intro c' hl hf hh hs hs'
    have hsz : w.size c' = .ok 0 := by
      refine size_over hl ?_
      cases hlim : lim with
      | none => subst hlim; simp only [stopNow] at h2; left; omega
      | some l =>
        by_cases hlt : c.stop ≤ l
        · have hps : stopNow c lim = c.stop := by rw [hlim]; simp only [stopNow]; omega
          left; omega
        · right
          have he := a.end
          rw [hlim] at he
          cases hve : v.end with
          | none => rw [hve] at he; cases he
          | some e =>
            rw [hve] at he
            simp only [Option.map_some, Option.some.injEq] at he
            refine ⟨e, by rw [w2, hve], ?_⟩
            have hps : stopNow c lim = l := by rw [hlim]; simp only [stopNow]; omega
            omega
    have hic : w.isComplete c' = .ok true := by
      unfold View.isComplete View.ensureValid
      rw [if_pos hl.isValid, if_neg (by omega)]
      simp only [Res.ok_bind, Chain.endOffset_eq hl.inv]
      rw [hf]
      cases hfz : c.isFrozen with
      | true => rfl
      | false =>
        unfold completeNow at h1
        rw [hfz] at h1
        cases hlim : lim with
        | none => rw [hlim] at h1; simp at h1
        | some l =>
          rw [hlim] at h1
          simp only [Bool.false_or, decide_eq_true_eq] at h1
          have he := a.end
          rw [hlim] at he
          cases hve : v.end with
          | none => rw [hve] at he; cases he
          | some e =>
            rw [hve] at he
            simp only [Option.map_some, Option.some.injEq] at he
            rw [w2, hve]
            simp only [Bool.false_eq_true, if_false]
            have : e.offset ≤ c'.stop := by omega
            simp [this]
    unfold atEod
    rw [P.bind_done (P.read_ok hsz s)]
    simp only [gt_iff_lt, Nat.lt_irrefl, if_false]
    rw [P.bind_done (P.read_ok hic s)]
    rfl
  have hle := stopNow_le c lim
  cases trim with
  | false =>
    exact ⟨w, c, nextData_eq w1 rfl, key c env.live rfl (by omega) (Nat.le_refl _) (Or.inr rfl)⟩
  | true =>
    by_cases hne : c.chunks = []
    · refine ⟨w, c, nextData_eq w1 ?_, key c env.live rfl (by omega) (Nat.le_refl _) (Or.inr rfl)⟩
      unfold trimInput
      simp only [if_true]
      rw [Chain.trim_noop env.live.isValid (Or.inl hne)]
    · have hb := Chain.base_le env.live.inv
      obtain ⟨c2, pre, e, hinv, habs, hstt, -, -, -, hho, -, -⟩ :=
        Chain.trim_spec env.live.inv env.live.isValid hne (o := pos + 1) (by omega)
      have hlive : c2.Live := ⟨hinv, by rw [hstt]; exact env.live.valid⟩
      have hlen : c2.stop = pos + 1 + ((rawCells c.chunks).length - (pos + 1 - c.base)) := by
        rw [Chain.stop_eq hinv, hho]
        have : c2.content = (rawCells c.chunks).drop (pos + 1 - c.base) := congrArg Log.cells habs
        rw [this]; simp
      have hcs : c.stop = c.base + (rawCells c.chunks).length := rfl
      refine ⟨w, c2, nextData_eq w1 ?_, key c2 hlive (isFrozen_of_state hstt) (by omega) (by omega) (by omega)⟩
      unfold trimInput
      simp only [if_true, hoff]
      rw [e]

/-- `atEod`, with what is known if it is not the end. -/
theorem atEod_spec2 {v : View} {pos : Nat} {lim : Option Nat} {c : Chain} {s : Sched}
    (env : Env I c s) (a : At c v pos lim) :
    (∃ c' s', atEnd I lim pos = .ok false ∧ atEod v c s = .done false c' s' ∧ Env I c' s' ∧ Step true c c' ∧
      pos + 1 ≤ stopNow c' lim) ∨
    (∃ c' s', atEnd I lim pos = .ok true ∧ atEod v c s = .done true c' s' ∧ Env I c' s' ∧ Step true c c' ∧
      completeNow c' lim = true ∧ pos = stopNow c' lim) ∨
    (∃ c', atEnd I lim pos = .more ∧ atEod v c s = .suspended c') := by
  have hp := a.pos_le
  have hss := stopNow_le_stop env lim
  unfold atEod atEnd Input.has
  rw [P.bind_done (P.read_ok (a.size env) s)]
  by_cases h0 : stopNow c lim - pos > 0
  · rw [if_pos h0, if_pos (by omega)]
    exact Or.inl ⟨c, s, rfl, rfl, env, Step.refl c, by omega⟩
  · rw [if_neg h0]
    rw [P.bind_done (P.read_ok (a.isComplete env) s)]
    cases hc : completeNow c lim with
    | true =>
      obtain ⟨k1, k2⟩ := complete_now env hc
      rw [if_neg (by omega), if_pos k1, if_pos rfl]
      exact Or.inr (Or.inl ⟨c, s, rfl, rfl, env, Step.refl c, hc, by omega⟩)
    | false =>
      rw [if_neg (show ¬ (false = true) by decide)]
      rcases waitMore_spec env a with ⟨c', s', h1, h2, h3, h4, h5⟩ | ⟨c', s', h1, h2, h3, h4, h5, h6⟩ | ⟨c', h1, h2, h3⟩
      · rw [P.bind_done h1]
        have := stopNow_le_stop h2 lim
        rw [if_pos (by omega)]
        exact Or.inl ⟨c', s', rfl, rfl, h2, h3, by omega⟩
      · rw [P.bind_done h1]
        obtain ⟨k1, k2⟩ := complete_now h2 h4
        rw [if_neg (by omega), if_pos k1]
        exact Or.inr (Or.inl ⟨c', s', rfl, rfl, h2, h3, h4, by omega⟩)
      · rw [P.bind_suspended h1, if_neg (by omega), h2]
        exact Or.inr (Or.inr ⟨c', rfl, rfl⟩)

end Verif.Sync
