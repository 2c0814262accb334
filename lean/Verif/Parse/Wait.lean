import Verif.Parse.Sim3
/-!
# Parsing: waiting for input, literals and fixed-size data (C14, C15)

These theorems are about the runtime functions themselves, on any stream (any history, gaps included) and any view of it,
and any schedule of arriving data.
-/

namespace Verif.Parse
open Verif.Stream Verif.Stream.Chain

/-- How many bytes a view from `a` to `b` shows after a history. -/
def avail (ops more : List Op) (a : Nat) (b : Option Nat) : Nat := ((idealAfter ops more).window a b).length

/-- Nothing more can become visible: the input has ended, or the view's end has been received. -/
def over (ops more : List Op) (b : Option Nat) : Bool :=
  (idealAfter ops more).frozen || (match b with | some e => decide (e ≤ (idealAfter ops more).all.length) | none => false)

/-- What the host did in its first `k` turns. -/
def arrivals (s : Sched) (k : Nat) : List Op := (s.take k).flatMap Item.ops

theorem forwardTrims_append {s : Ideal} {xs ys : List Op} (h : ForwardTrims s xs) (k : ForwardTrims (s.run xs) ys) :
    ForwardTrims s (xs ++ ys) := by
  induction xs generalizing s with
  | nil => exact k
  | cons x xs ih =>
    cases x <;> simp only [List.cons_append, ForwardTrims] at h ⊢ <;> first | exact ⟨h.1, ih h.2 k⟩ | exact ih h k

theorem item_forward (s : Ideal) (it : Item) : ForwardTrims s it.ops ∧ (s.run it.ops).start = s.start := by
  have h1 : ∀ (op : List Byte → Op), Appends op → ∀ (d : List (List Byte)) (s : Ideal),
      ForwardTrims s (d.map op) ∧ (s.run (d.map op)).start = s.start := by
    intro op ho d
    induction d with
    | nil => intro s; exact ⟨trivial, rfl⟩
    | cons x d ih =>
      intro s
      obtain ⟨i1, i2⟩ := ih (s.step (op x))
      have : (s.run ((x :: d).map op)).start = ((s.step (op x)).run (d.map op)).start := rfl
      rw [this, i2]
      rcases ho with rfl | rfl
      · refine ⟨i1, ?_⟩
        simp only [Ideal.step]
        split <;> rfl
      · refine ⟨i1, ?_⟩
        simp only [Ideal.step]
        split <;> rfl
  have h2 : ∀ s : Ideal, ForwardTrims s (if it.lent then [.makeOwning] else []) ∧
      (s.run (if it.lent then [.makeOwning] else [])).start = s.start := by
    intro s; cases it.lent <;> exact ⟨trivial, rfl⟩
  unfold Item.ops
  obtain ⟨b1, b2⟩ := h2 s
  obtain ⟨a1, a2⟩ := h1 _ it.op_appends it.data (s.run (if it.lent then [.makeOwning] else []))
  have c1 := forwardTrims_append b1 a1
  have c2 : (s.run ((if it.lent then [.makeOwning] else []) ++ it.data.map it.op)).start = s.start := by
    rw [ideal_run_append, a2, b2]
  cases it.freeze with
  | false => simp only [Bool.false_eq_true, if_false, List.append_nil]; exact ⟨c1, c2⟩
  | true =>
    simp only [if_true]
    refine ⟨forwardTrims_append c1 trivial, ?_⟩
    rw [ideal_run_append]
    exact c2

theorem viewOf_item {ops more : List Op} {a : Nat} {b : Option Nat} {v : View} (hv : ViewOf ops more a b v) (it : Item) :
    ViewOf ops (more ++ it.ops) a b v := by
  obtain ⟨h1, h2⟩ := item_forward (({} : Ideal).run (ops ++ more)) it
  refine ⟨?_, hv.made, hv.begin, hv.end, ?_, hv.order⟩
  · rw [← List.append_assoc]; exact forwardTrims_append hv.forward h1
  · rw [← List.append_assoc, ideal_run_append, h2]; exact hv.avail

theorem viewOf_size {ops more : List Op} {a : Nat} {b : Option Nat} {v : View} (hv : ViewOf ops more a b v) :
    v.size (streamAfter ops more) = .ok (avail ops more a b) := by
  have r := hv.ready
  rw [View.size_spec r.live r.good, r.window]; rfl

theorem viewOf_over {ops more : List Op} {a : Nat} {b : Option Nat} {v : View} (hv : ViewOf ops more a b v) :
    v.isComplete (streamAfter ops more) = .ok (over ops more b) := by
  have h := C43_incomplete hv
  rw [show v.isComplete (streamAfter ops more) = _ from h]
  unfold over
  cases b <;> rfl

theorem streamAfter_item (ops more : List Op) (it : Item) : (streamAfter ops more).run it.ops = streamAfter ops (more ++ it.ops) := by
  unfold streamAfter
  rw [← List.append_assoc, run_append _ (ops ++ more)]

theorem arrivals_succ (it : Item) (s : Sched) (k : Nat) : arrivals (it :: s) (k + 1) = it.ops ++ arrivals s k := by
  simp [arrivals]

theorem arrivals_add (s : Sched) (k j : Nat) : arrivals s (k + j) = arrivals s k ++ arrivals (s.drop k) j := by
  unfold arrivals
  rw [List.take_add, List.flatMap_append]

theorem viewOf_arrivals {ops : List Op} {a : Nat} {b : Option Nat} {v : View} (s : Sched) : ∀ {more : List Op} (k : Nat),
    ViewOf ops more a b v → ViewOf ops (more ++ arrivals s k) a b v := by
  induction s with
  | nil => intro more k hv; simpa [arrivals] using hv
  | cons it s ih =>
    intro more k hv
    cases k with
    | zero => simpa [arrivals] using hv
    | succ k => rw [arrivals_succ, ← List.append_assoc]; exact ih k (viewOf_item hv it)

theorem waitLoop_exact {ops : List Op} {a : Nat} {b : Option Nat} {v : View} (s : Sched) : ∀ {more : List Op},
    ViewOf ops more a b v →
    ∃ k, k ≤ s.length ∧
      (∀ j, j < k → avail ops (more ++ arrivals s j) a b = avail ops more a b ∧ over ops (more ++ arrivals s j) b = false) ∧
      ((0 < k ∧ waitLoop v (avail ops more a b) s (streamAfter ops more) =
          .done true (streamAfter ops (more ++ arrivals s k)) (s.drop k)) ∨
       (avail ops (more ++ arrivals s k) a b = avail ops more a b ∧ over ops (more ++ arrivals s k) b = true ∧
        waitLoop v (avail ops more a b) s (streamAfter ops more) =
          .done false (streamAfter ops (more ++ arrivals s k)) (s.drop k)) ∨
       (k = s.length ∧ avail ops (more ++ arrivals s k) a b = avail ops more a b ∧ over ops (more ++ arrivals s k) b = false ∧
        waitLoop v (avail ops more a b) s (streamAfter ops more) = .suspended (streamAfter ops (more ++ arrivals s k)))) := by
  induction s with
  | nil =>
    intro more hv
    have hc : v.isComplete (streamAfter ops more) = .ok (over ops more b) := viewOf_over hv
    refine ⟨0, Nat.le_refl _, fun j hj => by omega, ?_⟩
    have h0 : more ++ arrivals [] 0 = more := by simp [arrivals]
    rw [h0]
    unfold waitLoop
    rw [hc]
    cases ho : over ops more b with
    | true => exact Or.inr (Or.inl ⟨rfl, rfl, rfl⟩)
    | false => exact Or.inr (Or.inr ⟨rfl, rfl, rfl, rfl⟩)
  | cons it s ih =>
    intro more hv
    have hc : v.isComplete (streamAfter ops more) = .ok (over ops more b) := viewOf_over hv
    have h0 : more ++ arrivals (it :: s) 0 = more := by simp [arrivals]
    cases ho : over ops more b with
    | true =>
      refine ⟨0, Nat.zero_le _, fun j hj => by omega, Or.inr (Or.inl ?_)⟩
      rw [h0]
      refine ⟨rfl, ho, ?_⟩
      unfold waitLoop
      rw [hc, ho]; rfl
    | false =>
      have hv' := viewOf_item hv it
      have hs := viewOf_size hv'
      have hu : waitLoop v (avail ops more a b) (it :: s) (streamAfter ops more) =
          if avail ops more a b = avail ops (more ++ it.ops) a b then
            waitLoop v (avail ops more a b) s (streamAfter ops (more ++ it.ops))
          else .done true (streamAfter ops (more ++ it.ops)) s := by
        conv => lhs; unfold waitLoop
        rw [hc, ho]
        dsimp only
        rw [streamAfter_item, hs]
      rw [hu]
      have shift : ∀ j, more ++ arrivals (it :: s) (j + 1) = more ++ it.ops ++ arrivals s j := by
        intro j; rw [arrivals_succ, List.append_assoc]
      by_cases he : avail ops more a b = avail ops (more ++ it.ops) a b
      · rw [if_pos he]
        obtain ⟨k, hk, hj, hr⟩ := ih hv'
        rw [← he] at hj hr
        refine ⟨k + 1, by simpa using hk, ?_, ?_⟩
        · intro j hjk
          cases j with
          | zero => rw [h0]; exact ⟨rfl, ho⟩
          | succ j => rw [shift]; exact hj j (by omega)
        · rw [shift, List.drop_succ_cons]
          rcases hr with ⟨_, r2⟩ | ⟨r1, r2, r3⟩ | ⟨r1, r2, r3, r4⟩
          · exact Or.inl ⟨by omega, r2⟩
          · exact Or.inr (Or.inl ⟨r1, r2, r3⟩)
          · exact Or.inr (Or.inr ⟨by simp [r1], r2, r3, r4⟩)
      · rw [if_neg he]
        refine ⟨1, by simp, ?_, Or.inl ⟨by omega, ?_⟩⟩
        · intro j hj
          obtain rfl : j = 0 := by omega
          rw [h0]; exact ⟨rfl, ho⟩
        · have : more ++ arrivals (it :: s) 1 = more ++ it.ops := by simp [arrivals]
          rw [this]; rfl

/-- The outcome of waiting for `n` bytes: `k` is the first of the host's turns after which there are `n` bytes, or after
    which it is certain that there will not be. -/
def WaitOutcome (ops more : List Op) (a : Nat) (b : Option Nat) (n : Nat) (s : Sched) (out : Out Bool) : Prop :=
  ∃ k, k ≤ s.length ∧
    (∀ j, j < k → avail ops (more ++ arrivals s j) a b < n ∧ over ops (more ++ arrivals s j) b = false) ∧
    ((n ≤ avail ops (more ++ arrivals s k) a b ∧
        out = .done true (streamAfter ops (more ++ arrivals s k)) (s.drop k)) ∨
     (avail ops (more ++ arrivals s k) a b < n ∧ over ops (more ++ arrivals s k) b = true ∧
        out = .done false (streamAfter ops (more ++ arrivals s k)) (s.drop k)) ∨
     (k = s.length ∧ avail ops (more ++ arrivals s k) a b < n ∧ over ops (more ++ arrivals s k) b = false ∧
        out = .suspended (streamAfter ops (more ++ arrivals s k))))

theorem waitMinLoop_exact {ops : List Op} {a : Nat} {b : Option Nat} {v : View} (n : Nat) (f : Nat) :
    ∀ {more : List Op} {s : Sched}, s.length < f → ViewOf ops more a b v →
    WaitOutcome ops more a b n s (waitMinLoop v n f (streamAfter ops more) s) := by
  induction f with
  | zero => intro more s h; omega
  | succ f ih =>
    intro more s hf hv
    have h0 : more ++ arrivals s 0 = more := by simp [arrivals]
    unfold waitMinLoop
    rw [P.bind_done (P.read_ok (viewOf_size hv) s)]
    by_cases hn : n > avail ops more a b
    · rw [if_pos hn]
      obtain ⟨k, hk, hj, hr⟩ := waitLoop_exact s hv
      have hw : waitMore v (streamAfter ops more) s = waitLoop v (avail ops more a b) s (streamAfter ops more) := by
        unfold waitMore; rw [viewOf_size hv]
      rw [← hw] at hr
      have hlt : ∀ j, j < k → avail ops (more ++ arrivals s j) a b < n ∧ over ops (more ++ arrivals s j) b = false := by
        intro j h; obtain ⟨x1, x2⟩ := hj j h; exact ⟨by omega, x2⟩
      rcases hr with ⟨r1, r2⟩ | ⟨r1, r2, r3⟩ | ⟨r1, r2, r3, r4⟩
      · rw [P.bind_done r2]
        simp only [if_true]
        obtain ⟨k', hk', hj', hr'⟩ := ih (more := more ++ arrivals s k) (s := s.drop k) (by simp; omega) (viewOf_arrivals s k hv)
        have hass : ∀ j, more ++ arrivals s k ++ arrivals (s.drop k) j = more ++ arrivals s (k + j) := by
          intro j; rw [arrivals_add, List.append_assoc]
        simp only [hass, List.drop_drop, List.length_drop] at hk' hj' hr'
        refine ⟨k + k', by omega, ?_, ?_⟩
        · intro j hjk
          rcases Nat.lt_or_ge j k with h | h
          · exact hlt j h
          · have := hj' (j - k) (by omega)
            rwa [Nat.add_sub_cancel' h] at this
        · rcases hr' with ⟨y1, y2⟩ | ⟨y1, y2, y3⟩ | ⟨y1, y2, y3, y4⟩
          · exact Or.inl ⟨y1, y2⟩
          · exact Or.inr (Or.inl ⟨y1, y2, y3⟩)
          · exact Or.inr (Or.inr ⟨by omega, y2, y3, y4⟩)
      · rw [P.bind_done r3]
        exact ⟨k, hk, hlt, Or.inr (Or.inl ⟨by omega, r2, rfl⟩)⟩
      · rw [P.bind_suspended r4]
        exact ⟨k, hk, hlt, Or.inr (Or.inr ⟨r1, by omega, r3, rfl⟩)⟩
    · rw [if_neg hn]
      refine ⟨0, Nat.zero_le _, fun j hj => by omega, Or.inl ?_⟩
      rw [h0]
      exact ⟨by omega, rfl⟩

/-- C14. `waitForInput`/`waitForInputOrEod` for `n` bytes on any view and any schedule: it returns true after the first
    turn of the host after which `n` bytes are there (at once if they are there already, without suspending), false after
    the first turn after which there are fewer and there cannot be more, and otherwise it is still suspended at the end of
    the schedule. It uses one turn per suspension and changes nothing in the stream. -/
theorem C14_wait_returns_at_the_right_time {ops more : List Op} {a : Nat} {b : Option Nat} {v : View}
    (hv : ViewOf ops more a b v) (n : Nat) (s : Sched) :
    WaitOutcome ops more a b n s (waitMin v n (streamAfter ops more) s) :=
  waitMinLoop_exact n _ (Nat.lt_succ_self _) hv

/-- C14, for `waitForInput`, which turns the negative result into a parse error. -/
theorem C14_waitForInput {ops more : List Op} {a : Nat} {b : Option Nat} {v : View}
    (hv : ViewOf ops more a b v) (n : Nat) (s : Sched) :
    (∃ k, k ≤ s.length ∧ waitForInput v n (streamAfter ops more) s =
        .done () (streamAfter ops (more ++ arrivals s k)) (s.drop k) ∧
      n ≤ avail ops (more ++ arrivals s k) a b ∧ ∀ j < k, avail ops (more ++ arrivals s j) a b < n) ∨
    (∃ k, k ≤ s.length ∧ waitForInput v n (streamAfter ops more) s =
        .throw .parseError (streamAfter ops (more ++ arrivals s k)) (s.drop k) ∧
      over ops (more ++ arrivals s k) b = true ∧ ∀ j ≤ k, avail ops (more ++ arrivals s j) a b < n) ∨
    (waitForInput v n (streamAfter ops more) s = .suspended (streamAfter ops (more ++ arrivals s s.length)) ∧
      ∀ j ≤ s.length, avail ops (more ++ arrivals s j) a b < n ∧ over ops (more ++ arrivals s j) b = false) := by
  obtain ⟨k, hk, hj, hr⟩ := C14_wait_returns_at_the_right_time hv n s
  unfold waitForInput
  rcases hr with ⟨y1, y2⟩ | ⟨y1, y2, y3⟩ | ⟨y1, y2, y3, y4⟩
  · exact Or.inl ⟨k, hk, by rw [P.bind_done y2]; rfl, y1, fun j h => (hj j h).1⟩
  · refine Or.inr (Or.inl ⟨k, hk, by rw [P.bind_done y3]; rfl, y2, fun j h => ?_⟩)
    rcases Nat.lt_or_ge j k with h' | h'
    · exact (hj j h').1
    · obtain rfl : j = k := by omega
      exact y1
  · refine Or.inr (Or.inr ⟨by rw [P.bind_suspended y4, y1], fun j h => ?_⟩)
    rcases Nat.lt_or_ge j k with h' | h'
    · exact hj j h'
    · obtain rfl : j = k := by omega
      exact ⟨y2, y3⟩

/-- C14. With enough data there, no suspension. -/
theorem C14_no_needless_suspension {ops more : List Op} {a : Nat} {b : Option Nat} {v : View}
    (hv : ViewOf ops more a b v) (n : Nat) (s : Sched) (h : n ≤ avail ops more a b) :
    waitForInput v n (streamAfter ops more) s = .done () (streamAfter ops more) s := by
  have h0 : more ++ arrivals s 0 = more := by simp [arrivals]
  rcases C14_waitForInput hv n s with ⟨k, _, e, _, hj⟩ | ⟨k, _, _, _, hj⟩ | ⟨_, hj⟩
  · cases k with
    | zero => rw [h0] at e; exact e
    | succ k => have := hj 0 (by omega); rw [h0] at this; omega
  · have := hj 0 (Nat.zero_le _); rw [h0] at this; omega
  · have := (hj 0 (Nat.zero_le _)).1; rw [h0] at this; omega

/-- A view of a trimmed stream; waiting for 3 bytes while they trickle in. -/
example : ∃ v, ViewOf [.append [1, 2], .trim 1] [] 1 none v ∧
    waitForInput v 3 (streamAfter [.append [1, 2], .trim 1] []) [⟨[], false, false⟩, ⟨[[3]], false, false⟩, ⟨[[4], [5]], false, false⟩, ⟨[], true, false⟩] =
      .done () (streamAfter [.append [1, 2], .trim 1] [.append [3], .append [4], .append [5]]) [⟨[], true, false⟩] :=
  ⟨⟨⟨1, some 0⟩, none⟩, ⟨by decide, .make 1 none (by decide), rfl, rfl, by decide, fun e h => by cases h⟩, by rfl⟩

/-! ## Fixed-size data and literals -/

/-- The data between two positions of a usable view. -/
theorem prefixData_window {ops more : List Op} {a : Nat} {b : Option Nat} {v : View} (hv : ViewOf ops more a b v) (n : Nat)
    (hn : n ≤ avail ops more a b ∨ b = none) :
    prefixData v n (streamAfter ops more) = bytesOf (((idealAfter ops more).window a b).take n) := by
  have r := hv.ready
  obtain ⟨j, e, ho, hi⟩ := incr_spec r.live r.iter n
  have hst : (streamAfter ops more).headOffset ≤ v.begin.offset := r.good.start
  have g' : (⟨v.begin, some j⟩ : View).Good (streamAfter ops more) := by
    refine ⟨r.good.begin, hst, fun x hx => ?_⟩
    injection hx with hx; subst hx
    exact ⟨hi.usable r.live.inv, by rw [ho]; exact Nat.le_add_right _ _⟩
  unfold prefixData subTo
  rw [e]
  simp only [Res.ok_bind]
  rw [mk2_ok r.live hst]
  simp only [Res.ok_bind]
  rw [View.data_spec r.live g']
  congr 1
  rw [← r.window]
  have hlen : (v.window (streamAfter ops more)).length = avail ops more a b := by rw [r.window]; rfl
  unfold View.window View.lim View.endOff Log.slice at hlen ⊢
  simp only [ho]
  rw [List.take_take]
  have hcells : (streamAfter ops more).abs.cells.length = (streamAfter ops more).stop - (streamAfter ops more).headOffset := by
    rw [stop_eq r.live.inv]
    have : (streamAfter ops more).abs.cells = (streamAfter ops more).content := rfl
    rw [this]; omega
  have hs0 : (streamAfter ops more).abs.start = (streamAfter ops more).headOffset := rfl
  simp only [List.length_take, List.length_drop, hcells, hs0] at hlen
  rw [List.take_eq_take_iff]
  simp only [List.length_drop, hcells, hs0]
  have hend := hv.end
  rcases hn with hn | rfl
  · generalize (match v.end with
      | some e => e.offset
      | none => (streamAfter ops more).stop) = m at hlen ⊢
    omega
  · have : v.end = none := by simpa using hend
    rw [this] at hlen ⊢
    simp only at hlen ⊢
    omega

/-- C15. `extractBytes(n)`: waits as in C14 and gives exactly the next `n` bytes (or reports missing data if there is a gap
    in them); at a premature end of the data it is a parse error. -/
theorem C15_extractBytes {ops more : List Op} {a : Nat} {b : Option Nat} {v : View} (hv : ViewOf ops more a b v) (n : Nat)
    (s : Sched) :
    (∃ k, k ≤ s.length ∧ n ≤ avail ops (more ++ arrivals s k) a b ∧
      let c := streamAfter ops (more ++ arrivals s k)
      extractBytes v n false (streamAfter ops more) s =
        match bytesOf (((idealAfter ops (more ++ arrivals s k)).window a b).take n) with
        | .ok bs => .done bs c (s.drop k)
        | .throw e => .throw e c (s.drop k)
        | .ub => .ub) ∨
    (∃ k, k ≤ s.length ∧ over ops (more ++ arrivals s k) b = true ∧ avail ops (more ++ arrivals s k) a b < n ∧
      extractBytes v n false (streamAfter ops more) s =
        .throw .parseError (streamAfter ops (more ++ arrivals s k)) (s.drop k)) ∨
    (extractBytes v n false (streamAfter ops more) s = .suspended (streamAfter ops (more ++ arrivals s s.length)) ∧
      ∀ j ≤ s.length, avail ops (more ++ arrivals s j) a b < n ∧ over ops (more ++ arrivals s j) b = false) := by
  obtain ⟨k, hk, hj, hr⟩ := C14_wait_returns_at_the_right_time hv n s
  unfold extractBytes
  rcases hr with ⟨y1, y2⟩ | ⟨y1, y2, y3⟩ | ⟨y1, y2, y3, y4⟩
  · refine Or.inl ⟨k, hk, y1, ?_⟩
    intro c
    rw [P.bind_done y2]
    simp only [Bool.or_true, if_true]
    unfold P.read
    rw [prefixData_window (viewOf_arrivals s k hv) n (Or.inl y1)]
    cases bytesOf (((idealAfter ops (more ++ arrivals s k)).window a b).take n) <;> rfl
  · exact Or.inr (Or.inl ⟨k, hk, y2, y1, by rw [P.bind_done y3]; rfl⟩)
  · refine Or.inr (Or.inr ⟨by rw [P.bind_suspended y4, y1], fun j h => ?_⟩)
    rcases Nat.lt_or_ge j k with h' | h'
    · exact hj j h'
    · obtain rfl : j = k := by omega
      exact ⟨y2, y3⟩

/-- C15. `extractBytes(n)` with `&eod`, on an open-ended view: the next `n` bytes, or whatever there is if the data ends
    before that. (For a limited view this is not so: `C13_size_eod_reads_beyond_limit`.) -/
theorem C15_extractBytes_eod {ops more : List Op} {a : Nat} {v : View} (hv : ViewOf ops more a none v) (n : Nat)
    (s : Sched) :
    (∃ k, k ≤ s.length ∧
      (n ≤ avail ops (more ++ arrivals s k) a none ∨ (idealAfter ops (more ++ arrivals s k)).frozen = true) ∧
      let c := streamAfter ops (more ++ arrivals s k)
      extractBytes v n true (streamAfter ops more) s =
        match bytesOf (((idealAfter ops (more ++ arrivals s k)).window a none).take n) with
        | .ok bs => .done bs c (s.drop k)
        | .throw e => .throw e c (s.drop k)
        | .ub => .ub) ∨
    (extractBytes v n true (streamAfter ops more) s = .suspended (streamAfter ops (more ++ arrivals s s.length)) ∧
      ∀ j ≤ s.length, avail ops (more ++ arrivals s j) a none < n ∧ (idealAfter ops (more ++ arrivals s j)).frozen = false) := by
  obtain ⟨k, hk, hj, hr⟩ := C14_wait_returns_at_the_right_time hv n s
  have fin : ∀ x, waitMin v n (streamAfter ops more) s = .done x (streamAfter ops (more ++ arrivals s k)) (s.drop k) →
      extractBytes v n true (streamAfter ops more) s =
        match bytesOf (((idealAfter ops (more ++ arrivals s k)).window a none).take n) with
        | .ok bs => .done bs (streamAfter ops (more ++ arrivals s k)) (s.drop k)
        | .throw e => .throw e (streamAfter ops (more ++ arrivals s k)) (s.drop k)
        | .ub => .ub := by
    intro x hx
    unfold extractBytes
    rw [P.bind_done hx]
    simp only [Bool.true_or, if_true]
    unfold P.read
    rw [prefixData_window (viewOf_arrivals s k hv) n (Or.inr rfl)]
    cases bytesOf (((idealAfter ops (more ++ arrivals s k)).window a none).take n) <;> rfl
  have hov : ∀ m, over ops m none = (idealAfter ops m).frozen := by intro m; simp [over]
  rcases hr with ⟨y1, y2⟩ | ⟨y1, y2, y3⟩ | ⟨y1, y2, y3, y4⟩
  · exact Or.inl ⟨k, hk, Or.inl y1, fin true y2⟩
  · exact Or.inl ⟨k, hk, Or.inr (by rw [← hov]; exact y2), fin false y3⟩
  · refine Or.inr ⟨by unfold extractBytes; rw [P.bind_suspended y4, y1], fun j h => ?_⟩
    rw [← hov]
    rcases Nat.lt_or_ge j k with h' | h'
    · exact hj j h'
    · obtain rfl : j = k := by omega
      exact ⟨y2, y3⟩

/-- C15. `expectBytesLiteral(lit)` on gap-free data: waits as in C14, succeeds exactly if the next bytes are the literal, and
    is a parse error if they are not or the data ends before. -/
theorem C15_expectBytesLiteral {ops more : List Op} {a : Nat} {b : Option Nat} {v : View} (hv : ViewOf ops more a b v)
    (lit : List Byte) (s : Sched) (hgap : ∀ k, k ≤ s.length → none ∉ (idealAfter ops (more ++ arrivals s k)).window a b) :
    (∃ k, k ≤ s.length ∧ lit.length ≤ avail ops (more ++ arrivals s k) a b ∧
      expectBytesLiteral v lit (streamAfter ops more) s =
        if lit.map some <+: (idealAfter ops (more ++ arrivals s k)).window a b
        then .done () (streamAfter ops (more ++ arrivals s k)) (s.drop k)
        else .throw .parseError (streamAfter ops (more ++ arrivals s k)) (s.drop k)) ∨
    (∃ k, k ≤ s.length ∧ over ops (more ++ arrivals s k) b = true ∧ avail ops (more ++ arrivals s k) a b < lit.length ∧
      expectBytesLiteral v lit (streamAfter ops more) s =
        .throw .parseError (streamAfter ops (more ++ arrivals s k)) (s.drop k)) ∨
    (expectBytesLiteral v lit (streamAfter ops more) s = .suspended (streamAfter ops (more ++ arrivals s s.length)) ∧
      ∀ j ≤ s.length, avail ops (more ++ arrivals s j) a b < lit.length ∧ over ops (more ++ arrivals s j) b = false) := by
  obtain ⟨k, hk, hj, hr⟩ := C14_wait_returns_at_the_right_time hv lit.length s
  unfold expectBytesLiteral
  rcases hr with ⟨y1, y2⟩ | ⟨y1, y2, y3⟩ | ⟨y1, y2, y3, y4⟩
  · refine Or.inl ⟨k, hk, y1, ?_⟩
    have hv' := viewOf_arrivals s k hv
    have r := hv'.ready
    obtain ⟨xs, hx⟩ : ∃ xs : List Byte, (idealAfter ops (more ++ arrivals s k)).window a b = xs.map some := by
      have := hgap k hk
      generalize (idealAfter ops (more ++ arrivals s k)).window a b = w at this
      induction w with
      | nil => exact ⟨[], rfl⟩
      | cons c w ih =>
        cases c with
        | none => simp at this
        | some x =>
          obtain ⟨xs, hx⟩ := ih (by simpa using this)
          exact ⟨x :: xs, by simp [hx]⟩
    rw [P.bind_done y2]
    simp only [if_true]
    have hsw : v.startsWith (streamAfter ops (more ++ arrivals s k)) lit = .ok (decide (lit <+: xs)) := by
      rw [View.startsWith_spec r.live r.good, r.window, hx, startsCells_map]
    rw [P.bind_done (P.read_ok hsw (s.drop k)), hx]
    have hiff : lit.map some <+: xs.map (some : Byte → Option Byte) ↔ lit <+: xs := by
      constructor
      · rintro ⟨t, ht⟩
        refine ⟨xs.drop lit.length, ?_⟩
        have h1 : (xs.map (some : Byte → Option Byte)).take lit.length = lit.map some := by
          rw [← ht, List.take_left' (by simp)]
        rw [← List.map_take] at h1
        have h2 : xs.take lit.length = lit := (List.map_inj_right (fun _ _ h => by injection h)).1 h1
        have h3 := List.take_append_drop lit.length xs
        rw [h2] at h3
        exact h3
      · exact fun h => h.map some
    by_cases hp : lit <+: xs
    · rw [if_pos (by simpa using hp), if_pos (hiff.2 hp)]; rfl
    · rw [if_neg (by simpa using hp), if_neg (fun h => hp (hiff.1 h))]
      have hpd : prefixData v lit.length (streamAfter ops (more ++ arrivals s k)) = .ok (xs.take lit.length) := by
        rw [prefixData_window hv' lit.length (Or.inl y1), hx, ← List.map_take, bytesOf_map]
      rw [P.bind_done (P.read_ok hpd _)]; rfl
  · exact Or.inr (Or.inl ⟨k, hk, y2, y1, by rw [P.bind_done y3]; rfl⟩)
  · refine Or.inr (Or.inr ⟨by rw [P.bind_suspended y4, y1], fun j h => ?_⟩)
    rcases Nat.lt_or_ge j k with h' | h'
    · exact hj j h'
    · obtain rfl : j = k := by omega
      exact ⟨y2, y3⟩

/-- A literal arriving byte by byte: matched, and not matched. -/
example : ∃ v, ViewOf [.append [9], .trim 1] [] 1 none v ∧
    expectBytesLiteral v [71, 69] (streamAfter [.append [9], .trim 1] []) [⟨[[71]], false, false⟩, ⟨[[69, 84]], false, false⟩] =
      .done () (streamAfter [.append [9], .trim 1] [.append [71], .append [69, 84]]) [] ∧
    expectBytesLiteral v [71, 70] (streamAfter [.append [9], .trim 1] []) [⟨[[71]], false, false⟩, ⟨[[69, 84]], false, false⟩] =
      .throw .parseError (streamAfter [.append [9], .trim 1] [.append [71], .append [69, 84]]) [] :=
  ⟨⟨⟨1, none⟩, none⟩, ⟨by decide, .make 1 none (by decide), rfl, rfl, by decide, fun e h => by cases h⟩, by rfl, by rfl⟩

end Verif.Parse
