import Verif.Stream.Refine
/-!
# Stream: property theorems (content, trimming, freezing, iterators, statistics, copies)

C01, C02 (content part), C03, C04, C05, C10, C11.
-/

namespace Verif.Stream
open Chain

/-! ## C01: a stream's content is its append log -/

/-- C01. For every history of operations in which no trim goes backwards, reading the stream at any absolute offset
    gives what the ideal append log holds there (the appended byte, `MissingData` inside of gaps, `InvalidIterator`
    outside of the available range); size and boundaries agree as well. -/
theorem C01_stream_is_append_log (ops : List Op) (h : ForwardTrims {} ops) :
    let c := ({} : Chain).run ops
    let s := ({} : Ideal).run ops
    (∀ o, c.read o = s.read o) ∧ c.size = .ok (s.all.length - s.start) ∧
      (∃ i, c.begin = .ok i ∧ i.offset = s.start) ∧ (∃ e, c.end = .ok e ∧ e.offset = s.all.length) ∧
      (c.isFrozen = s.frozen) := by
  have r := rel_run rel_init ops h
  refine ⟨r.read, ?_, ?_, ?_, ?_⟩
  · rw [size_eq r.live.inv, r.content, List.length_drop]
  · refine ⟨⟨(({} : Chain).run ops).headOffset, (({} : Chain).run ops).chunks.head?.map (·.id)⟩, ?_, r.start⟩
    unfold begin; simp only [r.live.isValid, if_true]
  · refine ⟨⟨(({} : Chain).run ops).stop, (({} : Chain).run ops).tail⟩, ?_, ?_⟩
    · unfold «end»; simp only [r.live.isValid, if_true, endOffset_eq r.live.inv, Res.ok_bind]
    · rw [stop_eq r.live.inv, r.content, r.start, List.length_drop]; have := r.le; simp only; omega
  · have := r.frozen
    unfold isFrozen
    cases hf : (({} : Ideal).run ops).frozen
    · rw [r.mutable hf]; rfl
    · rw [r.frozen.2 hf]; rfl

/-- Non-vacuity of C01: a history with chunks, a gap, trims inside and across chunks and a freeze. -/
example : ForwardTrims {} [.append [1, 2, 3], .appendGap 2, .trim 1, .append [4, 5], .trim 4, .freeze, .append [9]] := by
  decide
example : (({} : Chain).run [.append [1, 2, 3], .appendGap 2, .trim 1, .append [4, 5], .trim 4, .freeze, .append [9]]).read 6
    = .ok 5 := by decide

/-- C01, without trims: the offset of a byte is its position in the concatenation of everything appended. -/
theorem C01_offsets_are_positions (ops : List Op) (h : ∀ op ∈ ops, (∃ bs, op = .append bs) ∨ (∃ n, op = .appendGap n))
    (o : Nat) : (({} : Chain).run ops).read o = match (ops.flatMap Op.cells)[o]? with
      | some (some b) => .ok b
      | some none => .throw .missingData
      | none => .throw .invalidIterator := by
  have key : ∀ (ops : List Op) (s : Ideal), s.frozen = false → s.start = 0 →
      (∀ op ∈ ops, (∃ bs, op = .append bs) ∨ (∃ n, op = .appendGap n)) →
      ForwardTrims s ops ∧ (s.run ops).start = 0 ∧ (s.run ops).all = s.all ++ ops.flatMap Op.cells := by
    intro ops
    induction ops with
    | nil => intro s _ hs _; exact ⟨trivial, hs, by simp [Ideal.run]⟩
    | cons op ops ih =>
      intro s hf hs hops
      rcases hops op (by simp) with ⟨bs, rfl⟩ | ⟨n, rfl⟩
      · have e : s.step (.append bs) = { s with all := s.all ++ bs.map some } := by simp [Ideal.step, hf]
        obtain ⟨h1, h2, h3⟩ := ih (s.step (.append bs)) (by rw [e]; exact hf) (by rw [e]; exact hs)
          (fun o ho => hops o (by simp [ho]))
        refine ⟨h1, h2, ?_⟩
        show ((s.step _).run ops).all = _
        rw [h3, e]; simp [Op.cells]
      · have e : s.step (.appendGap n) = { s with all := s.all ++ List.replicate n none } := by simp [Ideal.step, hf]
        obtain ⟨h1, h2, h3⟩ := ih (s.step (.appendGap n)) (by rw [e]; exact hf) (by rw [e]; exact hs)
          (fun o ho => hops o (by simp [ho]))
        refine ⟨h1, h2, ?_⟩
        show ((s.step _).run ops).all = _
        rw [h3, e]; simp [Op.cells]
  obtain ⟨h1, h2, h3⟩ := key ops {} rfl rfl h
  rw [(C01_stream_is_append_log ops h1).1 o]
  unfold Ideal.read
  rw [h2, h3]
  simp only [Nat.zero_le, if_true, List.nil_append]
  rcases (List.flatMap Op.cells ops)[o]? with _ | _ | _ <;> rfl

/-! ## C02: chunking is unobservable (content part; views are in `ViewProps`) -/

/-- C02. Appending the same bytes in two different groupings gives streams that read the same everywhere. -/
theorem C02_chunking_unobservable (xs ys : List (List Byte)) (h : xs.flatten = ys.flatten) (o : Nat) :
    (({} : Chain).run (xs.map .append)).read o = (({} : Chain).run (ys.map .append)).read o := by
  have e : ∀ zs : List (List Byte), (zs.map Op.append).flatMap Op.cells = zs.flatten.map some := by
    intro zs; induction zs <;> simp_all [Op.cells]
  rw [C01_offsets_are_positions _ (by intro op ho; simp at ho; obtain ⟨b, _, rfl⟩ := ho; exact Or.inl ⟨b, rfl⟩),
    C01_offsets_are_positions _ (by intro op ho; simp at ho; obtain ⟨b, _, rfl⟩ := ho; exact Or.inl ⟨b, rfl⟩), e, e, h]

example : ([[1, 2], [3]] : List (List Byte)).flatten = [[1], [2, 3]].flatten := rfl

/-! ## C03: trimming -/

/-- C03. In every state reachable by any history, trimming to an offset between begin and end leaves everything from
    there on readable as before and makes everything before unreadable. -/
theorem C03_trim_keeps_rest (ops : List Op) (o : Nat) :
    let c := ({} : Chain).run ops
    c.headOffset ≤ o → o ≤ c.stop →
      (c.trim o).1 = .ok () ∧ (∀ p, o ≤ p → (c.trim o).2.read p = c.read p) ∧
      (∀ p, p < o → (c.trim o).2.read p = .throw .invalidIterator) := by
  intro c h1 h2
  have hl : c.Live := run_live live_init ops
  have hb := base_le hl.inv
  by_cases hn : c.chunks = []
  · rw [trim_noop hl.isValid (Or.inl hn)]
    have : c.stop = c.headOffset := by simp [stop, base, hn]
    refine ⟨rfl, fun _ _ => rfl, fun p hp => ?_⟩
    rw [read_spec hl]
    unfold readLog Log.get? abs
    simp only
    rw [if_pos (by omega)]
  · obtain ⟨c', pre, e1, e2, e3, e4, _⟩ := trim_spec hl.inv hl.isValid hn (o := o) (by omega)
    have hl' : c'.Live := ⟨e2, by rw [e4]; exact hl.valid⟩
    rw [e1]
    refine ⟨rfl, fun p hp => ?_, fun p hp => ?_⟩
    · show c'.read p = _
      rw [read_spec hl', read_spec hl, e3]
      unfold readLog Log.get? abs content
      simp only
      rw [if_neg (by omega), if_neg (by omega), List.getElem?_drop, List.getElem?_drop]
      rw [show o - c.base + (p - o) = c.headOffset - c.base + (p - c.headOffset) by omega]
    · show c'.read p = _
      rw [read_spec hl', e3]
      unfold readLog Log.get?
      simp [hp]

/-- C03, partial: trimmed data never comes back, provided no trim is asked to go backwards. (The full property, for
    all histories, is false of the code: see `C03_backward_trim_brings_data_back`.) -/
theorem C03_trimmed_stays_trimmed_partial (ops more : List Op) (p : Nat)
    (h : ForwardTrims {} (ops ++ more)) (hp : p < (({} : Ideal).run ops).start) :
    (({} : Chain).run (ops ++ more)).read p = .throw .invalidIterator := by
  rw [(C01_stream_is_append_log _ h).1 p]
  have mono : ∀ (more : List Op) (s : Ideal), ForwardTrims s more → s.start ≤ (s.run more).start := by
    intro more
    induction more with
    | nil => intro s _; exact Nat.le_refl _
    | cons op more ih =>
      intro s hf
      have h2 : ForwardTrims (s.step op) more := by
        cases op <;> first | exact hf | exact hf.2
      refine Nat.le_trans ?_ (ih _ h2)
      cases op <;> simp only [Ideal.step] <;> (try split) <;> simp_all <;> omega
  have hmore : ∀ (ops : List Op) (s : Ideal), ForwardTrims s (ops ++ more) → ForwardTrims (s.run ops) more := by
    intro ops
    induction ops with
    | nil => intro s hs; exact hs
    | cons op ops ih =>
      intro s hs
      apply ih (s.step op)
      cases op <;> first | exact hs | exact hs.2
  have := mono more _ (hmore ops {} h)
  unfold Ideal.read
  rw [if_neg]
  unfold Ideal.run at *
  rw [List.foldl_append]
  omega

example : ForwardTrims {} ([.append [1, 2, 3], .trim 2] ++ [.append [4], .trim 3]) ∧
    1 < (({} : Ideal).run [.append [1, 2, 3], .trim 2]).start := by decide

/-- C03 is false in general: trimming to offset 5 and then to offset 2 makes the bytes at 2..4 readable again
    (`stream.cc` 203 sets `_head_offset` without checking that it moves forward). -/
theorem C03_backward_trim_brings_data_back :
    let c := ({} : Chain).run [.append [0, 1, 2, 3, 4, 5, 6, 7], .trim 5]
    c.read 3 = .throw .invalidIterator ∧ (c.run [.trim 2]).read 3 = .ok 3 := by decide

/-! ## C04: frozen streams -/

/-- C04. In every reachable frozen state, appending (data or a gap) throws `Frozen`, and any number of such attempts
    leaves content, boundaries, statistics and the frozen state as they were; after unfreezing, appending works again. -/
theorem C04_frozen_rejects_appends (ops : List Op) (attempts : List Op)
    (hf : (({} : Chain).run ops).isFrozen = true)
    (ha : ∀ op ∈ attempts, op.addsData = true ∨ op.addsGap = true) :
    let c := ({} : Chain).run ops
    (∀ op ∈ attempts, (c.step op).1 = .throw .frozen) ∧
    (∀ o, (c.run attempts).read o = c.read o) ∧ (c.run attempts).size = c.size ∧
    (c.run attempts).headOffset = c.headOffset ∧
    (c.run attempts).stats = c.stats ∧ (c.run attempts).isFrozen = true ∧
    (∀ bs, ((c.run attempts).unfreeze.append bs).1 = .ok ()) := by
  intro c
  have hl : c.Live := run_live live_init ops
  have one : ∀ (d : Chain), d.Live → d.state = .frozen → ∀ op : Op, (op.addsData = true ∨ op.addsGap = true) →
      (d.step op).1 = .throw .frozen ∧ (d.step op).2.state = .frozen ∧ (d.step op).2.abs = d.abs ∧
        (d.step op).2.stats = d.stats := by
    intro d hd hs op hop
    cases op with
    | append bs =>
      obtain ⟨ca, n, e1, e2, e3⟩ := append_frozen hd.inv hs bs
      simp only [step]
      rw [e1]
      exact ⟨e3 (by intro hb; subst hb; simp [Op.addsData, Op.addsGap] at hop), hs, rfl, rfl⟩
    | appendNonOwning bs =>
      obtain ⟨ca, n, e1, e2, e3⟩ := appendNonOwning_frozen hd.inv hs bs
      simp only [step]
      rw [e1]
      exact ⟨e3 (by intro hb; subst hb; simp [Op.addsData, Op.addsGap] at hop), hs, rfl, rfl⟩
    | appendGap m =>
      obtain ⟨ca, n, e1, e2, e3⟩ := appendGap_frozen hd.inv hs m
      simp only [step]
      rw [e1]
      exact ⟨e3 (by intro hb; subst hb; simp [Op.addsData, Op.addsGap] at hop), hs, rfl, rfl⟩
    | trim _ => simp [Op.addsData, Op.addsGap] at hop
    | freeze => simp [Op.addsData, Op.addsGap] at hop
    | unfreeze => simp [Op.addsData, Op.addsGap] at hop
    | makeOwning => simp [Op.addsData, Op.addsGap] at hop
  have many : ∀ (l : List Op) (d : Chain), d.Live → d.state = .frozen →
      (∀ op ∈ l, op.addsData = true ∨ op.addsGap = true) →
      (d.run l).Live ∧ (d.run l).state = .frozen ∧ (d.run l).abs = d.abs ∧ (d.run l).stats = d.stats := by
    intro l
    induction l with
    | nil => intro d hd hs _; exact ⟨hd, hs, rfl, rfl⟩
    | cons op l ih =>
      intro d hd hs hop
      obtain ⟨_, h2, h3, h4⟩ := one d hd hs op (hop op (by simp))
      obtain ⟨g1, g2, g3, g4⟩ := ih _ (step_live hd op).1 h2 (fun o ho => hop o (by simp [ho]))
      exact ⟨g1, g2, g3.trans h3, g4.trans h4⟩
  have hs : c.state = .frozen := by simpa [isFrozen] using hf
  obtain ⟨g1, g2, g3, g4⟩ := many attempts c hl hs ha
  refine ⟨fun op hop => (one c hl hs op (ha op hop)).1, fun o => ?_, ?_, congrArg Log.start g3, g4, ?_, ?_⟩
  · rw [read_spec g1, read_spec hl, g3]
  · rw [size_eq g1.inv, size_eq hl.inv]
    exact congrArg (fun l => Res.ok l.cells.length) g3
  · simp [isFrozen, g2]
  · intro bs
    unfold unfreeze
    rw [if_pos g1.isValid]
    obtain ⟨c', e1, _⟩ := append_spec (g1.inv.state .mutable (by simp)) rfl bs
    rw [e1]

example : (({} : Chain).run [.append [1, 2], .freeze, .trim 1]).isFrozen = true ∧
    (Op.addsData (.append [3]) = true) := by decide

/-! ## C10: statistics -/

/-- C10. After every history, the statistics are the totals over all appends that were carried out (not attempted while
    frozen): bytes of data and of gaps, and numbers of non-empty data and gap chunks. Trimming does not enter. -/
theorem C10_statistics (ops : List Op) :
    (({} : Chain).run ops).stats = ⟨
      ((accepted false ops).flatMap Op.cells).countP Option.isSome,
      (accepted false ops).countP Op.addsData,
      ((accepted false ops).flatMap Op.cells).countP Option.isNone,
      (accepted false ops).countP Op.addsGap⟩ := by
  rw [run_stats live_init ops false (by simp)]
  simp

example : (({} : Chain).run [.append [1, 2], .appendGap 3, .trim 4, .freeze, .append [9], .unfreeze, .append []]).stats
    = ⟨2, 1, 3, 1⟩ := by decide

/-! ## C11: copies -/

/-- C11, partial. For every history from an empty stream which leaves no partially trimmed head chunk, copying gives a
    stream with the same cells (offsets restart at zero) and statistics. (The full property, for all histories, is
    false: see `C11_copy_differs_after_trim`.) -/
theorem C11_copy_equal_partial (ops : List Op) :
    let c := ({} : Chain).run ops
    c.headOffset = c.base →
      ∃ n, c.copy = .ok n ∧ n.Live ∧ n.abs.cells = c.abs.cells ∧ n.size = c.size ∧ n.stats = c.stats := by
  intro c hb
  have hl : c.Live := run_live live_init ops
  have hp : c.HeadPos := by
    have : ∀ (ops : List Op) (d : Chain), d.Live → d.HeadPos → (d.run ops).HeadPos := by
      intro ops
      induction ops with
      | nil => intro d _ h; exact h
      | cons op ops ih =>
        intro d hd h
        exact ih _ (step_live hd op).1 ((step_live hd op).2.2.headPos h)
    exact this ops {} live_init headPos_init
  obtain ⟨n, e1, e2, e3, e4, _⟩ := copy_spec hl hp
  have : c.content = rawCells c.chunks := by simp [content, hb]
  refine ⟨n, e1, e2, ?_, ?_, e4⟩
  · rw [e3]; exact this.symm
  · rw [size_eq e2.inv, size_eq hl.inv, this]
    exact congrArg (fun l => Res.ok l.cells.length) e3

example : let c := ({} : Chain).run [.append [1, 2, 3], .append [4, 5], .trim 3]
    c.headOffset = c.base := by decide

/-- C11 is false in general: a copy made after trimming inside the head chunk has the trimmed bytes back
    (`stream.cc` 206-219 copies whole chunks and does not transfer the head offset). -/
theorem C11_copy_differs_after_trim :
    let c := ({} : Chain).run [.append [1, 2, 3, 4], .trim 2]
    ∃ n, c.copy = .ok n ∧ c.size = .ok 2 ∧ n.size = .ok 4 ∧ n.read 0 = .ok 1 := by
  refine ⟨_, rfl, ?_⟩
  decide

/-! ## C05: iterators are memory safe -/

/-- Operations of a program using a stream and iterators into it; iterators live in numbered registers. -/
inductive IOp where
  | op (o : Op)            -- an operation on the stream
  | begin                  -- new iterator `stream.begin()`
  | at (o : Nat)           -- new iterator `stream.at(o)`
  | incr (r n : Nat)       -- new iterator `it[r] + n`
  | decr (r n : Nat)       -- new iterator `it[r] - n`
  | deref (r : Nat)        -- `*it[r]`
  | destroy                -- the stream object goes away
  deriving Repr

structure IState where
  chain : Chain := {}
  iters : List Iter := []

/-- Registering the result of an operation that makes an iterator. -/
def IState.add (s : IState) (r : Res Iter) : Res Unit × IState := match r with
  | .ok i => (.ok (), { s with iters := s.iters ++ [i] })
  | .throw e => (.throw e, s)
  | .ub => (.ub, s)

/-- One operation. Operations on a destroyed stream cannot be expressed; iterators survive it. -/
def IState.step (s : IState) : IOp → Res Unit × IState
  | .op o => if s.chain.isValid then ((s.chain.step o).1, { s with chain := (s.chain.step o).2 }) else (.ok (), s)
  | .begin => if s.chain.isValid then s.add s.chain.begin else (.ok (), s)
  | .at o => if s.chain.isValid then s.add (s.chain.at o) else (.ok (), s)
  | .incr r n => match s.iters[r]? with
    | some i => s.add (i.incr s.chain n)
    | none => (.ok (), s)
  | .decr r n => match s.iters[r]? with
    | some i => s.add (i.decr s.chain n)
    | none => (.ok (), s)
  | .deref r => match s.iters[r]? with
    | some i => match i.deref s.chain with
      | .ok _ => (.ok (), s)
      | .throw e => (.throw e, s)
      | .ub => (.ub, s)
    | none => (.ok (), s)
  | .destroy => (.ok (), { s with chain := s.chain.invalidate })

/-- A program run: all outcomes and the final state. -/
def IState.run (s : IState) : List IOp → List (Res Unit) × IState
  | [] => ([], s)
  | op :: ops => ((s.step op).1 :: ((s.step op).2.run ops).1, ((s.step op).2.run ops).2)

/-- Invariant of iterator programs. -/
inductive IState.Good (s : IState) : Prop
  | live (h : s.chain.Live) (hp : s.chain.HeadPos) (hi : ∀ i ∈ s.iters, s.chain.IterOk i)
  | dead (h : s.chain.state = .invalid)

theorem IState.good_step {s : IState} (h : s.Good) (op : IOp) : (s.step op).1.Defined ∧ (s.step op).2.Good := by
  cases h with
  | live h hp hi =>
    have addok : ∀ i, s.chain.IterOk i → (s.add (.ok i)).1.Defined ∧ (s.add (.ok i)).2.Good := by
      intro i hok
      refine ⟨trivial, .live h hp ?_⟩
      intro j hj
      simp [IState.add] at hj
      rcases hj with hj | rfl
      · exact hi j hj
      · exact hok
    cases op with
    | op o =>
      have := step_live h o
      simp only [IState.step, h.isValid, if_true]
      exact ⟨this.2.1, .live this.1 (this.2.2.headPos hp) (fun i hii => (hi i hii).evolves this.2.2)⟩
    | begin =>
      obtain ⟨i, e1, _, e3⟩ := begin_spec h hp
      simp only [IState.step, h.isValid, if_true, e1]
      exact addok i e3
    | «at» o =>
      obtain ⟨i, e1, _, e3⟩ := at_spec h o
      simp only [IState.step, h.isValid, if_true, e1]
      exact addok i e3
    | incr r n =>
      simp only [IState.step]
      split
      · rename_i i hr
        obtain ⟨j, e1, _, e3⟩ := incr_spec h (hi i (List.mem_of_getElem? hr)) n
        rw [e1]; exact addok j e3
      · exact ⟨trivial, .live h hp hi⟩
    | decr r n =>
      simp only [IState.step]
      split
      · rename_i i hr
        have := decr_spec h (hi i (List.mem_of_getElem? hr)) n
        split at this
        · rw [this]; exact ⟨trivial, .live h hp hi⟩
        · obtain ⟨j, e1, _, e3⟩ := this
          rw [e1]; exact addok j e3
      · exact ⟨trivial, .live h hp hi⟩
    | deref r =>
      simp only [IState.step]
      split
      · rename_i i hr
        rw [deref_spec h (hi i (List.mem_of_getElem? hr))]
        unfold readLog
        rcases s.chain.abs.get? i.offset with _ | _ | _ <;> exact ⟨trivial, .live h hp hi⟩
      · exact ⟨trivial, .live h hp hi⟩
    | destroy => exact ⟨trivial, .dead rfl⟩
  | dead h =>
    have hv : s.chain.isValid = false := by simp [isValid, h]
    have addok : ∀ i, (s.add (.ok i)).1.Defined ∧ (s.add (.ok i)).2.Good := fun i => ⟨trivial, .dead h⟩
    cases op with
    | op o => simp only [IState.step, hv]; exact ⟨trivial, .dead h⟩
    | begin => simp only [IState.step, hv]; exact ⟨trivial, .dead h⟩
    | «at» o => simp only [IState.step, hv]; exact ⟨trivial, .dead h⟩
    | incr r n =>
      simp only [IState.step]
      split
      · unfold Iter.incr; simp only [hv]
        split <;> exact addok _
      · exact ⟨trivial, .dead h⟩
    | decr r n =>
      simp only [IState.step]
      split
      · unfold Iter.decr; simp only [hv]
        split
        · exact ⟨trivial, .dead h⟩
        · split <;> exact addok _
      · exact ⟨trivial, .dead h⟩
    | deref r =>
      simp only [IState.step]
      split
      · unfold Iter.deref; simp only [hv]
        exact ⟨trivial, .dead h⟩
      · exact ⟨trivial, .dead h⟩
    | destroy => exact ⟨trivial, .dead rfl⟩

/-- C05, partial. No program using a stream (appends, gaps, arbitrary trims, freezing, destruction) and iterators into
    it obtained through `begin()`, `at()`, `+` and `-` ever runs into undefined behaviour, whatever the interleaving.
    Missing from the full property: iterators obtained through `end()` and `Stream::reset()`, for which it is false
    (`C05_end_iterator_dangles`, `C05_reset_leaves_dangling_iterators`), and streams constructed from empty data. -/
theorem C05_iterators_memory_safe_partial (prog : List IOp) :
    ∀ r ∈ (({} : IState).run prog).1, r.Defined := by
  have : ∀ (prog : List IOp) (s : IState), s.Good → ∀ r ∈ (s.run prog).1, r.Defined := by
    intro prog
    induction prog with
    | nil => intro s _ r hr; cases hr
    | cons op prog ih =>
      intro s hs r hr
      have := IState.good_step hs op
      simp only [IState.run, List.mem_cons] at hr
      rcases hr with rfl | hr
      · exact this.1
      · exact ih _ this.2 r hr
  exact this prog {} (.live live_init headPos_init (by simp))

/-- C05, partial: and dereferencing gives the right byte. In every state such a program reaches with the stream still
    alive, `*it` is the stream's byte at the iterator's offset, `MissingData` in a gap, and `InvalidIterator` if the
    offset is not available. -/
theorem C05_deref_correct_partial (prog : List IOp) (i : Iter) :
    let s := (({} : IState).run prog).2
    i ∈ s.iters → (s.chain.state ≠ .invalid → i.deref s.chain = s.chain.read i.offset) ∧
      (s.chain.state = .invalid → i.deref s.chain = .throw .invalidIterator) := by
  intro s hi
  have : ∀ (prog : List IOp) (s : IState), s.Good → (s.run prog).2.Good := by
    intro prog
    induction prog with
    | nil => intro s hs; exact hs
    | cons op prog ih => intro s hs; exact ih _ (IState.good_step hs op).2
  have hg : s.Good := this prog {} (.live live_init headPos_init (by simp))
  constructor
  · intro hv
    cases hg with
    | live h hp hh => rw [deref_spec h (hh i hi), read_spec h]
    | dead h => exact absurd h hv
  · intro hv
    unfold Iter.deref
    simp [isValid, hv]

/-- Non-vacuity: a program with several chunks, trims and iterators whose last outcome is a successful read. -/
example : (({} : IState).run [.op (.append [1, 2, 3]), .begin, .incr 0 2, .op (.append [4, 5]), .incr 1 2, .op (.trim 3),
    .deref 2]).1.getLast? = some (.ok ()) := by decide

/-- C05 is false for `end()` iterators: take `end()`, append, trim up to that position, dereference. The iterator still
    points to the chunk that was the tail, and that has been dropped from the chain. Here the chunk sits in the chain's
    cache, the search through it ends in a null pointer that is dereferenced. -/
theorem C05_end_iterator_dangles :
    let c := Chain.ofBytes [1, 2, 3]
    ∃ e, c.end = .ok e ∧ ((c.run [.append [4, 5, 6], .trim 3]).read 3 = .ok 4) ∧
      e.deref (c.run [.append [4, 5, 6], .trim 3]) = .ub := by
  refine ⟨_, rfl, ?_⟩
  decide

/-- The same with freed memory: when a bigger chunk stays in the cache, the iterator's chunk has been freed. -/
theorem C05_end_iterator_use_after_free :
    let c := (Chain.ofBytes [1, 2, 3, 4, 5]).run [.append [6, 7]]
    let c' := c.run [.trim 5, .append [8, 9, 10, 11, 12, 13], .trim 7]
    ∃ e, c.end = .ok e ∧ c'.read 7 = .ok 8 ∧ e.deref c' = .ub := by
  refine ⟨_, rfl, ?_⟩
  decide

/-- C05 is false across `Stream::reset()`: iterators keep pointers to chunks freed by it. -/
theorem C05_reset_leaves_dangling_iterators :
    let c := Chain.ofBytes [1, 2, 3]
    ∃ b, c.begin = .ok b ∧ b.deref (c.reset.run [.append [4, 5, 6]]) = .ub := by
  refine ⟨_, rfl, ?_⟩
  decide

end Verif.Stream
