import Verif.Stream.Ops
/-! # Stream: operation histories, iterators in histories -/

namespace Verif.Stream

/-- One operation on a stream object (`stream.h` 1678-1911 `Stream`, all delegating to the chain). -/
def Chain.step (c : Chain) : Op → Res Unit × Chain
  | .append bs => c.append bs
  | .appendNonOwning bs => c.appendNonOwning bs
  | .appendGap n => c.appendGap n
  | .trim o => c.trim o
  | .freeze => (.ok (), c.freeze)
  | .unfreeze => (.ok (), c.unfreeze)
  | .makeOwning => (.ok (), c.makeOwning)

/-- A history of operations; exceptions are caught by the caller, who goes on. -/
def Chain.run (c : Chain) (ops : List Op) : Chain := ops.foldl (fun c op => (c.step op).2) c

/-- Reading a byte through `stream.at(o)` (`stream.h` 1859) and dereferencing. -/
def Chain.read (c : Chain) (o : Nat) : Res Byte := do
  let i ← c.at o
  i.deref c

namespace Chain

theorem append_frozen {c : Chain} (h : c.Inv) (hm : c.state = .frozen) (bs : List Byte) :
    ∃ ca n, (c.append bs).2 = { c with cached := ca, nextId := n } ∧ ({ c with cached := ca, nextId := n } : Chain).Inv ∧
      (bs ≠ [] → (c.append bs).1 = .throw .frozen) := by
  unfold append
  split
  · rename_i hl
    exact ⟨c.cached, c.nextId, rfl, h, fun hne => absurd (List.length_eq_zero_iff.1 hl) hne⟩
  · split
    · split
      · rename_i hal
        rw [if_neg (Nat.not_lt.2 hal)]
        rw [appendChunk_frozen (by exact hm)]
        exact ⟨none, c.nextId, rfl, h.dropCache, fun _ => rfl⟩
      · rw [appendChunk_frozen (by exact hm)]
        exact ⟨c.cached, c.nextId + 1, rfl, h.nextId, fun _ => rfl⟩
    · rw [appendChunk_frozen (by exact hm)]
      exact ⟨c.cached, c.nextId + 1, rfl, h.nextId, fun _ => rfl⟩

theorem appendNonOwning_frozen {c : Chain} (h : c.Inv) (hm : c.state = .frozen) (bs : List Byte) :
    ∃ ca n, (c.appendNonOwning bs).2 = { c with cached := ca, nextId := n } ∧
      ({ c with cached := ca, nextId := n } : Chain).Inv ∧
      (bs ≠ [] → (c.appendNonOwning bs).1 = .throw .frozen) := by
  unfold appendNonOwning
  split
  · rename_i hl
    exact ⟨c.cached, c.nextId, rfl, h, fun hne => absurd (List.length_eq_zero_iff.1 hl) hne⟩
  · split
    · split
      · rw [appendChunk_frozen (by exact hm)]
        exact ⟨none, c.nextId, rfl, h.dropCache, fun _ => rfl⟩
      · rw [appendChunk_frozen (by exact hm)]
        exact ⟨c.cached, c.nextId + 1, rfl, h.nextId, fun _ => rfl⟩
    · rw [appendChunk_frozen (by exact hm)]
      exact ⟨c.cached, c.nextId + 1, rfl, h.nextId, fun _ => rfl⟩

theorem appendGap_frozen {c : Chain} (h : c.Inv) (hm : c.state = .frozen) (n : Nat) :
    ∃ ca m, (c.appendGap n).2 = { c with cached := ca, nextId := m } ∧
      ({ c with cached := ca, nextId := m } : Chain).Inv ∧
      (n ≠ 0 → (c.appendGap n).1 = .throw .frozen) := by
  unfold appendGap
  split
  · rename_i hl
    exact ⟨c.cached, c.nextId, rfl, h, fun hne => absurd hl hne⟩
  · rw [appendChunk_frozen (by exact hm)]
    exact ⟨c.cached, c.nextId + 1, rfl, h.nextId, fun _ => rfl⟩

/-- A valid state of a live stream object. -/
structure Live (c : Chain) : Prop where
  inv : c.Inv
  valid : c.state ≠ .invalid

theorem Live.isValid {c : Chain} (h : c.Live) : c.isValid = true := by
  have := h.valid
  simp [Chain.isValid, this]

theorem live_init : ({} : Chain).Live := ⟨inv_init, by simp⟩
theorem live_ofBytes (bs : List Byte) : (ofBytes bs).Live := ⟨inv_ofBytes bs, by simp [ofBytes]⟩

theorem state_cases {c : Chain} (h : c.Live) : c.state = .mutable ∨ c.state = .frozen := by
  have := h.valid
  cases hs : c.state <;> simp_all

/-- How chunks and base offset may change over one operation, as far as iterators are concerned. -/
structure Evolves (c c' : Chain) : Prop where
  base : c.base ≤ c'.base
  headPos : (∀ x ∈ c.chunks.head?, 0 < x.size) → ∀ x ∈ c'.chunks.head?, 0 < x.size
  keep : ∀ x ∈ c.chunks, (∃ y ∈ c'.chunks, y.id = x.id ∧ y.offset = x.offset ∧ y.payload = x.payload) ∨
    x.endOffset ≤ c'.base

theorem Evolves.refl (c : Chain) : Evolves c c := ⟨Nat.le_refl _, id, fun x hx => Or.inl ⟨x, hx, rfl, rfl, rfl⟩⟩

theorem trim_evolves {c c' : Chain} (h : c.Inv) {pre : List Chunk} (hc : c.chunks = pre ++ c'.chunks) (hb : c.base ≤ c'.base)
    (hp : ∀ k ∈ pre, k.endOffset ≤ c'.headOffset) (hh : ∀ x ∈ c'.chunks.head?, 0 < x.size) : Evolves c c' := by
  refine ⟨hb, fun _ => hh, ?_⟩
  intro x hx
  rw [hc, List.mem_append] at hx
  rcases hx with hx | hx
  · right
    have hcon := h.contig
    rw [hc, contig_append] at hcon
    have := contig_mem hcon.1 hx
    cases hk : c'.chunks with
    | nil => simp [base, hk]; exact hp x hx
    | cons a as =>
      rw [hk] at hcon
      have := hcon.2.1
      simp only [base, hk]
      rw [this, ← length_rawCells]
      unfold base at *
      omega
  · exact Or.inl ⟨x, hx, rfl, rfl, rfl⟩

/-- Every operation on a live stream keeps it live, is defined, and evolves the chunks. -/
theorem step_live {c : Chain} (h : c.Live) (op : Op) :
    (c.step op).2.Live ∧ (c.step op).1.Defined ∧ Evolves c (c.step op).2 := by
  have hi := h.inv
  have app : ∀ {c' cs}, Appended c c' cs → c'.Live ∧ Evolves c c' := fun a =>
    ⟨⟨a.inv, by rw [a.state]; exact h.valid⟩, ⟨Nat.le_of_eq a.base.symm, a.headPos, fun x hx => Or.inl (a.keep x hx)⟩⟩
  have frz : ∀ ca n, ({ c with cached := ca, nextId := n } : Chain).Inv →
      ({ c with cached := ca, nextId := n } : Chain).Live ∧ Evolves c { c with cached := ca, nextId := n } :=
    fun ca n hh => ⟨⟨hh, h.valid⟩, ⟨Nat.le_refl _, id, fun x hx => Or.inl ⟨x, hx, rfl, rfl, rfl⟩⟩⟩
  cases op with
  | append bs =>
    rcases state_cases h with hm | hm
    · obtain ⟨c', e1, e2, _⟩ := append_spec hi hm bs
      simp only [step, e1]
      exact ⟨(app e2).1, trivial, (app e2).2⟩
    · obtain ⟨ca, n, e1, e2, e3⟩ := append_frozen hi hm bs
      simp only [step, e1]
      refine ⟨(frz ca n e2).1, ?_, (frz ca n e2).2⟩
      by_cases hb : bs = []
      · simp [hb, append]
      · rw [e3 hb]; trivial
  | appendNonOwning bs =>
    rcases state_cases h with hm | hm
    · obtain ⟨c', e1, e2, _⟩ := appendNonOwning_spec hi hm bs
      simp only [step, e1]
      exact ⟨(app e2).1, trivial, (app e2).2⟩
    · obtain ⟨ca, n, e1, e2, e3⟩ := appendNonOwning_frozen hi hm bs
      simp only [step, e1]
      refine ⟨(frz ca n e2).1, ?_, (frz ca n e2).2⟩
      by_cases hb : bs = []
      · simp [hb, appendNonOwning]
      · rw [e3 hb]; trivial
  | appendGap m =>
    rcases state_cases h with hm | hm
    · obtain ⟨c', e1, e2, _⟩ := appendGap_spec hi hm m
      simp only [step, e1]
      exact ⟨(app e2).1, trivial, (app e2).2⟩
    · obtain ⟨ca, n, e1, e2, e3⟩ := appendGap_frozen hi hm m
      simp only [step, e1]
      refine ⟨(frz ca n e2).1, ?_, (frz ca n e2).2⟩
      by_cases hb : m = 0
      · simp [hb, appendGap]
      · rw [e3 hb]; trivial
  | trim o =>
    simp only [step]
    by_cases hn : c.chunks = [] ∨ o < c.base
    · rw [trim_noop h.isValid hn]; exact ⟨h, trivial, Evolves.refl c⟩
    · rw [not_or, Nat.not_lt] at hn
      obtain ⟨c', pre, e1, e2, e3, e4, e5, e6, e7, e8, e9, e10⟩ := trim_spec hi h.isValid hn.1 hn.2
      rw [e1]
      exact ⟨⟨e2, by rw [e4]; exact h.valid⟩, trivial, trim_evolves hi e6 e9 (by rw [e8]; exact e7) e10⟩
  | freeze =>
    simp only [step, freeze, h.isValid, if_true]
    exact ⟨⟨hi.state _ (by simp), by simp⟩, trivial, ⟨Nat.le_refl _, id, fun x hx => Or.inl ⟨x, hx, rfl, rfl, rfl⟩⟩⟩
  | unfreeze =>
    simp only [step, unfreeze, h.isValid, if_true]
    exact ⟨⟨hi.state _ (by simp), by simp⟩, trivial, ⟨Nat.le_refl _, id, fun x hx => Or.inl ⟨x, hx, rfl, rfl, rfl⟩⟩⟩
  | makeOwning =>
    simp only [step]
    have hm := makeOwning_spec hi
    refine ⟨⟨hm.1, h.valid⟩, trivial, ⟨Nat.le_of_eq hm.2.2.1.symm, ?_, ?_⟩⟩
    · intro hp x hx
      simp only [makeOwning, List.head?_map, Option.mem_def, Option.map_eq_some_iff] at hx
      obtain ⟨y, hy, rfl⟩ := hx
      have := hp y hy
      split <;> simpa using this
    intro x hx
    left
    refine ⟨if some x.id = c.tail then x.makeOwning else x, ?_, ?_, ?_, ?_⟩
    · simp only [makeOwning, List.mem_map]; exact ⟨x, hx, rfl⟩
    · split <;> simp
    · split <;> simp
    · split <;> simp

theorem run_live {c : Chain} (h : c.Live) (ops : List Op) : (c.run ops).Live := by
  induction ops generalizing c with
  | nil => exact h
  | cons op ops ih => exact ih (step_live h op).1

/-! ## Iterators -/

/-- An iterator whose chunk pointer may be followed whenever its offset is in range: null, or a chunk of the chain that
    holds the offset, or the offset is (forever) before the chain's first chunk. -/
def IterOk (c : Chain) (i : Iter) : Prop :=
  ∀ p, i.chunk = some p → (∃ k ∈ c.chunks, k.id = p ∧ k.inRange i.offset = true) ∨ i.offset < c.base

theorem IterOk.evolves {c c' : Chain} {i : Iter} (h : c.IterOk i) (e : Evolves c c') : c'.IterOk i := by
  intro p hp
  rcases h p hp with ⟨k, hk, hid, hr⟩ | hlt
  · rcases e.keep k hk with ⟨y, hy, y1, y2, y3⟩ | hge
    · refine Or.inl ⟨y, hy, by rw [y1, hid], ?_⟩
      unfold Chunk.inRange Chunk.endOffset Chunk.size at hr ⊢
      rw [y2, y3]; exact hr
    · rw [Chunk.inRange_iff] at hr
      exact Or.inr (by omega)
  · exact Or.inr (Nat.lt_of_lt_of_le hlt e.base)

/-- The chunk pointer of a good iterator is fine to follow if the offset is in range. -/
theorem IterOk.ptr {c : Chain} (h : c.Inv) {i : Iter} (hi : c.IterOk i) (hr : c.headOffset ≤ i.offset) :
    c.PtrOk i.chunk := by
  intro p hp
  rcases hi p hp with ⟨k, hk, hid, _⟩ | hlt
  · simp only [List.mem_map]; exact ⟨k, hk, hid⟩
  · have := base_le h; omega

theorem ptrOk_none (c : Chain) : c.PtrOk none := by intro p hp; cases hp

theorem iterOk_suffixAt (c : Chain) (o : Nat) : c.IterOk ⟨o, (c.suffixAt o).head?.map (·.id)⟩ := by
  intro p hp
  simp only at hp
  cases hs : c.suffixAt o with
  | nil => rw [hs] at hp; cases hp
  | cons k ks =>
    rw [hs] at hp
    simp at hp
    obtain ⟨pre, e1, _, e3⟩ := dropWhile_split hs
    exact Or.inl ⟨k, by rw [e1]; simp, hp, by simpa using e3⟩

theorem at_spec {c : Chain} (h : c.Live) (o : Nat) : ∃ i, c.at o = .ok i ∧ i.offset = o ∧ c.IterOk i := by
  unfold «at»
  rw [findChunk_eq h.inv h.isValid (ptrOk_none c)]
  exact ⟨_, rfl, rfl, iterOk_suffixAt c o⟩

/-- What reading an abstract stream at an offset gives. -/
def readLog (l : Log) (o : Nat) : Res Byte := match l.get? o with
  | some (some b) => .ok b
  | some none => .throw .missingData
  | none => .throw .invalidIterator

theorem deref_spec {c : Chain} (h : c.Live) {i : Iter} (hi : c.IterOk i) : i.deref c = readLog c.abs i.offset := by
  unfold Iter.deref
  simp only [h.isValid, if_true, inRange_eq h.inv, Res.ok_bind]
  have hs := stop_eq h.inv
  by_cases hr : c.headOffset ≤ i.offset ∧ i.offset < c.stop
  · obtain ⟨hr1, hr2⟩ := hr
    simp only [hr1, hr2, decide_true, Bool.and_self, if_true]
    unfold Iter.chunkPtr
    simp only [h.isValid, if_true, inRange_eq h.inv, Res.ok_bind, hr1, hr2, decide_true, Bool.and_self]
    rw [findChunk_eq h.inv h.isValid (hi.ptr h.inv hr1)]
    obtain ⟨pre, k, ks, e1, e2, e3⟩ := suffixAt_cons h.inv (Nat.le_trans (base_le h.inv) hr1) hr2
    simp only [Res.ok_bind, e2]
    rw [readAt_suffix h.inv e1 e3 hr1]
    unfold readLog Log.get? abs
    simp only [Nat.not_lt.2 hr1, if_false]
    have : i.offset - c.headOffset < c.content.length := by omega
    rw [List.getElem?_eq_getElem this]
    cases c.content[i.offset - c.headOffset] <;> rfl
  · have : (decide (c.headOffset ≤ i.offset) && decide (i.offset < c.stop)) = false := by
      simpa using hr
    simp only [this, Bool.false_eq_true, if_false]
    unfold readLog Log.get? abs
    simp only
    by_cases hlt : i.offset < c.headOffset
    · simp [hlt]
    · simp only [hlt, if_false]
      rw [List.getElem?_eq_none (by omega)]

theorem read_spec {c : Chain} (h : c.Live) (o : Nat) : c.read o = readLog c.abs o := by
  obtain ⟨i, e1, e2, e3⟩ := at_spec h o
  unfold read
  rw [e1, ← e2]
  exact deref_spec h e3

theorem incr_spec {c : Chain} (h : c.Live) {i : Iter} (hi : c.IterOk i) (n : Nat) :
    ∃ j, i.incr c n = .ok j ∧ j.offset = i.offset + n ∧ c.IterOk j := by
  unfold Iter.incr
  split
  · rename_i hn; subst hn; exact ⟨i, rfl, rfl, hi⟩
  · simp only [h.isValid, if_true, inRange_eq h.inv, Res.ok_bind]
    split
    · rename_i hr
      simp only [Bool.and_eq_true, decide_eq_true_eq] at hr
      obtain ⟨pre, s, e1, e2⟩ := resolve?_ok h.inv (hi.ptr h.inv hr.1)
      simp only [e2, Res.ok_bind]
      cases s with
      | nil =>
        simp only
        rw [findFrom_eq h.inv h.isValid e1]
        exact ⟨_, rfl, rfl, iterOk_suffixAt c _⟩
      | cons k ks =>
        simp only
        split
        · rename_i hk
          refine ⟨_, rfl, rfl, ?_⟩
          intro p hp
          cases hch : i.chunk with
          | none => simp only [hch] at hp; cases hp
          | some q =>
            simp only [hch] at hp
            injection hp with hp; subst hp
            rw [hch] at e2
            simp only [resolve?] at e2
            have hq := hi.ptr h.inv hr.1 q hch
            simp only [List.mem_map] at hq
            obtain ⟨k', hk', hid⟩ := hq
            obtain ⟨pre', ks', f1, f2⟩ := resolve?_mem h.inv hk'
            rw [hid, e2] at f2
            injection f2 with f2
            injection f2 with f2 _
            subst f2
            exact Or.inl ⟨k, hk', hid, hk⟩
        · rw [findFrom_eq h.inv h.isValid e1]
          exact ⟨_, rfl, rfl, iterOk_suffixAt c _⟩
    · rw [findFrom_eq h.inv h.isValid (pre := []) rfl]
      exact ⟨_, rfl, rfl, iterOk_suffixAt c _⟩

theorem decr_spec {c : Chain} (h : c.Live) {i : Iter} (hi : c.IterOk i) (n : Nat) :
    if n > i.offset then i.decr c n = .throw .invalidIterator
    else ∃ j, i.decr c n = .ok j ∧ j.offset = i.offset - n ∧ c.IterOk j := by
  unfold Iter.decr
  split
  · rfl
  split
  · rename_i hn; subst hn; exact ⟨i, rfl, rfl, hi⟩
  · simp only [h.isValid, if_true, inRange_eq h.inv, Res.ok_bind]
    split
    · rename_i hr
      simp only [Bool.and_eq_true, decide_eq_true_eq] at hr
      obtain ⟨pre, s, e1, e2⟩ := resolve?_ok h.inv (hi.ptr h.inv hr.1)
      simp only [e2, Res.ok_bind]
      cases s with
      | nil =>
        simp only
        rw [findFrom_eq h.inv h.isValid e1]
        exact ⟨_, rfl, rfl, iterOk_suffixAt c _⟩
      | cons k ks =>
        simp only
        split
        · rename_i hk
          refine ⟨_, rfl, rfl, ?_⟩
          intro p hp
          cases hch : i.chunk with
          | none => simp only [hch] at hp; cases hp
          | some q =>
            simp only [hch] at hp
            injection hp with hp; subst hp
            rw [hch] at e2
            simp only [resolve?] at e2
            have hq := hi.ptr h.inv hr.1 q hch
            simp only [List.mem_map] at hq
            obtain ⟨k', hk', hid⟩ := hq
            obtain ⟨pre', ks', f1, f2⟩ := resolve?_mem h.inv hk'
            rw [hid, e2] at f2
            injection f2 with f2
            injection f2 with f2 _
            subst f2
            exact Or.inl ⟨k, hk', hid, hk⟩
        · rw [findFrom_eq h.inv h.isValid e1]
          exact ⟨_, rfl, rfl, iterOk_suffixAt c _⟩
    · rw [findFrom_eq h.inv h.isValid (pre := []) rfl]
      exact ⟨_, rfl, rfl, iterOk_suffixAt c _⟩

/-- `begin()` gives a good iterator unless the chain starts with an empty chunk. -/
theorem begin_spec {c : Chain} (h : c.Live) (hne : ∀ k ∈ c.chunks.head?, 0 < k.size) :
    ∃ i, c.begin = .ok i ∧ i.offset = c.headOffset ∧ c.IterOk i := by
  unfold begin
  simp only [h.isValid, if_true]
  refine ⟨_, rfl, rfl, ?_⟩
  intro p hp
  simp only [Option.map_eq_some_iff] at hp
  obtain ⟨k, hk, rfl⟩ := hp
  have h1 := h.inv.head k hk
  have h2 := hne k hk
  have : k ∈ c.chunks := List.mem_of_head? hk
  exact Or.inl ⟨k, this, rfl, by rw [Chunk.inRange_iff]; simp only; omega⟩

end Chain
end Verif.Stream
