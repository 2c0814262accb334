import Verif.Stream.Spec
/-! # Stream: invariant and abstraction function, basic lemmas -/

namespace Verif.Stream

namespace Chunk

/-- The cells of one chunk. -/
def cells (k : Chunk) : List Cell := match k.payload with
  | .data bs => bs.map some
  | .gap n => List.replicate n none

@[simp] theorem length_cells (k : Chunk) : k.cells.length = k.size := by
  unfold cells size; cases k.payload <;> simp

@[simp] theorem cells_offset (k : Chunk) (o : Nat) : ({ k with offset := o } : Chunk).cells = k.cells := rfl
@[simp] theorem size_offset (k : Chunk) (o : Nat) : ({ k with offset := o } : Chunk).size = k.size := rfl
@[simp] theorem makeOwning_id (k : Chunk) : k.makeOwning.id = k.id := by unfold makeOwning; split <;> (try split) <;> rfl
@[simp] theorem makeOwning_offset (k : Chunk) : k.makeOwning.offset = k.offset := by
  unfold makeOwning; split <;> (try split) <;> rfl
@[simp] theorem makeOwning_payload (k : Chunk) : k.makeOwning.payload = k.payload := by
  unfold makeOwning; split <;> (try split) <;> simp_all
@[simp] theorem makeOwning_cells (k : Chunk) : k.makeOwning.cells = k.cells := by simp [cells]
@[simp] theorem makeOwning_size (k : Chunk) : k.makeOwning.size = k.size := by simp [size]
@[simp] theorem makeOwning_endOffset (k : Chunk) : k.makeOwning.endOffset = k.endOffset := by simp [endOffset]

theorem inRange_iff (k : Chunk) (o : Nat) : k.inRange o = true ↔ k.offset ≤ o ∧ o < k.endOffset := by
  simp [inRange]

theorem not_inRange_iff (k : Chunk) (o : Nat) : k.inRange o = false ↔ (k.offset ≤ o → k.endOffset ≤ o) := by
  simp [inRange]

/-- Reading inside a chunk gives its cell. -/
theorem readAt_of_inRange {k : Chunk} {o : Nat} (h : k.inRange o = true) :
    k.readAt o = match k.cells[o - k.offset]? with
      | some (some b) => .ok b
      | some none => .throw .missingData
      | none => .ub := by
  rw [inRange_iff] at h
  obtain ⟨h1, h2⟩ := h
  unfold endOffset size at h2
  unfold readAt cells
  cases hp : k.payload with
  | gap n =>
    simp only [hp] at h2
    have : o - k.offset < n := by omega
    simp [this]
  | data bs =>
    simp only [hp] at h2
    have : o - k.offset < bs.length := by omega
    simp [h1, this]

end Chunk

/-- Consecutive chunks, the first one starting at `o`. -/
def Contig : Nat → List Chunk → Prop
  | _, [] => True
  | o, k :: ks => k.offset = o ∧ Contig (o + k.size) ks

theorem contig_append {o : Nat} {xs ys : List Chunk} :
    Contig o (xs ++ ys) ↔ Contig o xs ∧ Contig (o + (xs.map Chunk.size).sum) ys := by
  induction xs generalizing o with
  | nil => simp [Contig]
  | cons k ks ih =>
    simp only [List.cons_append, Contig, ih, List.map_cons, List.sum_cons, Nat.add_assoc, and_assoc]

/-- Cells of a list of chunks. -/
def rawCells (ks : List Chunk) : List Cell := ks.flatMap Chunk.cells

@[simp] theorem rawCells_nil : rawCells [] = [] := rfl
@[simp] theorem rawCells_cons (k : Chunk) (ks) : rawCells (k :: ks) = k.cells ++ rawCells ks := rfl
@[simp] theorem rawCells_append (a b : List Chunk) : rawCells (a ++ b) = rawCells a ++ rawCells b := by
  simp [rawCells]

theorem length_rawCells (ks : List Chunk) : (rawCells ks).length = (ks.map Chunk.size).sum := by
  induction ks with
  | nil => rfl
  | cons k ks ih => simp [ih]

/-- In a contiguous list, every chunk lies within the list's range. -/
theorem contig_mem {o : Nat} {ks : List Chunk} (h : Contig o ks) {k : Chunk} (hk : k ∈ ks) :
    o ≤ k.offset ∧ k.endOffset ≤ o + (rawCells ks).length := by
  induction ks generalizing o with
  | nil => cases hk
  | cons a as ih =>
    obtain ⟨h1, h2⟩ := h
    simp only [rawCells_cons, List.length_append, Chunk.length_cells]
    rcases List.mem_cons.1 hk with rfl | hk
    · simp only [Chunk.endOffset]; omega
    · have := ih h2 hk; omega

namespace Chain

/-- Offset of the first byte stored (including what has been trimmed off inside the head chunk). -/
def base (c : Chain) : Nat := match c.chunks with
  | [] => c.headOffset
  | h :: _ => h.offset

/-- Abstraction function: the cells available. -/
def content (c : Chain) : List Cell := (rawCells c.chunks).drop (c.headOffset - c.base)

/-- Abstraction function. -/
def abs (c : Chain) : Log := { start := c.headOffset, cells := c.content }

/-- Invariant of chains. -/
structure Inv (c : Chain) : Prop where
  contig : Contig c.base c.chunks
  tail : c.tail = c.chunks.getLast?.map (·.id)
  pos : ∀ k ∈ c.chunks.tail, 0 < k.size
  head : ∀ h ∈ c.chunks.head?, h.offset ≤ c.headOffset ∧
    (c.headOffset < h.endOffset ∨ (h.size = 0 ∧ c.headOffset = h.offset))
  nodup : (c.chunks.map (·.id) ++ c.cached.toList.map (·.id)).Nodup
  fresh : ∀ i ∈ c.chunks.map (·.id) ++ c.cached.toList.map (·.id), i < c.nextId
  invalid : c.state = .invalid → c.chunks = []

/-- One past the last offset, as a number. -/
def stop (c : Chain) : Nat := c.base + (rawCells c.chunks).length

theorem base_le {c : Chain} (h : c.Inv) : c.base ≤ c.headOffset := by
  unfold base; split
  · exact Nat.le_refl _
  · rename_i k ks hk; exact (h.head k (by simp [hk])).1

theorem headOffset_le_stop {c : Chain} (h : c.Inv) : c.headOffset ≤ c.stop := by
  unfold stop base; split
  · omega
  · rename_i k ks hk
    have := (h.head k (by simp [hk])).2
    simp only [hk, rawCells_cons, List.length_append, Chunk.length_cells]
    unfold Chunk.endOffset at this
    omega

theorem stop_eq {c : Chain} (h : c.Inv) : c.stop = c.headOffset + c.content.length := by
  have h1 := base_le h
  have h2 := headOffset_le_stop h
  unfold stop at *
  simp only [content, List.length_drop]
  omega

theorem stop_abs {c : Chain} (h : c.Inv) : c.abs.stop = c.stop := by
  rw [stop_eq h]; rfl

end Chain

theorem dropWhile_append_of_forall {α} {p : α → Bool} {xs ys : List α} (h : ∀ x ∈ xs, p x = true) :
    (xs ++ ys).dropWhile p = ys.dropWhile p := by
  induction xs with
  | nil => rfl
  | cons x xs ih =>
    have hx := h x (by simp)
    simp only [List.cons_append, List.dropWhile_cons, hx, if_true]
    exact ih (fun y hy => h y (by simp [hy]))

theorem dropWhile_split {α} {p : α → Bool} {xs : List α} {k : α} {ks : List α}
    (h : xs.dropWhile p = k :: ks) : ∃ pre, xs = pre ++ k :: ks ∧ (∀ x ∈ pre, p x = true) ∧ p k = false := by
  induction xs with
  | nil => simp at h
  | cons x xs ih =>
    rw [List.dropWhile_cons] at h
    split at h
    · rename_i hx
      obtain ⟨pre, h1, h2, h3⟩ := ih h
      exact ⟨x :: pre, by simp [h1], by simpa [hx] using h2, h3⟩
    · rename_i hx
      injection h with h1 h2
      subst h1; subst h2
      exact ⟨[], rfl, by simp, by simpa using hx⟩

namespace Chain

/-- Following the tail pointer. -/
theorem resolve_last {c : Chain} (h : c.Inv) {pre : List Chunk} {k : Chunk} {ks : List Chunk}
    (hk : c.chunks = pre ++ k :: ks) : c.resolve k.id = .ok (k :: ks) := by
  unfold resolve
  have hn := h.nodup
  rw [hk] at hn ⊢
  rw [dropWhile_append_of_forall]
  · simp
  · intro x hx
    simp only [List.map_append, List.map_cons, List.append_assoc, List.nodup_append, List.cons_append] at hn
    have := hn.2.2 x.id (by simp; exact ⟨x, hx, rfl⟩) k.id (by simp)
    simpa using this

theorem resolve?_mem {c : Chain} (h : c.Inv) {k : Chunk} (hk : k ∈ c.chunks) :
    ∃ pre ks, c.chunks = pre ++ k :: ks ∧ c.resolve k.id = .ok (k :: ks) := by
  obtain ⟨pre, ks, hks⟩ := List.append_of_mem hk
  exact ⟨pre, ks, hks, resolve_last h hks⟩

theorem endOffset_eq {c : Chain} (h : c.Inv) : c.endOffset = .ok c.stop := by
  unfold endOffset
  rw [h.tail]
  rcases List.eq_nil_or_concat c.chunks with hc | ⟨pre, k, hc⟩
  · simp [hc, resolve?, stop, base]
  · rw [List.concat_eq_append] at hc
    have := resolve_last h hc
    simp only [hc, List.getLast?_concat, Option.map_some, resolve?, this, Res.ok_bind]
    have hcon := h.contig
    unfold stop
    rw [hc, contig_append] at hcon
    rw [hc, rawCells_append, List.length_append, ← length_rawCells] at *
    simp [Contig] at hcon
    simp only [rawCells_cons, rawCells_nil, List.append_nil, Chunk.length_cells, Chunk.endOffset]
    congr 1
    omega

theorem size_eq {c : Chain} (h : c.Inv) : c.size = .ok c.content.length := by
  have := headOffset_le_stop h
  have := stop_eq h
  unfold size
  rw [endOffset_eq h]
  simp only [Res.ok_bind]
  rw [if_pos (by omega)]
  congr 1
  omega

theorem inRange_eq {c : Chain} (h : c.Inv) (o : Nat) :
    c.inRange o = .ok (decide (c.headOffset ≤ o) && decide (o < c.stop)) := by
  unfold inRange; rw [endOffset_eq h]; rfl

/-- The suffix of chunks starting with the one that holds `o`. -/
def suffixAt (c : Chain) (o : Nat) : List Chunk := c.chunks.dropWhile (fun k => !k.inRange o)

/-- Finding a chunk works from any hint that is a suffix of the chain. -/
theorem findFrom_eq {c : Chain} (h : c.Inv) (hv : c.isValid = true) {pre s : List Chunk} (hs : c.chunks = pre ++ s)
    (o : Nat) : c.findFrom o s = .ok (c.suffixAt o) := by
  have key : ∀ pre k ks, c.chunks = pre ++ k :: ks → k.offset ≤ o →
      (k :: ks).dropWhile (fun k => !k.inRange o) = c.suffixAt o := by
    intro pre k ks hc hk
    unfold suffixAt
    rw [hc, dropWhile_append_of_forall]
    intro x hx
    have hcon := h.contig
    rw [hc, contig_append] at hcon
    have h1 := contig_mem hcon.1 hx
    have h2 := hcon.2.1
    rw [← length_rawCells] at h2
    simp only [Chunk.inRange, Bool.not_eq_true', Bool.and_eq_false_iff, decide_eq_false_iff_not, Nat.not_lt]
    right; omega
  unfold findFrom
  simp only [hv, if_true]
  cases s with
  | cons k ks =>
    simp only [Res.ok_bind]
    split
    · rename_i hk; rw [key pre k ks hs hk]
    · rfl
  | nil =>
    simp only [h.tail]
    rcases List.eq_nil_or_concat c.chunks with hc | ⟨p, k, hc⟩
    · simp [hc, resolve?, suffixAt]
    · rw [List.concat_eq_append] at hc
      have := resolve_last h hc
      rw [hc, List.getLast?_concat]
      simp only [Option.map_some, resolve?, this, Res.ok_bind]
      split
      · rename_i hk; rw [key p k [] hc hk]
      · simp [suffixAt, hc]

/-- A chunk pointer that may be followed: null or in the chain. -/
def PtrOk (c : Chain) (p : Option Nat) : Prop := ∀ i, p = some i → i ∈ c.chunks.map (·.id)

theorem resolve?_ok {c : Chain} (h : c.Inv) {p : Option Nat} (hp : c.PtrOk p) :
    ∃ pre s, c.chunks = pre ++ s ∧ c.resolve? p = .ok s := by
  cases p with
  | none => exact ⟨c.chunks, [], by simp, rfl⟩
  | some i =>
    have := hp i rfl
    simp only [List.mem_map] at this
    obtain ⟨k, hk, rfl⟩ := this
    obtain ⟨pre, ks, h1, h2⟩ := resolve?_mem h hk
    exact ⟨pre, k :: ks, h1, h2⟩

theorem findChunk_eq {c : Chain} (h : c.Inv) (hv : c.isValid = true) {p : Option Nat} (hp : c.PtrOk p) (o : Nat) :
    c.findChunk o p = .ok (c.suffixAt o) := by
  obtain ⟨pre, s, h1, h2⟩ := resolve?_ok h hp
  unfold findChunk
  simp only [hv, if_true, h2, Res.ok_bind]
  exact findFrom_eq h hv h1 o

/-- Chunk at an available offset. -/
theorem suffixAt_cons {c : Chain} (h : c.Inv) {o : Nat} (h1 : c.base ≤ o) (h2 : o < c.stop) :
    ∃ pre k ks, c.chunks = pre ++ k :: ks ∧ c.suffixAt o = k :: ks ∧ k.inRange o = true := by
  have : ∀ (ks : List Chunk) (b : Nat), Contig b ks → b ≤ o → o < b + (rawCells ks).length →
      ks.dropWhile (fun k => !k.inRange o) ≠ [] := by
    intro ks
    induction ks with
    | nil => intro b _ hb ho; simp at ho; omega
    | cons k ks ih =>
      intro b hc hb ho
      rw [List.dropWhile_cons]
      split
      · rename_i hk
        obtain ⟨hc1, hc2⟩ := hc
        have hk' : k.inRange o = false := by simpa using hk
        rw [Chunk.not_inRange_iff] at hk'
        unfold Chunk.endOffset at hk'
        simp only [rawCells_cons, List.length_append, Chunk.length_cells] at ho
        exact ih _ hc2 (by omega) (by omega)
      · simp
  have hne := this c.chunks c.base h.contig h1 h2
  cases hd : c.chunks.dropWhile (fun k => !k.inRange o) with
  | nil => exact absurd hd hne
  | cons k ks =>
    obtain ⟨pre, e1, _, e3⟩ := dropWhile_split hd
    exact ⟨pre, k, ks, e1, by simpa [suffixAt] using hd, by simpa using e3⟩

theorem suffixAt_nil {c : Chain} (h : c.Inv) {o : Nat} (h2 : c.stop ≤ o) : c.suffixAt o = [] := by
  unfold suffixAt
  have hall : ∀ k ∈ c.chunks, (!k.inRange o) = true := ?_
  · have := dropWhile_append_of_forall (ys := []) hall
    simpa using this
  intro k hk
  have := contig_mem h.contig hk
  unfold stop at h2
  simp [Chunk.inRange]
  omega

theorem suffixAt_isSuffix (c : Chain) (o : Nat) : ∃ pre, c.chunks = pre ++ c.suffixAt o :=
  let ⟨t, ht⟩ := List.dropWhile_suffix (l := c.chunks) (fun k => !k.inRange o)
  ⟨t, ht.symm⟩

/-- Reading the chunk found for an available offset gives the abstract cell. -/
theorem readAt_suffix {c : Chain} (h : c.Inv) {o : Nat} {pre ks : List Chunk} {k : Chunk}
    (hs : c.chunks = pre ++ k :: ks) (hk : k.inRange o = true) (hh : c.headOffset ≤ o) :
    k.readAt o = match c.content[o - c.headOffset]? with
      | some (some b) => .ok b
      | some none => .throw .missingData
      | none => .ub := by
  rw [Chunk.readAt_of_inRange hk]
  have hcon := h.contig
  rw [hs, contig_append] at hcon
  have h2 := hcon.2.1
  rw [← length_rawCells] at h2
  have hb := base_le h
  rw [Chunk.inRange_iff] at hk
  have hk2 := hk.2
  unfold Chunk.endOffset at hk2
  have : c.content[o - c.headOffset]? = k.cells[o - k.offset]? := by
    unfold content
    rw [List.getElem?_drop, hs, rawCells_append, rawCells_cons, List.getElem?_append_right (by omega),
      List.getElem?_append_left (by simp; omega)]
    congr 1
    omega
  rw [this]

end Chain
end Verif.Stream
