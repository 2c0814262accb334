import Verif.Stream.Lemmas
/-! # Stream: every operation preserves the invariant and refines the append log -/

namespace Verif.Stream
namespace Chain

/-! ## Appending -/

theorem linkLast_concat (pre : List Chunk) (t k : Chunk) :
    linkLast (pre ++ [t]) k = pre ++ [t.makeOwning, { k with offset := t.endOffset }] := by
  induction pre with
  | nil => rfl
  | cons x xs ih =>
    cases xs with
    | nil => rfl
    | cons y ys =>
      rw [List.cons_append, List.cons_append]
      rw [linkLast]
      rw [← List.cons_append, ih]
      rfl

/-- What appending one non-empty chunk does to a mutable chain. -/
theorem appendChunk_spec {c : Chain} (h : c.Inv) (hm : c.state = .mutable) {k : Chunk} (hk : 0 < k.size)
    (hid : k.id ∉ c.chunks.map (·.id) ++ c.cached.toList.map (·.id)) (hfr : k.id < c.nextId) :
    ∃ c', c.appendChunk k = (.ok (), c') ∧ c'.Inv ∧ c'.abs = ⟨c.headOffset, c.content ++ k.cells⟩ ∧
      c'.state = .mutable ∧ c'.base = c.base ∧ c'.stats = countChunk c.stats k ∧
      (∀ x ∈ c.chunks, ∃ y ∈ c'.chunks, y.id = x.id ∧ y.offset = x.offset ∧ y.payload = x.payload) ∧
      ((∀ x ∈ c.chunks.head?, 0 < x.size) → ∀ x ∈ c'.chunks.head?, 0 < x.size) := by
  unfold appendChunk
  simp only [hm]
  rcases List.eq_nil_or_concat c.chunks with hc | ⟨pre, t, hc⟩
  · have ht : c.tail = none := by rw [h.tail, hc]; rfl
    simp only [ht]
    refine ⟨_, rfl, ?_, ?_, ?_, ?_, ?_, ?_, ?_⟩
    · rw [hc] at hid
      have hn := h.nodup
      have hf := h.fresh
      rw [hc] at hn hf
      constructor
      · simp [Contig, base]
      · rfl
      · simp
      · simp [Chunk.endOffset]; left; simpa [Chunk.size] using hk
      · simp at hid hn ⊢
        refine ⟨?_, hn⟩
        intro a ha hh; exact hid a ha hh
      · intro i hi
        simp at hi hf
        rcases hi with rfl | ⟨a, ha, rfl⟩
        · exact hfr
        · exact hf a ha
      · simp
    · simp [abs, content, base, hc]
    · rfl
    · simp [base, hc]
    · rfl
    · simp [hc]
    · intro _ x hx; simp at hx; subst hx; simpa [Chunk.size] using hk
  · rw [List.concat_eq_append] at hc
    have ht : c.tail = some t.id := by rw [h.tail, hc]; simp
    simp only [ht, hc, List.getLast?_concat, Option.map_some, if_true]
    have hb : ∀ (c' : Chain) (x y : Chunk), c'.chunks = pre ++ [x, y] → x.offset = t.offset → c'.base = c.base := by
      intro c' x y hc' hx
      unfold base
      simp only [hc, hc']
      cases pre with
      | nil => simpa using hx
      | cons a as => simp
    refine ⟨_, rfl, ?_, ?_, ?_, ?_, ?_, ?_, ?_⟩
    · have hn := h.nodup
      have hf := h.fresh
      have hcon := h.contig
      have hh := h.head
      have hp := h.pos
      rw [hc] at hn hf hcon hh hp hid
      rw [linkLast_concat]
      constructor
      · rw [hb _ _ _ rfl (by simp)]
        rw [contig_append] at hcon ⊢
        refine ⟨hcon.1, ?_⟩
        have := hcon.2
        simp only [Contig, Chunk.makeOwning_offset, Chunk.makeOwning_size] at this ⊢
        refine ⟨this.1, ?_, trivial⟩
        simp only [Chunk.endOffset, this.1]
      · simp
      · cases pre with
        | nil =>
          simp
          simpa [Chunk.size] using hk
        | cons a as =>
          simp at hp ⊢
          intro x hx
          rcases hx with hx | rfl | rfl
          · exact hp x (Or.inl hx)
          · simpa using hp t (Or.inr rfl)
          · simpa [Chunk.size] using hk
      · intro x hx
        cases pre with
        | nil =>
          simp at hx hh
          subst hx
          simpa using hh
        | cons a as =>
          simp at hx hh
          subst hx
          exact hh
      · simp only [List.map_append, List.map_cons, List.map_nil, Chunk.makeOwning_id, List.append_assoc] at hn hid ⊢
        have e : (List.map (·.id) pre ++ ([t.id, k.id] ++ List.map (·.id) c.cached.toList)).Perm
            (k.id :: (List.map (·.id) pre ++ ([t.id] ++ List.map (·.id) c.cached.toList))) := by
          have := List.perm_middle (l₁ := List.map (·.id) pre ++ [t.id]) (a := k.id)
            (l₂ := List.map (·.id) c.cached.toList)
          simpa using this
        rw [e.nodup_iff, List.nodup_cons]
        exact ⟨hid, hn⟩
      · intro i hi
        simp only [List.map_append, List.map_cons, List.map_nil, Chunk.makeOwning_id, List.mem_append, List.mem_cons,
          List.not_mem_nil, or_false] at hi hf
        rcases hi with (hi | rfl | rfl) | hi
        · exact hf i (Or.inl (Or.inl hi))
        · exact hf _ (Or.inl (Or.inr rfl))
        · exact hfr
        · exact hf i (Or.inr hi)
      · simp
    · have hle := headOffset_le_stop h
      unfold stop at hle
      rw [linkLast_concat]
      unfold abs content
      rw [hb _ _ _ rfl (by simp)]
      simp only [hc, Log.mk.injEq, true_and]
      rw [hc] at hle
      simp only [rawCells_append, rawCells_cons, rawCells_nil, Chunk.makeOwning_cells, List.append_nil,
        Chunk.cells_offset] at hle ⊢
      rw [← List.append_assoc, List.drop_append_of_le_length (by omega)]
    · rfl
    · rw [linkLast_concat, hb _ _ _ rfl (by simp)]
    · rfl
    · rw [linkLast_concat]
      intro x hx
      simp only [List.mem_append, List.mem_singleton] at hx
      rcases hx with hx | rfl
      · exact ⟨x, by simp [hx], rfl, rfl, rfl⟩
      · exact ⟨x.makeOwning, by simp, by simp, by simp, by simp⟩
    · rw [linkLast_concat]
      intro hp x hx
      cases pre with
      | nil => simp at hx hp; subst hx; simpa using hp
      | cons a as => simp at hx hp; subst hx; exact hp

/-- Appending to a chain that is not mutable throws and leaves all but the chunk cache as it is. -/
theorem appendChunk_frozen {c : Chain} (hm : c.state = .frozen) (k : Chunk) :
    c.appendChunk k = (.throw .frozen, c) := by unfold appendChunk; simp [hm]

theorem fresh_id {c : Chain} (h : c.Inv) : c.nextId ∉ c.chunks.map (·.id) ++ c.cached.toList.map (·.id) :=
  fun hi => Nat.lt_irrefl _ (h.fresh _ hi)

theorem Inv.nextId {c : Chain} (h : c.Inv) : ({ c with nextId := c.nextId + 1 } : Chain).Inv :=
  ⟨h.contig, h.tail, h.pos, h.head, h.nodup, fun i hi => Nat.lt_succ_of_lt (h.fresh i hi), h.invalid⟩

theorem Inv.dropCache {c : Chain} (h : c.Inv) : ({ c with cached := none } : Chain).Inv := by
  refine ⟨h.contig, h.tail, h.pos, h.head, ?_, ?_, h.invalid⟩
  · have := h.nodup
    simp only [List.nodup_append] at this
    simpa using this.1
  · intro i hi
    exact h.fresh i (by simp at hi ⊢; left; exact hi)

/-- The result of appending cells (shared by the three append functions). -/
structure Appended (c c' : Chain) (cs : List Cell) : Prop where
  inv : c'.Inv
  abs : c'.abs = ⟨c.headOffset, c.content ++ cs⟩
  state : c'.state = c.state
  base : c'.base = c.base
  headPos : (∀ x ∈ c.chunks.head?, 0 < x.size) → ∀ x ∈ c'.chunks.head?, 0 < x.size
  keep : ∀ x ∈ c.chunks, ∃ y ∈ c'.chunks, y.id = x.id ∧ y.offset = x.offset ∧ y.payload = x.payload

theorem append_spec {c : Chain} (h : c.Inv) (hm : c.state = .mutable) (bs : List Byte) :
    ∃ c', c.append bs = (.ok (), c') ∧ Appended c c' (bs.map some) ∧
      c'.stats = ⟨c.stats.dataBytes + bs.length, c.stats.dataChunks + (if bs = [] then 0 else 1), c.stats.gapBytes,
        c.stats.gapChunks⟩ := by
  unfold append
  split
  · rename_i hl
    have : bs = [] := List.length_eq_zero_iff.1 hl
    subst this
    exact ⟨c, rfl, ⟨h, by simp [Chain.abs], rfl, rfl, id, fun x hx => ⟨x, hx, rfl, rfl, rfl⟩⟩, by simp⟩
  · rename_i hl
    have hne : bs ≠ [] := by intro hb; simp [hb] at hl
    have fresh : ∃ c', ({ c with nextId := c.nextId + 1 } : Chain).appendChunk
          { id := c.nextId, offset := 0, payload := .data bs, allocated := bs.length } = (.ok (), c') ∧
        Appended c c' (bs.map some) ∧ c'.stats = countChunk c.stats ⟨c.nextId, 0, .data bs, bs.length⟩ := by
      obtain ⟨c', e1, e2, e3, e4, e5, e6, e7, e8⟩ := appendChunk_spec h.nextId hm (k := ⟨c.nextId, 0, .data bs, bs.length⟩)
        (by simp [Chunk.size]; omega) (fresh_id h) (Nat.lt_succ_self _)
      exact ⟨c', e1, ⟨e2, e3, by rw [e4, hm], e5, e8, e7⟩, e6⟩
    have stats : ∀ i o a, countChunk c.stats ⟨i, o, .data bs, a⟩ =
        ⟨c.stats.dataBytes + bs.length, c.stats.dataChunks + (if bs = [] then 0 else 1), c.stats.gapBytes,
          c.stats.gapChunks⟩ := by
      intro i o a
      simp [countChunk, Chunk.isGap, Chunk.size, hne]
    split
    · rename_i k hk
      split
      · rename_i hal
        rw [if_neg (show ¬ bs.length > k.allocated by omega)]
        have hn := h.nodup
        have hf := h.fresh
        rw [hk] at hn hf
        obtain ⟨c', e1, e2, e3, e4, e5, e6, e7, e8⟩ := appendChunk_spec (c := { c with cached := none }) h.dropCache hm
          (k := { k with payload := .data bs }) (by simp [Chunk.size]; omega)
          (by simp [List.nodup_append] at hn ⊢; intro x hx; exact hn.2 x hx) (hf k.id (by simp))
        refine ⟨c', e1, ⟨e2, e3, by rw [e4, hm], e5, e8, e7⟩, ?_⟩
        rw [e6]; simpa [hne] using stats k.id k.offset k.allocated
      · obtain ⟨c', e1, e2, e3⟩ := fresh
        exact ⟨c', e1, e2, by rw [e3, stats]; simp [hne]⟩
    · obtain ⟨c', e1, e2, e3⟩ := fresh
      exact ⟨c', e1, e2, by rw [e3, stats]⟩

theorem appendNonOwning_spec {c : Chain} (h : c.Inv) (hm : c.state = .mutable) (bs : List Byte) :
    ∃ c', c.appendNonOwning bs = (.ok (), c') ∧ Appended c c' (bs.map some) ∧
      c'.stats = ⟨c.stats.dataBytes + bs.length, c.stats.dataChunks + (if bs = [] then 0 else 1), c.stats.gapBytes,
        c.stats.gapChunks⟩ := by
  unfold appendNonOwning
  split
  · rename_i hl
    have : bs = [] := List.length_eq_zero_iff.1 hl
    subst this
    exact ⟨c, rfl, ⟨h, by simp [Chain.abs], rfl, rfl, id, fun x hx => ⟨x, hx, rfl, rfl, rfl⟩⟩, by simp⟩
  · rename_i hl
    have hne : bs ≠ [] := by intro hb; simp [hb] at hl
    have fresh : ∃ c', ({ c with nextId := c.nextId + 1 } : Chain).appendChunk
          { id := c.nextId, offset := 0, payload := .data bs, allocated := 0 } = (.ok (), c') ∧
        Appended c c' (bs.map some) ∧ c'.stats = countChunk c.stats ⟨c.nextId, 0, .data bs, 0⟩ := by
      obtain ⟨c', e1, e2, e3, e4, e5, e6, e7, e8⟩ := appendChunk_spec h.nextId hm (k := ⟨c.nextId, 0, .data bs, 0⟩)
        (by simp [Chunk.size]; omega) (fresh_id h) (Nat.lt_succ_self _)
      exact ⟨c', e1, ⟨e2, e3, by rw [e4, hm], e5, e8, e7⟩, e6⟩
    have stats : ∀ i o a, countChunk c.stats ⟨i, o, .data bs, a⟩ =
        ⟨c.stats.dataBytes + bs.length, c.stats.dataChunks + (if bs = [] then 0 else 1), c.stats.gapBytes,
          c.stats.gapChunks⟩ := by
      intro i o a
      simp [countChunk, Chunk.isGap, Chunk.size, hne]
    split
    · rename_i k hk
      split
      · rename_i hal
        have hn := h.nodup
        have hf := h.fresh
        rw [hk] at hn hf
        obtain ⟨c', e1, e2, e3, e4, e5, e6, e7, e8⟩ := appendChunk_spec (c := { c with cached := none }) h.dropCache hm
          (k := { k with payload := .data bs }) (by simp [Chunk.size]; omega)
          (by simp [List.nodup_append] at hn ⊢; intro x hx; exact hn.2 x hx) (hf k.id (by simp))
        refine ⟨c', e1, ⟨e2, e3, by rw [e4, hm], e5, e8, e7⟩, ?_⟩
        rw [e6]; simpa [hne] using stats k.id k.offset k.allocated
      · obtain ⟨c', e1, e2, e3⟩ := fresh
        exact ⟨c', e1, e2, by rw [e3, stats]; simp [hne]⟩
    · obtain ⟨c', e1, e2, e3⟩ := fresh
      exact ⟨c', e1, e2, by rw [e3, stats]⟩

theorem appendGap_spec {c : Chain} (h : c.Inv) (hm : c.state = .mutable) (n : Nat) :
    ∃ c', c.appendGap n = (.ok (), c') ∧ Appended c c' (List.replicate n none) ∧
      c'.stats = ⟨c.stats.dataBytes, c.stats.dataChunks, c.stats.gapBytes + n,
        c.stats.gapChunks + (if n = 0 then 0 else 1)⟩ := by
  unfold appendGap
  split
  · rename_i hl
    subst hl
    exact ⟨c, rfl, ⟨h, by simp [Chain.abs], rfl, rfl, id, fun x hx => ⟨x, hx, rfl, rfl, rfl⟩⟩, by simp⟩
  · rename_i hl
    obtain ⟨c', e1, e2, e3, e4, e5, e6, e7, e8⟩ := appendChunk_spec h.nextId hm (k := ⟨c.nextId, 0, .gap n, 0⟩)
      (by simp [Chunk.size]; omega) (fresh_id h) (Nat.lt_succ_self _)
    exact ⟨c', e1, ⟨e2, e3, by rw [e4, hm], e5, e8, e7⟩, by rw [e6]; simp [countChunk, Chunk.isGap, Chunk.size]⟩

/-! ## Trimming -/

theorem cacheAfterDrop_id {h : Chunk} {ca : Option Chunk} {x : Chunk} (hx : cacheAfterDrop h ca = some x) :
    x.id = h.id ∨ ca = some x := by
  unfold cacheAfterDrop at hx
  generalize (!h.isGap && _) = b at hx
  cases b with
  | true => simp at hx; subst hx; left; rfl
  | false => exact Or.inr (by simpa using hx)

/-- What the loop of `trim` does. -/
theorem trimLoop_spec {o b : Nat} {ks : List Chunk} {ca : Option Chunk} {t : Option Nat} (hc : Contig b ks)
    (hb : b ≤ o) (ht : t = ks.getLast?.map (·.id)) :
    ∃ pre ks' ca', trimLoop o ks ca t = some (ks', ca', ks'.getLast?.map (·.id)) ∧ ks = pre ++ ks' ∧
      (∀ k ∈ pre, k.endOffset ≤ o) ∧ (∀ k ∈ ks'.head?, k.inRange o = true) ∧
      (∀ x ∈ ca', (∃ k ∈ pre, x.id = k.id) ∨ ca = some x) := by
  induction ks generalizing b ca t with
  | nil => exact ⟨[], [], ca, by simp [trimLoop, ht], rfl, by simp, by simp, fun x hx => Or.inr hx⟩
  | cons h rest ih =>
    obtain ⟨h1, h2⟩ := hc
    unfold trimLoop
    split
    · rename_i hge
      have hb' : b + h.size ≤ o := by simpa [Chunk.endOffset, h1] using hge
      have ht' : tailAfterDrop rest t = rest.getLast?.map (·.id) := by
        unfold tailAfterDrop
        split
        · rfl
        · rfl
        · rw [ht]; simp [List.getLast?_cons_cons]
      obtain ⟨pre, ks', ca', e1, e2, e3, e4, e5⟩ := ih (ca := cacheAfterDrop h ca) h2 hb' ht'
      refine ⟨h :: pre, ks', ca', e1, by simp [e2], ?_, e4, ?_⟩
      · intro k hk
        rcases List.mem_cons.1 hk with rfl | hk
        · exact hge
        · exact e3 k hk
      · intro x hx
        rcases e5 x hx with ⟨k, hk, he⟩ | he
        · exact Or.inl ⟨k, by simp [hk], he⟩
        · rcases cacheAfterDrop_id he with he | he
          · exact Or.inl ⟨h, by simp, he⟩
          · exact Or.inr he
    · rename_i hlt
      have hin : h.inRange o = true := by rw [Chunk.inRange_iff]; omega
      simp only [hin, if_true]
      exact ⟨[], h :: rest, ca, by rw [ht], rfl, by simp, by simp [hin], fun x hx => Or.inr hx⟩

/-- Trimming a chain that holds chunks, at or after the first stored byte. -/
theorem trim_spec {c : Chain} (h : c.Inv) (hv : c.isValid = true) {o : Nat} (hne : c.chunks ≠ []) (ho : c.base ≤ o) :
    ∃ c' pre, c.trim o = (.ok (), c') ∧ c'.Inv ∧ c'.abs = ⟨o, (rawCells c.chunks).drop (o - c.base)⟩ ∧
      c'.state = c.state ∧ c'.stats = c.stats ∧ c.chunks = pre ++ c'.chunks ∧ (∀ k ∈ pre, k.endOffset ≤ o) ∧
      c'.headOffset = o ∧ c.base ≤ c'.base ∧ (∀ x ∈ c'.chunks.head?, 0 < x.size) := by
  unfold trim
  simp only [hv, if_true]
  have hcon := h.contig
  have hb : c.base = c.base := rfl
  cases hc : c.chunks with
  | nil => exact absurd hc hne
  | cons a as =>
    have hbase : c.base = a.offset := by simp [base, hc]
    simp only
    rw [if_neg (by omega)]
    rw [hc] at hcon
    obtain ⟨pre, ks', ca', e1, e2, e3, e4, e5⟩ := trimLoop_spec (ca := c.cached) hcon ho (t := c.tail) (by rw [h.tail, hc])
    simp only [e1]
    have hcon2 := hcon
    rw [e2, contig_append] at hcon2
    rw [← length_rawCells] at hcon2
    have hpre : c.base + (rawCells pre).length ≤ o := by
      rcases List.eq_nil_or_concat pre with hp | ⟨p, k, hp⟩
      · simp [hp]; omega
      · rw [List.concat_eq_append] at hp
        have := e3 k (by simp [hp])
        have hc3 := hcon2.1
        rw [hp, contig_append, ← length_rawCells] at hc3
        have := hc3.2.1
        simp only [hp, rawCells_append, rawCells_cons, rawCells_nil, List.length_append, Chunk.length_cells,
          List.append_nil, Chunk.endOffset] at *
        omega
    have hb2 : ({ c with chunks := ks', cached := ca', tail := ks'.getLast?.map (·.id), headOffset := o } : Chain).base
        = if ks' = [] then o else c.base + (rawCells pre).length := by
      unfold base
      cases ks' with
      | nil => simp
      | cons x xs => simp; have := hcon2.2.1; rw [this]; simp [base]
    refine ⟨_, pre, rfl, ?_, ?_, rfl, rfl, e2, e3, rfl, ?_, ?_⟩
    · constructor
      · rw [hb2]
        split
        · rename_i hk; simp [hk, Contig]
        · exact hcon2.2
      · rfl
      · intro k hk
        apply h.pos
        rw [hc, e2]
        simp only at hk
        cases pre with
        | nil => simpa using hk
        | cons p ps =>
          simp only [List.cons_append, List.tail_cons, List.mem_append]
          exact Or.inr (List.mem_of_mem_tail hk)
      · intro k hk
        have := e4 k hk
        rw [Chunk.inRange_iff] at this
        exact ⟨this.1, Or.inl this.2⟩
      · have hn := h.nodup
        rw [hc, e2] at hn
        simp only [List.map_append, List.append_assoc, List.nodup_append, List.mem_append] at hn ⊢
        refine ⟨hn.2.1.1, ?_, ?_⟩
        · cases ca' <;> simp
        · intro x hx y hy
          cases ca' with
          | none => simp at hy
          | some z =>
            simp at hy
            subst hy
            rcases e5 z (by simp) with ⟨k, hk, he⟩ | he
            · rw [he]
              exact fun hxy => hn.2.2 k.id (by simp; exact ⟨k, hk, rfl⟩) x (Or.inl hx) hxy.symm
            · exact hn.2.1.2.2 x hx z.id (by simp [he])
      · intro i hi
        apply h.fresh
        rw [hc, e2]
        simp only [List.map_append, List.mem_append] at hi ⊢
        rcases hi with hi | hi
        · exact Or.inl (Or.inr hi)
        · cases ca' with
          | none => simp at hi
          | some z =>
            simp at hi
            subst hi
            rcases e5 z (by simp) with ⟨k, hk, he⟩ | he
            · rw [he]; exact Or.inl (Or.inl (by simp; exact ⟨k, hk, rfl⟩))
            · exact Or.inr (by simp [he])
      · intro hi
        simp only [isValid, bne_iff_ne, ne_eq] at hv
        exact absurd hi hv
    · unfold abs content
      rw [hb2]
      simp only [Log.mk.injEq, true_and]
      rw [e2, rawCells_append]
      split
      · rename_i hk
        simp only [hk, rawCells_nil, List.append_nil, List.drop_nil]
        rw [List.drop_of_length_le (by omega)]
      · rw [List.drop_append, List.drop_of_length_le (l := rawCells pre) (by omega)]
        simp only [List.nil_append]
        congr 1
        omega
    · rw [hb2]; split <;> omega
    · intro x hx
      have := e4 x hx
      rw [Chunk.inRange_iff] at this
      unfold Chunk.endOffset at this
      omega

theorem trim_noop {c : Chain} (hv : c.isValid = true) {o : Nat} (h : c.chunks = [] ∨ o < c.base) :
    c.trim o = (.ok (), c) := by
  unfold trim
  simp only [hv, if_true]
  split
  · rfl
  · rename_i a as hc
    rw [if_pos]
    rcases h with h | h
    · rw [hc] at h; cases h
    · simpa [base, hc] using h

/-! ## makeOwning, freeze, unfreeze -/

theorem makeOwning_map {ks : List Chunk} (p : Chunk → Prop) [DecidablePred p] :
    (ks.map (fun k => if p k then k.makeOwning else k)).map (·.id) = ks.map (·.id) ∧
    rawCells (ks.map (fun k => if p k then k.makeOwning else k)) = rawCells ks ∧
    (∀ o, Contig o ks → Contig o (ks.map (fun k => if p k then k.makeOwning else k))) := by
  induction ks with
  | nil => exact ⟨rfl, rfl, fun _ h => h⟩
  | cons k ks ih =>
    simp only [List.map_cons, rawCells_cons, ih.1, ih.2.1, Contig]
    refine ⟨?_, ?_, ?_⟩
    · congr 1; split <;> simp
    · congr 1; split <;> simp
    · intro o hc
      refine ⟨?_, ?_⟩
      · split <;> simp [hc.1]
      · split <;> simpa using ih.2.2 _ hc.2

theorem makeOwning_spec {c : Chain} (h : c.Inv) :
    c.makeOwning.Inv ∧ c.makeOwning.abs = c.abs ∧ c.makeOwning.base = c.base ∧
      c.makeOwning.chunks.map (·.id) = c.chunks.map (·.id) := by
  have hm := makeOwning_map (ks := c.chunks) (fun k => some k.id = c.tail)
  have hb : c.makeOwning.base = c.base := by
    unfold base makeOwning
    cases c.chunks with
    | nil => rfl
    | cons a as => simp; split <;> simp
  refine ⟨⟨?_, ?_, ?_, ?_, ?_, ?_, ?_⟩, ?_, hb, hm.1⟩
  · rw [hb]; exact hm.2.2 _ h.contig
  · show c.tail = _
    rw [h.tail]
    have := congrArg List.getLast? hm.1
    rw [List.getLast?_map (l := c.chunks), List.getLast?_map] at this
    exact this.symm
  · intro k hk
    unfold makeOwning at hk
    simp only [← List.map_tail, List.mem_map] at hk
    obtain ⟨x, hx, rfl⟩ := hk
    have := h.pos x hx
    split <;> simpa using this
  · intro k hk
    unfold makeOwning at hk
    simp only [List.head?_map, Option.mem_def, Option.map_eq_some_iff] at hk
    obtain ⟨x, hx, rfl⟩ := hk
    have := h.head x hx
    split <;> simpa [makeOwning] using this
  · show (c.makeOwning.chunks.map (·.id) ++ _).Nodup
    have : c.makeOwning.chunks.map (·.id) = c.chunks.map (·.id) := hm.1
    rw [this]; exact h.nodup
  · intro i hi
    have : c.makeOwning.chunks.map (·.id) = c.chunks.map (·.id) := hm.1
    rw [this] at hi
    exact h.fresh i hi
  · intro hi
    have := h.invalid hi
    simp [makeOwning, this]
  · unfold abs content
    rw [hb]
    have : rawCells c.makeOwning.chunks = rawCells c.chunks := hm.2.1
    rw [this]; rfl

theorem Inv.state {c : Chain} (h : c.Inv) (s : State) (hs : s ≠ .invalid) : ({ c with state := s } : Chain).Inv :=
  ⟨h.contig, h.tail, h.pos, h.head, h.nodup, h.fresh, fun hi => absurd hi hs⟩

theorem inv_init : ({} : Chain).Inv :=
  ⟨trivial, rfl, by simp, by simp, by simp, by simp, by simp⟩

/-- A stream made from non-empty data is the same as an empty one with that data appended. -/
theorem ofBytes_eq_append {bs : List Byte} (h : bs ≠ []) : (({} : Chain).append bs) = (.ok (), ofBytes bs) := by
  have : bs.length ≠ 0 := by simpa using h
  simp [append, ofBytes, appendChunk, countChunk, Chunk.isGap, Chunk.size, h]

theorem inv_ofBytes (bs : List Byte) : (ofBytes bs).Inv := by
  refine ⟨?_, rfl, by simp [ofBytes], ?_, by simp [ofBytes], by simp [ofBytes], by simp [ofBytes]⟩
  · simp [ofBytes, base, Contig]
  · simp [ofBytes, Chunk.endOffset, Chunk.size]
    cases bs <;> simp

end Chain
end Verif.Stream
