import Verif.Stream.ViewLemmas

namespace Verif.Stream
open Chain

theorem bytesOf_data (bs : List Byte) (t : List Cell) : bytesOf (bs.map some ++ t) = (do
    let r ← bytesOf t
    .ok (bs ++ r)) := by
  induction bs with
  | nil => cases h : bytesOf t <;> simp [h]
  | cons b bs ih =>
    simp only [List.map_cons, List.cons_append, bytesOf, ih]
    cases bytesOf t <;> rfl

theorem bytesOf_map (bs : List Byte) : bytesOf (bs.map some) = .ok bs := by
  have := bytesOf_data bs []
  simpa [bytesOf] using this

theorem bytesOf_gap (n : Nat) (t : List Cell) (h : 0 < n) : bytesOf (List.replicate n none ++ t) = .throw .missingData := by
  cases n with
  | zero => omega
  | succ n => rfl

theorem chunk_offset {c : Chain} (h : c.Inv) {pre ks : List Chunk} {k : Chunk} (hc : c.chunks = pre ++ k :: ks) :
    k.offset = c.base + (rawCells pre).length := by
  have hcon := h.contig
  rw [hc, contig_append] at hcon
  have := hcon.2.1
  rw [← length_rawCells] at this
  exact this

theorem chunk_end_le {c : Chain} (h : c.Inv) {pre ks : List Chunk} {k : Chunk} (hc : c.chunks = pre ++ k :: ks) :
    k.endOffset + (rawCells ks).length = c.stop := by
  have := chunk_offset h hc
  unfold stop Chunk.endOffset
  rw [hc]
  simp only [rawCells_append, rawCells_cons, List.length_append, Chunk.length_cells]
  omega

theorem next_offset {c : Chain} (h : c.Inv) {pre ks : List Chunk} {k k' : Chunk} (hc : c.chunks = pre ++ k :: k' :: ks) :
    k'.offset = k.endOffset ∧ 0 < k'.size := by
  have e1 := chunk_offset h hc
  have e2 := chunk_offset h (pre := pre ++ [k]) (k := k') (ks := ks) (by rw [hc]; simp)
  simp only [rawCells_append, rawCells_cons, rawCells_nil, List.append_nil, List.length_append, Chunk.length_cells] at e2
  refine ⟨by unfold Chunk.endOffset; omega, h.pos k' ?_⟩
  rw [hc]
  cases pre <;> simp

theorem drop_content {c : Chain} (h : c.Inv) {pre ks : List Chunk} {k : Chunk} (hc : c.chunks = pre ++ k :: ks) {o : Nat}
    (h1 : k.offset ≤ o) (h2 : o ≤ k.endOffset) (hh : c.headOffset ≤ o) :
    c.content.drop (o - c.headOffset) = k.cells.drop (o - k.offset) ++ rawCells ks := by
  have e := chunk_offset h hc
  have hb := base_le h
  unfold content
  rw [List.drop_drop, hc, rawCells_append, rawCells_cons]
  have : c.headOffset - c.base + (o - c.headOffset) = (rawCells pre).length + (o - k.offset) := by omega
  rw [this, List.drop_append, List.drop_of_length_le (by omega), List.nil_append, Nat.add_sub_cancel_left,
    List.drop_append_of_le_length]
  simp
  unfold Chunk.endOffset at h2
  omega

theorem slice_chunk {c : Chain} (h : c.Inv) {pre ks : List Chunk} {k : Chunk} (hc : c.chunks = pre ++ k :: ks) {o l : Nat}
    (h1 : k.offset ≤ o) (h2 : o ≤ k.endOffset) (hh : c.headOffset ≤ o) (hl : k.endOffset ≤ l) :
    c.abs.slice o l = k.cells.drop (o - k.offset) ++ c.abs.slice k.endOffset l := by
  unfold Log.slice abs
  simp only
  have hk : k.offset ≤ k.endOffset := by unfold Chunk.endOffset; omega
  rw [drop_content h hc h1 h2 hh, drop_content h hc hk (Nat.le_refl _) (by omega), List.take_append]
  have hs : k.endOffset - k.offset = k.size := by unfold Chunk.endOffset; omega
  have : (k.cells.drop (o - k.offset)).length = k.endOffset - o := by
    simp only [List.length_drop, Chunk.length_cells]; omega
  rw [List.take_of_length_le (by omega), this]
  have e2 : k.cells.drop (k.endOffset - k.offset) = [] := by
    apply List.drop_of_length_le; simp; omega
  rw [e2, List.nil_append, show l - o - (k.endOffset - o) = l - k.endOffset by omega]

theorem slice_in_chunk {c : Chain} (h : c.Inv) {pre ks : List Chunk} {k : Chunk} (hc : c.chunks = pre ++ k :: ks) {o l : Nat}
    (h1 : k.offset ≤ o) (h2 : o ≤ k.endOffset) (hh : c.headOffset ≤ o) (hl : l ≤ k.endOffset) :
    c.abs.slice o l = (k.cells.drop (o - k.offset)).take (l - o) := by
  unfold Log.slice abs
  simp only
  rw [drop_content h hc h1 h2 hh, List.take_append_of_le_length]
  simp only [List.length_drop, Chunk.length_cells]
  unfold Chunk.endOffset at *
  omega

namespace View

theorem extractLoop_spec {c : Chain} (h : c.Inv) (ks pre : List Chunk) (hc : c.chunks = pre ++ ks) (o n : Nat)
    (hh : c.headOffset ≤ o) (hn : o + n ≤ c.stop)
    (hk : 0 < n → ∃ k r, ks = k :: r ∧ k.offset ≤ o ∧ o < k.endOffset) :
    extractLoop ks o n = bytesOf (c.abs.slice o (o + n)) := by
  induction ks generalizing pre o n with
  | nil =>
    cases n with
    | zero => rw [slice_nil (by omega)]; rfl
    | succ n => obtain ⟨k, r, h1, _⟩ := hk (by omega); cases h1
  | cons k ks ih =>
    cases n with
    | zero => rw [slice_nil (by omega)]; rfl
    | succ n =>
      obtain ⟨k', r, h1, h2, h3⟩ := hk (by omega)
      injection h1 with h1 h1'
      subst h1; subst h1'
      unfold extractLoop
      rw [if_pos ⟨h2, by omega⟩]
      simp only
      have hsz : k.endOffset = k.offset + k.size := rfl
      cases hp : k.payload with
      | gap m =>
        simp only
        have hcells : k.cells = List.replicate m none := by unfold Chunk.cells; rw [hp]
        have hm : k.size = m := by unfold Chunk.size; rw [hp]
        obtain ⟨x, e1, e2⟩ := slice_cons (l := c.abs) (a := o) (b := o + (n + 1)) hh (by omega)
          (by rw [stop_abs h]; omega)
        have := slice_in_chunk h hc h2 (by omega : o ≤ k.endOffset) hh (l := o + 1) (by omega)
        obtain ⟨x', e1', e2'⟩ := slice_cons (l := c.abs) (a := o) (b := o + 1) hh (by omega)
          (by rw [stop_abs h]; omega)
        rw [e1] at e1'
        injection e1' with e1'; subst e1'
        rw [e2', hcells, List.drop_replicate, List.take_replicate] at this
        have hx : x = none := by
          have hmem : x ∈ x :: c.abs.slice (o + 1) (o + 1) := by simp
          rw [this] at hmem
          exact (List.mem_replicate.1 hmem).2
        rw [e2, hx]; rfl
      | data bs =>
        simp only
        have hcells : k.cells = bs.map some := by unfold Chunk.cells; rw [hp]
        have hm : k.size = bs.length := by unfold Chunk.size; rw [hp]
        by_cases hin : n + 1 ≤ k.size - (o - k.offset)
        · rw [Nat.min_eq_left hin, Nat.sub_self]
          simp only [extractLoop, Res.ok_bind, List.append_nil]
          rw [slice_in_chunk h hc h2 (by omega) hh (l := o + (n + 1)) (by omega), hcells, ← List.map_drop, ← List.map_take,
            bytesOf_map, show o + (n + 1) - o = n + 1 by omega]
        · rw [Nat.min_eq_right (by omega)]
          have he : o + (k.size - (o - k.offset)) = k.endOffset := by omega
          rw [he, slice_chunk h hc h2 (by omega) hh (by omega), hcells, ← List.map_drop, bytesOf_data,
            ih (pre ++ [k]) (by rw [hc]; simp) _ _ (by omega) (by omega)]
          · rw [show k.endOffset + (n + 1 - (k.size - (o - k.offset))) = o + (n + 1) by omega]
            rw [List.take_of_length_le]
            simp; omega
          · intro hpos
            cases ks with
            | nil =>
              have := chunk_end_le h hc
              simp at this; omega
            | cons k' ks' =>
              have := next_offset h hc
              refine ⟨k', ks', rfl, by omega, ?_⟩
              unfold Chunk.endOffset at *; omega

theorem extract_spec {v : View} {c : Chain} (h : c.Live) (g : v.Good c) (hi : c.IterOk v.begin) (n : Nat) :
    (n > (v.window c).length → v.extract c n = .throw .wouldBlock) ∧
    (n ≤ (v.window c).length → match bytesOf ((v.window c).take n) with
      | .ok bs => ∃ w, v.extract c n = .ok (bs, w) ∧ w.begin.offset = v.begin.offset + n ∧ c.IterOk w.begin ∧ w.end = v.end
      | .throw e => v.extract c n = .throw e
      | .ub => False) := by
  unfold extract
  rw [ensureValid_ok h g, size_spec h g]
  simp only [Res.ok_bind]
  constructor
  · intro hn; rw [if_pos hn]
  · intro hn
    rw [if_neg (by omega), findChunk_eq h.inv h.isValid (ptrOk_none c)]
    simp only [Res.ok_bind]
    obtain ⟨pre, hp⟩ := suffixAt_isSuffix c v.begin.offset
    have hs := g.start
    have hwl := window_length h g
    have hlim := lim_le v c
    have key : extractLoop (c.suffixAt v.begin.offset) v.begin.offset n = bytesOf ((v.window c).take n) := by
      by_cases h0 : n = 0
      · subst h0; cases c.suffixAt v.begin.offset <;> rfl
      · rw [extractLoop_spec h.inv _ pre hp _ _ hs (by omega)]
        · congr 1
          unfold window Log.slice
          rw [List.take_take]
          congr 1
          omega
        · intro _
          obtain ⟨pre', k, ks, e1, e2, e3⟩ := suffixAt_cons h.inv (o := v.begin.offset)
            (Nat.le_trans (base_le h.inv) hs) (by omega)
          rw [Chunk.inRange_iff] at e3
          exact ⟨k, ks, e2, e3.1, e3.2⟩
    rw [key]
    obtain ⟨j, j1, j2, j3⟩ := incr_spec h hi n
    rw [j1]
    have nub : bytesOf ((v.window c).take n) ≠ .ub := by
      generalize (v.window c).take n = l
      induction l with
      | nil => simp [bytesOf]
      | cons x l ih => cases x <;> simp only [bytesOf] <;> (try split) <;> simp_all
    cases hb : bytesOf ((v.window c).take n) with
    | ok bs => exact ⟨_, rfl, j2, j3, rfl⟩
    | throw e => rfl
    | ub => exact nub hb

theorem copyRawLoop_spec {v : View} {c : Chain} (h : c.Live) (g : v.Good c) (f o : Nat)
    (h1 : c.headOffset ≤ o) (h2 : o ≤ v.endOff c ∨ v.end = none) (hf : v.lim c - o < f) :
    v.copyRawLoop c f ⟨o, c.suffixAt o⟩ = bytesOf (c.abs.slice o (v.lim c)) := by
  induction f generalizing o with
  | zero => omega
  | succ f ih =>
    obtain ⟨e, e1, e2⟩ := unsafeEnd_spec h g
    unfold copyRawLoop
    simp only [e1, Res.ok_bind, eq_end h e2 (i := ⟨o, c.suffixAt o⟩) h2]
    by_cases hl : v.lim c ≤ o
    · rw [slice_nil hl]; simp [bytesOf, hl]
    · obtain ⟨x, w1, w2, _⟩ := step_window h h1 (by omega : o < v.lim c) (lim_le v c)
      have hle := lim_le_end v c
      rw [w1]
      simp only [hl, decide_false, Bool.false_eq_true, if_false, w2]
      cases x with
      | none => simp [bytesOf, readCell]
      | some b =>
        simp only [bytesOf, readCell, Res.ok_bind, uincr_spec h]
        rw [ih (o + 1) (by omega) (Or.inl (by omega)) (by omega)]
        cases bytesOf (c.abs.slice (o + 1) (v.lim c)) <;> rfl

theorem copyRaw_spec {v : View} {c : Chain} (h : c.Live) (g : v.Good c) : v.copyRaw c = bytesOf (v.window c) := by
  unfold copyRaw
  rw [unsafeBegin_spec h g]
  simp only [Res.ok_bind]
  have := fuel_spec h.inv v g.start
  have := lim_le v c
  exact copyRawLoop_spec h g _ _ g.start g.endOff (by omega)

/-- Prefix test on cells. -/
def startsCells : List Byte → List Cell → Res Bool
  | [], _ => .ok true
  | _ :: _, [] => .ok false
  | _ :: _, none :: _ => .throw .missingData
  | y :: ys, some b :: r => if b ≠ y then .ok false else startsCells ys r

theorem startsWith_spec {v : View} {c : Chain} (h : c.Live) (g : v.Good c) (bs : List Byte) :
    v.startsWith c bs = startsCells bs (v.window c) := by
  obtain ⟨e, e1, e2⟩ := unsafeEnd_spec h g
  have loop : ∀ (bs : List Byte) (o : Nat), c.headOffset ≤ o → (o ≤ v.endOff c ∨ v.end = none) →
      startsWithLoop c e bs ⟨o, c.suffixAt o⟩ = startsCells bs (c.abs.slice o (v.lim c)) := by
    intro bs
    induction bs with
    | nil => intros; rfl
    | cons y ys ih =>
      intro o h1 h2
      unfold startsWithLoop
      simp only [Res.ok_bind, eq_end h e2 (i := ⟨o, c.suffixAt o⟩) h2]
      by_cases hl : v.lim c ≤ o
      · rw [slice_nil hl]; simp [startsCells, hl]
      · obtain ⟨x, w1, w2, _⟩ := step_window h h1 (by omega : o < v.lim c) (lim_le v c)
        have hle := lim_le_end v c
        rw [w1]
        simp only [hl, decide_false, Bool.false_eq_true, if_false, w2]
        cases x with
        | none => simp [startsCells, readCell]
        | some b =>
          simp only [startsCells, readCell, Res.ok_bind, uincr_spec h]
          rw [ih (o + 1) (by omega) (Or.inl (by omega))]
  unfold startsWith isEmpty
  rw [ensureValid_ok h g, unsafeBegin_spec h g, e1, size_spec h g]
  simp only [Res.ok_bind]
  split
  · rename_i h0
    simp at h0
    rw [h0]
    cases bs <;> rfl
  · exact loop bs _ g.start g.endOff

/-- Comparison with bytes on cells (equal lengths). -/
def eqCells : List Cell → List Byte → Res Bool
  | [], _ => .ok true
  | none :: _, _ => .throw .missingData
  | some _ :: _, [] => .ub
  | some a :: r, b :: bs => if a ≠ b then .ok false else eqCells r bs

theorem eqBytesLoop_spec {v : View} {c : Chain} (h : c.Live) (g : v.Good c) (f o : Nat) (bs : List Byte)
    (h1 : c.headOffset ≤ o) (h2 : o ≤ v.endOff c ∨ v.end = none) (hf : v.lim c - o < f) :
    v.eqBytesLoop c f ⟨o, c.suffixAt o⟩ bs = eqCells (c.abs.slice o (v.lim c)) bs := by
  induction f generalizing o bs with
  | zero => omega
  | succ f ih =>
    obtain ⟨e, e1, e2⟩ := unsafeEnd_spec h g
    unfold eqBytesLoop
    simp only [e1, Res.ok_bind, eq_end h e2 (i := ⟨o, c.suffixAt o⟩) h2]
    by_cases hl : v.lim c ≤ o
    · rw [slice_nil hl]; simp [eqCells, hl]
    · obtain ⟨x, w1, w2, _⟩ := step_window h h1 (by omega : o < v.lim c) (lim_le v c)
      have hle := lim_le_end v c
      have hlm := lim_le v c
      rw [w1]
      obtain ⟨pre, k, ks, s1, s2, s3⟩ := suffixAt_cons h.inv (o := o) (Nat.le_trans (base_le h.inv) h1) (by omega)
      simp only [hl, decide_false, Bool.false_eq_true, if_false, s2]
      rw [← s2, w2]
      cases x with
      | none => simp [eqCells, readCell]
      | some a =>
        simp only [readCell, Res.ok_bind, uincr_spec h]
        cases bs with
        | nil => simp [eqCells]
        | cons b bs =>
          simp only [eqCells]
          rw [ih (o + 1) bs (by omega) (Or.inl (by omega)) (by omega)]

theorem eqBytes_spec {v : View} {c : Chain} (h : c.Live) (g : v.Good c) (bs : List Byte) :
    v.eqBytes c bs = if (v.window c).length = bs.length then eqCells (v.window c) bs else .ok false := by
  unfold eqBytes
  rw [size_spec h g, unsafeBegin_spec h g]
  simp only [Res.ok_bind]
  have := fuel_spec h.inv v g.start
  have := lim_le v c
  rw [eqBytesLoop_spec h g _ _ bs g.start g.endOff (by omega)]
  unfold window; split <;> simp_all

theorem suffixAt_gap {c : Chain} (h : c.Live) {o : Nat} {k : Chunk} {ks : List Chunk} (hs : c.suffixAt o = k :: ks)
    (h1 : c.headOffset ≤ o) (x : Cell) (hx : c.abs.get? o = some x) : k.isGap = x.isNone := by
  have hin := suffixAt_head hs
  obtain ⟨pre, e1, e2, e3⟩ := dropWhile_split hs
  have := readAt_suffix h.inv e1 hin h1
  rw [Chunk.inRange_iff] at hin
  have hd := drop_content h.inv e1 hin.1 (by omega) h1
  unfold Log.get? abs at hx
  simp only [Nat.not_lt.2 h1, if_false] at hx
  rw [← List.head?_drop, hd] at hx
  unfold Chunk.isGap
  have hsz : k.endOffset = k.offset + k.size := rfl
  cases hp : k.payload with
  | data bs =>
    simp only
    have hcells : k.cells = bs.map some := by unfold Chunk.cells; rw [hp]
    have hm : k.size = bs.length := by unfold Chunk.size; rw [hp]
    rw [hcells, ← List.map_drop] at hx
    cases hb : bs.drop (o - k.offset) with
    | nil =>
      have := congrArg List.length hb
      simp at this; omega
    | cons b r => rw [hb] at hx; simp at hx; subst hx; rfl
  | gap m =>
    simp only
    have hcells : k.cells = List.replicate m none := by unfold Chunk.cells; rw [hp]
    have hm : k.size = m := by unfold Chunk.size; rw [hp]
    rw [hcells, List.drop_replicate] at hx
    cases hb : m - (o - k.offset) with
    | zero => omega
    | succ j => rw [hb] at hx; simp [List.replicate_succ] at hx; subst hx; rfl

theorem eqLoop_spec {v w : View} {c d : Chain} (h : c.Live) (g : v.Good c) (h' : d.Live) (g' : w.Good d) (f o p : Nat)
    (h1 : c.headOffset ≤ o) (h2 : o ≤ v.endOff c ∨ v.end = none) (h3 : d.headOffset ≤ p)
    (hlen : v.lim c - o = w.lim d - p) (hf : v.lim c - o < f) :
    v.eqLoop c d f ⟨o, c.suffixAt o⟩ ⟨p, d.suffixAt p⟩ =
      .ok (decide (c.abs.slice o (v.lim c) = d.abs.slice p (w.lim d))) := by
  induction f generalizing o p with
  | zero => omega
  | succ f ih =>
    obtain ⟨e, e1, e2⟩ := unsafeEnd_spec h g
    unfold eqLoop
    simp only [e1, Res.ok_bind, eq_end h e2 (i := ⟨o, c.suffixAt o⟩) h2]
    by_cases hl : v.lim c ≤ o
    · rw [slice_nil hl, slice_nil (by omega)]; simp [hl]
    · obtain ⟨x, w1, w2, w3⟩ := step_window h h1 (by omega : o < v.lim c) (lim_le v c)
      obtain ⟨y, u1, u2, u3⟩ := step_window h' h3 (by omega : p < w.lim d) (lim_le w d)
      have hle := lim_le_end v c
      have hlm := lim_le v c
      have hlm' := lim_le w d
      rw [w1, u1]
      obtain ⟨pre, k, ks, s1, s2, s3⟩ := suffixAt_cons h.inv (o := o) (Nat.le_trans (base_le h.inv) h1) (by omega)
      obtain ⟨pre', k', ks', t1, t2, t3⟩ := suffixAt_cons h'.inv (o := p) (Nat.le_trans (base_le h'.inv) h3) (by omega)
      have g1 := suffixAt_gap h s2 h1 x w3
      have g2 := suffixAt_gap h' t2 h3 y u3
      simp only [hl, decide_false, Bool.false_eq_true, if_false, s2, t2]
      rw [← s2, ← t2, w2, u2, g1, g2, uincr_spec h, uincr_spec h']
      simp only [Res.ok_bind]
      rw [ih (o + 1) (p + 1) (by omega) (Or.inl (by omega)) (by omega) (by omega) (by omega)]
      cases x with
      | none => cases y <;> simp
      | some a =>
        cases y with
        | none => simp
        | some b => by_cases hab : a = b <;> simp [readCell, hab]

theorem eqView_spec {v w : View} {c d : Chain} (h : c.Live) (g : v.Good c) (h' : d.Live) (g' : w.Good d) :
    v.eqView c w d = .ok (decide (v.window c = w.window d)) := by
  unfold eqView
  rw [size_spec h g, size_spec h' g', unsafeBegin_spec h g, unsafeBegin_spec h' g']
  simp only [Res.ok_bind]
  split
  · rename_i hne
    have : v.window c ≠ w.window d := fun e => hne (by rw [e])
    simp [this]
  · rename_i heq
    have heq : (v.window c).length = (w.window d).length := by simpa using heq
    rw [window_length h g, window_length h' g'] at heq
    have := fuel_spec h.inv v g.start
    have := lim_le v c
    rw [eqLoop_spec h g h' g' _ _ _ g.start g.endOff g'.start heq (by omega)]
    rfl

end View
end Verif.Stream
