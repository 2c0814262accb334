import Verif.Stream.View
import Verif.Stream.ViewSpec
import Verif.Stream.Refine

namespace Verif.Stream
open Chain

/-- An iterator that may be used right now. -/
def Chain.Usable (c : Chain) (i : Iter) : Prop := c.headOffset ≤ i.offset → i.offset < c.stop → c.PtrOk i.chunk

theorem Chain.IterOk.usable {c : Chain} (h : c.Inv) {i : Iter} (hi : c.IterOk i) : c.Usable i :=
  fun hr _ => hi.ptr h hr

theorem ofSafe_spec {c : Chain} (h : c.Live) {i : Iter} (hi : c.Usable i) :
    UIter.ofSafe i c = .ok ⟨i.offset, c.suffixAt i.offset⟩ := by
  unfold UIter.ofSafe Iter.chunkPtr
  simp only [h.isValid, if_true, inRange_eq h.inv, Res.ok_bind]
  split
  · rename_i hr
    simp only [Bool.and_eq_true, decide_eq_true_eq] at hr
    simp only [Res.ok_bind]
    rw [findChunk_eq h.inv h.isValid (hi hr.1 hr.2)]; rfl
  · simp only [Res.ok_bind]
    rw [findChunk_eq h.inv h.isValid (ptrOk_none c)]; rfl

theorem suffixAt_same {c : Chain} (h : c.Inv) {o o' : Nat} {k : Chunk} {ks : List Chunk} (hs : c.suffixAt o = k :: ks)
    (h1 : k.inRange o' = true) : c.suffixAt o' = k :: ks := by
  obtain ⟨pre, e1, e2, e3⟩ := dropWhile_split hs
  unfold suffixAt
  rw [e1, dropWhile_append_of_forall]
  · simp [h1]
  · intro x hx
    have hcon := h.contig
    rw [e1, contig_append] at hcon
    have g1 := contig_mem hcon.1 hx
    have g2 := hcon.2.1
    rw [← length_rawCells] at g2
    rw [Chunk.inRange_iff] at h1
    simp [Chunk.inRange]
    omega

theorem suffixAt_head {c : Chain} {o : Nat} {k : Chunk} {ks : List Chunk} (hs : c.suffixAt o = k :: ks) :
    k.inRange o = true := by
  obtain ⟨pre, e1, e2, e3⟩ := dropWhile_split hs
  simpa using e3

theorem uincr_spec {c : Chain} (h : c.Live) (o n : Nat) :
    (⟨o, c.suffixAt o⟩ : UIter).incr c n = .ok ⟨o + n, c.suffixAt (o + n)⟩ := by
  unfold UIter.incr
  split
  · rename_i hn; subst hn; rfl
  · obtain ⟨pre, hp⟩ := suffixAt_isSuffix c o
    split
    · rename_i k ks hs
      simp only at hs
      have hin := suffixAt_head hs
      split
      · rename_i hlt
        rw [Chunk.inRange_iff] at hin
        simp only at hlt
        rw [suffixAt_same h.inv hs (o' := o + n) (by rw [Chunk.inRange_iff]; omega)]
      · rw [hs] at hp
        rw [findFrom_eq h.inv h.isValid hp]; rfl
    · rename_i hs
      simp only at hs
      rw [hs] at hp
      rw [findFrom_eq h.inv h.isValid hp]; rfl

theorem udecr_spec {c : Chain} (h : c.Live) (o n : Nat) (hn : n ≤ o) :
    (⟨o, c.suffixAt o⟩ : UIter).decr c n = .ok ⟨o - n, c.suffixAt (o - n)⟩ := by
  unfold UIter.decr
  split
  · rename_i hn; subst hn; rfl
  · rw [if_neg (by simp only; omega)]
    obtain ⟨pre, hp⟩ := suffixAt_isSuffix c o
    split
    · rename_i k ks hs
      simp only at hs
      have hin := suffixAt_head hs
      split
      · rename_i hlt
        rw [Chunk.inRange_iff] at hin
        simp only at hlt
        rw [suffixAt_same h.inv hs (o' := o - n) (by rw [Chunk.inRange_iff]; omega)]
      · rw [hs] at hp
        rw [findFrom_eq h.inv h.isValid hp]; rfl
    · rename_i hs
      simp only at hs
      rw [hs] at hp
      rw [findFrom_eq h.inv h.isValid hp]; rfl

/-- A view that may be used right now: it starts inside (or after) the available range, it is not inverted, and its
    iterators are usable. -/
structure View.Good (v : View) (c : Chain) : Prop where
  begin : c.Usable v.begin
  start : c.headOffset ≤ v.begin.offset
  «end» : ∀ e, v.end = some e → c.Usable e ∧ v.begin.offset ≤ e.offset

namespace View

/-- The end offset of the view. -/
def endOff (v : View) (c : Chain) : Nat := match v.end with
  | some e => e.offset
  | none => c.stop

/-- Where the view's available data ends. -/
def lim (v : View) (c : Chain) : Nat := min (v.endOff c) c.stop

/-- The cells of the view. -/
def window (v : View) (c : Chain) : List Cell := c.abs.slice v.begin.offset (v.lim c)

theorem unsafeEnd_spec {v : View} {c : Chain} (h : c.Live) (g : v.Good c) :
    ∃ e, v.unsafeEnd c = .ok e ∧ e.offset = v.endOff c := by
  unfold unsafeEnd endOff
  cases he : v.end with
  | some e => exact ⟨_, ofSafe_spec h (g.end e he).1, rfl⟩
  | none =>
    simp only [h.isValid, if_true, endOffset_eq h.inv, Res.ok_bind]
    have : c.PtrOk c.tail := by
      intro p hp
      rw [h.inv.tail] at hp
      simp only [Option.map_eq_some_iff] at hp
      obtain ⟨k, hk, rfl⟩ := hp
      exact List.mem_map_of_mem (List.mem_of_getLast? hk)
    obtain ⟨pre, s, _, e2⟩ := resolve?_ok h.inv this
    rw [e2]
    exact ⟨_, rfl, rfl⟩

theorem eq_end {v : View} {c : Chain} (h : c.Live) {i e : UIter} (he : e.offset = v.endOff c)
    (hi : i.offset ≤ v.endOff c ∨ v.end = none) : i.eq c e = .ok (decide (v.lim c ≤ i.offset)) := by
  unfold UIter.eq
  rw [endOffset_eq h.inv, he]
  unfold lim
  have hs : v.end = none → v.endOff c = c.stop := by intro hn; simp [endOff, hn]
  split
  · rename_i heq
    congr 1
    simp only [true_eq_decide_iff]
    omega
  · rename_i hne
    simp only [Res.ok_bind]
    congr 1
    rw [Bool.eq_iff_iff]
    simp only [Bool.and_eq_true, decide_eq_true_eq]
    rcases hi with hi | hi
    · omega
    · have := hs hi; omega

/-- Comparing an iterator with the view's end. -/
theorem atEnd {β : Type} {v : View} {c : Chain} (h : c.Live) (g : v.Good c) {o : Nat} {sfx : List Chunk}
    (hi : o ≤ v.endOff c ∨ v.end = none) (f : UIter → Bool → Res β) :
    ∃ e, v.unsafeEnd c = .ok e ∧ e.offset = v.endOff c ∧
      ((do let e ← v.unsafeEnd c
           let b ← (⟨o, sfx⟩ : UIter).eq c e
           f e b) = f e (decide (v.lim c ≤ o))) := by
  obtain ⟨e, e1, e2⟩ := unsafeEnd_spec h g
  refine ⟨e, e1, e2, ?_⟩
  rw [e1]
  simp only [Res.ok_bind]
  rw [eq_end h e2 hi]; rfl

end View

theorem slice_nil {l : Log} {a b : Nat} (h : b ≤ a) : l.slice a b = [] := by
  unfold Log.slice; rw [show b - a = 0 by omega]; simp

theorem slice_length {l : Log} {a b : Nat} (h1 : l.start ≤ a) (h2 : b ≤ l.stop) : (l.slice a b).length = b - a := by
  unfold Log.slice; unfold Log.stop at h2
  simp only [List.length_take, List.length_drop]; omega

/-- Splitting the first cell off. -/
theorem slice_cons {l : Log} {a b : Nat} (h1 : l.start ≤ a) (h : a < b) (h2 : b ≤ l.stop) :
    ∃ x, l.get? a = some x ∧ l.slice a b = x :: l.slice (a + 1) b := by
  unfold Log.stop at h2
  have hl : a - l.start < l.cells.length := by omega
  refine ⟨l.cells[a - l.start], ?_, ?_⟩
  · unfold Log.get?; rw [if_neg (by omega)]; simp [hl]
  · unfold Log.slice
    rw [List.drop_eq_getElem_cons hl, show b - a = (b - (a + 1)) + 1 by omega, List.take_succ_cons,
      show a + 1 - l.start = a - l.start + 1 by omega]

/-- Dereferencing an unsafe iterator inside the available range. -/
theorem uderef_spec {c : Chain} (h : c.Live) {o : Nat} (h1 : c.headOffset ≤ o) (h2 : o < c.stop) :
    (⟨o, c.suffixAt o⟩ : UIter).deref = readLog c.abs o := by
  obtain ⟨pre, k, ks, e1, e2, e3⟩ := suffixAt_cons h.inv (Nat.le_trans (base_le h.inv) h1) h2
  unfold UIter.deref
  simp only [e2]
  rw [readAt_suffix h.inv e1 e3 h1]
  unfold readLog Log.get? abs
  have hs := stop_eq h.inv
  simp only [Nat.not_lt.2 h1, if_false]
  have : o - c.headOffset < c.content.length := by omega
  rw [List.getElem?_eq_getElem this]
  cases c.content[o - c.headOffset] <;> rfl

/-- Result of reading one cell. -/
def readCell : Cell → Res Byte
  | some b => .ok b
  | none => .throw .missingData

/-- One step through the window. -/
theorem step_window {c : Chain} (h : c.Live) {o l : Nat} (h1 : c.headOffset ≤ o) (h2 : o < l) (h3 : l ≤ c.stop) :
    ∃ x, c.abs.slice o l = x :: c.abs.slice (o + 1) l ∧ (⟨o, c.suffixAt o⟩ : UIter).deref = readCell x ∧
      c.abs.get? o = some x := by
  obtain ⟨x, e1, e2⟩ := slice_cons (l := c.abs) (a := o) (b := l) h1 h2 (by rw [stop_abs h.inv]; exact h3)
  refine ⟨x, e2, ?_, e1⟩
  rw [uderef_spec h h1 (by omega)]
  unfold readLog
  rw [e1]
  cases x <;> rfl

theorem foldl_endOffset (ks : List Chunk) (n : Nat) :
    n ≤ ks.foldl (fun n k => n + k.endOffset) n ∧ ∀ k ∈ ks, k.endOffset ≤ ks.foldl (fun n k => n + k.endOffset) n := by
  induction ks generalizing n with
  | nil => simp
  | cons k ks ih =>
    simp only [List.foldl_cons, List.mem_cons, forall_eq_or_imp]
    have := ih (n + k.endOffset)
    exact ⟨by omega, by omega, this.2⟩

theorem stop_le_fuel {c : Chain} (h : c.Inv) : c.stop ≤ c.chunks.foldl (fun n k => n + k.endOffset) 0 ∨ c.stop = c.headOffset := by
  rcases List.eq_nil_or_concat c.chunks with hc | ⟨pre, k, hc⟩
  · right; simp [stop, base, hc]
  · left
    rw [List.concat_eq_append] at hc
    have := (foldl_endOffset c.chunks 0).2 k (by rw [hc]; simp)
    have e := endOffset_eq h
    unfold endOffset at e
    rw [h.tail, hc, List.getLast?_concat] at e
    simp only [Option.map_some, resolve?, resolve_last h hc, Res.ok_bind] at e
    injection e with e
    omega

theorem fuel_spec {c : Chain} (h : c.Inv) (v : View) (hs : c.headOffset ≤ v.begin.offset) :
    c.stop + 2 ≤ v.fuel c ∧ v.begin.offset + 2 ≤ v.fuel c := by
  unfold View.fuel
  rcases stop_le_fuel h with h' | h'
  · omega
  · omega

theorem lim_le (v : View) (c : Chain) : v.lim c ≤ c.stop := Nat.min_le_right _ _
theorem lim_le_end (v : View) (c : Chain) : v.lim c ≤ v.endOff c := Nat.min_le_left _ _

theorem View.Good.endOff {v : View} {c : Chain} (g : v.Good c) : v.begin.offset ≤ v.endOff c ∨ v.end = none := by
  cases he : v.end with
  | none => right; rfl
  | some e => left; unfold View.endOff; rw [he]; exact (g.end e he).2

namespace View

theorem ensureValid_ok {v : View} {c : Chain} (h : c.Live) (g : v.Good c) : v.ensureValid c = .ok () := by
  unfold ensureValid
  rw [if_pos h.isValid, if_neg (by have := g.start; omega)]

theorem unsafeBegin_spec {v : View} {c : Chain} (h : c.Live) (g : v.Good c) :
    v.unsafeBegin c = .ok ⟨v.begin.offset, c.suffixAt v.begin.offset⟩ := ofSafe_spec h g.begin

theorem tail_endOffset {c : Chain} (h : c.Inv) :
    (c.resolve? c.tail = .ok [] ∧ c.chunks = []) ∨ ∃ t ts, c.resolve? c.tail = .ok (t :: ts) ∧ t.endOffset = c.stop := by
  have e := endOffset_eq h
  unfold endOffset at e
  rw [h.tail] at e ⊢
  rcases List.eq_nil_or_concat c.chunks with hc | ⟨pre, k, hc⟩
  · left; simp [hc, resolve?]
  · right
    rw [List.concat_eq_append] at hc
    rw [hc, List.getLast?_concat] at e ⊢
    simp only [Option.map_some, resolve?, resolve_last h hc, Res.ok_bind] at e ⊢
    injection e with e
    exact ⟨k, [], rfl, e⟩

theorem window_length {v : View} {c : Chain} (h : c.Live) (g : v.Good c) :
    (v.window c).length = v.lim c - v.begin.offset :=
  slice_length g.start (by rw [stop_abs h.inv]; exact lim_le v c)

theorem size_spec {v : View} {c : Chain} (h : c.Live) (g : v.Good c) : v.size c = .ok (v.window c).length := by
  rw [window_length h g]
  unfold size lim endOff
  have hst := g.start
  rcases tail_endOffset h.inv with ⟨e1, e2⟩ | ⟨t, ts, e1, e2⟩
  · rw [e1]
    simp only [Res.ok_bind]
    have : c.stop = c.headOffset := by simp [stop, base, e2]
    congr 1; omega
  · rw [e1]
    simp only [Res.ok_bind, e2]
    split
    · congr 1; omega
    · cases he : v.end with
      | none => simp
      | some e =>
        simp only
        split
        · congr 1; omega
        · congr 1; split <;> omega

/-- Byte search is `firstByte` of the window. -/
theorem findByteLoop_spec {v : View} {c : Chain} (h : c.Live) (g : v.Good c) (b : Byte) (f o : Nat)
    (h1 : c.headOffset ≤ o) (h2 : o ≤ v.endOff c ∨ v.end = none) (hf : v.lim c - o < f) :
    match firstByte b (c.abs.slice o (v.lim c)) with
    | .ok (some p) => v.findByteLoop c b f ⟨o, c.suffixAt o⟩ = .ok ⟨o + p, c.suffixAt (o + p)⟩
    | .ok none => ∃ e, v.findByteLoop c b f ⟨o, c.suffixAt o⟩ = .ok e ∧ e.offset = v.endOff c
    | .throw x => v.findByteLoop c b f ⟨o, c.suffixAt o⟩ = .throw x
    | .ub => False := by
  induction f generalizing o with
  | zero => omega
  | succ f ih =>
    obtain ⟨e, e1, e2⟩ := unsafeEnd_spec h g
    unfold findByteLoop
    simp only [e1, Res.ok_bind, eq_end h e2 (i := ⟨o, c.suffixAt o⟩) h2]
    by_cases hl : v.lim c ≤ o
    · rw [slice_nil hl]
      simp only [firstByte, hl, decide_true, if_true]
      exact ⟨e, rfl, e2⟩
    · obtain ⟨x, w1, w2, _⟩ := step_window h h1 (by omega : o < v.lim c) (lim_le v c)
      rw [w1]
      simp only [hl, decide_false, Bool.false_eq_true, if_false, w2]
      cases x with
      | none => simp [firstByte, readCell]
      | some y =>
        simp only [firstByte, readCell, Res.ok_bind]
        by_cases hy : y = b
        · simp [hy]
        · simp only [hy, if_false, uincr_spec h, Res.ok_bind]
          have hle := lim_le_end v c
          have := ih (o + 1) (by omega) (Or.inl (by omega)) (by omega)
          revert this
          rcases firstByte b (c.abs.slice (o + 1) (v.lim c)) with (_ | p) | _ | _
          · exact id
          · simp only [Option.map_some]
            rw [show o + (p + 1) = o + 1 + p by omega]; exact id
          · exact id
          · exact id

end View

/-! ## Searching, on lists of cells -/

open View (Inner)

/-- The inner loop on cells. -/
def matchCells : List Byte → List Cell → Res Inner
  | [], _ => .ub
  | _ :: _, [] => .ok .atEnd
  | _ :: _, none :: _ => .throw .missingData
  | y :: ys, some b :: r => if b ≠ y then .ok .mismatch else if ys = [] then .ok .found else matchCells ys r

/-- Moving a search result one position on. -/
def shift : Res (Bool × Nat) → Res (Bool × Nat)
  | .ok (f, p) => .ok (f, p + 1)
  | e => e

/-- The outer loop on cells. -/
def searchCells (needle : List Byte) : List Cell → Res (Bool × Nat)
  | [] => .ok (false, 0)
  | none :: _ => .throw .missingData
  | some b :: r =>
    if some b ≠ needle.head? then shift (searchCells needle r)
    else match matchCells needle (some b :: r) with
      | .ok .atEnd => .ok (false, 0)
      | .ok .found => .ok (true, 0)
      | .ok .mismatch => shift (searchCells needle r)
      | .throw e => .throw e
      | .ub => .ub

namespace View

theorem matchLoop_spec {v : View} {c : Chain} (h : c.Live) (g : v.Good c) (needle : List Byte) (o : Nat)
    (h1 : c.headOffset ≤ o) (h2 : o ≤ v.endOff c ∨ v.end = none) :
    v.matchLoop c needle ⟨o, c.suffixAt o⟩ = matchCells needle (c.abs.slice o (v.lim c)) := by
  induction needle generalizing o with
  | nil => rfl
  | cons y ys ih =>
    obtain ⟨e, e1, e2⟩ := unsafeEnd_spec h g
    unfold matchLoop
    simp only [e1, Res.ok_bind, eq_end h e2 (i := ⟨o, c.suffixAt o⟩) h2]
    by_cases hl : v.lim c ≤ o
    · rw [slice_nil hl]
      simp [matchCells, hl]
    · obtain ⟨x, w1, w2, _⟩ := step_window h h1 (by omega : o < v.lim c) (lim_le v c)
      rw [w1]
      simp only [hl, decide_false, Bool.false_eq_true, if_false, w2]
      have hle := lim_le_end v c
      cases x with
      | none => simp [matchCells, readCell]
      | some b =>
        simp only [matchCells, readCell, Res.ok_bind, uincr_spec h]
        rw [ih (o + 1) (by omega) (Or.inl (by omega))]

theorem findLoop_spec {v : View} {c : Chain} (h : c.Live) (g : v.Good c) (needle : List Byte) (f o : Nat)
    (h1 : c.headOffset ≤ o) (h2 : o ≤ v.endOff c ∨ v.end = none) (hf : v.lim c - o < f) :
    v.findLoop c needle f ⟨o, c.suffixAt o⟩ = match searchCells needle (c.abs.slice o (v.lim c)) with
    | .ok (fd, p) => .ok (fd, ⟨o + p, c.suffixAt (o + p)⟩)
    | .throw e => .throw e
    | .ub => .ub := by
  induction f generalizing o with
  | zero => omega
  | succ f ih =>
    obtain ⟨e, e1, e2⟩ := unsafeEnd_spec h g
    unfold findLoop
    simp only [e1, Res.ok_bind, eq_end h e2 (i := ⟨o, c.suffixAt o⟩) h2]
    by_cases hl : v.lim c ≤ o
    · rw [slice_nil hl]
      simp [searchCells, hl]
    · obtain ⟨x, w1, w2, _⟩ := step_window h h1 (by omega : o < v.lim c) (lim_le v c)
      rw [w1]
      simp only [hl, decide_false, Bool.false_eq_true, if_false, w2]
      have hle := lim_le_end v c
      have next : v.findLoop c needle f ⟨o + 1, c.suffixAt (o + 1)⟩ =
          match shift (searchCells needle (c.abs.slice (o + 1) (v.lim c))) with
          | .ok (fd, p) => .ok (fd, ⟨o + p, c.suffixAt (o + p)⟩)
          | .throw e => .throw e
          | .ub => .ub := by
        rw [ih (o + 1) (by omega) (Or.inl (by omega)) (by omega)]
        rcases searchCells needle (c.abs.slice (o + 1) (v.lim c)) with ⟨fd, p⟩ | _ | _
        · simp only [shift]; rw [show o + (p + 1) = o + 1 + p by omega]
        · rfl
        · rfl
      cases x with
      | none => simp [searchCells, readCell]
      | some b =>
        simp only [searchCells, readCell, Res.ok_bind, uincr_spec h]
        by_cases hb : some b ≠ needle.head?
        · rw [if_pos hb, if_pos hb]; exact next
        · rw [if_neg hb, if_neg hb, matchLoop_spec h g needle o h1 h2, w1]
          rcases matchCells needle (some b :: c.abs.slice (o + 1) (v.lim c)) with (_ | _ | _) | _ | _
          · rfl
          · exact next
          · rfl
          · rfl
          · rfl

end View

/-- What the end of a run of data does to a match that needs more. -/
def ending : List Cell → Res Inner
  | [] => .ok .atEnd
  | _ => .throw .missingData

/-- A tail of a window after a run of data: nothing or a gap. -/
def GapTail (t : List Cell) : Prop := t = [] ∨ ∃ r, t = none :: r

theorem matchCells_spec {needle : List Byte} (hn : needle ≠ []) (bs : List Byte) {t : List Cell} (ht : GapTail t) :
    matchCells needle (bs.map some ++ t) =
      if needle <+: bs then .ok .found else if bs <+: needle then ending t else .ok .mismatch := by
  induction needle generalizing bs with
  | nil => exact absurd rfl hn
  | cons y ys ih =>
    cases bs with
    | nil =>
      rcases ht with rfl | ⟨r, rfl⟩
      · simp [matchCells, ending]
      · simp [matchCells, ending]
    | cons b bs =>
      simp only [List.map_cons, List.cons_append, matchCells, List.cons_prefix_cons]
      by_cases hb : b = y
      · subst hb
        simp only [ne_eq, not_true, if_false, true_and]
        by_cases hy : ys = []
        · subst hy; simp
        · rw [if_neg hy, ih hy]
      · have : ¬ y = b := fun e => hb e.symm
        simp [hb, this]

/-- Result of a search of data `bs` followed by nothing or a gap. -/
def SearchResult (needle bs : List Byte) (t : List Cell) : Prop :=
    (∃ p, searchCells needle (bs.map some ++ t) = .ok (true, p) ∧ OccursAt needle bs p ∧ ∀ q < p, ¬ OccursAt needle bs q) ∨
    (t = [] ∧ (∃ p, searchCells needle (bs.map some ++ t) = .ok (false, p) ∧ p ≤ bs.length ∧ (∀ q, ¬ OccursAt needle bs q) ∧
      PartialAt needle bs p ∧ ∀ q < p, ¬ PartialAt needle bs q)) ∨
    (t ≠ [] ∧ searchCells needle (bs.map some ++ t) = .throw .missingData ∧ ∀ q, ¬ OccursAt needle bs q)

theorem searchCells_spec {needle : List Byte} (hn : needle ≠ []) (bs : List Byte) {t : List Cell} (ht : GapTail t) :
    SearchResult needle bs t := by
  induction bs with
  | nil =>
    rcases ht with rfl | ⟨r, rfl⟩
    · right; left
      refine ⟨rfl, 0, rfl, by simp, ?_, ?_, ?_⟩
      · intro q hq; unfold OccursAt at hq; simp at hq; exact hn hq
      · unfold PartialAt; simp; exact List.length_pos_iff.2 hn
      · intro q hq; omega
    · right; right
      refine ⟨by simp, rfl, ?_⟩
      intro q hq; unfold OccursAt at hq; simp at hq; exact hn hq
  | cons b bs ih =>
    have o0 : OccursAt needle (b :: bs) 0 ↔ needle <+: b :: bs := by simp [OccursAt]
    have oS : ∀ q, OccursAt needle (b :: bs) (q + 1) ↔ OccursAt needle bs q := by intro q; simp [OccursAt]
    have p0 : PartialAt needle (b :: bs) 0 ↔ b :: bs <+: needle ∧ (b :: bs).length < needle.length := by
      simp [PartialAt]
    have pS : ∀ q, PartialAt needle (b :: bs) (q + 1) ↔ PartialAt needle bs q := by intro q; simp [PartialAt]
    -- the case in which the search moves on
    have next : searchCells needle (some b :: (bs.map some ++ t)) = shift (searchCells needle (bs.map some ++ t)) →
        ¬ OccursAt needle (b :: bs) 0 → ¬ PartialAt needle (b :: bs) 0 → SearchResult needle (b :: bs) t := fun e no np => by
      unfold SearchResult
      rw [List.map_cons, List.cons_append, e]
      rcases ih with ⟨p, i1, i2, i3⟩ | ⟨i0, p, i1, i1', i2, i3, i4⟩ | ⟨i0, i1, i2⟩
      · left
        refine ⟨p + 1, by rw [i1]; rfl, (oS p).2 i2, ?_⟩
        intro q hq
        cases q with
        | zero => exact no
        | succ q => rw [oS]; exact i3 q (by omega)
      · right; left
        refine ⟨i0, p + 1, by rw [i1]; rfl, by simp; omega, ?_, (pS p).2 i3, ?_⟩
        · intro q
          cases q with
          | zero => exact no
          | succ q => rw [oS]; exact i2 q
        · intro q hq
          cases q with
          | zero => exact np
          | succ q => rw [pS]; exact i4 q (by omega)
      · right; right
        refine ⟨i0, by rw [i1]; rfl, ?_⟩
        intro q
        cases q with
        | zero => exact no
        | succ q => rw [oS]; exact i2 q
    by_cases hb : some b = needle.head?
    · have hm := matchCells_spec hn (b :: bs) ht
      rw [List.map_cons, List.cons_append] at hm
      by_cases hf : needle <+: b :: bs
      · left
        rw [if_pos hf] at hm
        refine ⟨0, ?_, o0.2 hf, by intro q hq; omega⟩
        rw [List.map_cons, List.cons_append, searchCells, if_neg (by simpa using hb), hm]
      · rw [if_neg hf] at hm
        by_cases hp : b :: bs <+: needle
        · rw [if_pos hp] at hm
          have hlen : (b :: bs).length < needle.length := by
            rcases Nat.lt_or_ge (b :: bs).length needle.length with h | h
            · exact h
            · exfalso; apply hf
              have := hp.eq_of_length_le h
              rw [this]; exact List.prefix_rfl
          have noOcc : ∀ q, ¬ OccursAt needle (b :: bs) q := by
            intro q hq
            have := hq.length_le
            simp only [List.length_drop] at this
            omega
          rcases ht with rfl | ⟨r, rfl⟩
          · right; left
            refine ⟨rfl, 0, ?_, by omega, noOcc, p0.2 ⟨hp, hlen⟩, by intro q hq; omega⟩
            rw [List.map_cons, List.cons_append, searchCells, if_neg (by simpa using hb), hm]; rfl
          · right; right
            refine ⟨by simp, ?_, noOcc⟩
            rw [List.map_cons, List.cons_append, searchCells, if_neg (by simpa using hb), hm]; rfl
        · rw [if_neg hp] at hm
          apply next
          · rw [searchCells, if_neg (by simpa using hb), hm]
          · rw [o0]; exact hf
          · rw [p0]; exact fun h => hp h.1
    · apply next
      · rw [searchCells, if_pos hb]
      · rw [o0]
        intro h
        cases needle with
        | nil => exact hn rfl
        | cons y ys => rw [List.cons_prefix_cons] at h; exact hb (by simp [h.1])
      · rw [p0]
        intro h
        cases needle with
        | nil => exact hn rfl
        | cons y ys => rw [List.cons_prefix_cons] at h; exact hb (by simp [h.1.1])

end Verif.Stream
