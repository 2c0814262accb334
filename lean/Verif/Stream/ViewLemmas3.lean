import Verif.Stream.ViewLemmas2

namespace Verif.Stream
open Chain

namespace View

/-! ## Blocks -/

/-- Visiting all blocks: `for ( b = firstBlock(); b; b = nextBlock(b) )`. -/
def blocksLoop (v : View) (c : Chain) : Nat → Option Block → Res (List Block)
  | _, none => .ok []
  | 0, some _ => .ub
  | f + 1, some b => do
    let n ← v.nextBlock c b
    let r ← v.blocksLoop c f n
    .ok (b :: r)

/-- All blocks of a view. -/
def blocks (v : View) (c : Chain) : Res (List Block) := do
  let b ← v.firstBlock c
  v.blocksLoop c (c.chunks.length + 1) b

theorem dataLoop_eq (v : View) (c : Chain) (f : Nat) (b : Option Block) :
    v.dataLoop c f b = (do
      let r ← v.blocksLoop c f b
      .ok (r.flatMap (·.bytes))) := by
  induction f generalizing b with
  | zero => cases b <;> simp [dataLoop, blocksLoop]
  | succ f ih =>
    cases b with
    | none => simp [dataLoop, blocksLoop]
    | some b =>
      simp only [dataLoop, blocksLoop]
      cases v.nextBlock c b with
      | throw e => rfl
      | ub => rfl
      | ok n =>
        simp only [Res.ok_bind]
        rw [ih]
        cases v.blocksLoop c f n <;> simp

theorem data_eq (v : View) (c : Chain) : v.data c = (do
      let r ← v.blocks c
      .ok (r.flatMap (·.bytes))) := by
  unfold data blocks
  cases v.firstBlock c with
  | throw e => rfl
  | ub => rfl
  | ok b => simp only [Res.ok_bind]; rw [dataLoop_eq]

/-- Blocks that follow each other from offset `o` on, none of them empty, with only the last one marked as such. -/
def BlocksFrom : Nat → List Block → Prop
  | _, [] => True
  | o, b :: r => b.offset = o ∧ b.bytes ≠ [] ∧ (b.isLast = true ↔ r = []) ∧ BlocksFrom (o + b.bytes.length) r

theorem blockAt_spec {v : View} {c : Chain} (h : c.Live) {pre ks : List Chunk} {k : Chunk}
    (hc : c.chunks = pre ++ k :: ks) {o : Nat} (h1 : k.offset ≤ o) (h2 : o < k.endOffset) (hh : c.headOffset ≤ o)
    (hl : o < v.lim c) (first : Bool) :
    (∃ bs t, v.blockAt c k ks o first = .ok ⟨bs, o, first, t.isEmpty, t⟩ ∧ bs ≠ [] ∧
      ((t = [] ∧ c.abs.slice o (v.lim c) = bs.map some) ∨
       (∃ k' r, t = k' :: r ∧ ks = t ∧ k.endOffset < v.lim c ∧ o + bs.length = k.endOffset ∧
         c.abs.slice o (v.lim c) = bs.map some ++ c.abs.slice k.endOffset (v.lim c)))) ∨
    (v.blockAt c k ks o first = .throw .missingData ∧ bytesOf (c.abs.slice o (v.lim c)) = .throw .missingData) := by
  have hce := chunk_end_le h.inv hc
  have hlim : v.lim c = min (v.endOff c) c.stop := rfl
  have hlast : v.isLastBlock k ks = true ↔ v.lim c ≤ k.endOffset := by
    unfold isLastBlock
    rw [hlim]
    have hks : ks = [] ∨ k.endOffset < c.stop := by
      cases ks with
      | nil => left; rfl
      | cons k' r =>
        right
        have := (next_offset h.inv hc).2
        simp only [rawCells_cons, List.length_append, Chunk.length_cells] at hce
        omega
    unfold endOff
    cases he : v.end with
    | none =>
      simp only [Bool.or_false, List.isEmpty_iff]
      constructor
      · rintro rfl; simp at hce; omega
      · intro hx; rcases hks with h | h
        · exact h
        · simp at hx; omega
    | some e =>
      simp only [Bool.or_eq_true, List.isEmpty_iff, decide_eq_true_eq]
      constructor
      · rintro (rfl | hx)
        · simp at hce; omega
        · omega
      · intro hx; rcases hks with h | h
        · left; exact h
        · right; omega
  have hn : v.blockSize c k o (v.isLastBlock k ks) = .ok (min (v.lim c) k.endOffset - o) := by
    unfold blockSize
    cases he : v.end with
    | none =>
      simp only
      have : v.lim c = c.stop := by rw [hlim]; unfold endOff; rw [he]; simp
      rw [this, Nat.min_eq_right (by omega)]
    | some e =>
      have hee : v.lim c = min e.offset c.stop := by rw [hlim]; unfold endOff; rw [he]
      simp only
      split
      · rename_i hx
        rw [hlast] at hx
        rw [endOffset_eq h.inv]
        simp only [Res.ok_bind]
        rw [← hee]
        congr 1; omega
      · rename_i hx
        rw [hlast] at hx
        congr 1; omega
  unfold blockAt
  rw [hn]
  simp only [Res.ok_bind, blockBytes]
  have hsz : k.endOffset = k.offset + k.size := rfl
  cases hp : k.payload with
  | gap m =>
    right
    simp only [Res.throw_bind, true_and]
    have hcells : k.cells = List.replicate m none := by unfold Chunk.cells; rw [hp]
    have hm : k.size = m := by unfold Chunk.size; rw [hp]
    by_cases hx : v.lim c ≤ k.endOffset
    · rw [slice_in_chunk h.inv hc h1 (by omega) hh hx, hcells, List.drop_replicate, List.take_replicate]
      have := bytesOf_gap (min (v.lim c - o) (m - (o - k.offset))) [] (by omega)
      simpa using this
    · rw [slice_chunk h.inv hc h1 (by omega) hh (by omega), hcells, List.drop_replicate]
      exact bytesOf_gap _ _ (by omega)
  | data bs =>
    left
    have hcells : k.cells = bs.map some := by unfold Chunk.cells; rw [hp]
    have hm : k.size = bs.length := by unfold Chunk.size; rw [hp]
    simp only
    rw [if_pos ⟨h1, by omega⟩]
    simp only [Res.ok_bind]
    by_cases hx : v.lim c ≤ k.endOffset
    · refine ⟨(bs.drop (o - k.offset)).take (min (v.lim c) k.endOffset - o), [], ?_, ?_, Or.inl ⟨rfl, ?_⟩⟩
      · rw [hlast.2 hx]; simp
      · intro h0
        have := congrArg List.length h0
        simp at this; omega
      · rw [slice_in_chunk h.inv hc h1 (by omega) hh hx, hcells, List.map_take, List.map_drop, Nat.min_eq_left hx]
    · have hf : v.isLastBlock k ks = false := by
        rw [← Bool.not_eq_true, hlast]; exact hx
      rw [hf]
      refine ⟨(bs.drop (o - k.offset)).take (min (v.lim c) k.endOffset - o), ks, ?_, ?_, ?_⟩
      · have : ks.isEmpty = false := by
          cases hke : ks.isEmpty
          · rfl
          · unfold isLastBlock at hf; rw [hke] at hf; simp at hf
        simp [this]
      · intro h0
        have := congrArg List.length h0
        simp at this; omega
      · right
        cases ks with
        | nil => simp [isLastBlock] at hf
        | cons k' r =>
          refine ⟨k', r, rfl, rfl, by omega, ?_, ?_⟩
          · simp; omega
          · rw [slice_chunk h.inv hc h1 (by omega) hh (by omega), hcells, Nat.min_eq_right (by omega),
              List.take_of_length_le (by simp; omega), List.map_drop]

theorem blocksLoop_spec {v : View} {c : Chain} (h : c.Live) (g : v.Good c) (f : Nat) (ks pre : List Chunk) (k : Chunk)
    (hc : c.chunks = pre ++ k :: ks) (o : Nat) (h1 : k.offset ≤ o) (h2 : o < k.endOffset) (hh : c.headOffset ≤ o)
    (hl : o < v.lim c) (first : Bool) (hf : ks.length < f) :
    match bytesOf (c.abs.slice o (v.lim c)) with
    | .ok bs => ∃ b bl, v.blockAt c k ks o first = .ok b ∧ v.blocksLoop c f (some b) = .ok bl ∧
        bl.flatMap (·.bytes) = bs ∧ BlocksFrom o bl ∧ bl ≠ []
    | .throw e => (do let b ← v.blockAt c k ks o first
                      v.blocksLoop c f (some b)) = .throw e
    | .ub => False := by
  induction f generalizing ks pre k o first with
  | zero => omega
  | succ f ih =>
    rcases blockAt_spec (v := v) h hc h1 h2 hh hl first with ⟨bs, t, e1, e2, e3⟩ | ⟨e1, e2⟩
    · rcases e3 with ⟨rfl, e4⟩ | ⟨k', r, rfl, hks, e4, e5, e6⟩
      · rw [e4, bytesOf_map]
        refine ⟨_, [⟨bs, o, first, true, []⟩], e1, ?_, by simp, ?_, by simp⟩
        · simp only [blocksLoop, nextBlock, ensureValid_ok h g, Res.ok_bind]; rfl
        · simp only [BlocksFrom]; exact ⟨trivial, e2, by simp, trivial⟩
      · subst hks
        have hn := next_offset h.inv hc
        have := ih r (pre ++ [k]) k' (by rw [hc]; simp) k.endOffset (by omega)
          (by unfold Chunk.endOffset at *; omega) (by omega) e4 false (by simp at hf; omega)
        rw [e6, bytesOf_data]
        have nb : v.nextBlock c ⟨bs, o, first, (k' :: r).isEmpty, k' :: r⟩ = (do
            let b ← v.blockAt c k' r k.endOffset false
            .ok (some b)) := by
          simp only [nextBlock, ensureValid_ok h g, Res.ok_bind, hn.1]
        revert this
        cases bytesOf (c.abs.slice k.endOffset (v.lim c)) with
        | ub => exact id
        | throw x =>
          simp only [Res.throw_bind, e1, Res.ok_bind]
          intro this
          unfold blocksLoop
          rw [nb]
          revert this
          cases v.blockAt c k' r k.endOffset false with
          | throw y => simp
          | ub => simp
          | ok b =>
            simp only [Res.ok_bind]
            intro hb; rw [hb]; rfl
        | ok bs' =>
          simp only [Res.ok_bind]
          rintro ⟨b, bl, b1, b2, b3, b4, b5⟩
          refine ⟨_, ⟨bs, o, first, false, k' :: r⟩ :: bl, e1, ?_, ?_, ?_, by simp⟩
          · show blocksLoop v c (f + 1) (some ⟨bs, o, first, (k' :: r).isEmpty, k' :: r⟩) = _
            unfold blocksLoop
            rw [nb, b1]
            simp only [Res.ok_bind]
            rw [b2]; rfl
          · simp [b3]
          · simp only [BlocksFrom]
            refine ⟨trivial, e2, by simp [b5], ?_⟩
            rw [e5]; exact b4
    · rw [e2, e1]; rfl

theorem blocks_spec {v : View} {c : Chain} (h : c.Live) (g : v.Good c) :
    match bytesOf (v.window c) with
    | .ok bs => ∃ bl, v.blocks c = .ok bl ∧ bl.flatMap (·.bytes) = bs ∧ BlocksFrom v.begin.offset bl
    | .throw e => v.blocks c = .throw e
    | .ub => False := by
  unfold blocks firstBlock
  obtain ⟨e, e1, e2⟩ := unsafeEnd_spec h g
  rw [ensureValid_ok h g, unsafeBegin_spec h g, e1]
  simp only [Res.ok_bind, eq_end h e2 (i := ⟨v.begin.offset, c.suffixAt v.begin.offset⟩) g.endOff]
  have hst := g.start
  by_cases hl : v.lim c ≤ v.begin.offset
  · unfold window
    rw [slice_nil hl]
    simp only [bytesOf, hl, decide_true, if_true, Res.ok_bind]
    exact ⟨[], rfl, rfl, trivial⟩
  · have hlm := lim_le v c
    obtain ⟨pre, k, ks, s1, s2, s3⟩ := suffixAt_cons h.inv (o := v.begin.offset) (Nat.le_trans (base_le h.inv) hst) (by omega)
    simp only [hl, decide_false, Bool.false_eq_true, if_false, s2]
    rw [← s2, findFrom_eq h.inv h.isValid (pre := pre) (by rw [s1, s2]), s2]
    simp only [Res.ok_bind]
    rw [Chunk.inRange_iff] at s3
    have := blocksLoop_spec h g (c.chunks.length + 1) ks pre k s1 v.begin.offset s3.1 s3.2 hst (by omega) true
      (by rw [s1]; simp; omega)
    revert this
    unfold window
    cases bytesOf (c.abs.slice v.begin.offset (v.lim c)) with
    | ub => exact id
    | throw x =>
      simp only
      cases v.blockAt c k ks v.begin.offset true <;> simp
    | ok bs =>
      rintro ⟨b, bl, b1, b2, b3, b4, _⟩
      refine ⟨bl, ?_, b3, b4⟩
      rw [b1]; simpa using b2

theorem data_spec {v : View} {c : Chain} (h : c.Live) (g : v.Good c) : v.data c = bytesOf (v.window c) := by
  rw [data_eq]
  have := blocks_spec h g
  revert this
  cases bytesOf (v.window c) with
  | ub => intro h; exact h.elim
  | throw e => intro h; simp only at h; rw [h]; rfl
  | ok bs => rintro ⟨bl, b1, b2, _⟩; rw [b1]; simp [b2]

/-! ## Searching for a view -/

theorem matchViewLoop_spec {v w : View} {c d : Chain} (h : c.Live) (g : v.Good c) (h' : d.Live) (g' : w.Good d)
    (f : Nat) (ns : List Byte) (o p : Nat) (hn : ns ≠ []) (hw : d.abs.slice p (w.lim d) = ns.map some)
    (h1 : c.headOffset ≤ o) (h2 : o ≤ v.endOff c ∨ v.end = none) (h3 : d.headOffset ≤ p)
    (hf : ns.length ≤ f) :
    v.matchViewLoop c w d f ⟨o, c.suffixAt o⟩ ⟨p, d.suffixAt p⟩ = matchCells ns (c.abs.slice o (v.lim c)) := by
  induction ns generalizing o p f with
  | nil => exact absurd rfl hn
  | cons y ys ih =>
    cases f with
    | zero => simp at hf
    | succ f =>
      obtain ⟨e, e1, e2⟩ := unsafeEnd_spec h g
      obtain ⟨e', e1', e2'⟩ := unsafeEnd_spec h' g'
      have hlm' := lim_le w d
      have hle' := lim_le_end w d
      have hlen : w.lim d - p = ys.length + 1 := by
        have := congrArg List.length hw
        rw [slice_length (by exact h3) (by rw [stop_abs h'.inv]; exact hlm')] at this
        simpa using this
      obtain ⟨z, u1, u2, u3⟩ := step_window h' h3 (by omega : p < w.lim d) hlm'
      rw [hw] at u1
      simp only [List.map_cons, List.cons.injEq] at u1
      obtain ⟨hz, u1⟩ := u1
      subst hz
      unfold matchViewLoop
      simp only [e1, Res.ok_bind, eq_end h e2 (i := ⟨o, c.suffixAt o⟩) h2]
      by_cases hl : v.lim c ≤ o
      · rw [slice_nil hl]; simp [matchCells, hl]
      · obtain ⟨x, w1, w2, _⟩ := step_window h h1 (by omega : o < v.lim c) (lim_le v c)
        have hle := lim_le_end v c
        rw [w1]
        simp only [hl, decide_false, Bool.false_eq_true, if_false, w2, u2]
        cases x with
        | none => simp [matchCells, readCell]
        | some b =>
          simp only [matchCells, readCell, Res.ok_bind, uincr_spec h, uincr_spec h', e1']
          by_cases hb : b = y
          · simp only [hb, ne_eq, not_true, if_false]
            rw [eq_end h' e2' (i := ⟨p + 1, d.suffixAt (p + 1)⟩) (Or.inl (by simp only; omega))]
            simp only [Res.ok_bind]
            by_cases hy : ys = []
            · subst hy
              simp at hlen
              have : w.lim d ≤ p + 1 := by omega
              simp [this]
            · have hpos := List.length_pos_iff.2 hy
              have : ¬ w.lim d ≤ p + 1 := by omega
              simp only [this, decide_false, Bool.false_eq_true, if_false, hy]
              exact ih f (o + 1) (p + 1) hy u1.symm (by omega) (Or.inl (by omega)) (by omega) (by simp at hf; omega)
          · simp [hb]

theorem findViewLoop_spec {v w : View} {c d : Chain} (h : c.Live) (g : v.Good c) (h' : d.Live) (g' : w.Good d)
    (y : Byte) (ys : List Byte) (hw : w.window d = (y :: ys).map some) (f o : Nat)
    (h1 : c.headOffset ≤ o) (h2 : o ≤ v.endOff c ∨ v.end = none) (hf : v.lim c - o < f) :
    v.findViewLoop c w d y f ⟨o, c.suffixAt o⟩ = v.findLoop c (y :: ys) f ⟨o, c.suffixAt o⟩ := by
  induction f generalizing o with
  | zero => omega
  | succ f ih =>
    obtain ⟨e, e1, e2⟩ := unsafeEnd_spec h g
    unfold findLoop findViewLoop
    simp only [e1, Res.ok_bind, eq_end h e2 (i := ⟨o, c.suffixAt o⟩) h2]
    by_cases hl : v.lim c ≤ o
    · simp [hl]
    · obtain ⟨x, w1, w2, _⟩ := step_window h h1 (by omega : o < v.lim c) (lim_le v c)
      have hle := lim_le_end v c
      simp only [hl, decide_false, Bool.false_eq_true, if_false, w2]
      cases x with
      | none => rfl
      | some b =>
        simp only [readCell, Res.ok_bind, uincr_spec h, List.head?_cons, ne_eq, Option.some.injEq]
        have next := ih (o + 1) (by omega) (Or.inl (by omega)) (by omega)
        by_cases hb : b = y
        · have fu := fuel_spec h'.inv w g'.start
          have hwl := window_length h' g'
          rw [hw] at hwl
          have hlm' := lim_le w d
          rw [if_neg (by simpa using hb), if_neg (by simpa using hb), unsafeBegin_spec h' g']
          simp only [Res.ok_bind]
          rw [matchViewLoop_spec h g h' g' (w.fuel d) (y :: ys) o w.begin.offset (by simp) hw h1 h2 g'.start
            (by simp at hwl ⊢; omega), matchLoop_spec h g (y :: ys) o h1 h2]
          rcases matchCells (y :: ys) (c.abs.slice o (v.lim c)) with (_ | _ | _) | _ | _ <;>
            simp only [Res.ok_bind, Res.throw_bind, Res.ub_bind, next]
        · rw [if_pos (by simpa using hb), if_pos (by simpa using hb)]; exact next

theorem find_spec {v : View} {c : Chain} (h : c.Live) (g : v.Good c) {needle : List Byte} (hn : needle ≠ []) :
    v.find c needle = match searchCells needle (v.window c) with
    | .ok (fd, p) => .ok (fd, ⟨v.begin.offset + p, c.suffixAt (v.begin.offset + p)⟩)
    | .throw e => .throw e
    | .ub => .ub := by
  unfold find findForward
  rw [ensureValid_ok h g, unsafeBegin_spec h g]
  simp only [Res.ok_bind, hn, if_false]
  have := fuel_spec h.inv v g.start
  have := lim_le v c
  exact findLoop_spec h g needle _ _ g.start g.endOff (by omega)

/-- Searching for a view's data is searching for its bytes. -/
theorem findView_spec {v w : View} {c d : Chain} (h : c.Live) (g : v.Good c) (h' : d.Live) (g' : w.Good d)
    {ns : List Byte} (hw : w.window d = ns.map some) : v.findView c w d = v.find c ns := by
  unfold findView
  rw [ensureValid_ok h g, unsafeBegin_spec h g]
  simp only [Res.ok_bind, isEmpty, size_spec h' g', hw, List.length_map]
  cases ns with
  | nil =>
    simp only [List.length_nil, decide_true, if_true]
    unfold find
    rw [ensureValid_ok h g, unsafeBegin_spec h g]; rfl
  | cons y ys =>
    have : decide ((y :: ys).length = 0) = false := by simp
    rw [this, unsafeBegin_spec h' g']
    simp only [Bool.false_eq_true, if_false, Res.ok_bind]
    have hlm' := lim_le w d
    have hwl := window_length h' g'
    rw [hw] at hwl
    simp at hwl
    obtain ⟨z, u1, u2, u3⟩ := step_window h' g'.start (by omega : w.begin.offset < w.lim d) hlm'
    have hz : z = some y := by
      have : w.window d = z :: _ := u1
      rw [hw] at this; simp at this; exact this.1.symm
    rw [u2, hz]
    simp only [readCell, Res.ok_bind]
    have := fuel_spec h.inv v g.start
    have := lim_le v c
    rw [findViewLoop_spec h g h' g' y ys hw _ _ g.start g.endOff (by omega), find_spec h g (by simp),
      findLoop_spec h g _ _ _ g.start g.endOff (by omega)]
    rfl

/-! ## Searching backwards -/

theorem matchBack_spec {c : Chain} (h : c.Live) (needle : List Byte) (o : Nat) (h1 : c.headOffset ≤ o) :
    matchBackLoop c needle ⟨o, c.suffixAt o⟩ = match matchCells needle (c.abs.slice o c.stop) with
      | .ok .found => .ok true
      | .ok .mismatch => .ok false
      | .ok .atEnd => .ub
      | .throw e => .throw e
      | .ub => .ub := by
  induction needle generalizing o with
  | nil => rfl
  | cons y ys ih =>
    unfold matchBackLoop
    by_cases hl : c.stop ≤ o
    · rw [slice_nil hl]
      simp only [UIter.deref, suffixAt_nil h.inv hl, Res.ub_bind, matchCells]
    · obtain ⟨x, w1, w2, _⟩ := step_window h h1 (by omega : o < c.stop) (Nat.le_refl _)
      rw [w1, w2]
      cases x with
      | none => simp [matchCells, readCell]
      | some b =>
        simp only [matchCells, readCell, Res.ok_bind, uincr_spec h]
        rw [ih (o + 1) (by omega)]
        by_cases hb : b = y
        · by_cases hy : ys = []
          · simp [hb, hy]
          · simp [hb, hy]
        · simp [hb]

/-- Last occurrence at or before position `s`. -/
theorem findBack_spec {v : View} {c : Chain} (h : c.Live) (g : v.Good c) {needle : List Byte} (hn : needle ≠ [])
    {bs : List Byte} (hw : c.abs.slice v.begin.offset c.stop = bs.map some) (f s : Nat)
    (hs : s + needle.length ≤ bs.length) (hf : s < f) :
    (∃ p, v.findBackLoop c needle f ⟨v.begin.offset + s, c.suffixAt (v.begin.offset + s)⟩ =
        .ok (true, ⟨v.begin.offset + p, c.suffixAt (v.begin.offset + p)⟩) ∧ p ≤ s ∧ OccursAt needle bs p ∧
        ∀ q, q ≤ s → OccursAt needle bs q → q ≤ p) ∨
    (v.findBackLoop c needle f ⟨v.begin.offset + s, c.suffixAt (v.begin.offset + s)⟩ =
        .ok (false, ⟨v.begin.offset, c.suffixAt v.begin.offset⟩) ∧ ∀ q, q ≤ s → ¬ OccursAt needle bs q) := by
  have hnl := List.length_pos_iff.2 hn
  have hst := g.start
  have hstop : v.begin.offset + bs.length = c.stop := by
    have hl := headOffset_le_stop h.inv
    have := congrArg List.length hw
    rw [slice_length (by exact hst) (by rw [stop_abs h.inv]; exact Nat.le_refl _)] at this
    simp at this
    omega
  have drop : ∀ s, s ≤ bs.length → c.abs.slice (v.begin.offset + s) c.stop = (bs.drop s).map some := by
    intro s hs
    have := congrArg (List.drop s) hw
    rw [← List.map_drop] at this
    rw [← this]
    unfold Log.slice
    rw [List.drop_take, List.drop_drop]
    have e1 : v.begin.offset + s - c.abs.start = v.begin.offset - c.abs.start + s := by
      have : c.abs.start = c.headOffset := rfl
      omega
    rw [e1, show c.stop - (v.begin.offset + s) = c.stop - v.begin.offset - s by omega]
  induction f generalizing s with
  | zero => omega
  | succ f ih =>
    have hocc : OccursAt needle bs s ↔ needle <+: bs.drop s := Iff.rfl
    obtain ⟨x, w1, w2, _⟩ := step_window h (o := v.begin.offset + s) (l := c.stop) (by omega) (by omega) (Nat.le_refl _)
    rw [drop s (by omega)] at w1
    have hlong : (bs.drop s).length ≥ needle.length := by simp; omega
    cases hbs : bs.drop s with
    | nil => rw [hbs] at hlong; simp at hlong; exact absurd hlong hn
    | cons b rest =>
      rw [hbs] at w1
      simp only [List.map_cons, List.cons.injEq] at w1
      obtain ⟨hx, _⟩ := w1
      subst hx
      unfold findBackLoop
      rw [w2]
      simp only [readCell, Res.ok_bind]
      -- the match at this position
      have hm : (if some b = needle.head? then matchBackLoop c needle ⟨v.begin.offset + s, c.suffixAt (v.begin.offset + s)⟩
          else .ok false) = .ok (decide (needle <+: bs.drop s)) := by
        by_cases hb : some b = needle.head?
        · rw [if_pos hb, matchBack_spec h needle _ (by omega), drop s (by omega)]
          have := matchCells_spec hn (bs.drop s) (t := []) (Or.inl rfl)
          rw [List.append_nil] at this
          rw [this]
          by_cases hp : needle <+: bs.drop s
          · simp [hp]
          · rw [if_neg hp]
            have : ¬ bs.drop s <+: needle := by
              intro hq
              apply hp
              rw [hq.eq_of_length_le (by omega)]; exact List.prefix_rfl
            simp [this, hp]
        · rw [if_neg hb]
          have : ¬ needle <+: bs.drop s := by
            rw [hbs]
            intro hp
            cases needle with
            | nil => exact hn rfl
            | cons y ys => rw [List.cons_prefix_cons] at hp; exact hb (by simp [hp.1])
          simp [this]
      rw [hm]
      simp only [Res.ok_bind]
      by_cases hp : needle <+: bs.drop s
      · left
        refine ⟨s, by simp [hp], Nat.le_refl _, hocc.2 hp, fun q hq _ => hq⟩
      · simp only [hp, decide_false, Bool.false_eq_true, if_false, unsafeBegin_spec h g, Res.ok_bind]
        have heq : (⟨v.begin.offset + s, c.suffixAt (v.begin.offset + s)⟩ : UIter).eq c
            ⟨v.begin.offset, c.suffixAt v.begin.offset⟩ = .ok (decide (s = 0)) := by
          unfold UIter.eq
          rw [endOffset_eq h.inv]
          simp only [Res.ok_bind]
          by_cases h0 : s = 0
          · simp [h0]
          · rw [if_neg (by omega)]
            have : ¬ (c.stop ≤ v.begin.offset) := by omega
            simp [h0, this]
        rw [heq]
        simp only [Res.ok_bind]
        by_cases h0 : s = 0
        · subst h0
          right
          refine ⟨by simp, ?_⟩
          intro q hq
          have : q = 0 := by omega
          subst this; exact hp
        · simp only [h0, decide_false, Bool.false_eq_true, if_false]
          rw [udecr_spec h _ 1 (by omega), show v.begin.offset + s - 1 = v.begin.offset + (s - 1) by omega]
          simp only [Res.ok_bind]
          have lift : ∀ q, q ≤ s → OccursAt needle bs q → q ≤ s - 1 := by
            intro q hq ho
            rcases Nat.lt_or_ge q s with h' | h'
            · omega
            · have : q = s := by omega
              subst this; exact absurd ho hp
          rcases ih (s - 1) (by omega) (by omega) with ⟨p, p1, p2, p3, p4⟩ | ⟨p1, p2⟩
          · left
            exact ⟨p, p1, by omega, p3, fun q hq ho => p4 q (lift q hq ho) ho⟩
          · right
            exact ⟨p1, fun q hq ho => p2 q (lift q hq ho) ho⟩

/-! ## Skipping gaps -/

theorem incr_exact {c : Chain} (h : c.Live) {i : Iter} (hi : c.IterOk i) {n : Nat} (hn : n ≠ 0) :
    i.incr c n = .ok ⟨i.offset + n, (c.suffixAt (i.offset + n)).head?.map (·.id)⟩ := by
  unfold Iter.incr
  simp only [hn, if_false, h.isValid, if_true, inRange_eq h.inv, Res.ok_bind]
  split
  · rename_i hr
    simp only [Bool.and_eq_true, decide_eq_true_eq] at hr
    cases hch : i.chunk with
    | none =>
      simp only [resolve?, Res.ok_bind]
      rw [findFrom_eq h.inv h.isValid (pre := c.chunks) (by simp)]; rfl
    | some p =>
      obtain ⟨pre, s, e1, e2⟩ := resolve?_ok h.inv (hi.ptr h.inv hr.1)
      rw [hch] at e2
      simp only [e2, Res.ok_bind]
      cases s with
      | nil => rw [findFrom_eq h.inv h.isValid e1]; rfl
      | cons k ks =>
        simp only
        split
        · rename_i hk
          have hid : k.id = p := by
            have hp := (hi.ptr h.inv hr.1) p hch
            simp only [List.mem_map] at hp
            obtain ⟨k', hk', rfl⟩ := hp
            obtain ⟨pre', ks', q1, q2⟩ := resolve?_mem h.inv hk'
            rw [resolve?, q2] at e2
            injection e2 with e2
            injection e2 with e2
            rw [e2]
          have hs : c.suffixAt (i.offset + n) = k :: ks := by
            have := findFrom_eq h.inv h.isValid e1 (i.offset + n)
            unfold findFrom at this
            rw [Chunk.inRange_iff] at hk
            simp only [h.isValid, if_true, Res.ok_bind, hk.1, List.dropWhile_cons] at this
            have hk' : k.inRange (i.offset + n) = true := by rw [Chunk.inRange_iff]; exact hk
            simp only [hk', Bool.not_true, Bool.false_eq_true, if_false] at this
            injection this with this
            exact this.symm
          rw [hs]
          simp [hid]
        · rw [findFrom_eq h.inv h.isValid e1]; rfl
  · rw [findFrom_eq h.inv h.isValid (pre := []) rfl]; rfl

theorem skipGaps_spec {ks : List Chunk} {a : Nat} (hc : Contig a ks) (hp : ∀ k ∈ ks, 0 < k.size) :
    skipGaps ks a = a + ((rawCells ks).takeWhile Option.isNone).length := by
  induction ks generalizing a with
  | nil => simp [skipGaps]
  | cons k ks ih =>
    obtain ⟨h1, h2⟩ := hc
    have hk := hp k (by simp)
    simp only [skipGaps, rawCells_cons]
    unfold Chunk.isGap
    cases hpl : k.payload with
    | data bs =>
      have hcells : k.cells = bs.map some := by unfold Chunk.cells; rw [hpl]
      have hm : k.size = bs.length := by unfold Chunk.size; rw [hpl]
      cases bs with
      | nil => simp at hm; omega
      | cons b bs => simp [hcells, h1]
    | gap m =>
      have hcells : k.cells = List.replicate m none := by unfold Chunk.cells; rw [hpl]
      have hm : k.size = m := by unfold Chunk.size; rw [hpl]
      simp only [if_true]
      have he : k.endOffset = a + k.size := by unfold Chunk.endOffset; omega
      rw [he, ih h2 (fun k hk => hp k (by simp [hk])), hcells, List.takeWhile_append_of_pos]
      · simp; omega
      · intro x hx; rw [(List.mem_replicate.1 hx).2]; rfl

theorem advanceToNextData_spec {v : View} {c : Chain} (h : c.Live) (hp : c.HeadPos) (hi : c.IterOk v.begin) :
    let s := max (v.begin.offset + 1) c.headOffset
    ∃ w, v.advanceToNextData c = .ok w ∧ w.end = v.end ∧ c.IterOk w.begin ∧
      w.begin.offset = if s < c.stop then s + ((c.abs.slice s c.stop).takeWhile Option.isNone).length
        else v.begin.offset + 1 := by
  intro s
  -- the start of the search, with the exact chunk pointer
  have hstart : ∃ i, (if v.begin.offset < c.headOffset then c.begin else v.begin.incr c 1) = .ok i ∧ i.offset = s ∧
      c.IterOk i ∧ (s < c.stop → i.chunk = (c.suffixAt s).head?.map (·.id)) := by
    by_cases hlt : v.begin.offset < c.headOffset
    · have hs : s = c.headOffset := by show max _ _ = _; omega
      obtain ⟨i, e1, e2, e3⟩ := begin_spec h hp
      rw [if_pos hlt]
      refine ⟨i, e1, by rw [e2, hs], e3, ?_⟩
      intro hst
      unfold Chain.begin at e1
      rw [if_pos h.isValid] at e1
      injection e1 with e1
      subst e1
      simp only
      cases hc : c.chunks with
      | nil => unfold suffixAt; simp [hc]
      | cons k ks =>
        have hh := h.inv.head k (by simp [hc])
        have hpz := hp k (by simp [hc])
        have : k.inRange s = true := by
          rw [Chunk.inRange_iff, hs]
          rcases hh.2 with h' | h'
          · exact ⟨hh.1, h'⟩
          · omega
        unfold suffixAt
        rw [hc]
        simp [this]
    · have hs : s = v.begin.offset + 1 := by show max _ _ = _; omega
      rw [if_neg hlt]
      refine ⟨_, incr_exact h hi (by decide), by rw [hs], iterOk_suffixAt c _, ?_⟩
      intro _; rw [hs]
  obtain ⟨i, i1, i2, i3, i4⟩ := hstart
  have hsge : c.headOffset ≤ s := Nat.le_max_right _ _
  unfold advanceToNextData
  rw [i1]
  simp only [Res.ok_bind, Iter.chunkPtr, h.isValid, if_true, inRange_eq h.inv, i2]
  by_cases hst : s < c.stop
  · rw [if_pos hst]
    simp only [hsge, hst, decide_true, Bool.and_self, if_true, Res.ok_bind]
    obtain ⟨pre, k, ks, s1, s2, s3⟩ := suffixAt_cons h.inv (o := s) (Nat.le_trans (base_le h.inv) hsge) hst
    rw [i4 hst, s2]
    simp only [List.head?_cons, Option.map_some, resolve?, resolve_last h.inv s1, Res.ok_bind]
    obtain ⟨x, w1, _, w3⟩ := step_window h hsge hst (Nat.le_refl _)
    have hg := suffixAt_gap h s2 hsge x w3
    cases x with
    | some b =>
      simp only [Option.isNone_some] at hg
      simp only [hg, Bool.not_false, if_true]
      refine ⟨_, rfl, rfl, i3, ?_⟩
      rw [w1]; simp [i2]
    | none =>
      simp only [Option.isNone_none] at hg
      simp only [hg, Bool.not_true, Bool.false_eq_true, if_false]
      have hz := decr_spec h hi v.begin.offset
      rw [if_neg (by omega)] at hz
      obtain ⟨z, z1, z2, z3⟩ := hz
      rw [z1]
      simp only [Res.ok_bind]
      obtain ⟨j, j1, j2, j3⟩ := incr_spec h z3 (skipGaps (k :: ks) 0)
      rw [j1]
      refine ⟨_, rfl, rfl, j3, ?_⟩
      simp only [j2, z2]
      rw [Chunk.inRange_iff] at s3
      have hcon := h.inv.contig
      rw [s1, contig_append] at hcon
      have hkoff := chunk_offset h.inv s1
      have hrest : Contig k.endOffset ks := by
        have := hcon.2.2
        have e := hcon.2.1
        rw [← e] at this; exact this
      have hpos : ∀ x ∈ ks, 0 < x.size := by
        intro x hx
        apply h.inv.pos x
        rw [s1]; cases pre <;> simp [hx]
      have hsk : skipGaps (k :: ks) 0 = skipGaps ks k.endOffset := by simp [skipGaps, hg]
      rw [hsk, skipGaps_spec hrest hpos]
      have hce := chunk_end_le h.inv s1
      rw [slice_chunk h.inv s1 s3.1 (by omega) hsge (by omega)]
      have hks : c.abs.slice k.endOffset c.stop = rawCells ks := by
        unfold Log.slice abs
        simp only
        rw [drop_content h.inv s1 (by unfold Chunk.endOffset; omega) (Nat.le_refl _) (by omega)]
        have e2 : k.cells.drop (k.endOffset - k.offset) = [] := by
          apply List.drop_of_length_le; simp; unfold Chunk.endOffset; omega
        rw [e2, List.nil_append, List.take_of_length_le (by omega)]
      rw [hks]
      unfold Chunk.isGap at hg
      cases hpl : k.payload with
      | data bs => rw [hpl] at hg; simp at hg
      | gap m =>
        have hcells : k.cells = List.replicate m none := by unfold Chunk.cells; rw [hpl]
        have hm : k.size = m := by unfold Chunk.size; rw [hpl]
        rw [hcells, List.drop_replicate, List.takeWhile_append_of_pos]
        · have : k.endOffset = k.offset + k.size := rfl
          simp only [List.length_append, List.length_replicate]
          omega
        · intro x hx; rw [(List.mem_replicate.1 hx).2]; rfl
  · rw [if_neg hst]
    have : decide (s < c.stop) = false := by simpa using hst
    simp only [this, Bool.and_false, Bool.false_eq_true, if_false, Res.ok_bind, resolve?]
    unfold advance
    obtain ⟨j, j1, j2, j3⟩ := incr_spec h hi 1
    rw [j1]
    exact ⟨_, rfl, rfl, j3, j2⟩

end View
end Verif.Stream
