import Verif.Stream.History
/-! # Stream: refinement of the ideal stream, statistics, copies -/

namespace Verif.Stream
namespace Chain

/-- No empty chunk at the front (the other chunks are never empty). -/
def HeadPos (c : Chain) : Prop := ∀ x ∈ c.chunks.head?, 0 < x.size

theorem headPos_init : ({} : Chain).HeadPos := by intro x hx; simp at hx

theorem content_eq_nil {c : Chain} (h : c.Inv) (hp : c.HeadPos) : c.content = [] ↔ c.chunks = [] := by
  constructor
  · intro hc
    cases hk : c.chunks with
    | nil => rfl
    | cons a as =>
      have h1 := h.head a (by simp [hk])
      have h2 := hp a (by simp [hk])
      have h3 : (c.content).length = 0 := by simp [hc]
      have h4 := stop_eq h
      unfold stop base at h4
      simp only [hk, rawCells_cons, List.length_append, Chunk.length_cells] at h4
      unfold Chunk.endOffset at h1
      omega
  · intro hk; simp [content, hk]

/-- The relation between the model and the ideal stream. -/
structure Rel (c : Chain) (s : Ideal) : Prop where
  live : c.Live
  headPos : c.HeadPos
  frozen : c.state = .frozen ↔ s.frozen = true
  start : c.headOffset = s.start
  le : s.start ≤ s.all.length
  content : c.content = s.all.drop s.start

theorem rel_init : Rel {} {} := ⟨live_init, headPos_init, by simp, rfl, Nat.le_refl _, rfl⟩

theorem Rel.mutable {c : Chain} {s : Ideal} (r : Rel c s) (h : s.frozen = false) : c.state = .mutable := by
  rcases state_cases r.live with hm | hm
  · exact hm
  · rw [r.frozen.1 hm] at h; cases h

theorem Rel.appended {c c' : Chain} {s : Ideal} (r : Rel c s) {cs : List Cell} (a : Appended c c' cs)
    (hf : s.frozen = false) : Rel c' { s with all := s.all ++ cs } := by
  have ha := a.abs
  have hs : c'.headOffset = c.headOffset := congrArg Log.start ha
  have hc : c'.content = c.content ++ cs := congrArg Log.cells ha
  have hm := r.mutable hf
  refine ⟨⟨a.inv, by rw [a.state]; exact r.live.valid⟩, a.headPos r.headPos, ?_, by rw [hs, r.start], ?_, ?_⟩
  · rw [a.state, hm]; simp [hf]
  · have := r.le; simp; omega
  · rw [hc, r.content, List.drop_append_of_le_length r.le]

theorem Rel.cache {c : Chain} {s : Ideal} (r : Rel c s) {ca : Option Chunk} {n : Nat}
    (h : ({ c with cached := ca, nextId := n } : Chain).Inv) : Rel { c with cached := ca, nextId := n } s :=
  ⟨⟨h, r.live.valid⟩, r.headPos, r.frozen, r.start, r.le, r.content⟩

theorem rel_step {c : Chain} {s : Ideal} (r : Rel c s) (op : Op)
    (hfw : ∀ o, op = .trim o → s.start ≤ o) : Rel (c.step op).2 (s.step op) := by
  have hi := r.live.inv
  cases op with
  | append bs =>
    simp only [step, Ideal.step]
    cases hf : s.frozen with
    | false =>
      obtain ⟨c', e1, e2, _⟩ := append_spec hi (r.mutable hf) bs
      rw [e1]; simpa [hf] using r.appended e2 hf
    | true =>
      obtain ⟨ca, n, e1, e2, _⟩ := append_frozen hi (r.frozen.2 hf) bs
      rw [e1]; exact r.cache e2
  | appendNonOwning bs =>
    simp only [step, Ideal.step]
    cases hf : s.frozen with
    | false =>
      obtain ⟨c', e1, e2, _⟩ := appendNonOwning_spec hi (r.mutable hf) bs
      rw [e1]; simpa [hf] using r.appended e2 hf
    | true =>
      obtain ⟨ca, n, e1, e2, _⟩ := appendNonOwning_frozen hi (r.frozen.2 hf) bs
      rw [e1]; exact r.cache e2
  | appendGap m =>
    simp only [step, Ideal.step]
    cases hf : s.frozen with
    | false =>
      obtain ⟨c', e1, e2, _⟩ := appendGap_spec hi (r.mutable hf) m
      rw [e1]; simpa [hf] using r.appended e2 hf
    | true =>
      obtain ⟨ca, n, e1, e2, _⟩ := appendGap_frozen hi (r.frozen.2 hf) m
      rw [e1]; exact r.cache e2
  | trim o =>
    have ho := hfw o rfl
    simp only [step, Ideal.step]
    have hemp : c.chunks = [] ↔ s.start = s.all.length := by
      rw [← content_eq_nil hi r.headPos, r.content, List.drop_eq_nil_iff]
      have := r.le; omega
    by_cases hn : c.chunks = []
    · rw [trim_noop r.live.isValid (Or.inl hn), if_pos (Or.inr (hemp.1 hn))]; exact r
    · have hb := base_le hi
      have hst := r.start
      rw [if_neg (by rw [not_or]; exact ⟨by omega, fun h => hn (hemp.2 h)⟩)]
      obtain ⟨c', pre, e1, e2, e3, e4, e5, e6, e7, e8, e9, e10⟩ := trim_spec hi r.live.isValid hn (o := o) (by omega)
      rw [e1]
      refine ⟨⟨e2, by rw [e4]; exact r.live.valid⟩, e10, by rw [e4]; exact r.frozen, e8, by simp; omega, ?_⟩
      have hc : c'.content = _ := congrArg Log.cells e3
      rw [hc]
      have h1 : (rawCells c.chunks).drop (o - c.base) = c.content.drop (o - c.headOffset) := by
        unfold content
        rw [List.drop_drop]
        congr 1
        omega
      simp only
      rw [h1, r.content, List.drop_drop, r.start]
      by_cases hlen : o ≤ s.all.length
      · rw [Nat.sub_eq_zero_of_le hlen]
        simp only [List.replicate_zero, List.append_nil]
        congr 1; omega
      · rw [List.drop_of_length_le (by omega), List.drop_of_length_le (by simp; omega)]
  | freeze =>
    simp only [step, Ideal.step, freeze, r.live.isValid, if_true]
    exact ⟨⟨hi.state _ (by simp), by simp⟩, r.headPos, by simp, r.start, r.le, r.content⟩
  | unfreeze =>
    simp only [step, Ideal.step, unfreeze, r.live.isValid, if_true]
    exact ⟨⟨hi.state _ (by simp), by simp⟩, r.headPos, by simp, r.start, r.le, r.content⟩
  | makeOwning =>
    have hl := step_live r.live .makeOwning
    have hm := makeOwning_spec hi
    simp only [step, Ideal.step] at hl ⊢
    exact ⟨hl.1, hl.2.2.headPos r.headPos, r.frozen, r.start, r.le,
      (congrArg Log.cells hm.2.1 : c.makeOwning.content = c.content).trans r.content⟩

theorem rel_run {c : Chain} {s : Ideal} (r : Rel c s) (ops : List Op) (hfw : ForwardTrims s ops) :
    Rel (c.run ops) (s.run ops) := by
  induction ops generalizing c s with
  | nil => exact r
  | cons op ops ih =>
    have h1 : ∀ o, op = .trim o → s.start ≤ o := by
      intro o ho; subst ho; exact hfw.1
    have h2 : ForwardTrims (s.step op) ops := by
      cases op <;> first | exact hfw | exact hfw.2
    exact ih (rel_step r op h1) h2

theorem Rel.read {c : Chain} {s : Ideal} (r : Rel c s) (o : Nat) : c.read o = s.read o := by
  rw [read_spec r.live]
  unfold readLog Log.get? Ideal.read abs
  simp only [r.start, r.content]
  by_cases ho : s.start ≤ o
  · rw [if_neg (by omega), if_pos ho, List.getElem?_drop]
    rw [show s.start + (o - s.start) = o by omega]
    rcases s.all[o]? with _ | _ | _ <;> rfl
  · rw [if_pos (by omega), if_neg ho]

/-! ## Statistics -/

theorem step_stats {c : Chain} (h : c.Live) (op : Op) (frozen : Bool) (hf : c.state = .frozen ↔ frozen = true) :
    (c.step op).2.stats = ⟨
      c.stats.dataBytes + (accepted frozen [op]).foldr (fun o n => (o.cells.countP Option.isSome) + n) 0,
      c.stats.dataChunks + (accepted frozen [op]).countP Op.addsData,
      c.stats.gapBytes + (accepted frozen [op]).foldr (fun o n => (o.cells.countP Option.isNone) + n) 0,
      c.stats.gapChunks + (accepted frozen [op]).countP Op.addsGap⟩ := by
  have hi := h.inv
  have hmut : frozen = false → c.state = .mutable := by
    intro hff
    rcases state_cases h with hm | hm
    · exact hm
    · rw [hf.1 hm] at hff; cases hff
  have c1 : ∀ bs : List Byte, (bs.map (some : Byte → Cell)).countP Option.isSome = bs.length := by
    intro bs; induction bs <;> simp_all
  have c2 : ∀ bs : List Byte, (bs.map (some : Byte → Cell)).countP Option.isNone = 0 := by
    intro bs; induction bs <;> simp_all
  have c3 : ∀ n, (List.replicate n (none : Cell)).countP Option.isSome = 0 := by
    intro n; simp [List.countP_replicate]
  have c4 : ∀ n, (List.replicate n (none : Cell)).countP Option.isNone = n := by
    intro n; simp [List.countP_replicate]
  cases op with
  | append bs =>
    simp only [step]
    cases frozen with
    | false =>
      obtain ⟨c', e1, _, e3⟩ := append_spec hi (hmut rfl) bs
      rw [e1, e3]
      simp only [accepted, Bool.false_eq_true, if_false, Op.cells, List.foldr, c1, c2]
      cases bs <;> simp [Op.addsData, Op.addsGap]
    | true =>
      obtain ⟨ca, n, e1, e2, _⟩ := append_frozen hi (hf.2 rfl) bs
      rw [e1]; simp [accepted]
  | appendNonOwning bs =>
    simp only [step]
    cases frozen with
    | false =>
      obtain ⟨c', e1, _, e3⟩ := appendNonOwning_spec hi (hmut rfl) bs
      rw [e1, e3]
      simp only [accepted, Bool.false_eq_true, if_false, Op.cells, List.foldr, c1, c2]
      cases bs <;> simp [Op.addsData, Op.addsGap]
    | true =>
      obtain ⟨ca, n, e1, e2, _⟩ := appendNonOwning_frozen hi (hf.2 rfl) bs
      rw [e1]; simp [accepted]
  | appendGap m =>
    simp only [step]
    cases frozen with
    | false =>
      obtain ⟨c', e1, _, e3⟩ := appendGap_spec hi (hmut rfl) m
      rw [e1, e3]
      simp only [accepted, Bool.false_eq_true, if_false, Op.cells, List.foldr, c3, c4]
      cases m <;> simp [Op.addsData, Op.addsGap]
    | true =>
      obtain ⟨ca, n, e1, e2, _⟩ := appendGap_frozen hi (hf.2 rfl) m
      rw [e1]; simp [accepted]
  | trim o =>
    simp only [step]
    by_cases hn : c.chunks = [] ∨ o < c.base
    · rw [trim_noop h.isValid hn]; simp [accepted, Op.cells, Op.addsData, Op.addsGap]
    · rw [not_or, Nat.not_lt] at hn
      obtain ⟨c', pre, e1, _, _, _, e5, _⟩ := trim_spec hi h.isValid hn.1 hn.2
      rw [e1, e5]; simp [accepted, Op.cells, Op.addsData, Op.addsGap]
  | freeze =>
    simp [step, freeze, h.isValid, accepted, Op.cells, Op.addsData, Op.addsGap]
  | unfreeze =>
    simp [step, unfreeze, h.isValid, accepted, Op.cells, Op.addsData, Op.addsGap]
  | makeOwning =>
    simp [step, makeOwning, accepted, Op.cells, Op.addsData, Op.addsGap]

/-- The frozen flag after an operation. -/
def nextFrozen (frozen : Bool) : Op → Bool
  | .freeze => true
  | .unfreeze => false
  | _ => frozen

theorem step_frozen {c : Chain} (h : c.Live) (op : Op) (frozen : Bool) (hf : c.state = .frozen ↔ frozen = true) :
    ((c.step op).2.state = .frozen ↔ nextFrozen frozen op = true) := by
  have hi := h.inv
  cases op with
  | append bs =>
    simp only [step, nextFrozen]
    rcases state_cases h with hm | hm
    · obtain ⟨c', e1, e2, _⟩ := append_spec hi hm bs
      rw [e1, e2.state]; exact hf
    · obtain ⟨ca, n, e1, _, _⟩ := append_frozen hi hm bs
      rw [e1]; exact hf
  | appendNonOwning bs =>
    simp only [step, nextFrozen]
    rcases state_cases h with hm | hm
    · obtain ⟨c', e1, e2, _⟩ := appendNonOwning_spec hi hm bs
      rw [e1, e2.state]; exact hf
    · obtain ⟨ca, n, e1, _, _⟩ := appendNonOwning_frozen hi hm bs
      rw [e1]; exact hf
  | appendGap m =>
    simp only [step, nextFrozen]
    rcases state_cases h with hm | hm
    · obtain ⟨c', e1, e2, _⟩ := appendGap_spec hi hm m
      rw [e1, e2.state]; exact hf
    · obtain ⟨ca, n, e1, _, _⟩ := appendGap_frozen hi hm m
      rw [e1]; exact hf
  | trim o =>
    simp only [step, nextFrozen]
    by_cases hn : c.chunks = [] ∨ o < c.base
    · rw [trim_noop h.isValid hn]; exact hf
    · rw [not_or, Nat.not_lt] at hn
      obtain ⟨c', pre, e1, _, _, e4, _⟩ := trim_spec hi h.isValid hn.1 hn.2
      rw [e1, e4]; exact hf
  | freeze => simp [step, freeze, h.isValid, nextFrozen]
  | unfreeze => simp [step, unfreeze, h.isValid, nextFrozen]
  | makeOwning => exact hf

theorem accepted_cons (frozen : Bool) (op : Op) (ops : List Op) :
    accepted frozen (op :: ops) = accepted frozen [op] ++ accepted (nextFrozen frozen op) ops := by
  cases op <;> cases frozen <;> simp [accepted, nextFrozen]

theorem run_stats {c : Chain} (h : c.Live) (ops : List Op) (frozen : Bool) (hf : c.state = .frozen ↔ frozen = true) :
    (c.run ops).stats = ⟨
      c.stats.dataBytes + ((accepted frozen ops).flatMap Op.cells).countP Option.isSome,
      c.stats.dataChunks + (accepted frozen ops).countP Op.addsData,
      c.stats.gapBytes + ((accepted frozen ops).flatMap Op.cells).countP Option.isNone,
      c.stats.gapChunks + (accepted frozen ops).countP Op.addsGap⟩ := by
  induction ops generalizing c frozen with
  | nil => simp [run, accepted]
  | cons op ops ih =>
    have h1 := step_stats h op frozen hf
    have h2 := ih (step_live h op).1 (nextFrozen frozen op) (step_frozen h op frozen hf)
    show ((c.step op).2.run ops).stats = _
    rw [h2, h1, accepted_cons frozen op ops]
    have hfold : ∀ (p : Cell → Bool) (l : List Op),
        l.foldr (fun o n => (o.cells.countP p) + n) 0 = (l.flatMap Op.cells).countP p := by
      intro p l; induction l <;> simp_all [List.countP_append]
    rw [hfold, hfold]
    simp only [List.flatMap_append, List.countP_append]
    congr 1 <;> omega

/-! ## Copies -/

theorem copyChunks_spec {ks : List Chunk} {n : Chain} (hp : ∀ k ∈ ks, 0 < k.size) (h : n.Inv) (hm : n.state = .mutable) :
    ∃ n', copyChunks ks n = (.ok (), n') ∧ n'.Inv ∧ n'.state = .mutable ∧
      n'.abs = ⟨n.headOffset, n.content ++ rawCells ks⟩ := by
  induction ks generalizing n with
  | nil => exact ⟨n, rfl, h, hm, by simp [abs]⟩
  | cons k ks ih =>
    unfold copyChunks
    have hk := hp k (by simp)
    obtain ⟨c', e1, e2, e3, e4, _⟩ := appendChunk_spec h.nextId hm
      (k := { k with id := n.nextId, allocated := if k.isOwning then k.size else 0 }) (by simpa [Chunk.size] using hk)
      (fresh_id h) (Nat.lt_succ_self _)
    simp only [e1]
    obtain ⟨n', f1, f2, f3, f4⟩ := ih (fun x hx => hp x (by simp [hx])) e2 e4
    refine ⟨n', f1, f2, f3, ?_⟩
    have g1 : c'.headOffset = _ := congrArg Log.start e3
    have g2 : c'.content = _ := congrArg Log.cells e3
    rw [f4, g1, g2]
    simp only [rawCells_cons, Log.mk.injEq, List.append_assoc, true_and]
    rfl

theorem copy_spec {c : Chain} (h : c.Live) (hp : c.HeadPos) :
    ∃ n, c.copy = .ok n ∧ n.Live ∧ n.abs = ⟨0, rawCells c.chunks⟩ ∧ n.stats = c.stats ∧ n.isFrozen = false := by
  have hall : ∀ k ∈ c.chunks, 0 < k.size := by
    intro k hk
    cases hc : c.chunks with
    | nil => rw [hc] at hk; cases hk
    | cons a as =>
      rw [hc] at hk
      rcases List.mem_cons.1 hk with rfl | hk
      · exact hp k (by simp [hc])
      · exact h.inv.pos k (by simp [hc, hk])
  obtain ⟨n', e1, e2, e3, e4⟩ := copyChunks_spec hall inv_init rfl
  unfold copy
  simp only [h.isValid, if_true, e1]
  refine ⟨_, rfl, ⟨⟨e2.contig, e2.tail, e2.pos, e2.head, e2.nodup, e2.fresh, e2.invalid⟩, by simp [e3]⟩, ?_, rfl, ?_⟩
  · exact e4
  · simp [isFrozen, e3]

end Chain
end Verif.Stream
