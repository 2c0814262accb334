import Verif.Driver.Shape
/-!
# Who owns the data of a stream

A host can lend its buffer to a stream (`Stream::append(data, len, NonOwning)`). Only the last chunk of a stream can refer to
such a buffer, whatever has been done to the stream. So after `makeOwning` nothing in the stream does.
-/

namespace Verif.Driver
open Verif.Stream Verif.Parse

/-- The chunk refers to memory of the host: there is data, and the chunk has no memory of its own. -/
def Borrows (k : Chunk) : Prop := (∃ bs, k.payload = .data bs ∧ bs ≠ []) ∧ k.allocated = 0

/-- Only the last chunk refers to memory of the host. -/
def LastBorrows (c : Chain) : Prop := ∀ k ∈ c.chunks.dropLast, ¬ Borrows k

theorem not_borrows_makeOwning (k : Chunk) : ¬ Borrows k.makeOwning := by
  rintro ⟨⟨bs, h1, h2⟩, h3⟩
  unfold Chunk.makeOwning at h1 h3
  split at h1
  · rename_i ds hd
    rw [hd] at h3
    dsimp only at h3
    split at h1
    · rename_i hc
      rw [if_pos hc] at h3
      rcases hc with hc | hc
      · rw [hd] at h1
        injection h1 with h1
        subst h1
        exact h2 (List.length_eq_zero_iff.mp hc)
      · omega
    · rename_i hc
      rw [if_neg hc] at h3
      exact hc (Or.inl h3)
  · rename_i n hd
    rw [hd] at h1
    cases h1

theorem dropLast_linkLast (ks : List Chunk) (k : Chunk) : ∀ x ∈ (Chain.linkLast ks k).dropLast, x ∈ ks.dropLast ∨ ∃ t : Chunk, x = t.makeOwning := by
  induction ks with
  | nil => intro x hx; cases hx
  | cons a r ih =>
    cases r with
    | nil =>
      intro x hx
      simp only [Chain.linkLast, List.dropLast_cons_cons, List.dropLast_singleton, List.mem_cons, List.not_mem_nil, or_false] at hx
      exact Or.inr ⟨a, hx⟩
    | cons b r =>
      intro x hx
      simp only [Chain.linkLast] at hx
      have hne : Chain.linkLast (b :: r) k ≠ [] := by cases r <;> simp [Chain.linkLast]
      obtain ⟨y, ys, he⟩ := List.exists_cons_of_ne_nil hne
      rw [he, List.dropLast_cons_cons, List.mem_cons] at hx
      rcases hx with rfl | hx
      · exact Or.inl (by simp)
      · rw [← he] at hx
        rcases ih x hx with h | h
        · exact Or.inl (by rw [List.dropLast_cons_cons]; exact List.mem_cons_of_mem _ h)
        · exact Or.inr h

theorem lastBorrows_appendChunk {c : Chain} (h : LastBorrows c) (k : Chunk) : LastBorrows (c.appendChunk k).2 := by
  unfold Chain.appendChunk
  cases c.state with
  | invalid => exact h
  | frozen => exact h
  | mutable =>
    dsimp only
    cases c.tail with
    | none => intro x hx; cases hx
    | some t =>
      dsimp only
      split
      · intro x hx
        rcases dropLast_linkLast _ _ x hx with hx | ⟨t, rfl⟩
        · exact h x hx
        · exact not_borrows_makeOwning t
      · exact h

theorem dropLast_suffix {pre l : List Chunk} : ∀ x ∈ l.dropLast, x ∈ (pre ++ l).dropLast := by
  induction pre with
  | nil => exact fun x h => h
  | cons a pre ih =>
    intro x hx
    have := ih x hx
    cases hp : pre ++ l with
    | nil => rw [hp] at this; cases this
    | cons b r =>
      rw [List.cons_append, hp, List.dropLast_cons_cons]
      rw [hp] at this
      exact List.mem_cons_of_mem _ this

theorem lastBorrows_step {c : Chain} (hl : c.Live) (h : LastBorrows c) (op : Op) : LastBorrows (c.step op).2 := by
  cases op with
  | append bs =>
    simp only [Chain.step, Chain.append]
    split
    · exact h
    · split
      · split
        · split
          · exact h
          · exact lastBorrows_appendChunk (c := { c with cached := none }) h _
        · exact lastBorrows_appendChunk (c := { c with nextId := c.nextId + 1 }) h _
      · exact lastBorrows_appendChunk (c := { c with nextId := c.nextId + 1 }) h _
  | appendNonOwning bs =>
    simp only [Chain.step, Chain.appendNonOwning]
    split
    · exact h
    · split
      · split
        · exact lastBorrows_appendChunk (c := { c with cached := none }) h _
        · exact lastBorrows_appendChunk (c := { c with nextId := c.nextId + 1 }) h _
      · exact lastBorrows_appendChunk (c := { c with nextId := c.nextId + 1 }) h _
  | appendGap n =>
    simp only [Chain.step, Chain.appendGap]
    split
    · exact h
    · exact lastBorrows_appendChunk (c := { c with nextId := c.nextId + 1 }) h _
  | trim o =>
    simp only [Chain.step]
    by_cases hn : c.chunks = [] ∨ o < c.base
    · rw [Chain.trim_noop hl.isValid hn]; exact h
    · rw [not_or, Nat.not_lt] at hn
      obtain ⟨c', pre, e1, e2, e3, e4, e5, e6, e7, e8, e9, e10⟩ := Chain.trim_spec hl.inv hl.isValid hn.1 hn.2
      rw [e1]
      intro x hx
      exact h x (by rw [e6]; exact dropLast_suffix x hx)
  | freeze =>
    simp only [Chain.step, Chain.freeze]
    split <;> exact h
  | unfreeze =>
    simp only [Chain.step, Chain.unfreeze]
    split <;> exact h
  | makeOwning =>
    intro x hx
    simp only [Chain.step, Chain.makeOwning, ← List.map_dropLast, List.mem_map] at hx
    obtain ⟨y, hy, rfl⟩ := hx
    split
    · exact not_borrows_makeOwning y
    · exact h y hy

/-- C67. Whatever is done to a stream, only its last chunk refers to memory of the host. -/
theorem C67_only_last_chunk_borrows (ops : List Op) : LastBorrows (({} : Chain).run ops) := by
  suffices h : ∀ (ops : List Op) (c : Chain), c.Live → LastBorrows c → LastBorrows (c.run ops) from
    h ops {} Chain.live_init (fun k hk => by cases hk)
  intro ops
  induction ops with
  | nil => exact fun _ _ h => h
  | cons op ops ih => exact fun c hl h => ih _ (Chain.step_live hl op).1 (lastBorrows_step hl h op)

/-- ... so that after `makeOwning()` nothing does. -/
theorem owned_makeOwning {c : Chain} (hl : c.Live) (h : LastBorrows c) : ∀ k ∈ c.makeOwning.chunks, ¬ Borrows k := by
  intro k hk
  simp only [Chain.makeOwning, List.mem_map] at hk
  obtain ⟨y, hy, rfl⟩ := hk
  split
  · exact not_borrows_makeOwning y
  · rename_i hne
    refine h y ?_
    rcases List.eq_nil_or_concat c.chunks with he | ⟨pre, t, he⟩
    · rw [he] at hy; cases hy
    · rw [List.concat_eq_append] at he
      rw [he, List.dropLast_concat]
      rw [he, List.mem_append, List.mem_singleton] at hy
      rcases hy with hy | rfl
      · exact hy
      · refine absurd ?_ hne
        rw [hl.inv.tail, he]
        simp

/-- A stream that is alive and owns all but the data of its last chunk: what parsers keep up. -/
def Kept (c : Chain) : Prop := c.Live ∧ LastBorrows c

theorem kept_init : Kept {} := ⟨Chain.live_init, fun k hk => by cases hk⟩

theorem kept_step (c : Chain) (op : Op) (h : Kept c) : Kept (c.step op).2 := ⟨(Chain.step_live h.1 op).1, lastBorrows_step h.1 h.2 op⟩

theorem kept_run {c : Chain} (h : Kept c) (ops : List Op) : Kept (c.run ops) := by
  induction ops generalizing c with
  | nil => exact h
  | cons op ops ih => exact ih (kept_step c op h)

theorem kept_rules : Rules (fun c _ => Kept c) Kept := rules_of_ops kept_step

/-- A stream that is alive and whose end is known, or will be. -/
def Closed (c : Chain) (s : Sched) : Prop := c.Live ∧ (c.state = .frozen ∨ closes s = true)

theorem trim_state {c : Chain} (h : c.Live) (o : Nat) : (c.trim o).2.state = c.state := by
  by_cases hn : c.chunks = [] ∨ o < c.base
  · rw [Chain.trim_noop h.isValid hn]
  · rw [not_or, Nat.not_lt] at hn
    obtain ⟨c', pre, e1, e2, e3, e4, -⟩ := Chain.trim_spec h.inv h.isValid hn.1 hn.2
    rw [e1]
    exact e4

theorem closed_trim (c : Chain) (s : Sched) (o : Nat) (h : Closed c s) : Closed (c.trim o).2 s :=
  ⟨(Chain.step_live h.1 (.trim o)).1, by rw [trim_state h.1]; exact h.2⟩

theorem isComplete_frozen {c : Chain} (h : c.state = .frozen) (cur : View) : cur.isComplete c ≠ .ok false := by
  unfold View.isComplete
  intro he
  have hf : c.isFrozen = true := by simp [Chain.isFrozen, h]
  rw [hf] at he
  cases hv : cur.ensureValid c with
  | ok u => rw [hv] at he; cases he
  | throw e => rw [hv] at he; cases he
  | ub => rw [hv] at he; cases he

theorem closed_ofBytes (bs : List Byte) (s : Sched) : Closed (Chain.ofBytes bs).freeze s := by
  have hl := Chain.live_ofBytes bs
  refine ⟨(Chain.step_live hl .freeze).1, Or.inl ?_⟩
  unfold Chain.freeze
  rw [hl.isValid]
  rfl

theorem frozen_freeze {c : Chain} (hl : c.Live) : c.freeze.state = .frozen := by
  unfold Chain.freeze
  rw [hl.isValid]
  rfl

/-- The piece that ends the input freezes the stream, and no other piece thaws it. -/
theorem closed_item {c : Chain} {it : Item} {s : Sched} (h : Closed c (it :: s)) : Closed (c.run it.ops) s := by
  have hl : (c.run it.ops).Live := Chain.run_live h.1 _
  refine ⟨hl, ?_⟩
  have hkeep : ∀ (ops : List Op) (c : Chain), c.Live → c.state = .frozen → (∀ op ∈ ops, op ≠ .unfreeze) → (c.run ops).state = .frozen := by
    intro ops
    induction ops with
    | nil => exact fun _ _ h _ => h
    | cons op ops ih =>
      intro c hl hs hno
      refine ih _ (Chain.step_live hl op).1 ?_ (fun o ho => hno o (List.mem_cons_of_mem _ ho))
      cases op with
      | unfreeze => exact absurd rfl (hno _ List.mem_cons_self)
      | trim o => exact (trim_state hl o).trans hs
      | freeze => exact frozen_freeze hl
      | append bs =>
        simp only [Chain.step, Chain.append, Chain.appendChunk]
        rw [hs]
        repeat' split
        all_goals first | exact hs | rfl | (rename_i hx; cases hx)
      | appendNonOwning bs =>
        simp only [Chain.step, Chain.appendNonOwning, Chain.appendChunk]
        rw [hs]
        repeat' split
        all_goals first | exact hs | rfl | (rename_i hx; cases hx)
      | appendGap n =>
        simp only [Chain.step, Chain.appendGap, Chain.appendChunk]
        rw [hs]
        repeat' split
        all_goals first | exact hs | rfl | (rename_i hx; cases hx)
      | makeOwning => exact hs
  rcases h.2 with hf | hc
  · refine Or.inl (hkeep _ _ h.1 hf ?_)
    intro op ho he
    subst he
    unfold Item.ops Item.op at ho
    rw [List.mem_append, List.mem_append] at ho
    rcases ho with (ho | ho) | ho
    · split at ho
      · rw [List.mem_singleton] at ho; cases ho
      · cases ho
    · rw [List.mem_map] at ho
      obtain ⟨bs, -, ho⟩ := ho
      split at ho <;> cases ho
    · split at ho
      · rw [List.mem_singleton] at ho; cases ho
      · cases ho
  · cases hz : it.freeze with
    | false =>
      right
      simpa [closes, hz] using hc
    | true =>
      left
      unfold Item.ops
      rw [hz, if_pos rfl]
      have hr : ∀ (xs : List Op) (c : Chain), c.run (xs ++ [.freeze]) = (c.run xs).freeze := by
        intro xs
        induction xs with
        | nil => intro c; rfl
        | cons x xs ih => intro c; exact ih _
      rw [hr]
      exact frozen_freeze (Chain.run_live h.1 _)

theorem closed_rules : Rules Closed (fun _ => False) := by
  refine ⟨?_, closed_trim, ?_⟩
  · intro cur old c s h
    induction s generalizing c with
    | nil =>
      unfold waitLoop
      have := isComplete_frozen (h.2.resolve_right (by simp [closes])) cur
      cases hc : cur.isComplete c with
      | ok b =>
        cases b with
        | true => exact h
        | false => exact absurd hc this
      | throw e => exact h
      | ub => trivial
    | cons it s ih =>
      have hi := closed_item h
      unfold waitLoop
      cases hc : cur.isComplete c with
      | ok b =>
        cases b with
        | true => exact h
        | false =>
          dsimp only
          cases cur.size (c.run it.ops) with
          | ok n =>
            dsimp only
            split
            · exact ih _ hi
            · exact hi
          | throw e => exact hi
          | ub => trivial
      | throw e => exact h
      | ub => trivial
  · intro bs g hg t v c s h
    unfold parseFromP
    cases wholeView (Chain.ofBytes bs).freeze with
    | ok w =>
      dsimp only
      have := hg false w _ [] (closed_ofBytes bs [])
      cases hr : g false w (Chain.ofBytes bs).freeze [] with
      | done r _ _ => exact h
      | throw e _ _ => exact h
      | suspended _ => rw [hr] at this; exact this
      | diverge => trivial
      | ub => trivial
    | throw e => exact h
    | ub => trivial

/-- A parser whose input ends does not wait for ever, whatever the grammar. -/
theorem closed_never_waits (Γ : Nat → G) (f : Nat) (g : G) (t : Bool) (v : View) {c : Chain} {s : Sched} (h : Closed c s) (c' : Chain) :
    run Γ f g t v c s ≠ .suspended c' := by
  intro e
  have := good_run closed_rules Γ f g t v c s h
  rw [e] at this
  exact this

/-- C67. The host is never told that more input is needed once it has said that there is none, however it has cut up the input,
    and whatever the grammar. -/
theorem C67_closed_input_is_settled (Γ : Nat → G) (f : Nat) (g : G) (trim : Bool) (first : Item) (s : Sched)
    (h : closes (first :: s) = true) : parseUnit Γ f g trim first s ≠ .needsMore := by
  have hi : Closed (({} : Chain).run first.ops) s := closed_item ⟨Chain.live_init, Or.inr h⟩
  unfold parseUnit
  cases wholeView (({} : Chain).run first.ops) with
  | ok v =>
    dsimp only
    have := closed_never_waits Γ f g trim v hi
    cases hr : run Γ f g trim v (({} : Chain).run first.ops) s with
    | suspended c => exact absurd hr (this c)
    | done => intro h; cases h
    | throw => intro h; cases h
    | diverge => intro h; cases h
    | ub => intro h; cases h
  | throw e => intro h; cases h
  | ub => intro h; cases h

end Verif.Driver
