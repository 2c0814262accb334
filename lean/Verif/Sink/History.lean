import Verif.Sink.Law
import Verif.Sink.Reassembly
/-!
# C19-C22, C45: what holds for all histories of a sink

`Always P s ops`: `P` holds for every call at the time it is made; calls may throw, and the caller goes on.
-/

namespace Verif.Sink

/-- The position a call to write refers to. -/
def Sink.posOf (s : Sink) : Option Nat → Nat
  | some q => s.rel q
  | none => s.cur

/-- Integers do not overflow: everything stays below position 2^63. -/
def InRange (s : Sink) : Op → Prop
  | .write bs seq len => s.posOf seq + len.getD bs.length < 2 ^ 63
  | .gap seq len => s.rel seq + len < 2 ^ 63
  | _ => True

instance (s : Sink) (op : Op) : Decidable (InRange s op) := match op with
  | .write bs seq len => inferInstanceAs (Decidable (s.posOf seq + len.getD bs.length < 2 ^ 63))
  | .gap seq len => inferInstanceAs (Decidable (s.rel seq + len < 2 ^ 63))
  | .connect _ | .skip _ | .trim _ | .setAutoTrim _ | .setInitial _ | .close => isTrue trivial

/-- The sink is not closed, explicitly or by setting the initial sequence number too late. -/
def StaysOpen (s : Sink) : Op → Prop
  | .close => False
  | .setInitial _ => s.cur = 0 ∧ s.chunks = []
  | _ => True

/-- Skipping only goes forward. -/
def SkipsForward (s : Sink) : Op → Prop
  | .skip seq => s.cur ≤ s.rel seq
  | _ => True

instance (s : Sink) (op : Op) : Decidable (StaysOpen s op) := match op with
  | .close => isFalse id
  | .setInitial _ => inferInstanceAs (Decidable (s.cur = 0 ∧ s.chunks = []))
  | .write _ _ _ | .gap _ _ | .connect _ | .skip _ | .trim _ | .setAutoTrim _ => isTrue trivial

instance (s : Sink) (op : Op) : Decidable (SkipsForward s op) := match op with
  | .skip seq => inferInstanceAs (Decidable (s.cur ≤ s.rel seq))
  | .write _ _ _ | .gap _ _ | .connect _ | .close | .trim _ | .setAutoTrim _ | .setInitial _ => isTrue trivial

instance {α} (r : R α) (Q : Sink → Prop) [h : ∀ s, Decidable (Q s)] : Decidable (r.After Q) := match r with
  | .ok _ s => h s
  | .throw _ s => h s
  | .ub => isTrue trivial

instance Always.decide (P : Sink → Op → Prop) [∀ s op, Decidable (P s op)] : ∀ (s : Sink) (ops : List Op), Decidable (Always P s ops)
  | _, [] => isTrue trivial
  | s, op :: ops =>
    have : ∀ s', Decidable (Always P s' ops) := fun s' => Always.decide P s' ops
    inferInstanceAs (Decidable (P s op ∧ (s.step op).After (fun s' => Always P s' ops)))

def OrdC (c : Chunk) : Prop := c.rseq ≤ c.rupper ∧ c.rupper < 2 ^ 64

theorem newOk_ord {s : Sink} {data : Option (List Byte)} {a n : Nat} (h : a + n < 2 ^ 63) : NewOk OrdC s data a n := by
  refine ⟨by omega, fun c hc => ⟨?_, ?_⟩, fun h1 h2 _ _ => ⟨by omega, ?_, ?_⟩⟩
  · have := hc.mid; omega
  · have := hc.hi; omega
  · dsimp only; omega
  · dsimp only; omega

theorem opOk_ord {S : Nat → Nat → Prop} {C : (List Byte → Status) → Prop} {s : Sink} {op : Op} (h1 : InRange s op) (h2 : StaysOpen s op)
    (hS : ∀ seq, op = .skip seq → S s.cur (s.rel seq)) (hC : ∀ beh, op = .connect beh → C beh) : OpOk OrdC S C s op := by
  cases op with
  | connect beh => exact hC beh rfl
  | write bs seq len =>
    intro _
    cases seq <;> exact newOk_ord h1
  | gap seq len => exact newOk_ord h1
  | skip seq => exact hS seq rfl
  | trim seq => trivial
  | setAutoTrim b => trivial
  | setInitial seq => exact h2
  | close => exact h2.elim

theorem Always.imp {P Q : Sink → Op → Prop} (h : ∀ s op, P s op → Q s op) : ∀ {ops : List Op} {s : Sink}, Always P s ops → Always Q s ops := by
  intro ops
  induction ops with
  | nil => intros; trivial
  | cons op ops ih =>
    rintro s ⟨h1, h2⟩
    refine ⟨h s op h1, ?_⟩
    cases hs : s.step op with
    | ok u s1 => rw [hs] at h2; exact ih h2
    | throw e s1 => rw [hs] at h2; exact ih h2
    | ub => trivial

/-! ## C19 -/

theorem intervals_append (l m : List Event) : intervals (l ++ m) = intervals l ++ intervals m := by
  induction l with
  | nil => rfl
  | cons e l ih => cases e <;> simp [intervals, ih]

/-- The delivered intervals are in order and below both positions. -/
def MonoJ (cur last : Nat) (log : List Event) (_ : List Unit_) : Prop :=
  (intervals log).Pairwise (fun x y => x.2 ≤ y.1) ∧ ∀ i ∈ intervals log, i.2 ≤ cur ∧ i.2 ≤ last

theorem MonoJ.data {cur last : Nat} {log : List Event} {units units' : List Unit_} (h : MonoJ cur last log units) {a b : Nat} {bs : List Byte}
    (hab : a ≤ b) (ha : a = cur ∨ a = last) : MonoJ b b (log ++ [.data a b bs]) units' := by
  obtain ⟨h1, h2⟩ := h
  refine ⟨?_, ?_⟩
  · rw [intervals_append]
    refine List.pairwise_append.2 ⟨h1, by simp [intervals], ?_⟩
    intro x hx y hy
    simp [intervals] at hy; subst hy
    have := h2 x hx
    dsimp only; omega
  · intro i hi
    rw [intervals_append] at hi
    rcases List.mem_append.1 hi with hi | hi
    · have := h2 i hi; omega
    · simp [intervals] at hi; subst hi; exact ⟨Nat.le_refl _, Nat.le_refl _⟩

theorem MonoJ.other {cur last cur' last' : Nat} {log : List Event} {units units' : List Unit_} (h : MonoJ cur last log units) {evs : List Event}
    (he : intervals evs = []) (hc : cur ≤ cur' ∨ last ≤ cur') (hl : last ≤ last' ∨ cur ≤ last') : MonoJ cur' last' (log ++ evs) units' := by
  obtain ⟨h1, h2⟩ := h
  unfold MonoJ
  rw [intervals_append, he, List.append_nil]
  exact ⟨h1, fun i hi => by have := h2 i hi; omega⟩

theorem MonoJ.still {cur last last' : Nat} {log : List Event} {units : List Unit_} (h : MonoJ cur last log units) (hl : last ≤ last') :
    MonoJ cur last' log units := ⟨h.1, fun i hi => by have := h.2 i hi; omega⟩

theorem mono_law : Law OrdC MonoJ (fun cur r => cur ≤ r) (fun _ => True) where
  ord := id
  overlap p o n h := h.other rfl (by omega) (by omega)
  undelivered c bs n h _ _ := h.other rfl (by omega) (by omega)
  loopData c bs h hc he _ _ _ := h.data hc.1 (Or.inr he)
  loopEmpty c h hc he _ := by
    have := hc.1
    exact h.still (by omega)
  loopThrow c u h hc he _ _ := by
    have := hc.1
    exact h.still (by omega)
  loopGap c h hc he _ _ := by have := hc.1; exact h.other rfl (Or.inr (by omega)) (Or.inl (by omega))
  loopNoGap c h hc he _ _ := by
    have := hc.1
    exact h.still (by omega)
  fastData c bs h hc he _ _ _ := h.data hc.1 (Or.inl he)
  fastGap c h hc he _ := by have := hc.1; exact h.other rfl (Or.inl (by omega)) (Or.inl (Nat.le_refl _))
  skip r h hs := h.other rfl (Or.inl hs) (Or.inr hs)
  connect beh h _ := h

/-- C19: the positions of the data passed on increase: no position is passed on twice, and none after a later one. -/
theorem C19_monotone {ops : List Op} {s' : Sink}
    (h : Always (fun s op => InRange s op ∧ StaysOpen s op ∧ SkipsForward s op) {} ops) (hr : ({} : Sink).run ops = some s') :
    (intervals s'.log).Pairwise (fun x y => x.2 ≤ y.1) := by
  have ha : Always (OpOk OrdC (fun cur r => cur ≤ r) (fun _ => True)) {} ops := by
    refine h.imp (fun s op h => opOk_ord h.1 h.2.1 ?_ (fun _ _ => trivial))
    intro seq he; subst he; exact h.2.2
  exact (mono_law.run (s := {}) ⟨⟨.nil, by intro i hi; cases hi⟩, by intro c hc; cases hc⟩ ha hr).1.1

/-- Histories with gaps, skips and trimming meet the hypotheses. -/
example : Always (fun s op => InRange s op ∧ StaysOpen s op ∧ SkipsForward s op) {}
    [.write [1, 2] none none, .gap 2 3, .write [8] (some 7) none, .trim 3, .skip 7, .setAutoTrim false, .write [9] (some 8) none] := by
  decide

/-- Skipping backwards is possible, and then positions are passed on again. -/
theorem C19_fails_skip_back : ({} : Sink).seen [.write [1, 2] none none, .skip 0, .write [1, 2] none none] =
    some (2, [.data 0 2 [1, 2], .skipped 0, .data 0 2 [1, 2]]) := by rfl

/-- What was passed on stays: the log of a history begins with the log of any beginning of it. -/
theorem C19_prefix {s s' : Sink} (hs : ∀ c ∈ s.chunks, c.rseq ≤ c.rupper ∧ c.rupper < 2 ^ 64) {ops : List Op}
    (h : Always (fun s op => InRange s op ∧ StaysOpen s op) s ops) (hr : s.run ops = some s') :
    ∃ l, s'.log = s.log ++ l ∧ deliveredData s'.log = deliveredData s.log ++ deliveredData l := by
  have L : Law OrdC (fun _ _ log _ => ∃ l, log = s.log ++ l) (fun _ _ => True) (fun _ => True) := by
    constructor
    case ord => exact id
    all_goals intros
    all_goals first
      | assumption
      | (rename_i h _ _ _ _ _; obtain ⟨l, rfl⟩ := h; exact ⟨_, List.append_assoc _ _ _⟩)
      | (rename_i h _ _ _ _; obtain ⟨l, rfl⟩ := h; exact ⟨_, List.append_assoc _ _ _⟩)
      | (rename_i h _ _ _; obtain ⟨l, rfl⟩ := h; exact ⟨_, List.append_assoc _ _ _⟩)
      | (rename_i h _ _; obtain ⟨l, rfl⟩ := h; exact ⟨_, List.append_assoc _ _ _⟩)
      | (rename_i h _; obtain ⟨l, rfl⟩ := h; exact ⟨_, List.append_assoc _ _ _⟩)
      | (rename_i h; obtain ⟨l, rfl⟩ := h; exact ⟨_, List.append_assoc _ _ _⟩)
  have ha : Always (OpOk OrdC (fun _ _ => True) (fun _ => True)) s ops :=
    h.imp (fun s op h => opOk_ord h.1 h.2 (fun _ _ => trivial) (fun _ _ => trivial))
  obtain ⟨l, hl⟩ := (L.run (s := s) ⟨⟨[], by simp⟩, hs⟩ ha hr).1
  exact ⟨l, hl, by rw [hl, deliveredData_append]⟩

/-! ## C20 -/

/-- The position after what the units have seen. -/
def posAfter : Nat → List Event → Nat
  | pos, [] => pos
  | _, .data _ b _ :: l => posAfter b l
  | _, .gap a n :: l => posAfter (a + n) l
  | _, .skipped a :: l => posAfter a l
  | pos, _ :: l => posAfter pos l

theorem posAfter_append (pos : Nat) (l m : List Event) : posAfter pos (l ++ m) = posAfter (posAfter pos l) m := by
  induction l generalizing pos with
  | nil => rfl
  | cons e l ih => cases e <;> exact ih _

theorem accounted_append (pos : Nat) (l m : List Event) (p : Nat) :
    AccountedFrom pos (l ++ m) p ↔ AccountedFrom pos l p ∨ AccountedFrom (posAfter pos l) m p := by
  induction l generalizing pos with
  | nil => simp [AccountedFrom, posAfter]
  | cons e l ih => cases e <;> simp [AccountedFrom, posAfter, ih, or_assoc]

/-- Data that fills its interval. -/
def ExactC (c : Chunk) : Prop := OrdC c ∧ ∀ bs, c.data = some bs → c.rupper = c.rseq + bs.length

def AccJ (cur last : Nat) (log : List Event) (units : List Unit_) : Prop :=
  posAfter 0 log = cur ∧ (∀ p, p < cur ∨ p < last → Accounted log p) ∧ ∀ u ∈ units, u.status ≠ .finished ∧ ∀ d, u.beh d ≠ .finished

theorem AccJ.quiet {cur last : Nat} {log : List Event} {units : List Unit_} (h : AccJ cur last log units) {e : Event}
    (h1 : ∀ pos, posAfter pos [e] = pos) : AccJ cur last (log ++ [e]) units := by
  refine ⟨by rw [posAfter_append, h1]; exact h.1, fun p hp => ?_, h.2.2⟩
  exact (accounted_append _ _ _ _).2 (Or.inl (h.2.1 p hp))

theorem AccJ.move {cur last : Nat} {log : List Event} {units units' : List Unit_} (h : AccJ cur last log units) {e : Event} {r l' : Nat}
    (h1 : posAfter cur [e] = r) (h2 : ∀ p, p < r ∨ p < l' → p < cur ∨ p < last ∨ AccountedFrom cur [e] p)
    (hu : ∀ u ∈ units', u.status ≠ .finished ∧ ∀ d, u.beh d ≠ .finished) : AccJ r l' (log ++ [e]) units' := by
  refine ⟨by rw [posAfter_append, h.1]; exact h1, fun p hp => ?_, hu⟩
  rcases h2 p hp with h3 | h3 | h3
  · exact (accounted_append _ _ _ _).2 (Or.inl (h.2.1 p (Or.inl h3)))
  · exact (accounted_append _ _ _ _).2 (Or.inl (h.2.1 p (Or.inr h3)))
  · exact (accounted_append _ _ _ _).2 (Or.inr (by rw [h.1]; exact h3))

theorem calm_map {units : List Unit_} (h : ∀ u ∈ units, u.status ≠ .finished ∧ ∀ d, u.beh d ≠ .finished) (bs : List Byte) :
    ∀ u ∈ units.map (·.deliver bs), u.status ≠ .finished ∧ ∀ d, u.beh d ≠ .finished := by
  intro u hu
  obtain ⟨v, hv, rfl⟩ := List.mem_map.1 hu
  exact Unit_.deliver_calm (h v hv) bs

theorem acc_law : Law ExactC AccJ (fun _ _ => True) (fun beh => ∀ d, beh d ≠ .finished) where
  ord h := h.1
  overlap p o n h := h.quiet (fun _ => rfl)
  undelivered c bs n h _ _ := h.quiet (fun _ => rfl)
  loopData c bs h hc he hd _ _ := by
    have := hc.2 bs hd
    refine h.move rfl (fun p hp => ?_) (calm_map h.2.2 bs)
    rcases Nat.lt_or_ge p c.rseq with h1 | h1
    · right; left; omega
    · right; right; exact Or.inl ⟨h1, by omega, this⟩
  loopEmpty c h hc he hd := by
    have := hc.2 _ hd
    rw [show c.rupper = _ by rw [this, he]]; exact h
  loopThrow c u h hc he hu hf := absurd hf (h.2.2 u hu).1
  loopGap c h hc he hd _ := by
    have := hc.1.1
    refine h.move (show c.rseq + (c.rupper - c.rseq) = c.rupper by omega) (fun p hp => ?_) h.2.2
    rcases Nat.lt_or_ge p c.rseq with h1 | h1
    · right; left; omega
    · right; right; exact Or.inl ⟨h1, by omega⟩
  loopNoGap c h hc he hd hr := ⟨h.1, fun p hp => h.2.1 p (by omega), h.2.2⟩
  fastData c bs h hc he hd _ _ := by
    have := hc.2 bs hd
    refine h.move rfl (fun p hp => ?_) (calm_map h.2.2 bs)
    rcases Nat.lt_or_ge p c.rseq with h1 | h1
    · left; omega
    · right; right; exact Or.inl ⟨h1, by omega, this⟩
  fastGap c h hc he hd := by
    have := hc.1.1
    refine h.move (show c.rseq + (c.rupper - c.rseq) = c.rupper by omega) (fun p hp => ?_) h.2.2
    rcases hp with hp | hp
    · rcases Nat.lt_or_ge p c.rseq with h1 | h1
      · left; omega
      · right; right; exact Or.inl ⟨h1, by omega⟩
    · right; left; exact hp
  skip r h _ := by
    refine h.move rfl (fun p hp => ?_) h.2.2
    rcases Nat.lt_or_ge p _ with h1 | h1
    · exact Or.inl h1
    · right; right; exact Or.inl ⟨h1, by omega⟩
  connect beh h hb := by
    refine ⟨h.1, h.2.1, ?_⟩
    intro u hu
    rcases List.mem_append.1 hu with hu | hu
    · exact h.2.2 u hu
    · simp at hu; subst hu; exact ⟨hb [], hb⟩

/-- Data is written with its own length, and not so that only its end is new with respect to what has been trimmed. -/
def Plain (s : Sink) : Op → Prop
  | .write bs seq len => (len = none ∨ len = some bs.length) ∧ (s.trim ≤ s.posOf seq ∨ s.posOf seq + bs.length ≤ s.trim)
  | .connect beh => ∀ d, beh d ≠ .finished
  | _ => True

theorem newOk_exact {s : Sink} {data : Option (List Byte)} {a n : Nat} (h : a + n < 2 ^ 63) (hl : ∀ bs, data = some bs → n = bs.length)
    (ht : data ≠ none → s.trim ≤ a ∨ a + n ≤ s.trim) : NewOk ExactC s data a n := by
  have hO := newOk_ord (s := s) (data := data) h
  refine ⟨by omega, fun c hc => ⟨hO.2.1 c hc, ?_⟩, fun h1 h2 data' hd => ?_⟩
  · intro bs hbs
    have h1 := hc.lo
    have h2 := hc.mid
    have h3 := hc.hi
    cases data with
    | none => rcases hc.bytes with e | ⟨_, e⟩ <;> rw [hbs] at e <;> cases e
    | some d =>
      have hdl := hl d rfl
      rcases hc.bytes with e | ⟨e', e⟩
      · rw [hbs] at e
        injection e with e
        rw [e, List.length_take, List.length_drop]; omega
      · rw [hbs] at e
        injection e with e
        rw [e, List.length_drop]; omega
  · cases data with
    | none =>
      rcases hd with ⟨_, rfl⟩ | ⟨_, h, _⟩
      · exact ⟨by omega, ⟨by dsimp only; omega, by dsimp only; omega⟩, by intro bs hbs; cases hbs⟩
      · cases h
    | some d => have := ht (by simp); omega

/-- C20, for data written with its own length that is not cut off by an earlier trimming, and units that do not complete: all
    positions below the current one are accounted for, by data passed on, reported gaps, or skips from the position current at
    that time. -/
theorem C20_accounted_partial {ops : List Op} {s' : Sink}
    (h : Always (fun s op => InRange s op ∧ StaysOpen s op ∧ Plain s op) {} ops) (hr : ({} : Sink).run ops = some s') :
    ∀ p, p < s'.cur → Accounted s'.log p := by
  have ha : Always (OpOk ExactC (fun _ _ => True) (fun beh => ∀ d, beh d ≠ .finished)) {} ops := by
    refine h.imp (fun s op h => ?_)
    obtain ⟨h1, h2, h3⟩ := h
    cases op with
    | connect beh => exact h3
    | write bs seq len =>
      intro _
      obtain ⟨hl, ht⟩ := h3
      have hg : len.getD bs.length = bs.length := by rcases hl with rfl | rfl <;> rfl
      have h1 : s.posOf seq + len.getD bs.length < 2 ^ 63 := h1
      rw [hg] at h1 ⊢
      have := newOk_exact (s := s) (data := some bs) h1 (by intro d hd; injection hd with hd; rw [hd]) (fun _ => ht)
      cases seq <;> exact this
    | gap seq len => exact newOk_exact h1 (by intro d hd; cases hd) (fun h => absurd rfl h)
    | skip seq => trivial
    | trim seq => trivial
    | setAutoTrim b => trivial
    | setInitial seq => exact h2
    | close => exact h2.elim
  have := (acc_law.run (s := {}) ⟨⟨rfl, by intro p hp; rcases hp with hp | hp <;> exact absurd hp (Nat.not_lt_zero _), by intro u hu; cases hu⟩,
    by intro c hc; cases hc⟩ ha hr).1.2.1
  exact fun p hp => this p (Or.inl hp)

/-- `Plain` for histories without `connect`. -/
def PlainNC (s : Sink) : Op → Prop
  | .write bs seq len => (len = none ∨ len = some bs.length) ∧ (s.trim ≤ s.posOf seq ∨ s.posOf seq + bs.length ≤ s.trim)
  | .connect _ => False
  | _ => True

instance (s : Sink) (op : Op) : Decidable (PlainNC s op) := match op with
  | .write bs seq len => inferInstanceAs (Decidable ((len = none ∨ len = some bs.length) ∧ (s.trim ≤ s.posOf seq ∨ s.posOf seq + bs.length ≤ s.trim)))
  | .connect _ => isFalse id
  | .gap _ _ | .skip _ | .close | .trim _ | .setAutoTrim _ | .setInitial _ => isTrue trivial

theorem PlainNC.plain {s : Sink} {op : Op} (h : PlainNC s op) : Plain s op := by
  cases op <;> first | exact h | exact h.elim

example : Always (fun s op => InRange s op ∧ StaysOpen s op ∧ Plain s op) {}
    [.connect (fun _ => .waiting), .write [1, 2] none none, .gap 2 3, .write [8] (some 7) none, .trim 3, .skip 6, .write [7] (some 6) none] := by
  refine ⟨⟨trivial, trivial, by intro d h; cases h⟩, ?_⟩
  refine Always.imp (P := fun s op => InRange s op ∧ StaysOpen s op ∧ PlainNC s op) (fun s op h => ⟨h.1, h.2.1, h.2.2.plain⟩) ?_
  decide

/-- C20 fails without the condition on trimming: after trimming up to 5, writing bytes 3-7 moves the current position to 10,
    although nothing is known about 8 and 9. -/
theorem C20_fails_cut_write :
    ({} : Sink).seen [.skip 5, .write [3, 4, 5, 6, 7] (some 3) none] = some (10, [.skipped 5, .data 5 10 [5, 6, 7]]) ∧
    ¬ Accounted [.skipped 5, .data 5 10 [5, 6, 7]] 8 ∧ ¬ Accounted [.skipped 5, .data 5 10 [5, 6, 7]] 9 := by
  refine ⟨rfl, ?_, ?_⟩ <;> simp [Accounted, AccountedFrom]

/-- C20 fails without the condition on the length: writing two bytes as five. -/
theorem C20_fails_length : ({} : Sink).seen [.write [1, 2] none (some 5)] = some (5, [.data 0 5 [1, 2]]) ∧
    ¬ Accounted [.data 0 5 [1, 2]] 3 := by
  refine ⟨rfl, ?_⟩; simp [Accounted, AccountedFrom]

/-! ## C21 -/

theorem deliverLoop_ub (cs : List Chunk) (s : Sink) : deliverLoop cs s ≠ .ub := by
  induction cs generalizing s with
  | nil => intro h; cases h
  | cons c cs ih =>
    unfold deliverLoop
    by_cases he : c.rseq = s.last
    · rw [if_pos he]
      dsimp only
      cases hd : ({ s with last := add64 s.last (sub64 c.rupper c.rseq) } : Sink).deliver c.data c.rseq c.rupper with
      | ok b s' => cases b with
        | true => exact ih s'
        | false => dsimp only; intro h; cases h
      | throw e s' => dsimp only; intro h; cases h
      | ub =>
        unfold Sink.deliver at hd
        cases hc : c.data with
        | none => rw [hc] at hd; dsimp only at hd; split at hd <;> cases hd
        | some bs => rw [hc] at hd; dsimp only at hd; split at hd <;> try cases hd
                     split at hd <;> cases hd
    · rw [if_neg he]; exact ih s

theorem deliver_ub (s : Sink) (d : Option (List Byte)) (a b : Nat) : s.deliver d a b ≠ .ub := by
  unfold Sink.deliver
  cases d with
  | none => dsimp only; split <;> (intro h; cases h)
  | some bs =>
    dsimp only
    split
    · intro h; cases h
    · split <;> (intro h; cases h)

theorem bind_ub {α β} {r : R α} {f : α → Sink → R β} (h : r.bind f = .ub) (hr : r ≠ .ub) : ∃ a s, f a s = .ub := by
  cases r with
  | ok a s => exact ⟨a, s, h⟩
  | throw e s => cases h
  | ub => exact absurd rfl hr

theorem tryDeliver_ub (s : Sink) (i : Nat) : s.tryDeliver i ≠ .ub := by
  intro h
  unfold Sink.tryDeliver at h
  obtain ⟨a, s', h'⟩ := bind_ub h (deliverLoop_ub _ _)
  cases h'

/-- A gap that reaches over the beginning of a buffered chunk. -/
def GapOver (s : Sink) (data : Option (List Byte)) (a b : Nat) : Prop := data = none ∧ ∃ c ∈ s.chunks, a < c.rseq ∧ c.rseq < b

theorem buffer_ub {s : Sink} (hs : Ordered s.chunks) {data : Option (List Byte)} {a b n : Nat} (hab : a < b) (hlt : b < 2 ^ 64)
    (h : s.buffer data a b n = .ub) : GapOver s data a b := by
  unfold Sink.buffer at h
  obtain ⟨A1, A2, A3⟩ : (if s.chunks.isEmpty then (⟨.ok (some 0), [⟨data, a, add64 a n⟩], []⟩ : Added)
      else addAndCheck data a b [] s.chunks).res ≠ .ub ∧
      (∀ i, (if s.chunks.isEmpty then (⟨.ok (some 0), [⟨data, a, add64 a n⟩], []⟩ : Added)
      else addAndCheck data a b [] s.chunks).res = .ok (some i) → i < (if s.chunks.isEmpty then (⟨.ok (some 0), [⟨data, a, add64 a n⟩], []⟩ : Added)
      else addAndCheck data a b [] s.chunks).chunks.length) ∧
      ((if s.chunks.isEmpty then (⟨.ok (some 0), [⟨data, a, add64 a n⟩], []⟩ : Added)
      else addAndCheck data a b [] s.chunks).res = .ok none → GapOver s data a b) := by
    split
    · exact ⟨(by intro h; cases h), (by intro i h; injection h with h; injection h with h; subst h; exact Nat.one_pos),
        (by intro h; injection h with h; cases h)⟩
    · have A := (add_any b hlt s.chunks [] data a hab hs).1
      exact ⟨A.defined, A.index, A.dangling⟩
  generalize (if s.chunks.isEmpty then (⟨.ok (some 0), [⟨data, a, add64 a n⟩], []⟩ : Added)
      else addAndCheck data a b [] s.chunks) = r at A1 A2 A3 h
  dsimp only at h
  cases hr : r.res with
  | throw e => rw [hr] at h; cases h
  | ub => exact absurd hr A1
  | ok o =>
    cases o with
    | none => exact A3 hr
    | some i =>
      rw [hr] at h
      dsimp only at h
      rw [List.getElem?_eq_getElem (A2 i hr)] at h
      dsimp only at h
      split at h
      · cases h
      · exact absurd h (tryDeliver_ub _ _)

theorem newData_ub {s : Sink} (hs : Ordered s.chunks) {data : Option (List Byte)} {a n : Nat} (hlt : a + n < 2 ^ 63)
    (h : s.newData data a n = .ub) : GapOver s data (max a s.trim) (a + n) := by
  unfold Sink.newData at h
  by_cases h0 : n = 0
  · rw [if_pos h0] at h; cases h
  rw [if_neg h0, add64_eq (by omega)] at h
  split at h
  · obtain ⟨_, _, h'⟩ := bind_ub h (deliver_ub _ _ _ _); cases h'
  · dsimp only at h
    split at h
    · cases h
    · next h1 =>
      split at h
      · next h2 =>
        rw [Nat.max_eq_right (by omega)]
        cases data with
        | none => exact buffer_ub hs (by omega) (by omega) h
        | some bs =>
          dsimp only at h
          cases hd : dropBytes bs (s.trim - a) with
          | throw e => rw [hd] at h; cases h
          | ub => exact absurd hd (dropBytes_ub _ _)
          | ok bs' =>
            rw [hd] at h
            have := (buffer_ub hs (by omega) (by omega) h).1
            cases this
      · next h2 =>
        rw [Nat.max_eq_left (by omega)]
        exact buffer_ub hs (by omega) (by omega) h

/-- The call reports a gap that reaches over the beginning of data buffered for later positions. -/
def ReportsGapOverData (s : Sink) : Op → Prop
  | .gap seq len => ∃ c ∈ s.chunks, s.rel seq < c.rseq ∧ c.rseq < s.rel seq + len
  | _ => False

theorem step_ub {s : Sink} (hs : Ordered s.chunks) {op : Op} (hr : InRange s op) (h : s.step op = .ub) : ReportsGapOverData s op := by
  unfold Sink.step at h
  cases op with
  | connect beh => dsimp only at h; split at h <;> cases h
  | write bs seq len =>
    dsimp only at h
    split at h
    · cases h
    · have hr : s.posOf seq + len.getD bs.length < 2 ^ 63 := hr
      have : s.newData (some bs) (s.posOf seq) (len.getD bs.length) = .ub := by cases seq <;> exact h
      have := (newData_ub hs hr this).1
      cases this
  | gap seq len =>
    obtain ⟨_, c, hc, h1, h2⟩ := newData_ub hs hr h
    exact ⟨c, hc, by omega, h2⟩
  | skip seq =>
    dsimp only at h
    unfold Sink.skipTo at h
    exact absurd h (tryDeliver_ub _ _)
  | trim seq => cases h
  | setAutoTrim b => cases h
  | setInitial seq => dsimp only at h; split at h <;> cases h
  | close => cases h

theorem true_law : Law OrdC (fun _ _ _ _ => True) (fun _ _ => True) (fun _ => True) where
  ord := id
  overlap _ _ _ _ := trivial
  undelivered _ _ _ _ _ _ := trivial
  loopData _ _ _ _ _ _ _ _ := trivial
  loopEmpty _ _ _ _ _ := trivial
  loopThrow _ _ _ _ _ _ _ := trivial
  loopGap _ _ _ _ _ _ := trivial
  loopNoGap _ _ _ _ _ _ := trivial
  fastData _ _ _ _ _ _ _ _ := trivial
  fastGap _ _ _ _ _ := trivial
  skip _ _ _ := trivial
  connect _ _ _ := trivial

theorem step_ordered {s : Sink} (hs : ∀ c ∈ s.chunks, OrdC c) {op : Op} (hr : InRange s op) :
    (s.step op).After (fun s' => ∀ c ∈ s'.chunks, OrdC c) := by
  have key : OpOk OrdC (fun _ _ => True) (fun _ => True) s op → (s.step op).After (fun s' => ∀ c ∈ s'.chunks, OrdC c) := by
    intro ho
    have := true_law.step (s := s) ⟨trivial, hs⟩ ho
    cases hst : s.step op with
    | ok a s' => rw [hst] at this; exact this.2
    | throw e s' => rw [hst] at this; exact this.2
    | ub => trivial
  have clo : ∀ c ∈ s.close.chunks, OrdC c := by intro c hc; cases hc
  cases op with
  | close => exact clo
  | setInitial seq =>
    unfold Sink.step
    dsimp only
    split
    · exact clo
    · exact hs
  | connect beh => exact key trivial
  | write bs seq len => exact key (opOk_ord hr trivial (fun _ _ => trivial) (fun _ _ => trivial))
  | gap seq len => exact key (opOk_ord hr trivial (fun _ _ => trivial) (fun _ _ => trivial))
  | skip seq => exact key trivial
  | trim seq => exact key trivial
  | setAutoTrim b => exact key trivial

/-- C21, except for gaps reported over data that is buffered already: no history is undefined. Closing the sink, going on after
    exceptions, and units that complete are all included. -/
theorem C21_defined_partial {ops : List Op} {s : Sink} (hs : ∀ c ∈ s.chunks, c.rseq ≤ c.rupper ∧ c.rupper < 2 ^ 64)
    (h : Always (fun s op => InRange s op ∧ ¬ ReportsGapOverData s op) s ops) : s.run ops ≠ none := by
  induction ops generalizing s with
  | nil => intro h; cases h
  | cons op ops ih =>
    obtain ⟨⟨h1, h2⟩, h3⟩ := h
    have ho := step_ordered hs h1
    intro hr
    unfold Sink.run at hr
    cases hst : s.step op with
    | ok a s' => rw [hst] at h3 ho hr; exact ih ho h3 hr
    | throw e s' => rw [hst] at h3 ho hr; exact ih ho h3 hr
    | ub => exact h2 (step_ub hs h1 hst)

/-- C21, histories without calls to `gap`. -/
theorem C21_no_gaps_partial {ops : List Op} (hg : ∀ seq len, Op.gap seq len ∉ ops) (h : Always InRange {} ops) :
    ({} : Sink).run ops ≠ none := by
  have key : ∀ {ops : List Op} {s : Sink}, (∀ seq len, Op.gap seq len ∉ ops) → Always InRange s ops →
      Always (fun s op => InRange s op ∧ ¬ ReportsGapOverData s op) s ops := by
    intro ops
    induction ops with
    | nil => intros; trivial
    | cons op ops ih =>
      rintro s hg ⟨h1, h2⟩
      refine ⟨⟨h1, ?_⟩, ?_⟩
      · cases op <;> try exact id
        exact absurd (List.mem_cons_self) (hg _ _)
      · cases hst : s.step op with
        | ok a s' => rw [hst] at h2; exact ih (fun q l hm => hg q l (List.mem_cons_of_mem _ hm)) h2
        | throw e s' => rw [hst] at h2; exact ih (fun q l hm => hg q l (List.mem_cons_of_mem _ hm)) h2
        | ub => trivial
  exact C21_defined_partial (by intro c hc; cases hc) (key hg h)

instance (s : Sink) (op : Op) : Decidable (ReportsGapOverData s op) := match op with
  | .gap seq len => inferInstanceAs (Decidable (∃ c ∈ s.chunks, s.rel seq < c.rseq ∧ c.rseq < s.rel seq + len))
  | .write _ _ _ | .connect _ | .skip _ | .close | .trim _ | .setAutoTrim _ | .setInitial _ => isFalse id

example : Always (fun s op => InRange s op ∧ ¬ ReportsGapOverData s op) {}
    [.write [5] (some 4) none, .gap 1 2, .setInitial 7, .write [9] (some 9) none, .close] := by decide

/-- C21 does not hold for gaps reported over buffered data: an uninitialized iterator is dereferenced. -/
theorem C21_fails_gap_over_data : ({} : Sink).run [.write [5] (some 4) none, .gap 2 3] = none := rfl

/-! ## C22 -/

theorem writtenAt_take {W : List (Nat × List Byte)} {a : Nat} {bs : List Byte} (h : WrittenAt W a bs) (n : Nat) : WrittenAt W a (bs.take n) := by
  intro i hi
  rw [List.length_take] at hi
  obtain ⟨w, hw, he⟩ := h i (by omega)
  exact ⟨w, hw, by rw [he, List.getElem?_take_of_lt (by omega)]⟩

theorem writtenAt_drop {W : List (Nat × List Byte)} {a : Nat} {bs : List Byte} (h : WrittenAt W a bs) (n : Nat) :
    WrittenAt W (a + n) (bs.drop n) := by
  intro i hi
  rw [List.length_drop] at hi
  obtain ⟨w, hw, he⟩ := h (n + i) (by omega)
  exact ⟨w, hw, by rw [List.getElem?_drop, ← he, Nat.add_assoc]⟩

theorem writtenAt_mem {W : List (Nat × List Byte)} {a : Nat} {bs : List Byte} (h : (a, bs) ∈ W) : WrittenAt W a bs := by
  intro i hi
  exact ⟨(a, bs), h, by unfold byteAt; rw [if_pos (by dsimp only; omega)]; congr 1; dsimp only; omega⟩

/-- The chunk has data that was written there. -/
def FromC (W : List (Nat × List Byte)) (c : Chunk) : Prop := OrdC c ∧ ∀ bs, c.data = some bs → WrittenAt W c.rseq bs

/-- All data the units get to see was written at that position. -/
def Faithful (W : List (Nat × List Byte)) : Event → Prop
  | .data a _ bs => WrittenAt W a bs
  | .undelivered a bs => WrittenAt W a bs
  | _ => True

theorem faithful_law (W : List (Nat × List Byte)) :
    Law (FromC W) (fun _ _ log _ => ∀ e ∈ log, Faithful W e) (fun _ _ => True) (fun _ => True) := by
  have add : ∀ {log : List Event} {e : Event}, (∀ e ∈ log, Faithful W e) → Faithful W e → ∀ e' ∈ log ++ [e], Faithful W e' := by
    intro log e h he e' hm
    rcases List.mem_append.1 hm with hm | hm
    · exact h e' hm
    · simp at hm; subst hm; exact he
  exact {
    ord := fun h => h.1
    overlap := fun _ _ _ h => add h trivial
    undelivered := fun c bs n h hc hd => add h (writtenAt_take (hc.2 bs hd) n)
    loopData := fun c bs h hc _ hd _ _ => add h (hc.2 bs hd)
    loopEmpty := fun _ h _ _ _ => h
    loopThrow := fun _ _ h _ _ _ _ => h
    loopGap := fun _ h _ _ _ _ => add h trivial
    loopNoGap := fun _ h _ _ _ _ => h
    fastData := fun c bs h hc _ hd _ _ => add h (hc.2 bs hd)
    fastGap := fun _ h _ _ _ => add h trivial
    skip := fun _ h _ => add h trivial
    connect := fun _ h _ => h }

/-- `W` has every write: its position and its data. -/
def Records (W : List (Nat × List Byte)) (s : Sink) : Op → Prop
  | .write bs seq _ => (s.posOf seq, bs) ∈ W
  | _ => True

theorem newOk_from {W : List (Nat × List Byte)} {s : Sink} {data : Option (List Byte)} {a n : Nat} (h : a + n < 2 ^ 63)
    (hW : ∀ bs, data = some bs → WrittenAt W a bs) : NewOk (FromC W) s data a n := by
  have hO := newOk_ord (s := s) (data := data) h
  refine ⟨by omega, fun c hc => ⟨hO.2.1 c hc, ?_⟩, fun h1 h2 data' hd => ?_⟩
  · intro bs hbs
    have h1 := hc.lo
    cases data with
    | none => rcases hc.bytes with e | ⟨_, e⟩ <;> rw [hbs] at e <;> cases e
    | some d =>
      have hw := writtenAt_drop (hW d rfl) (c.rseq - a)
      rw [show a + (c.rseq - a) = c.rseq by omega] at hw
      rcases hc.bytes with e | ⟨e', e⟩
      · rw [hbs] at e
        injection e with e
        rw [e]; exact writtenAt_take hw _
      · rw [hbs] at e
        injection e with e
        rw [e]; exact hw
  · have ho := hO.2.2 h1 h2 data' hd
    refine ⟨ho.1, ho.2, ?_⟩
    intro bs hbs
    dsimp only at hbs
    rcases hd with ⟨_, h⟩ | ⟨d, hd, h⟩
    · rw [h] at hbs; cases hbs
    · rw [h] at hbs
      injection hbs with hbs
      have hw := writtenAt_drop (hW d hd) (s.trim - a)
      rw [show a + (s.trim - a) = s.trim by omega, hbs] at hw
      exact hw

/-- C22: all data passed on, and all data reported as undelivered, was written at that position. -/
theorem C22_faithful {W : List (Nat × List Byte)} {ops : List Op} {s' : Sink}
    (h : Always (fun s op => InRange s op ∧ StaysOpen s op ∧ Records W s op) {} ops) (hr : ({} : Sink).run ops = some s') :
    (∀ a bs, Event.undelivered a bs ∈ s'.log → WrittenAt W a bs) ∧ (∀ a b bs, Event.data a b bs ∈ s'.log → WrittenAt W a bs) := by
  have ha : Always (OpOk (FromC W) (fun _ _ => True) (fun _ => True)) {} ops := by
    refine h.imp (fun s op h => ?_)
    obtain ⟨h1, h2, h3⟩ := h
    cases op with
    | connect beh => trivial
    | write bs seq len =>
      intro _
      have h1 : s.posOf seq + len.getD bs.length < 2 ^ 63 := h1
      have := newOk_from (s := s) (data := some bs) h1 (by intro d hd; injection hd with hd; subst hd; exact writtenAt_mem h3)
      cases seq <;> exact this
    | gap seq len => exact newOk_from h1 (by intro d hd; cases hd)
    | skip seq => trivial
    | trim seq => trivial
    | setAutoTrim b => trivial
    | setInitial seq => exact h2
    | close => exact h2.elim
  have := ((faithful_law W).run (s := {}) ⟨(by intro e he; cases he), (by intro c hc; cases hc)⟩ ha hr).1
  exact ⟨fun a bs hm => this _ hm, fun a b bs hm => this _ hm⟩

instance (W : List (Nat × List Byte)) (s : Sink) (op : Op) : Decidable (Records W s op) := match op with
  | .write bs seq _ => inferInstanceAs (Decidable ((s.posOf seq, bs) ∈ W))
  | .gap _ _ | .connect _ | .skip _ | .close | .trim _ | .setAutoTrim _ | .setInitial _ => isTrue trivial

example : Always (fun s op => InRange s op ∧ StaysOpen s op ∧ Records [(4, [5, 6]), (3, [4, 5])] s op) {}
    [.write [5, 6] (some 4) none, .write [4, 5] (some 3) none, .trim 5] := by decide

/-- And this reports something. -/
example : ({} : Sink).seen [.write [5, 6] (some 4) none, .write [4, 5] (some 3) none, .trim 5] =
    some (0, [.overlap 4 [5] [5], .undelivered 3 [4], .undelivered 4 [5, 6]]) := by rfl

/-- Without automatic trimming, data is reported as undelivered that was delivered. -/
theorem C22_fails_delivered_before : ({} : Sink).seen [.setAutoTrim false, .write [1, 2, 3] none none, .skip 3] =
    some (3, [.data 0 3 [1, 2, 3], .undelivered 0 [1, 2, 3], .skipped 3]) := by rfl

/-- Without automatic trimming, skipping into the middle of a chunk reports a wrong number of bytes: of the bytes 2-7, those below
    position 3 are reported as the five bytes 2-6. -/
theorem C22_fails_prefix_length : ({} : Sink).seen [.setAutoTrim false, .write [3, 4, 5, 6, 7, 8] (some 2) none, .skip 3] =
    some (3, [.undelivered 2 [3, 4, 5, 6, 7], .skipped 3]) := by rfl

/-! ## C45 -/

/-- What a connected unit has received, compared with what was passed on since. -/
def FanJ (L0 : List Event) (i : Nat) (beh : List Byte → Status) (r0 : List Byte) (_ _ : Nat) (log : List Event) (units : List Unit_) : Prop :=
  ∃ u l, units[i]? = some u ∧ log = L0 ++ l ∧ u.beh = beh ∧ u.received <+: r0 ++ deliveredData l ∧
    (u.status ≠ .failed → u.received = r0 ++ deliveredData l) ∧ (u.status = .failed → beh u.received = .failed)

theorem FanJ.other {L0 : List Event} {i : Nat} {beh : List Byte → Status} {r0 : List Byte} {cur last cur' last' : Nat} {log : List Event}
    {units : List Unit_} (h : FanJ L0 i beh r0 cur last log units) {e : Event} (he : deliveredData [e] = []) :
    FanJ L0 i beh r0 cur' last' (log ++ [e]) units := by
  obtain ⟨u, l, h1, rfl, h3, h4, h5, h6⟩ := h
  refine ⟨u, l ++ [e], h1, List.append_assoc _ _ _, h3, ?_, ?_, h6⟩
  · rw [deliveredData_append, he, List.append_nil]; exact h4
  · rw [deliveredData_append, he, List.append_nil]; exact h5

theorem FanJ.data {L0 : List Event} {i : Nat} {beh : List Byte → Status} {r0 : List Byte} {cur last cur' last' : Nat} {log : List Event}
    {units : List Unit_} (h : FanJ L0 i beh r0 cur last log units) (a b : Nat) (bs : List Byte) :
    FanJ L0 i beh r0 cur' last' (log ++ [.data a b bs]) (units.map (·.deliver bs)) := by
  obtain ⟨u, l, h1, rfl, h3, h4, h5, h6⟩ := h
  have hd : deliveredData (l ++ [Event.data a b bs]) = deliveredData l ++ bs := by
    rw [deliveredData_append]; simp [deliveredData]
  refine ⟨u.deliver bs, l ++ [.data a b bs], by rw [List.getElem?_map, h1]; rfl, List.append_assoc _ _ _, by rw [Unit_.deliver_beh]; exact h3, ?_⟩
  rw [hd, ← List.append_assoc]
  by_cases hf : u.status = .failed
  · have hu : u.deliver bs = u := by unfold Unit_.deliver; rw [hf]
    rw [hu]
    exact ⟨h4.trans (List.prefix_append _ _), fun h => absurd hf h, h6⟩
  · have hu : u.deliver bs = { u with received := u.received ++ bs, status := u.beh (u.received ++ bs) } := by
      unfold Unit_.deliver
      cases hs : u.status with
      | failed => exact absurd hs hf
      | waiting => rfl
      | finished => rfl
    rw [hu]
    have hr : u.received ++ bs = r0 ++ deliveredData l ++ bs := by rw [h5 hf]
    refine ⟨by show u.received ++ bs <+: _; rw [hr]; exact List.prefix_refl _, fun _ => hr, fun h => ?_⟩
    rw [← h3]; exact h

theorem fan_law (L0 : List Event) (i : Nat) (beh : List Byte → Status) (r0 : List Byte) :
    Law OrdC (FanJ L0 i beh r0) (fun _ _ => True) (fun _ => True) where
  ord := id
  overlap _ _ _ h := h.other rfl
  undelivered _ _ _ h _ _ := h.other rfl
  loopData c bs h _ _ _ _ _ := h.data _ _ bs
  loopEmpty _ h _ _ _ := h
  loopThrow _ _ h _ _ _ _ := h
  loopGap _ h _ _ _ _ := h.other rfl
  loopNoGap _ h _ _ _ _ := h
  fastData c bs h _ _ _ _ _ := h.data _ _ bs
  fastGap _ h _ _ _ := h.other rfl
  skip _ h _ := h.other rfl
  connect b h _ := by
    obtain ⟨u, l, h1, h⟩ := h
    refine ⟨u, l, ?_, h⟩
    rw [List.getElem?_append_left (List.getElem?_eq_some_iff.1 h1).1]; exact h1

/-- C45: every connected unit receives exactly the data passed on since it was connected, until its parser fails; a unit that
    fails has received the data up to that point. Other units do not matter. -/
theorem C45_fan_out {s1 s2 s3 : Sink} {beh : List Byte → Status} {ops : List Op} (hs : ∀ c ∈ s1.chunks, c.rseq ≤ c.rupper ∧ c.rupper < 2 ^ 64)
    (hc : s1.step (.connect beh) = .ok () s2) (h : Always (fun s op => InRange s op ∧ StaysOpen s op) s2 ops)
    (hr : s2.run ops = some s3) :
    ∃ u l, s3.units[s1.units.length]? = some u ∧ s3.log = s1.log ++ l ∧ u.beh = beh ∧
      (u.status ≠ .failed → u.received = deliveredData l) ∧
      (u.status = .failed → u.received <+: deliveredData l ∧ beh u.received = .failed) := by
  unfold Sink.step at hc
  dsimp only at hc
  split at hc
  · cases hc
  · next hb =>
    injection hc with _ hc
    subst hc
    have ha : Always (OpOk OrdC (fun _ _ => True) (fun _ => True)) _ ops :=
      h.imp (fun s op h => opOk_ord h.1 h.2 (fun _ _ => trivial) (fun _ _ => trivial))
    obtain ⟨u, l, h1, h2, h3, h4, h5, h6⟩ := ((fan_law s1.log s1.units.length beh []).run
      (s := { s1 with units := s1.units ++ [⟨[], beh [], beh⟩] }) ⟨⟨⟨[], beh [], beh⟩, [], by simp, by simp, rfl, List.prefix_refl _,
        fun _ => rfl, fun h => absurd h hb⟩, hs⟩ ha hr).1
    exact ⟨u, l, h1, h2, h3, h5, fun h => ⟨h4, h6 h⟩⟩

/-- A unit connected after the first two bytes, beside one that fails on seeing the third one. -/
example : ∃ s1 s2 s3, ({} : Sink).run [.connect (fun d => if d.length ≥ 3 then .failed else .waiting), .write [1, 2] none none] = some s1 ∧
    s1.step (.connect (fun _ => .waiting)) = .ok () s2 ∧
    Always (fun s op => InRange s op ∧ StaysOpen s op) s2 [.write [4] (some 3) none, .write [3] none none, .write [5] none none] ∧
    s2.run [.write [4] (some 3) none, .write [3] none none, .write [5] none none] = some s3 ∧
    s3.units.map (·.received) = [[1, 2, 3], [3, 4, 5]] ∧ s3.units.map (·.status) = [.failed, .waiting] :=
  ⟨_, _, _, rfl, rfl, by decide, rfl, rfl, rfl⟩

end Verif.Sink
