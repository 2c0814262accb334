import Verif.Regex.Spec
/-!
# Regular expressions: incremental matching (C61)
-/

namespace Verif.Regex
open Verif.Stream

/-! ## The automaton -/

theorem runFrom_append (A : Auto) (w x : List Byte) : ∀ s f, runFrom A s f (w ++ x) =
    runFrom A (runFrom A s f w) (if w = [] then f else false) x := by
  induction w with
  | nil => intro s f; simp [runFrom]
  | cons b w ih =>
    intro s f
    simp only [List.cons_append, runFrom, ih]
    congr 1
    split <;> simp

theorem run_append (A : Auto) (w x : List Byte) : run A (w ++ x) = runFrom A (run A w) (decide (w = [])) x := by
  unfold run
  rw [runFrom_append]
  congr 1

theorem run_snoc (A : Auto) (w : List Byte) (b : Byte) : run A (w ++ [b]) = A.step (run A w) b (decide (w = [])) false := by
  rw [run_append]; rfl

theorem plain_step {A : Auto} (P : Plain A) (w : List Byte) (b : Byte) {first : Bool} (hf : w = [] → first = true) (l : Bool) :
    A.step (run A w) b first l = run A (w ++ [b]) := by
  rw [run_snoc]
  by_cases h : w = []
  · subst h
    rw [hf rfl]
    exact P.start b l
  · rw [P.inner w h b first l]
    simp [h]

theorem runFrom_stuck (A : Auto) (x : List Byte) : ∀ s f, A.more s = false → x ≠ [] →
    A.acc (runFrom A s f x) = 0 ∧ A.more (runFrom A s f x) = false := by
  induction x with
  | nil => intro s f _ h; exact absurd rfl h
  | cons b x ih =>
    intro s f h _
    have h1 := A.stuck s b f false h
    simp only [runFrom]
    by_cases hx : x = []
    · subst hx; exact h1
    · exact ih _ _ h1.2 hx

/-- Once there are no transitions, nothing longer is accepted. -/
theorem stuck_append {A : Auto} {w : List Byte} (h : A.more (run A w) = false) {x : List Byte} (hx : x ≠ []) :
    accepts A (w ++ x) = 0 ∧ A.more (run A (w ++ x)) = false := by
  unfold accepts
  rw [run_append]
  exact runFrom_stuck A x _ _ h hx

theorem more_append {A : Auto} {w : List Byte} (h : A.more (run A w) = false) (x : List Byte) :
    A.more (run A (w ++ x)) = false := by
  by_cases hx : x = []
  · subst hx; rw [List.append_nil]; exact h
  · exact (stuck_append h hx).2

/-! ## Longest matches -/

/-- A match recorded by the matcher: the longest one of the data read. -/
def Record (A : Auto) (w : List Byte) (acc eo : Nat) : Prop :=
  (acc = 0 ∧ NoMatch A w) ∨ (0 < acc ∧ ∃ n, Longest A w n ∧ acc = accepts A (w.take n) ∧ eo = n + 1)

theorem take_append_le {w x : List Byte} {n : Nat} (h : n ≤ w.length) : (w ++ x).take n = w.take n :=
  List.take_append_of_le_length h

theorem take_append_gt {w x : List Byte} {n : Nat} (h : w.length < n) (hn : n ≤ (w ++ x).length) :
    ∃ y, y ≠ [] ∧ (w ++ x).take n = w ++ y := by
  refine ⟨x.take (n - w.length), ?_, ?_⟩
  · intro e
    have := congrArg List.length e
    rw [List.length_take] at this
    rw [List.length_append] at hn
    simp only [List.length_nil] at this
    omega
  · rw [List.take_append, List.take_of_length_le (by omega)]

theorem noMatch_stuck {A : Auto} {w : List Byte} (h : A.more (run A w) = false) (hn : NoMatch A w) (x : List Byte) :
    NoMatch A (w ++ x) := by
  intro n hle
  by_cases h1 : n ≤ w.length
  · rw [take_append_le h1]; exact hn n h1
  · obtain ⟨y, hy, e⟩ := take_append_gt (by omega) hle
    rw [e]; exact (stuck_append h hy).1

theorem longest_stuck {A : Auto} {w : List Byte} {n : Nat} (h : A.more (run A w) = false) (hn : Longest A w n)
    (x : List Byte) : Longest A (w ++ x) n ∧ (w ++ x).take n = w.take n := by
  have e := take_append_le (x := x) hn.le
  refine ⟨⟨by simp; have := hn.le; omega, by rw [e]; exact hn.hit, ?_⟩, e⟩
  intro m hm hle
  by_cases h1 : m ≤ w.length
  · rw [take_append_le h1]; exact hn.max m hm h1
  · obtain ⟨y, hy, e⟩ := take_append_gt (by omega) hle
    rw [e]; exact (stuck_append h hy).1

theorem record_stuck {A : Auto} {w : List Byte} {a e : Nat} (h : A.more (run A w) = false) (hr : Record A w a e)
    (x : List Byte) : Record A (w ++ x) a e := by
  rcases hr with ⟨h1, h2⟩ | ⟨h1, n, h2, h3, h4⟩
  · exact Or.inl ⟨h1, noMatch_stuck h h2 x⟩
  · obtain ⟨k1, k2⟩ := longest_stuck h h2 x
    exact Or.inr ⟨h1, n, k1, by rw [k2]; exact h3, h4⟩

theorem record_snoc {A : Auto} {w : List Byte} {a e : Nat} (hr : Record A w a e) (b : Byte) :
    Record A (w ++ [b]) (if accepts A (w ++ [b]) > 0 then accepts A (w ++ [b]) else a)
      (if accepts A (w ++ [b]) > 0 then w.length + 2 else e) := by
  have hl : (w ++ [b]).length = w.length + 1 := by simp
  by_cases h : accepts A (w ++ [b]) > 0
  · rw [if_pos h, if_pos h]
    refine Or.inr ⟨h, w.length + 1, ⟨by omega, ?_, fun m h1 h2 => by omega⟩, ?_, rfl⟩
    · rw [← hl, List.take_length]; omega
    · rw [← hl, List.take_length]
  · rw [if_neg h, if_neg h]
    rcases hr with ⟨h1, h2⟩ | ⟨h1, n, h2, h3, h4⟩
    · refine Or.inl ⟨h1, fun n hn => ?_⟩
      by_cases h5 : n ≤ w.length
      · rw [take_append_le h5]; exact h2 n h5
      · rw [List.take_of_length_le (by omega)]; omega
    · have hle := h2.le
      refine Or.inr ⟨h1, n, ⟨by omega, by rw [take_append_le hle]; exact h2.hit, fun m hm hmm => ?_⟩,
        by rw [take_append_le hle]; exact h3, h4⟩
      by_cases h5 : m ≤ w.length
      · rw [take_append_le h5]; exact h2.max m hm h5
      · rw [List.take_of_length_le (by omega)]; omega

theorem record_init (A : Auto) : Record A [] (MS.init A).acc (MS.init A).eo := by
  unfold MS.init
  by_cases h : A.acc A.init = 0
  · exact Or.inl ⟨h, fun n hn => by simp [accepts, run, runFrom, h]⟩
  · refine Or.inr ⟨by dsimp only; omega, 0, ⟨by simp, by simpa [accepts, run, runFrom] using h, fun m h1 h2 => ?_⟩, rfl, rfl⟩
    simp at h2; omega

theorem longest_unique {A : Auto} {w : List Byte} {m n : Nat} (h : Longest A w m) (k : Longest A w n) : m = n := by
  rcases Nat.lt_trichotomy m n with h1 | h1 | h1
  · exact absurd (h.max n h1 k.le) k.hit
  · exact h1
  · exact absurd (k.max m h1 h.le) h.hit

/-- Reading the right answer off the record. -/
theorem verdict_unique {A : Auto} {w : List Byte} {r r' : Int} {e e' : Int} (h : Verdict A w r e) (k : Verdict A w r' e') :
    r = r' ∧ (r ≠ 0 → e = e') := by
  rcases h with ⟨h1, h2⟩ | ⟨n, h2, h3, h4⟩
  · rcases k with ⟨k1, k2⟩ | ⟨m, k2, k3, k4⟩
    · exact ⟨by rw [h1, k1], fun h => absurd h1 h⟩
    · exact absurd (h2 m k2.le) k2.hit
  · rcases k with ⟨k1, k2⟩ | ⟨m, k2, k3, k4⟩
    · exact absurd (k2 n h2.le) h2.hit
    · have := longest_unique h2 k2
      subst this
      exact ⟨by rw [h3, k3], fun _ => by rw [h4, k4]⟩

/-! ## Feeding data -/

/-- The match state has read `w`. -/
structure Tracks (A : Auto) (w : List Byte) (m : MS) : Prop where
  st : m.st = run A w
  off : m.offset = w.length + 1
  record : Record A w m.acc m.eo

theorem tracks_init (A : Auto) : Tracks A [] (MS.init A) := ⟨rfl, rfl, record_init A⟩

theorem feed_spec {A : Auto} (P : Plain A) (bs : List Byte) : ∀ {w : List Byte} {m : MS} {first : Bool} (last : Bool), Tracks A w m →
    (w = [] → first = true) →
    Record A (w ++ bs) (feed A bs first last m).2.acc (feed A bs first last m).2.eo ∧
    ((feed A bs first last m).1 = false → Tracks A (w ++ bs) (feed A bs first last m).2 ∧
      (bs ≠ [] → A.dead (run A (w ++ bs)) = false)) ∧
    ((feed A bs first last m).1 = true → A.more (run A (w ++ bs)) = false ∧
      ∃ k, k < bs.length ∧ (feed A bs first last m).2.offset = w.length + k + 1) := by
  induction bs with
  | nil =>
    intro w m first last t _
    simp only [feed, List.append_nil]
    exact ⟨t.record, fun _ => ⟨t, fun h => absurd rfl h⟩, fun h => by cases h⟩
  | cons b bs ih =>
    intro w m first last t hf
    have hs : A.step m.st b first (last && bs.isEmpty) = run A (w ++ [b]) := by rw [t.st]; exact plain_step P w b hf _
    have happ : w ++ b :: bs = (w ++ [b]) ++ bs := by simp
    by_cases hd : A.dead (run A (w ++ [b])) = true
    · have he : feed A (b :: bs) first last m = (true, m) := by
        rw [feed]; simp only [hs]; rw [if_pos hd]
      unfold Auto.dead at hd
      simp only [Bool.and_eq_true, beq_iff_eq, Bool.not_eq_true'] at hd
      rw [he]
      dsimp only
      refine ⟨?_, fun h => (by cases h), fun _ => ⟨by rw [happ]; exact more_append hd.2 bs, 0, by simp, t.off⟩⟩
      rw [happ]
      refine record_stuck hd.2 ?_ bs
      have := record_snoc t.record b
      have h0 : ¬ accepts A (w ++ [b]) > 0 := by unfold accepts; omega
      rw [if_neg h0, if_neg h0] at this
      exact this
    · have he : feed A (b :: bs) first last m = feed A bs false last ⟨run A (w ++ [b]), m.offset + 1,
          if A.acc (run A (w ++ [b])) > 0 then A.acc (run A (w ++ [b])) else m.acc,
          if A.acc (run A (w ++ [b])) > 0 then m.offset + 1 else m.eo⟩ := by
        rw [feed]; simp only [hs]; rw [if_neg hd]
      rw [he, happ]
      have t' : Tracks A (w ++ [b]) ⟨run A (w ++ [b]), m.offset + 1,
          if A.acc (run A (w ++ [b])) > 0 then A.acc (run A (w ++ [b])) else m.acc,
          if A.acc (run A (w ++ [b])) > 0 then m.offset + 1 else m.eo⟩ := by
        refine ⟨rfl, by simp [t.off], ?_⟩
        have := record_snoc t.record b
        rw [t.off]
        exact this
      obtain ⟨i1, i2, i3⟩ := ih (first := false) last t' (fun h => by simp at h)
      refine ⟨i1, fun h => ⟨(i2 h).1, fun _ => ?_⟩, fun h => ?_⟩
      · by_cases hb : bs = []
        · subst hb; rw [List.append_nil]; simpa using hd
        · exact (i2 h).2 hb
      · obtain ⟨k1, k, k2, k3⟩ := i3 h
        refine ⟨k1, k + 1, by simp; omega, ?_⟩
        rw [k3]; simp; omega

/-- What `exec` gives after `w` has been read and `bs` is fed. -/
theorem exec_spec {A : Auto} (P : Plain A) {bs w : List Byte} (hb : bs ≠ []) {m : MS} {first : Bool} (last final : Bool)
    (t : Tracks A w m) (hf : w = [] → first = true) :
    ((exec A bs first last final m).1 = 0 ∧ NoMatch A (w ++ bs) ∧ A.more (run A (w ++ bs)) = false) ∨
    (∃ n, Longest A (w ++ bs) n ∧ (exec A bs first last final m).1 = accepts A ((w ++ bs).take n) ∧
      (exec A bs first last final m).2.eo = n + 1 ∧ (A.more (run A (w ++ bs)) = false ∨ final = true)) ∨
    ((exec A bs first last final m).1 = -1 ∧ Tracks A (w ++ bs) (exec A bs first last final m).2 ∧
      A.more (run A (w ++ bs)) = true ∧ (final = true → NoMatch A (w ++ bs))) := by
  obtain ⟨h1, h2, h3⟩ := feed_spec P bs last t hf
  unfold exec
  generalize feed A bs first last m = r at h1 h2 h3
  obtain ⟨j, m'⟩ := r
  dsimp only at h1 h2 h3
  cases j with
  | true =>
    dsimp only
    have hm := (h3 rfl).1
    rcases h1 with ⟨k1, k2⟩ | ⟨k1, n, k2, k3, k4⟩
    · exact Or.inl ⟨by omega, k2, hm⟩
    · exact Or.inr (Or.inl ⟨n, k2, by omega, k4, Or.inl hm⟩)
  | false =>
    dsimp only
    obtain ⟨t', hd⟩ := h2 rfl
    have hd := hd hb
    unfold Auto.dead at hd
    by_cases hc : m'.acc > 0 ∧ (final = true ∨ A.more m'.st = false)
    · rw [if_pos hc]
      rcases h1 with ⟨k1, k2⟩ | ⟨k1, n, k2, k3, k4⟩
      · omega
      · refine Or.inr (Or.inl ⟨n, k2, by dsimp only; omega, k4, ?_⟩)
        rcases hc.2 with h | h
        · exact Or.inr h
        · rw [t'.st] at h; exact Or.inl h
    · rw [if_neg hc]
      rw [t'.st] at hc
      have hmore : A.more (run A (w ++ bs)) = true := by
        cases hmo : A.more (run A (w ++ bs)) with
        | true => rfl
        | false =>
          exfalso
          rw [hmo] at hd hc
          have ha : A.acc (run A (w ++ bs)) ≠ 0 := by simpa using hd
          rcases h1 with ⟨k1, k2⟩ | ⟨k1, -⟩
          · have := k2 _ (Nat.le_refl _)
            rw [List.take_length] at this
            exact ha this
          · exact hc ⟨k1, Or.inr rfl⟩
      refine Or.inr (Or.inr ⟨rfl, t', hmore, fun hfin => ?_⟩)
      rcases h1 with ⟨k1, k2⟩ | ⟨k1, -⟩
      · exact k2
      · exact absurd ⟨k1, Or.inl hfin⟩ hc

/-! ## `_advance` -/

/-- A match state that is not complete and has read `w`. -/
structure Open (A : Auto) (w : List Byte) (p : Pimpl) : Prop where
  ms : Tracks A w p.ms
  acc : p.acc = 0 ∨ p.acc = -1
  first : w = [] → p.first = true
  done : p.done = false
  more : w ≠ [] → A.more (run A w) = true

theorem open_new (A : Auto) : Open A [] (Pimpl.new A) := ⟨tracks_init A, Or.inl rfl, fun _ => rfl, rfl, fun h => absurd rfl h⟩

/-- Blocks of a view: none is empty, the last one is marked. -/
def Marked : List (List Byte × Bool) → Prop
  | [] => True
  | b :: bs => b.1 ≠ [] ∧ b.2 = bs.isEmpty ∧ Marked bs

/-- The bytes of the blocks. -/
def bytesIn (bs : List (List Byte × Bool)) : List Byte := bs.flatMap (·.1)

/-- What advancing gives: `rc`, bytes consumed and the new state, after `w` was read before and `d` was given now. -/
def Advanced (A : Auto) (w d : List Byte) (final : Bool) (r : (Int × Int) × Pimpl) : Prop :=
  (r.1.1 = 0 ∧ NoMatch A (w ++ d) ∧ A.more (run A (w ++ d)) = false) ∨
  (∃ n : Nat, Longest A (w ++ d) n ∧ r.1.1 = accepts A ((w ++ d).take n) ∧ r.1.2 = n - w.length ∧
    (A.more (run A (w ++ d)) = false ∨ final = true)) ∨
  (r.1.1 = -1 ∧ r.1.2 = d.length ∧ Open A (w ++ d) r.2 ∧ (final = true → NoMatch A (w ++ d)))

theorem blockLoop_spec {A : Auto} (P : Plain A) (final first : Bool) (start : Nat) (bs : List (List Byte × Bool)) :
    ∀ {w0 w : List Byte} {p : Pimpl} (rc : Int), bs ≠ [] → Marked bs → Tracks A w p.ms → (p.acc = 0 ∨ p.acc = -1) →
      (w = [] → first = true) → p.done = false → w0.length + 1 = start → w0 <+: w →
      Advanced A w0 (w.drop w0.length ++ bytesIn bs) final (blockLoop A final first start bs rc p) := by
  induction bs with
  | nil => intro w0 w p rc h; exact absurd rfl h
  | cons b bs ih =>
    intro w0 w p rc _ hm t hacc hf hd hst hp
    obtain ⟨m1, m2, m3⟩ := hm
    have hw : w0 ++ (w.drop w0.length ++ bytesIn (b :: bs)) = w ++ b.1 ++ bytesIn bs := by
      have : w0 ++ w.drop w0.length = w := List.prefix_iff_eq_append.mp hp
      rw [← List.append_assoc, this, List.append_assoc]; rfl
    have he := exec_spec P (bs := b.1) m1 (final && b.2) (final && b.2) t hf
    unfold blockLoop
    generalize exec A b.1 first (final && b.2) (final && b.2) p.ms = r at he
    obtain ⟨rc', m'⟩ := r
    dsimp only at he ⊢
    unfold Advanced
    rw [hw]
    rcases he with ⟨h1, h2, h3⟩ | ⟨n, h1, h2, h3, h4⟩ | ⟨h1, h2, h3, h4⟩
    · rw [if_pos h1]
      refine Or.inl ⟨?_, noMatch_stuck h3 h2 _, more_append h3 _⟩
      rcases hacc with h | h <;> simp [h]
    · have hpos : accepts A ((w ++ b.1).take n) ≠ 0 := h1.hit
      rw [if_neg (by omega), if_pos (by omega)]
      refine Or.inr (Or.inl ⟨n, ?_⟩)
      rcases h4 with h4 | h4
      · obtain ⟨k1, k2⟩ := longest_stuck h4 h1 (bytesIn bs)
        refine ⟨k1, by rw [k2]; exact h2, by dsimp only; omega, Or.inl (more_append h4 _)⟩
      · simp only [Bool.and_eq_true] at h4
        have hnil : bs = [] := by
          have := h4.2; rw [m2] at this; simpa using this
        subst hnil
        have e : bytesIn [] = [] := rfl
        rw [e, List.append_nil]
        exact ⟨h1, h2, by dsimp only; omega, Or.inr h4.1⟩
    · rw [if_neg (by omega), if_neg (by omega)]
      by_cases hn : bs = []
      · subst hn
        have e : bytesIn [] = [] := rfl
        rw [e, List.append_nil]
        have hfin : b.2 = true := by rw [m2]; rfl
        unfold blockLoop
        rw [if_neg (by omega)]
        have hlen : (w0.length : Int) + (w.drop w0.length ++ bytesIn [b]).length = (w ++ b.1).length := by
          have := congrArg List.length hw
          rw [e, List.append_nil] at this
          simp only [List.length_append] at this ⊢
          omega
        refine Or.inr (Or.inr ⟨?_, ?_, ⟨?_, ?_, ?_, ?_, fun _ => h3⟩, ?_⟩)
        · rcases hacc with h | h <;> simp [h, h1]
        · have hoff := h2.off
          split <;> dsimp only <;> omega
        · split <;> exact h2
        · rcases hacc with h | h <;> simp [h, h1]
        · intro hnil
          exact absurd (List.append_eq_nil_iff.1 hnil).2 m1
        · split <;> exact hd
        · intro h; exact h4 (by rw [h, hfin]; rfl)
      · have key := ih (w0 := w0) (w := w ++ b.1) (p := { p with ms := m' }) rc' hn m3 h2 hacc (fun hnil =>
            absurd (List.append_eq_nil_iff.1 hnil).2 m1) hd hst (hp.trans (List.prefix_append _ _))
        unfold Advanced at key
        have hw' : w0 ++ ((w ++ b.1).drop w0.length ++ bytesIn bs) = w ++ b.1 ++ bytesIn bs := by
          have : w0 ++ (w ++ b.1).drop w0.length = w ++ b.1 := List.prefix_iff_eq_append.mp (hp.trans (List.prefix_append _ _))
          rw [← List.append_assoc, this]
        rw [hw'] at key
        have hl : ((w ++ b.1).drop w0.length ++ bytesIn bs).length = (w.drop w0.length ++ bytesIn (b :: bs)).length := by
          have a1 := congrArg List.length hw
          have a2 := congrArg List.length hw'
          simp only [List.length_append] at a1 a2 ⊢
          omega
        rw [hl] at key
        exact key

theorem advanceBlocks_spec {A : Auto} (P : Plain A) {bs : List (List Byte × Bool)} (hb : bs ≠ []) (hm : Marked bs) (final : Bool)
    {w : List Byte} {p : Pimpl} (o : Open A w p) : Advanced A w (bytesIn bs) final (advanceBlocks A bs final p) := by
  unfold advanceBlocks
  rw [if_neg (by simpa using hb)]
  have := blockLoop_spec P final p.first p.ms.offset bs (w0 := w) (w := w) (p := { p with first := false }) 0 hb hm
    o.ms o.acc o.first o.done o.ms.off.symm (List.prefix_refl w)
  simpa using this

/-- Empty data that is not final changes nothing. -/
theorem advanceEmpty_more {A : Auto} {p : Pimpl} : advanceEmpty A false p = ((-1, 0), p) := by
  unfold advanceEmpty; simp

/-- Empty final data: the right answer if the data read before is a match, or if none was seen. -/
theorem advanceEmpty_final {A : Auto} {w : List Byte} {p : Pimpl} (o : Open A w p) (h : accepts A w = 0 → NoMatch A w) :
    Verdict A w (advanceEmpty A true p).1.1 (w.length + (advanceEmpty A true p).1.2) := by
  have hle : p.acc ≤ 0 := by rcases o.acc with h | h <;> omega
  unfold advanceEmpty
  simp only [hle, and_self, if_true]
  unfold currentAccept
  rw [o.ms.st]
  by_cases ha : A.acc (run A w) > 0
  · rw [if_pos ha]
    refine Or.inr ⟨w.length, ⟨Nat.le_refl _, ?_, fun m h1 h2 => by omega⟩, ?_, by omega⟩
    · rw [List.take_length]; unfold accepts; omega
    · rw [List.take_length]; rfl
  · rw [if_neg ha]
    have hn := h (by unfold accepts; omega)
    have h0 : p.ms.acc = 0 := by
      rcases o.ms.record with ⟨h1, -⟩ | ⟨h1, n, h2, h3, -⟩
      · exact h1
      · exact absurd (hn n h2.le) h2.hit
    refine Or.inl ⟨?_, hn⟩
    split
    · rw [h0]; rfl
    · rfl

/-! ## Sequences of calls -/

theorem advanceBytes_spec {A : Auto} (P : Plain A) {d : List Byte} (hd : d ≠ []) (final : Bool) {w : List Byte} {p : Pimpl}
    (o : Open A w p) : ∃ r : (Int × Int) × Pimpl, Advanced A w d final r ∧
      advanceBytes A d final (some p) = (.ok r.1, some (finish r).2) := by
  have := advanceBlocks_spec P (bs := [(d, true)]) (by simp) ⟨hd, rfl, trivial⟩ final o
  refine ⟨advanceBlocks A [(d, true)] final p, ?_, ?_⟩
  rotate_left
  · simp only [advanceBytes, o.done, Bool.false_eq_true, if_false, hd]
    unfold finish
    split <;> rfl
  · have e : bytesIn [(d, true)] = d := by simp [bytesIn]
    rw [e] at this; exact this

theorem advanceBytes_empty {A : Auto} {w : List Byte} {p : Pimpl} (o : Open A w p) :
    advanceBytes A [] false (some p) = (.ok (-1, 0), some p) := by
  unfold advanceBytes
  simp only [o.done, Bool.false_eq_true, if_false, if_true]
  unfold advanceBlocks
  simp only [List.isEmpty_nil, if_true]
  rw [advanceEmpty_more]
  rfl

/-- A match state that is complete stays so. -/
theorem advanceAll_done (A : Auto) {p : Pimpl} (h : p.done = true) (ds : List (List Byte × Bool)) :
    advanceAll A (some p) ds = (List.replicate ds.length (.throw .matchStateReuse), some p) := by
  induction ds with
  | nil => rfl
  | cons d ds ih =>
    simp only [advanceAll, advanceBytes, h, if_true, ih, List.length_cons, List.replicate_succ]

/-- The calls of a user feeding pieces of data, and finally the last one. -/
def calls (ds : List (List Byte)) (d : List Byte) : List (List Byte × Bool) := ds.map (·, false) ++ [(d, true)]

/-- The results of feeding pieces: -1 for a number of calls, each consuming all of its data; then the verdict on all of the
    data `W`, if there is one; then only `MatchStateReuse`. `w` is what was read before. -/
inductive Outcomes (A : Auto) (W : List Byte) : List Byte → List (List Byte) → List (Res (Int × Int)) → Prop where
  | verdict {w d ds rc off} : rc ≥ 0 → Verdict A W rc (w.length + off) →
      Outcomes A W w (d :: ds) (.ok (rc, off) :: List.replicate ds.length (.throw .matchStateReuse))
  | more {w d ds out} : Outcomes A W (w ++ d) ds out → Outcomes A W w (d :: ds) (.ok (-1, d.length) :: out)
  | none {w} : NoMatch A W → Outcomes A W w [] []

theorem finish_done {r : (Int × Int) × Pimpl} (h : r.1.1 ≥ 0) : (finish r).2.done = true := by
  unfold finish; rw [if_pos h]

theorem advanceAll_spec {A : Auto} (P : Plain A) (d : List Byte) (ds : List (List Byte)) : ∀ {w : List Byte} {p : Pimpl}, Open A w p →
    (d = [] → NoBack A) →
    Outcomes A (w ++ (ds ++ [d]).flatten) w (ds ++ [d]) (advanceAll A (some p) (calls ds d)).1 := by
  induction ds with
  | nil =>
    intro w p o hnb
    have hcalls : calls [] d = [(d, true)] := rfl
    rw [hcalls]
    simp only [advanceAll, List.nil_append, List.flatten_cons, List.flatten_nil, List.append_nil]
    by_cases hd : d = []
    · subst hd
      have hv := advanceEmpty_final o (fun ha => by
        by_cases hw : w = []
        · subst hw; intro n hn; simp at hn; subst hn; simpa using ha
        · exact hnb rfl w (o.more hw) ha)
      have he : advanceBytes A [] true (some p) = (.ok (advanceEmpty A true p).1, some (finish (advanceEmpty A true p)).2) := by
        unfold advanceBytes
        simp only [o.done, Bool.false_eq_true, if_false, if_true]
        unfold advanceBlocks finish
        simp only [List.isEmpty_nil, if_true]
        split <;> rfl
      rw [he, List.append_nil]
      have hge : (advanceEmpty A true p).1.1 ≥ 0 := by
        rcases hv with ⟨h1, -⟩ | ⟨n, -, h1, -⟩ <;> omega
      exact .verdict (ds := []) hge hv
    · obtain ⟨⟨⟨rc, off⟩, q⟩, h1, h2⟩ := advanceBytes_spec P hd true o
      rw [h2]
      unfold Advanced at h1
      dsimp only at h1 ⊢
      rcases h1 with ⟨k1, k2, -⟩ | ⟨n, k1, k2, k3, -⟩ | ⟨k1, k2, -, k3⟩
      · exact .verdict (ds := []) (by omega) (Or.inl ⟨k1, k2⟩)
      · exact .verdict (ds := []) (by omega) (Or.inr ⟨n, k1, k2, by omega⟩)
      · rw [k1, k2]
        exact .more (.none (k3 rfl))
  | cons e ds ih =>
    intro w p o hnb
    have hcalls : calls (e :: ds) d = (e, false) :: calls ds d := rfl
    have hl : (calls ds d).length = (ds ++ [d]).length := by simp [calls]
    have happ : w ++ (e :: ds ++ [d]).flatten = (w ++ e) ++ (ds ++ [d]).flatten := by simp
    rw [hcalls, happ]
    simp only [advanceAll, List.cons_append]
    by_cases he : e = []
    · subst he
      rw [advanceBytes_empty o]
      dsimp only
      rw [List.append_nil]
      exact .more (by rw [List.append_nil]; exact ih o hnb)
    · obtain ⟨⟨⟨rc, off⟩, q⟩, h1, h2⟩ := advanceBytes_spec P he false o
      rw [h2]
      unfold Advanced at h1
      dsimp only at h1 ⊢
      rcases h1 with ⟨k1, k2, k3⟩ | ⟨n, k1, k2, k3, k4⟩ | ⟨k1, k2, k3, -⟩
      · rw [advanceAll_done A (finish_done (by dsimp only; omega)), hl]
        exact .verdict (by omega) (Or.inl ⟨k1, noMatch_stuck k3 k2 _⟩)
      · rw [advanceAll_done A (finish_done (by dsimp only; omega)), hl]
        have k4 := k4.resolve_right (by decide)
        obtain ⟨j1, j2⟩ := longest_stuck k4 k1 (ds ++ [d]).flatten
        exact .verdict (by omega) (Or.inr ⟨n, j1, by rw [j2]; exact k2, by omega⟩)
      · have hfin : finish ((rc, off), q) = ((rc, off), q) := by unfold finish; rw [if_neg (by dsimp only; omega)]
        rw [hfin, k1, k2]
        exact .more (ih k3 hnb)

/-- C61. Matching data that comes in pieces `ds`, with `d` the last one: every call before the decision reports -1 and
    consumes all of its data; the decision is the longest match in all of the data, or that there is none, and its end
    is where the longest match ends (the calls' consumed bytes add up to it, also if that means going back); after the
    decision there are only errors. If there is no decision in the end, there is no match. This holds for all expressions
    without inner assertions. If the last piece is empty, it holds for expressions that need not go back. -/
theorem C61_incremental_matching_partial {A : Auto} (P : Plain A) (ds : List (List Byte)) (d : List Byte)
    (h : d ≠ [] ∨ NoBack A) :
    Outcomes A (ds ++ [d]).flatten [] (ds ++ [d]) (advanceAll A (some (Pimpl.new A)) (calls ds d)).1 := by
  have := advanceAll_spec P d ds (open_new A) (fun hd => h.resolve_left (fun x => x hd))
  simpa using this

/-- C61. Once a call has given a result that is not negative, all further calls throw `MatchStateReuse`, for all expressions
    (also with assertions) and all data. -/
theorem C61_reuse_is_detected (A : Auto) (m : MState) (ds es : List (List Byte × Bool)) (rc off : Int) (d : List Byte) (final : Bool)
    (h : (advanceBytes A d final (advanceAll A m ds).2).1 = .ok (rc, off)) (hrc : rc ≥ 0) :
    (advanceAll A (advanceBytes A d final (advanceAll A m ds).2).2 es).1 = List.replicate es.length (.throw .matchStateReuse) := by
  generalize (advanceAll A m ds).2 = q at h ⊢
  cases q with
  | none => simp only [advanceBytes] at h; cases h
  | some p =>
    by_cases hd : p.done = true
    · simp only [advanceBytes, hd, if_true] at h; cases h
    · simp only [advanceBytes, hd, Bool.false_eq_true, if_false] at h ⊢
      have h := (Res.ok.inj h)
      generalize advanceBlocks A (if d = [] then [] else [(d, true)]) final p = r at h ⊢
      have : (finish r).1 = r.1 := by unfold finish; split <;> rfl
      rw [this] at h
      have hge : r.1.1 ≥ 0 := by rw [h]; exact hrc
      rw [advanceAll_done A (finish_done hge)]

end Verif.Regex
