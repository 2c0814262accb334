import Verif.Sink.Write
/-!
# C16-C18: reassembly

Units never complete on their own here (`beh d ≠ .finished`): see `C18`'s notes in `DESIGN.md` for units that do.
-/

namespace Verif.Sink

/-- Behaviour of a unit that connects successfully and never finishes; it may fail. -/
def Open (beh : List Byte → Status) : Prop := beh [] ≠ .failed ∧ ∀ d, beh d ≠ .finished

theorem Sink.Completes.append {s s' s'' : Sink} {ops ops' : List Op} (h : s.Completes ops s') (h' : s'.Completes ops' s'') :
    s.Completes (ops ++ ops') s'' := by
  induction ops generalizing s with
  | nil => subst h; exact h'
  | cons op ops ih => obtain ⟨s1, h1, h2⟩ := h; exact ⟨s1, h1, ih h2⟩

/-- A sink with units connected and nothing written yet. -/
structure Ready (s : Sink) : Prop where
  cur : s.cur = 0
  last : s.last = 0
  trim : s.trim = 0
  chunks : s.chunks = []
  log : s.log = []
  auto : s.autoTrim = true
  calm : Calm s

theorem connect_ready {behs : List (List Byte → Status)} (hb : ∀ b ∈ behs, Open b) {s : Sink} (h : Ready s) :
    ∃ s', s.Completes (connects behs) s' ∧ Ready s' ∧ s'.initial = s.initial ∧ s'.units = s.units ++ behs.map (fun b => ⟨[], b [], b⟩) := by
  induction behs generalizing s with
  | nil => exact ⟨s, rfl, h, rfl, by simp⟩
  | cons b behs ih =>
    have hb1 := hb b (by simp)
    obtain ⟨s', h1, h2, h3, h4⟩ := ih (fun b hm => hb b (by simp [hm])) (s := { s with units := s.units ++ [⟨[], b [], b⟩] })
      ⟨h.cur, h.last, h.trim, h.chunks, h.log, h.auto, by
        intro u hu
        rcases List.mem_append.1 hu with hu | hu
        · exact h.calm u hu
        · simp at hu; subst hu; exact ⟨hb1.2 [], hb1.2⟩⟩
    refine ⟨s', ⟨_, ?_, h1⟩, h2, h3, ?_⟩
    · unfold Sink.step; dsimp only; rw [if_neg hb1.1]
    · rw [h4]; simp

theorem setInitial_ready {s : Sink} (h : Ready s) (init : Nat) : s.step (.setInitial init) = .ok () { s with initial := init } := by
  unfold Sink.step
  dsimp only
  rw [if_neg (by rintro (hh | hh); exact hh h.cur; exact hh h.chunks)]

/-- Connecting units and choosing the initial sequence number. -/
theorem start {behs : List (List Byte → Status)} (hb : ∀ b ∈ behs, Open b) (init : Nat) :
    ∃ s, ({} : Sink).Completes (connects behs ++ [.setInitial init]) s ∧ Ready s ∧ s.initial = init := by
  obtain ⟨s, h1, h2, h3, _⟩ := connect_ready hb (s := {}) ⟨rfl, rfl, rfl, rfl, rfl, rfl, fun u hu => by cases hu⟩
  exact ⟨_, h1.append ⟨_, setInitial_ready h2 init, rfl⟩, ⟨h2.cur, h2.last, h2.trim, h2.chunks, h2.log, h2.auto, h2.calm⟩, rfl⟩

theorem Ready.inv {s : Sink} (h : Ready s) : Inv [] s := by
  refine ⟨by rw [h.cur, h.last], by rw [h.trim, h.last]; exact Nat.le_refl _, by rw [h.chunks]; exact ⟨.nil, by simp⟩,
    by rw [h.chunks]; simp, by rw [h.log, h.last]; rfl, ?_, ?_, h.calm, by rw [h.log]; simp, by rw [h.last]; decide⟩
  · intro p hp; rw [h.last] at hp; omega
  · intro p _; rw [h.chunks]; rfl

theorem rel_add64 {s : Sink} {a : Nat} (ha : a < 2 ^ 64) : s.rel (add64 s.initial a) = a := by
  unfold Sink.rel sub64 add64; omega

theorem valueAt_nil_write {W : List (Nat × List Byte)} {a p : Nat} : valueAt (W ++ [(a, [])]) p = valueAt W p := by
  rw [valueAt_snoc, byteAt_none.2 (by simp; omega), Option.or_none]

theorem Inv.nil_write {W : List (Nat × List Byte)} {s : Sink} (h : Inv W s) (a : Nat) : Inv (W ++ [(a, [])]) s :=
  ⟨h.cur, h.trim, h.wf, h.split, h.len, fun p hp => by rw [valueAt_nil_write]; exact h.done p hp,
    fun p hp => by rw [valueAt_nil_write]; exact h.pending p hp, h.calm, h.log, h.bound⟩

theorem step_write_nil (s : Sink) (seq len : Option Nat) : s.step (.write [] seq len) = .ok () s := rfl

theorem step_write_at {s : Sink} {bs : List Byte} (hbs : bs ≠ []) {q : Nat} :
    s.step (.write bs (some q) none) = s.newData (some bs) (s.rel q) bs.length := by
  have := List.length_pos_iff.2 hbs
  unfold Sink.step
  dsimp only
  rw [if_neg (by omega)]
  rfl

theorem step_write_next {s : Sink} {bs : List Byte} (hbs : bs ≠ []) :
    s.step (.write bs none none) = s.newData (some bs) s.cur bs.length := by
  have := List.length_pos_iff.2 hbs
  unfold Sink.step
  dsimp only
  rw [if_neg (by omega)]
  rfl

theorem Reassembled.eq {W : List (Nat × List Byte)} {d D : List Byte} (h : Reassembled W d) (hD : ∀ p, valueAt W p = D[p]?) : d = D := by
  obtain ⟨h1, h2⟩ := h
  have hle : D.length ≤ d.length := by rw [hD, List.getElem?_eq_none_iff] at h2; exact h2
  apply List.ext_getElem?
  intro p
  rcases Nat.lt_or_ge p d.length with hp | hp
  · rw [← h1 p hp, hD]
  · rw [List.getElem?_eq_none_iff.2 hp, List.getElem?_eq_none_iff.2 (by omega)]

/-! ## C16 -/

theorem inOrder_run {init n : Nat} {ops : List Op} {d : List Byte} (h : InOrder init n ops d) {W : List (Nat × List Byte)} {s : Sink}
    (hi : Inv W s) (hinit : s.initial = init) (hn : s.last = n) (hlt : n + d.length < 2 ^ 63) (hend : ∀ p, n ≤ p → valueAt W p = none)
    (ho : OnlyData s.log) :
    ∃ s', s.Completes ops s' ∧ OnlyData s'.log ∧ deliveredData s'.log = deliveredData s.log ++ d := by
  induction h generalizing W s with
  | nil => exact ⟨s, rfl, ho, by simp⟩
  | @next n bs ops d _ ih =>
    rw [List.length_append] at hlt
    by_cases hbs : bs = []
    · subst hbs
      obtain ⟨s', g1, g2, g3⟩ := ih hi hinit (by simpa using hn) (by simpa using hlt) (by simpa using hend) ho
      exact ⟨s', ⟨s, rfl, g1⟩, g2, by simpa using g3⟩
    · have hc : s.cur = n := by rw [hi.cur, hn]
      obtain ⟨s1, e1, I, e2, e3, e4, e5, e6, e7⟩ := write_inv hi (a := s.cur) hbs (by omega) (by omega) (Or.inl (by omega))
      have hq : OnlyData s1.log := e6 (fun p hp _ => hend p (by omega)) ho
      have hR := I.reassembled
      have hv : ∀ p, valueAt (W ++ [(n, bs)]) p = (deliveredData s.log ++ bs)[p]? := by
        intro p
        rw [valueAt_snoc]
        rcases Nat.lt_or_ge p n with hp | hp
        · rw [hi.done p (by omega), byteAt_none.2 (Or.inl hp), Option.or_none, List.getElem?_append_left (by rw [hi.len]; omega)]
        · rw [hend p hp, Option.none_or, List.getElem?_append_right (by rw [hi.len]; omega), hi.len]
          unfold byteAt; rw [if_pos hp, hn]
      rw [hc] at I hR
      have hd := hR.eq hv
      have hl : s1.last = n + bs.length := by rw [← I.len, hd, List.length_append, hi.len]; omega
      obtain ⟨s', g1, g2, g3⟩ := ih I (by rw [e3]; exact hinit) hl (by omega) (by
        intro p hp; rw [hv, List.getElem?_eq_none_iff, List.length_append, hi.len]; omega) hq
      refine ⟨s', ⟨s1, ?_, g1⟩, g2, ?_⟩
      · rw [step_write_next hbs]; exact e1
      · rw [g3, hd, List.append_assoc]
  | @«at» n bs ops d _ ih =>
    rw [List.length_append] at hlt
    by_cases hbs : bs = []
    · subst hbs
      obtain ⟨s', g1, g2, g3⟩ := ih hi hinit (by simpa using hn) (by simpa using hlt) (by simpa using hend) ho
      exact ⟨s', ⟨s, rfl, g1⟩, g2, by simpa using g3⟩
    · obtain ⟨s1, e1, I, e2, e3, e4, e5, e6, e7⟩ := write_inv hi (a := n) hbs (by omega) (by omega) (Or.inl (by omega))
      have hq : OnlyData s1.log := e6 (fun p hp _ => hend p hp) ho
      have hR := I.reassembled
      have hv : ∀ p, valueAt (W ++ [(n, bs)]) p = (deliveredData s.log ++ bs)[p]? := by
        intro p
        rw [valueAt_snoc]
        rcases Nat.lt_or_ge p n with hp | hp
        · rw [hi.done p (by omega), byteAt_none.2 (Or.inl hp), Option.or_none, List.getElem?_append_left (by rw [hi.len]; omega)]
        · rw [hend p hp, Option.none_or, List.getElem?_append_right (by rw [hi.len]; omega), hi.len]
          unfold byteAt; rw [if_pos hp, hn]
      have hd := hR.eq hv
      have hl : s1.last = n + bs.length := by rw [← I.len, hd, List.length_append, hi.len]; omega
      obtain ⟨s', g1, g2, g3⟩ := ih I (by rw [e3]; exact hinit) hl (by omega) (by
        intro p hp; rw [hv, List.getElem?_eq_none_iff, List.length_append, hi.len]; omega) hq
      refine ⟨s', ⟨s1, ?_, g1⟩, g2, ?_⟩
      · rw [step_write_at hbs, ← hinit, rel_add64 (by omega)]; exact e1
      · rw [g3, hd, List.append_assoc]
  | @auto n b ops d _ ih =>
    obtain ⟨s', g1, g2, g3⟩ := ih (s := { s with autoTrim := b })
      ⟨hi.cur, hi.trim, hi.wf, hi.split, hi.len, hi.done, hi.pending, hi.calm, hi.log, hi.bound⟩ hinit hn hlt hend ho
    exact ⟨s', ⟨_, rfl, g1⟩, g2, g3⟩

/-- C16: data written in order, with or without sequence numbers, is passed on verbatim, and nothing else is reported. -/
theorem C16_in_order {behs : List (List Byte → Status)} (hb : ∀ b ∈ behs, Open b) {init : Nat} {ops : List Op} {d : List Byte}
    (h : InOrder init 0 ops d) (hlt : d.length < 2 ^ 63) :
    ∃ s, ({} : Sink).Completes (connects behs ++ [.setInitial init] ++ ops) s ∧ deliveredData s.log = d ∧ OnlyData s.log := by
  obtain ⟨s, h1, h2, h3⟩ := start hb init
  obtain ⟨s', g1, g2, g3⟩ := inOrder_run h h2.inv h3 h2.last (by omega) (fun p _ => rfl) (by rw [h2.log]; intro e he; cases he)
  refine ⟨s', h1.append g1, ?_, g2⟩
  rw [g3, h2.log]; rfl

example : InOrder (2 ^ 64 - 2) 0 [.write [1, 2] none none, .setAutoTrim false, .write [3] (some 0) none, .write [] none none,
    .setAutoTrim true, .write [4, 5] none none] [1, 2, 3, 4, 5] :=
  .next (.auto (.at (n := 2) (.next (.auto (.next .nil)))))

/-! ## C17 -/

theorem valueAt_covered {W : List (Nat × List Byte)} {p : Nat} :
    valueAt W p ≠ none ↔ ∃ w ∈ W, w.1 ≤ p ∧ p < w.1 + w.2.length := by
  induction W with
  | nil => simp [valueAt]
  | cons w W ih =>
    obtain ⟨a, bs⟩ := w
    simp only [valueAt, List.mem_cons, exists_eq_or_imp]
    rw [Ne, Option.or_eq_none_iff, byteAt_none, ← ih]
    constructor
    · intro h
      by_cases h1 : a ≤ p ∧ p < a + bs.length
      · exact Or.inl h1
      · exact Or.inr (fun h2 => h ⟨by omega, h2⟩)
    · rintro (h | h) ⟨h1, h2⟩
      · omega
      · exact h h2

/-- The conditions on a write that none of the integers overflow. -/
def Fits (w : Nat × List Byte) : Prop := w.1 + w.2.length < 2 ^ 63

theorem disjoint_run {V : List (Nat × List Byte)} (hV : ∀ w ∈ V, Fits w) {W : List (Nat × List Byte)} {s : Sink} (hi : Inv W s)
    (hd : (W ++ V).Pairwise Disjoint) (ho : OnlyData s.log) :
    ∃ s', s.Completes (writes s.initial V) s' ∧ OnlyData s'.log ∧ Inv (W ++ V) s' := by
  induction V generalizing W s with
  | nil => exact ⟨s, rfl, ho, by simpa using hi⟩
  | cons w V ih =>
    obtain ⟨a, bs⟩ := w
    have hf := hV (a, bs) (by simp)
    unfold Fits at hf
    dsimp only at hf
    have hcons : W ++ (a, bs) :: V = (W ++ [(a, bs)]) ++ V := by simp
    rw [hcons] at hd ⊢
    by_cases hbs : bs = []
    · subst hbs
      obtain ⟨s', g1, g2, g3⟩ := ih (fun w hw => hV w (by simp [hw])) (hi.nil_write a) hd ho
      exact ⟨s', ⟨s, rfl, g1⟩, g2, g3⟩
    · have hpos := List.length_pos_iff.2 hbs
      have hnew : ∀ p, a ≤ p → p < a + bs.length → valueAt W p = none := by
        intro p p1 p2
        apply Classical.byContradiction
        intro hc
        obtain ⟨w, w1, w2, w3⟩ := valueAt_covered.1 hc
        have := (List.pairwise_append.1 (List.pairwise_append.1 hd).1).2.2 w w1 (a, bs) (by simp)
        unfold Disjoint at this
        dsimp only at this
        omega
      have hge : s.last ≤ a := by
        apply Classical.byContradiction
        intro hc
        exact hi.covered (p := a) (by omega) (hnew a (Nat.le_refl _) (by omega))
      obtain ⟨s1, e1, I, e2, e3, e4, e5, e6, e7⟩ := write_inv hi (a := a) hbs (by omega) (by omega) (Or.inl hge)
      obtain ⟨s', g1, g2, g3⟩ := ih (fun w hw => hV w (by simp [hw])) I hd (e6 hnew ho)
      refine ⟨s', ⟨s1, ?_, ?_⟩, g2, g3⟩
      · rw [step_write_at hbs, rel_add64 (by omega)]; exact e1
      · rw [e3] at g1; exact g1

/-- C17: writes with no position in common, in any order: the data up to the first position nothing was written for is
    passed on, and nothing else is reported. -/
theorem C17_disjoint {behs : List (List Byte → Status)} (hb : ∀ b ∈ behs, Open b) {init : Nat} {W : List (Nat × List Byte)}
    (hW : ∀ w ∈ W, Fits w) (hd : W.Pairwise Disjoint) :
    ∃ s, ({} : Sink).Completes (connects behs ++ [.setInitial init] ++ writes init W) s ∧
      Reassembled W (deliveredData s.log) ∧ OnlyData s.log := by
  obtain ⟨s, h1, h2, h3⟩ := start hb init
  obtain ⟨s', g1, g2, g3⟩ := disjoint_run hW h2.inv (by simpa using hd) (by rw [h2.log]; intro e he; cases he)
  rw [h3] at g1
  exact ⟨s', h1.append g1, by simpa using g3.reassembled, g2⟩

theorem place_lo {n : Nat} {P : List (List Byte)} {w : Nat × List Byte} (h : w ∈ place n P) :
    n ≤ w.1 ∧ w.1 + w.2.length ≤ n + P.flatten.length := by
  induction P generalizing n with
  | nil => cases h
  | cons b P ih =>
    rw [List.flatten_cons, List.length_append]
    rcases List.mem_cons.1 h with rfl | h
    · dsimp only; omega
    · have := ih h; omega

theorem place_disjoint (n : Nat) (P : List (List Byte)) : (place n P).Pairwise Disjoint := by
  induction P generalizing n with
  | nil => exact .nil
  | cons b P ih =>
    refine List.Pairwise.cons ?_ (ih _)
    intro w hw
    exact Or.inl (place_lo hw).1

theorem place_value {n : Nat} {P : List (List Byte)} {p : Nat} (hp : n ≤ p) : valueAt (place n P) p = P.flatten[p - n]? := by
  induction P generalizing n with
  | nil => rfl
  | cons b P ih =>
    simp only [place, valueAt, List.flatten_cons]
    rcases Nat.lt_or_ge p (n + b.length) with h | h
    · have hb : byteAt n b p = b[p - n]? := by unfold byteAt; rw [if_pos hp]
      rw [hb, List.getElem?_append_left (by omega), List.getElem?_eq_getElem (by omega : p - n < b.length), Option.some_or]
    · rw [byteAt_none.2 (Or.inr h), Option.none_or, ih h, List.getElem?_append_right (by omega)]
      congr 1; omega

theorem Disjoint.symm {x y : Nat × List Byte} (h : Disjoint x y) : Disjoint y x := by unfold Disjoint at *; omega

/-- The value does not depend on the order of writes without common positions. -/
theorem valueAt_perm {W V : List (Nat × List Byte)} (h : W.Perm V) (hd : W.Pairwise Disjoint) (p : Nat) : valueAt W p = valueAt V p := by
  induction h with
  | nil => rfl
  | cons w _ ih => simp only [valueAt, ih (List.pairwise_cons.1 hd).2]
  | swap x y l =>
    obtain ⟨a, bs⟩ := x
    obtain ⟨b, cs⟩ := y
    simp only [valueAt, ← Option.or_assoc]
    congr 1
    have hxy := (List.pairwise_cons.1 hd).1 (a, bs) (by simp)
    unfold Disjoint at hxy
    dsimp only at hxy
    by_cases h1 : p < a ∨ a + bs.length ≤ p
    · rw [byteAt_none.2 h1]; simp
    · rw [byteAt_none.2 (show p < b ∨ b + cs.length ≤ p by omega)]; simp
  | trans h1 h2 ih1 ih2 => rw [ih1 hd, ih2 ((h1.pairwise_iff Disjoint.symm).1 hd)]

/-- C17: segments written in any order arrive in the right one, once. -/
theorem C17_any_order {behs : List (List Byte → Status)} (hb : ∀ b ∈ behs, Open b) {init : Nat} {P : List (List Byte)}
    {W : List (Nat × List Byte)} (hperm : W.Perm (place 0 P)) (hlt : P.flatten.length < 2 ^ 63) :
    ∃ s, ({} : Sink).Completes (connects behs ++ [.setInitial init] ++ writes init W) s ∧
      deliveredData s.log = P.flatten ∧ OnlyData s.log := by
  have hd : W.Pairwise Disjoint := (hperm.pairwise_iff Disjoint.symm).2 (place_disjoint 0 P)
  obtain ⟨s, h1, h2, h3⟩ := C17_disjoint hb (init := init) (W := W) (by
    intro w hw
    have := (place_lo (hperm.mem_iff.1 hw)).2
    unfold Fits; omega) hd
  refine ⟨s, h1, h2.eq ?_, h3⟩
  intro p
  rw [valueAt_perm hperm hd, place_value (Nat.zero_le _), Nat.sub_zero]

example : [(3, [4, 5, 6]), (0, [1, 2]), (6, [7]), (2, [3])].Perm (place 0 [[1, 2], [3], [4, 5, 6], ([7] : List Byte)]) := by decide

/-! ## C18 -/

/-- A write may be added at any time if nothing has ever been trimmed. -/
theorem whole_run {V : List (Nat × List Byte)} (hV : ∀ w ∈ V, Fits w) {W : List (Nat × List Byte)} {s : Sink} (hi : Inv W s)
    (hw : Whole s) :
    ∃ s', s.Completes (writes s.initial V) s' ∧ Inv (W ++ V) s' := by
  induction V generalizing W s with
  | nil => exact ⟨s, rfl, by simpa using hi⟩
  | cons w V ih =>
    obtain ⟨a, bs⟩ := w
    have hf := hV (a, bs) (by simp)
    unfold Fits at hf
    dsimp only at hf
    rw [show W ++ (a, bs) :: V = (W ++ [(a, bs)]) ++ V by simp]
    by_cases hbs : bs = []
    · subst hbs
      obtain ⟨s', g1, g3⟩ := ih (fun w hw => hV w (by simp [hw])) (hi.nil_write a) hw
      exact ⟨s', ⟨s, rfl, g1⟩, g3⟩
    · obtain ⟨s1, e1, I, e2, e3, e4, e5, e6, e7⟩ := write_inv hi (a := a) hbs (by omega) (by omega) (Or.inr (Or.inl hw))
      obtain ⟨s', g1, g3⟩ := ih (fun w hw => hV w (by simp [hw])) I (e5 hw)
      refine ⟨s', ⟨s1, ?_, ?_⟩, g3⟩
      · rw [step_write_at hbs, rel_add64 (by omega)]; exact e1
      · rw [e3] at g1; exact g1

theorem segments_run {V : List (Nat × List Byte)} (hV : ∀ w ∈ V, Fits w) {W : List (Nat × List Byte)} {s : Sink} (hi : Inv W s)
    (hd : (W ++ V).Pairwise SameOrDisjoint) (ht : ∀ w ∈ W, w.1 + w.2.length ≤ s.trim ∨ s.trim ≤ w.1) :
    ∃ s', s.Completes (writes s.initial V) s' ∧ Inv (W ++ V) s' := by
  induction V generalizing W s with
  | nil => exact ⟨s, rfl, by simpa using hi⟩
  | cons w V ih =>
    obtain ⟨a, bs⟩ := w
    have hf := hV (a, bs) (by simp)
    unfold Fits at hf
    dsimp only at hf
    have hcons : W ++ (a, bs) :: V = (W ++ [(a, bs)]) ++ V := by simp
    rw [hcons] at hd ⊢
    by_cases hbs : bs = []
    · subst hbs
      obtain ⟨s', g1, g3⟩ := ih (fun w hw => hV w (by simp [hw])) (hi.nil_write a) hd (by
        intro w hw
        rcases List.mem_append.1 hw with hw | hw
        · exact ht w hw
        · simp at hw; subst hw; dsimp only [List.length_nil]; omega)
      exact ⟨s', ⟨s, rfl, g1⟩, g3⟩
    · have hpos := List.length_pos_iff.2 hbs
      have htl := hi.trim
      have hcase : s.last ≤ a ∨ (a + bs.length ≤ s.trim) ∨ (s.trim ≤ a ∧ a + bs.length ≤ s.last) := by
        rcases Nat.lt_or_ge a s.last with hlt | hge
        · right
          obtain ⟨w, w1, w2, w3⟩ := valueAt_covered.1 (hi.covered hlt)
          have hsd := (List.pairwise_append.1 (List.pairwise_append.1 hd).1).2.2 w w1 (a, bs) (by simp)
          have hw : w.1 = a ∧ w.2.length = bs.length := by
            rcases hsd with h | h
            · exact h
            · unfold Disjoint at h; dsimp only at h; omega
          have hl : a + bs.length ≤ s.last := by
            apply Classical.byContradiction
            intro hc
            exact valueAt_covered.2 ⟨w, w1, by omega, by omega⟩ hi.hole
          have := ht w w1
          omega
        · exact Or.inl hge
      rcases hcase with hc | hc | hc
      rotate_left
      · obtain ⟨e1, I⟩ := write_old hi (a := a) hbs hc
        obtain ⟨s', g1, g3⟩ := ih (fun w hw => hV w (by simp [hw])) I hd (by
          intro w hw
          rcases List.mem_append.1 hw with hw | hw
          · exact ht w hw
          · simp at hw; subst hw; dsimp only; omega)
        refine ⟨s', ⟨s, ?_, g1⟩, g3⟩
        rw [step_write_at hbs, rel_add64 (by omega)]; exact e1
      all_goals
        obtain ⟨s1, e1, I, e2, e3, e4, e5, e6, e7⟩ := write_inv hi (a := a) hbs (by omega) (by omega) (by omega)
        obtain ⟨s', g1, g3⟩ := ih (fun w hw => hV w (by simp [hw])) I hd (by
          intro w hw
          rcases e7 with e7 | e7
          · rw [e7]
            rcases List.mem_append.1 hw with hw | hw
            · exact ht w hw
            · simp at hw; subst hw; dsimp only; omega
          · rw [e7]
            apply Classical.byContradiction
            intro hc
            exact valueAt_covered.2 ⟨w, hw, by omega, by omega⟩ I.hole)
        refine ⟨s', ⟨s1, ?_, ?_⟩, g3⟩
        · rw [step_write_at hbs, rel_add64 (by omega)]; exact e1
        · rw [e3] at g1; exact g1

/-- If the writes are parts of `D` that cover it, `D` is what they amount to. -/
theorem value_parts {D : List Byte} {W : List (Nat × List Byte)} (hp : ∀ w ∈ W, PartOf D w)
    (hc : ∀ p, p < D.length → ∃ w ∈ W, w.1 ≤ p ∧ p < w.1 + w.2.length) (p : Nat) : valueAt W p = D[p]? := by
  have key : ∀ V : List (Nat × List Byte), (∀ w ∈ V, PartOf D w) → valueAt V p = none ∨ valueAt V p = D[p]? := by
    intro V
    induction V with
    | nil => intro _; exact Or.inl rfl
    | cons w V ih =>
      intro hV
      obtain ⟨a, bs⟩ := w
      simp only [valueAt]
      by_cases h : p < a ∨ a + bs.length ≤ p
      · rw [byteAt_none.2 h, Option.none_or]
        exact ih (fun w hw => hV w (by simp [hw]))
      · right
        have h1 := hV (a, bs) (by simp) (p - a) (by show p - a < bs.length; omega)
        dsimp only at h1
        rw [show a + (p - a) = p by omega] at h1
        unfold byteAt
        rw [if_pos (by omega), h1.1, List.getElem?_eq_getElem h1.2]; rfl
  rcases key W hp with h | h
  · rcases Nat.lt_or_ge p D.length with hl | hl
    · exact absurd h (valueAt_covered.2 (hc p hl))
    · rw [h, List.getElem?_eq_none_iff.2 hl]
  · exact h

/-- C18, with automatic trimming switched off: however the writes overlap and in whatever order they come, the data up to
    the first position that nothing was written for is passed on. Where writes differ, the first one counts. -/
theorem C18_untrimmed_partial {behs : List (List Byte → Status)} (hb : ∀ b ∈ behs, Open b) {init : Nat} {W : List (Nat × List Byte)}
    (hW : ∀ w ∈ W, Fits w) :
    ∃ s, ({} : Sink).Completes (connects behs ++ [.setInitial init] ++ (.setAutoTrim false :: writes init W)) s ∧
      Reassembled W (deliveredData s.log) ∧ OnlyDataAndOverlaps s.log := by
  obtain ⟨s, h1, h2, h3⟩ := start hb init
  have hi := h2.inv
  obtain ⟨s', g1, g3⟩ := whole_run hW (s := { s with autoTrim := false })
    ⟨hi.cur, hi.trim, hi.wf, hi.split, hi.len, hi.done, hi.pending, hi.calm, hi.log, hi.bound⟩ ⟨rfl, h2.trim, by
      intro p hp
      have hp : p < s.last := hp
      rw [h2.last] at hp; omega⟩
  have g1 : ({ s with autoTrim := false } : Sink).Completes (writes s.initial W) s' := g1
  rw [show writes s.initial W = writes init W by rw [h3]] at g1
  exact ⟨s', h1.append ⟨_, rfl, g1⟩, by simpa using g3.reassembled, g3.log⟩

/-- C18, with automatic trimming switched off: no byte is lost. -/
theorem C18_untrimmed_complete_partial {behs : List (List Byte → Status)} (hb : ∀ b ∈ behs, Open b) {init : Nat} {D : List Byte}
    (hD : D.length < 2 ^ 63) {W : List (Nat × List Byte)} (hp : ∀ w ∈ W, PartOf D w) (hne : ∀ w ∈ W, w.2 ≠ [])
    (hc : ∀ p, p < D.length → ∃ w ∈ W, w.1 ≤ p ∧ p < w.1 + w.2.length) :
    ∃ s, ({} : Sink).Completes (connects behs ++ [.setInitial init] ++ (.setAutoTrim false :: writes init W)) s ∧
      deliveredData s.log = D := by
  obtain ⟨s, h1, h2, _⟩ := C18_untrimmed_partial hb (init := init) (W := W) (by
    intro w hw
    have := List.length_pos_iff.2 (hne w hw)
    have := (hp w hw (w.2.length - 1) (by omega)).2
    unfold Fits; omega)
  exact ⟨s, h1, h2.eq (value_parts hp hc)⟩

/-- C18, with automatic trimming, for retransmission of whole segments: if any two writes concern the same positions or have
    none in common, nothing is lost. -/
theorem C18_segments_partial {behs : List (List Byte → Status)} (hb : ∀ b ∈ behs, Open b) {init : Nat} {W : List (Nat × List Byte)}
    (hW : ∀ w ∈ W, Fits w) (hd : W.Pairwise SameOrDisjoint) :
    ∃ s, ({} : Sink).Completes (connects behs ++ [.setInitial init] ++ writes init W) s ∧
      Reassembled W (deliveredData s.log) ∧ OnlyDataAndOverlaps s.log := by
  obtain ⟨s, h1, h2, h3⟩ := start hb init
  obtain ⟨s', g1, g3⟩ := segments_run hW h2.inv (by simpa using hd) (by intro w hw; cases hw)
  rw [h3] at g1
  exact ⟨s', h1.append g1, by simpa using g3.reassembled, g3.log⟩

/-- Every write starts at or after the current position at that time. -/
def Ahead : Sink → List (Nat × List Byte) → Prop
  | _, [] => True
  | s, w :: W => s.cur ≤ w.1 ∧ ∀ s', s.step (.write w.2 (some (add64 s.initial w.1)) none) = .ok () s' → Ahead s' W

theorem ahead_run {V : List (Nat × List Byte)} (hV : ∀ w ∈ V, Fits w) {W : List (Nat × List Byte)} {s : Sink} (hi : Inv W s)
    (ha : Ahead s V) :
    ∃ s', s.Completes (writes s.initial V) s' ∧ Inv (W ++ V) s' := by
  induction V generalizing W s with
  | nil => exact ⟨s, rfl, by simpa using hi⟩
  | cons w V ih =>
    obtain ⟨a, bs⟩ := w
    have hf := hV (a, bs) (by simp)
    unfold Fits at hf
    dsimp only at hf
    obtain ⟨ha, hnext⟩ := ha
    dsimp only at ha hnext
    rw [show W ++ (a, bs) :: V = (W ++ [(a, bs)]) ++ V by simp]
    by_cases hbs : bs = []
    · subst hbs
      obtain ⟨s', g1, g3⟩ := ih (fun w hw => hV w (by simp [hw])) (hi.nil_write a) (hnext s rfl)
      exact ⟨s', ⟨s, rfl, g1⟩, g3⟩
    · obtain ⟨s1, e1, I, e2, e3, e4, e5, e6, e7⟩ := write_inv hi (a := a) hbs (by omega) (by omega) (Or.inl (by rw [← hi.cur]; exact ha))
      have hst : s.step (.write bs (some (add64 s.initial a)) none) = .ok () s1 := by
        rw [step_write_at hbs, rel_add64 (by omega)]; exact e1
      obtain ⟨s', g1, g3⟩ := ih (fun w hw => hV w (by simp [hw])) I (hnext s1 hst)
      rw [e3] at g1
      exact ⟨s', ⟨s1, hst, g1⟩, g3⟩

/-- C18, with automatic trimming, for arbitrary overlaps among data that has not been passed on yet. -/
theorem C18_ahead_partial {s : Sink} (hs : Ready s) {W : List (Nat × List Byte)} (hW : ∀ w ∈ W, Fits w) (ha : Ahead s W) :
    ∃ s', s.Completes (writes s.initial W) s' ∧ Reassembled W (deliveredData s'.log) ∧ OnlyDataAndOverlaps s'.log := by
  obtain ⟨s', g1, g3⟩ := ahead_run hW hs.inv ha
  exact ⟨s', g1, by simpa using g3.reassembled, g3.log⟩

/-- The current position and what the units have seen, after a history. -/
def Sink.seen (s : Sink) (ops : List Op) : Option (Nat × List Event) := (s.run ops).map fun s => (s.cur, s.log)

/-- C18 does not hold with automatic trimming (the default): the retransmission of bytes 2-4 together with the new bytes 5-7
    loses the latter, and all data following them. Bytes 0-9 have all been written. -/
theorem C18_fails_partial_retransmission :
    ({} : Sink).seen (writes 0 [(0, [1, 2, 3, 4, 5]), (2, [3, 4, 5, 6, 7, 8]), (8, [9, 10])]) =
      some (5, [.data 0 5 [1, 2, 3, 4, 5]]) ∧
    (∀ p, p < 10 → ∃ w ∈ [(0, [1, 2, 3, 4, 5]), (2, [3, 4, 5, 6, 7, 8]), (8, ([9, 10] : List Byte))],
      w.1 ≤ p ∧ p < w.1 + w.2.length) := by
  constructor
  · rfl
  · intro p hp
    rcases Nat.lt_or_ge p 5 with h | h
    · exact ⟨(0, [1, 2, 3, 4, 5]), by simp, by simp, by simpa using h⟩
    · rcases Nat.lt_or_ge p 8 with h' | h'
      · exact ⟨(2, [3, 4, 5, 6, 7, 8]), by simp, by simp; omega, by simpa using h'⟩
      · exact ⟨(8, [9, 10]), by simp, by simpa using h', by simpa using hp⟩

/-- C18: the retransmission of data that has been passed on already can throw an exception later. Segments in order, one of
    them early, then the old positions 5-14, then the old position 17. -/
theorem C18_fails_throws :
    let D : List Byte := [0, 1, 2, 3, 4, 5, 6, 7, 8, 9, 10, 11, 12, 13, 14, 15, 16, 17, 18, 19]
    let W : List (Nat × List Byte) := [(5, (D.drop 5).take 5), (0, D.take 5), (10, D.drop 10), (5, (D.drop 5).take 10)]
    ∃ s, ({} : Sink).run (writes 0 W) = some s ∧ deliveredData s.log = D ∧ ∃ s', s.step (.write [17] (some 17) none) = .throw .outOfRange s' :=
  ⟨_, rfl, rfl, _, rfl⟩

/-- The writes of the example for `C18_segments_partial`. -/
example : [(0, [1, 2]), (4, [5]), (0, [1, 2]), (2, [3, 4]), (2, [9, 9]), (4, ([5] : List Byte))].Pairwise SameOrDisjoint := by
  simp [SameOrDisjoint, Disjoint]

/-- And what becomes of them. -/
example : ({} : Sink).seen (writes 0 [(0, [1, 2]), (4, [5]), (0, [1, 2]), (2, [3, 4]), (2, [9, 9]), (4, [5])]) =
    some (5, [.data 0 2 [1, 2], .data 2 4 [3, 4], .data 4 5 [5]]) := by rfl

/-- Writes that overlap among each other, ahead of the current position. -/
example : Ahead {} [(2, [3, 4, 5]), (1, [9, 9, 9, 9, 6]), (0, [1])] := by
  refine ⟨Nat.zero_le _, fun s' h => ?_⟩
  injection h with _ h; subst h
  refine ⟨Nat.zero_le _, fun s' h => ?_⟩
  injection h with _ h; subst h
  exact ⟨Nat.zero_le _, fun s' h => trivial⟩

end Verif.Sink
