import Verif.Sink.Lemmas
/-!
# Adding data to the buffer
-/

namespace Verif.Sink

/-- What adding `bs` at `[a, b)` to the sorted buffer `L` does. -/
structure AddOk (L pre : List Chunk) (bs : List Byte) (a b : Nat) (r : Added) (i : Nat) (x : Chunk) : Prop where
  res : r.res = .ok (some i)
  here : r.chunks[i]? = some x
  wf : WF r.chunks
  value : ∀ p, chunkAt r.chunks p = (chunkAt L p).or (byteAt a bs p)
  old : ∀ c ∈ L, c ∈ r.chunks
  new : ∀ c ∈ r.chunks, c ∈ L ∨ (a ≤ c.rseq ∧ c.rupper ≤ b)
  log : ∀ e ∈ r.log, ∃ p o n, e = .overlap p o n
  beyond : a < x.rupper
  first : ∀ k, a ≤ k → k < b → (∀ p, a ≤ p → p < k → chunkAt L p ≠ none) → chunkAt L k = none → x.rseq = k
  keep : pre <+: r.chunks
  quiet : (∀ p, a ≤ p → p < b → chunkAt L p = none) → r.log = []

theorem or_comm_of {α} {x y : Option α} (h : x = none ∨ y = none) : x.or y = y.or x := by
  rcases h with rfl | rfl <;> simp

/-- Appending at the end. -/
theorem add_append {L : List Chunk} (hL : WF L) {bs : List Byte} {a b : Nat} (hbs : bs ≠ []) (hb : b = a + bs.length)
    (hlt : b < 2 ^ 64) (hle : ∀ c ∈ L, c.rupper ≤ a) {i : Nat} (hi : i = L.length)
    {pre : List Chunk} (hk : pre <+: L) :
    AddOk L pre bs a b ⟨.ok (some i), L ++ [⟨some bs, a, b⟩], []⟩ i ⟨some bs, a, b⟩ := by
  have hlen := List.length_pos_iff.2 hbs
  have full : Full ⟨some bs, a, b⟩ := ⟨bs, rfl, hbs, hb, hlt⟩
  refine ⟨rfl, by simp [hi], ?_, ?_, ?_, ?_, by simp, by simp; omega, ?_, hk.trans (List.prefix_append _ _), fun _ => rfl⟩
  · exact WF.append.2 ⟨hL, ⟨by simp, by simpa using full⟩, by simpa using hle⟩
  · intro p
    rw [chunkAt_append]
    simp only [chunkAt_cons, chunkAt_nil, Option.getD_some, Option.or_none]
  · intro c hc; simp [hc]
  · intro c hc
    rcases List.mem_append.1 hc with h | h
    · exact Or.inl h
    · simp at h; subst h; exact Or.inr ⟨Nat.le_refl _, Nat.le_refl _⟩
  · intro k h1 h2 h3 _
    rcases Nat.lt_or_ge a k with h | h
    · have := h3 a (Nat.le_refl _) h
      rw [Ne, chunkAt_none hL.full] at this
      exact absurd (fun c hc => Or.inr (hle c hc)) this
    · show a = k; omega

/-- The prefix of the new data before `c`. -/
def prefixOf (bs : List Byte) (a : Nat) (c : Chunk) : List Chunk :=
  if a < c.rseq then [⟨some (bs.take (c.rseq - a)), a, c.rseq⟩] else []

theorem add_unfold {bs : List Byte} {a b : Nat} (hb : b = a + bs.length) (hlt : b < 2 ^ 64)
    {pre post : List Chunk} {c : Chunk} (hc : Full c) (h1 : atBack (pre ++ c :: post) a = false) (h2 : a < c.rupper)
    (h3 : c.rseq < b) (h63 : bs.length < 2 ^ 63) :
    ∃ ev p o n, ev = Event.overlap p o n ∧ addAndCheck (some bs) a b pre (c :: post) =
      if c.rupper < b then
        let r := addAndCheck (some (bs.drop (c.rupper - a))) c.rupper b (pre ++ prefixOf bs a c ++ [c]) post
        ⟨pick (decide (a < c.rseq)) pre.length r.res, r.chunks, ev :: r.log⟩
      else ⟨.ok (some pre.length), pre ++ prefixOf bs a c ++ c :: post, [ev]⟩ := by
  obtain ⟨cb, hcd, hcb, hcr, hclt⟩ := hc
  have hcl := List.length_pos_iff.2 hcb
  by_cases hp : a < c.rseq
  · have e1 : dropBytes bs (c.rseq - a) = .ok (bs.drop (c.rseq - a)) := by
      unfold dropBytes; rw [if_neg (by omega), if_neg (by omega)]
    have e2 : add64 a (c.rseq - a) = c.rseq := by rw [add64_eq (by omega)]; omega
    have e3 : sub64 b c.rseq = b - c.rseq := sub64_eq hlt (by omega)
    have e4 : sub64 c.rupper c.rseq = c.rupper - c.rseq := sub64_eq hclt (by omega)
    have e5 : sub64 c.rseq c.rseq = 0 := by rw [sub64_eq (by omega) (Nat.le_refl _)]; omega
    have hpre : prefixOf bs a c = [⟨some (bs.take (c.rseq - a)), a, c.rseq⟩] := by unfold prefixOf; rw [if_pos hp]
    rw [addAndCheck]
    simp only [h1, Bool.false_eq_true, if_false, if_neg (show ¬ c.rupper ≤ a by omega), if_neg (show ¬ b ≤ c.rseq by omega),
      overlapWith, withPrefix, afterPrefix, resolve, oldData,
      decide_eq_true hp, if_true, e1, e2, e3, e4, e5, hcd, Option.isNone_some, Bool.and_false, hpre]
    have e6 : ∀ y, subBytes cb 0 y = .ok ((cb.drop 0).take (sub64 y 0)) := by
      intro y; unfold subBytes; rw [if_neg (by omega)]
    rw [e6]
    dsimp only
    by_cases hr : c.rupper < b
    · have e7 : (if b - c.rseq < c.rupper - c.rseq then b - c.rseq else c.rupper - c.rseq) = c.rupper - c.rseq := by
        rw [if_neg (by omega)]
      have e8 : dropBytes (bs.drop (c.rseq - a)) (c.rupper - c.rseq) = .ok (bs.drop (c.rupper - a)) := by
        unfold dropBytes; rw [if_neg (by omega), if_neg (by simp; omega), List.drop_drop]
        congr 2; omega
      have e9 : add64 c.rseq (c.rupper - c.rseq) = c.rupper := by rw [add64_eq (by omega)]; omega
      rw [e7, if_pos (by omega), e8, e9]
      simp only [if_pos hr]
      exact ⟨_, _, _, _, rfl, rfl⟩
    · have e7 : (if b - c.rseq < c.rupper - c.rseq then b - c.rseq else c.rupper - c.rseq) = b - c.rseq := by
        split <;> omega
      rw [e7, if_neg (by omega)]
      simp only [if_neg hr]
      exact ⟨_, _, _, _, rfl, rfl⟩
  · have e3 : sub64 b a = b - a := sub64_eq hlt (by omega)
    have e4 : sub64 c.rupper a = c.rupper - a := sub64_eq hclt (by omega)
    have e5 : sub64 a c.rseq = a - c.rseq := sub64_eq (by omega) (by omega)
    have hpre : prefixOf bs a c = [] := by unfold prefixOf; rw [if_neg hp]
    rw [addAndCheck]
    simp only [h1, Bool.false_eq_true, if_false, if_neg (show ¬ c.rupper ≤ a by omega), if_neg (show ¬ b ≤ c.rseq by omega),
      overlapWith, withPrefix, afterPrefix, resolve, oldData,
      decide_eq_false hp, e3, e4, e5, hcd, Bool.false_and, hpre, List.append_nil]
    have e6 : ∀ y, subBytes cb (a - c.rseq) y = .ok ((cb.drop (a - c.rseq)).take (sub64 y (a - c.rseq))) := by
      intro y; unfold subBytes; rw [if_neg (by omega)]
    rw [e6]
    dsimp only
    by_cases hr : c.rupper < b
    · have e7 : (if b - a < c.rupper - a then b - a else c.rupper - a) = c.rupper - a := by rw [if_neg (by omega)]
      have e8 : dropBytes bs (c.rupper - a) = .ok (bs.drop (c.rupper - a)) := by
        unfold dropBytes; rw [if_neg (by omega), if_neg (by omega)]
      have e9 : add64 a (c.rupper - a) = c.rupper := by rw [add64_eq (by omega)]; omega
      rw [e7, if_pos (by omega), e8, e9]
      simp only [if_pos hr]
      exact ⟨_, _, _, _, rfl, rfl⟩
    · have e7 : (if b - a < c.rupper - a then b - a else c.rupper - a) = b - a := by split <;> omega
      rw [e7, if_neg (by omega)]
      simp only [if_neg hr]
      exact ⟨_, _, _, _, rfl, rfl⟩

theorem pick_ok (h : Bool) (i : Nat) (j : Nat) : pick h i (.ok (some j)) = .ok (some (if h then i else j)) := by
  cases h <;> rfl

theorem add_spec (b : Nat) (hlt : b < 2 ^ 64) : ∀ (post pre : List Chunk) (bs : List Byte) (a : Nat), bs ≠ [] →
    b = a + bs.length → bs.length < 2 ^ 63 → WF (pre ++ post) → (∀ c ∈ pre, c.rupper ≤ a) →
    ∃ i x, AddOk (pre ++ post) pre bs a b (addAndCheck (some bs) a b pre post) i x := by
  intro post
  induction post with
  | nil =>
    intro pre bs a hbs hb _ hwf hpre
    rw [List.append_nil] at hwf ⊢
    exact ⟨_, _, add_append hwf hbs hb hlt hpre rfl (List.prefix_refl _)⟩
  | cons c post ih =>
    intro pre bs a hbs hb h63 hwf hpre
    have hlen := List.length_pos_iff.2 hbs
    have wf0 := hwf
    rw [WF.append, WF.cons] at wf0
    obtain ⟨wpre, ⟨hc, wpost, hcp⟩, hpp⟩ := wf0
    have hclt := hc.lt
    cases h1 : atBack (pre ++ c :: post) a with
    | true =>
      unfold addAndCheck
      rw [if_pos h1]
      have hle : ∀ d ∈ pre ++ c :: post, d.rupper ≤ a := by
        intro d hd
        unfold atBack at h1
        split at h1
        · next b' hb' => have := hwf.le_last hb' d hd; simp at h1; omega
        · cases h1
      exact ⟨_, _, add_append hwf hbs hb hlt hle (by simp; omega) (List.prefix_append _ _)⟩
    | false =>
      by_cases h2 : c.rupper ≤ a
      · unfold addAndCheck
        simp only [h1, Bool.false_eq_true, if_false, if_pos h2]
        have e : pre ++ c :: post = (pre ++ [c]) ++ post := by simp
        rw [e] at hwf ⊢
        obtain ⟨i, x, hi⟩ := ih (pre ++ [c]) bs a hbs hb h63 hwf (by
          intro d hd
          rcases List.mem_append.1 hd with h | h
          · exact hpre d h
          · simp at h; subst h; exact h2)
        exact ⟨i, x, { hi with keep := (List.prefix_append _ _).trans hi.keep }⟩
      · by_cases h3 : b ≤ c.rseq
        · unfold addAndCheck
          simp only [h1, Bool.false_eq_true, if_false, if_neg h2, if_pos h3]
          have full : Full ⟨some bs, a, b⟩ := ⟨bs, rfl, hbs, hb, hlt⟩
          refine ⟨_, ⟨some bs, a, b⟩, rfl, by simp, ?_, ?_, ?_, ?_, by simp, by simp; omega, ?_, List.prefix_append _ _, fun _ => rfl⟩
          · refine WF.append.2 ⟨wpre, WF.cons.2 ⟨full, WF.cons.2 ⟨hc, wpost, hcp⟩, ?_⟩, ?_⟩
            · intro y hy
              rcases List.mem_cons.1 hy with rfl | hy
              · exact h3
              · have := hcp y hy; simp; omega
            · intro y hy z hz
              rcases List.mem_cons.1 hz with rfl | hz
              · exact hpre y hy
              · exact hpp y hy z hz
          · intro p
            have hfin : byteAt a bs p = none ∨ chunkAt (c :: post) p = none := by
              rcases Nat.lt_or_ge p b with h | h
              · right
                refine (chunkAt_none (WF.cons.2 ⟨hc, wpost, hcp⟩).full).2 ?_
                intro d hd
                rcases List.mem_cons.1 hd with rfl | hd
                · omega
                · have := hcp d hd; omega
              · left; rw [byteAt_none]; omega
            rw [chunkAt_append, chunkAt_append, chunkAt_cons]
            simp only [Option.getD_some]
            rw [or_comm_of hfin, Option.or_assoc]
          · intro d hd
            simp at hd ⊢
            rcases hd with h | h | h <;> simp [h]
          · intro d hd
            simp at hd ⊢
            rcases hd with h | h | h | h
            · exact Or.inl (Or.inl h)
            · subst h; exact Or.inr ⟨Nat.le_refl _, Nat.le_refl _⟩
            · exact Or.inl (Or.inr (Or.inl h))
            · exact Or.inl (Or.inr (Or.inr h))
          · intro k k1 k2 k3 _
            rcases Nat.lt_or_ge a k with h | h
            · have := k3 a (Nat.le_refl _) h
              refine absurd ((chunkAt_none hwf.full).2 ?_) this
              intro d hd
              rcases List.mem_append.1 hd with hd | hd
              · exact Or.inr (hpre d hd)
              · rcases List.mem_cons.1 hd with rfl | hd
                · left; omega
                · have := hcp d hd; left; omega
            · show a = k; omega
        · -- overlap
          obtain ⟨ev, q, o, n, hev, hun⟩ := add_unfold hb hlt (pre := pre) (post := post) hc h1 (by omega) (by omega) h63
          rw [hun]
          -- facts about the prefix
          have pfull : ∀ d ∈ prefixOf bs a c, Full d := by
            intro d hd
            unfold prefixOf at hd
            split at hd
            · next hp =>
              simp at hd; subst hd
              refine ⟨_, rfl, ?_, ?_, ?_⟩
              · intro h
                have := congrArg List.length h
                rw [List.length_take, List.length_nil] at this; omega
              · simp; omega
              · simp; omega
            · cases hd
          have prng : ∀ d ∈ prefixOf bs a c, d.rseq = a ∧ d.rupper = c.rseq ∧ a < c.rseq := by
            intro d hd
            unfold prefixOf at hd
            split at hd
            · next hp => simp at hd; subst hd; exact ⟨rfl, rfl, hp⟩
            · cases hd
          have pwf : WF (prefixOf bs a c) := by
            refine ⟨?_, pfull⟩
            unfold prefixOf; split <;> simp
          have wfm : WF (pre ++ prefixOf bs a c ++ c :: post) := by
            rw [List.append_assoc, WF.append, WF.append, WF.cons]
            refine ⟨wpre, ⟨pwf, ⟨hc, wpost, hcp⟩, ?_⟩, ?_⟩
            · intro y hy z hz
              have := prng y hy
              rcases List.mem_cons.1 hz with rfl | hz
              · omega
              · have := hcp z hz; omega
            · intro y hy z hz
              rcases List.mem_append.1 hz with hz | hz
              · have := prng z hz; have := hpre y hy; omega
              · exact hpp y hy z hz
          have pval : ∀ p, p < c.rseq → chunkAt (prefixOf bs a c) p = byteAt a bs p := by
            intro p hp
            unfold prefixOf
            split
            · rw [chunkAt_cons, chunkAt_nil, Option.or_none, Option.getD_some]
              exact byteAt_take (show p < a + (c.rseq - a) by omega)
            · rw [chunkAt_nil, eq_comm, byteAt_none]; omega
          have pval' : ∀ p, c.rseq ≤ p → chunkAt (prefixOf bs a c) p = none := by
            intro p hp
            rw [chunkAt_none pfull]
            intro d hd
            have := prng d hd; omega
          have pnone : ∀ p, p < c.rseq → chunkAt (c :: post) p = none := by
            intro p hp
            rw [chunkAt_none (WF.cons.2 ⟨hc, wpost, hcp⟩).full]
            intro d hd
            rcases List.mem_cons.1 hd with rfl | hd
            · exact Or.inl hp
            · have := hcp d hd; left; omega
          -- the middle list shows the old data and the new data before the end of `c`
          have mval : ∀ p, p < c.rupper → chunkAt (pre ++ prefixOf bs a c ++ c :: post) p =
              (chunkAt (pre ++ c :: post) p).or (byteAt a bs p) := by
            intro p hp
            rw [chunkAt_append, chunkAt_append, chunkAt_append]
            rcases Nat.lt_or_ge p c.rseq with h | h
            · rw [pval p h, pnone p h]; simp
            · rw [pval' p h, Option.or_none]
              cases hz : (chunkAt pre p).or (chunkAt (c :: post) p) with
              | none =>
                rw [← chunkAt_append, chunkAt_none hwf.full] at hz
                have := hz c (by simp); omega
              | some y => simp
          have mval' : ∀ p, c.rupper ≤ p → chunkAt (pre ++ prefixOf bs a c ++ c :: post) p = chunkAt (pre ++ c :: post) p := by
            intro p hp
            rw [chunkAt_append, chunkAt_append, chunkAt_append, pval' p (by omega), Option.or_none]
          have mold : ∀ d ∈ pre ++ c :: post, d ∈ pre ++ prefixOf bs a c ++ c :: post := by
            intro d hd; simp at hd ⊢
            rcases hd with h | h | h <;> simp [h]
          have mnew : ∀ d ∈ pre ++ prefixOf bs a c ++ c :: post, d ∈ pre ++ c :: post ∨ (a ≤ d.rseq ∧ d.rupper ≤ b) := by
            intro d hd
            simp at hd ⊢
            rcases hd with h | h | h | h
            · exact Or.inl (Or.inl h)
            · have := prng d h; right; omega
            · exact Or.inl (Or.inr (Or.inl h))
            · exact Or.inl (Or.inr (Or.inr h))
          -- the chunk at `pre.length`
          obtain ⟨x, hx, hxa, hxf⟩ : ∃ x, (pre ++ prefixOf bs a c ++ c :: post)[pre.length]? = some x ∧ a < x.rupper ∧
              (a < c.rseq → x.rseq = a) := by
            by_cases hp : a < c.rseq
            · refine ⟨⟨some (bs.take (c.rseq - a)), a, c.rseq⟩, ?_, hp, fun _ => rfl⟩
              simp [prefixOf, hp]
            · exact ⟨c, by simp [prefixOf, hp], by omega, fun h => absurd h hp⟩
          have afree : a < c.rseq → chunkAt (pre ++ c :: post) a = none := by
            intro hp
            rw [chunkAt_append, pnone a hp, Option.or_none, chunkAt_none wpre.full]
            intro d hd; exact Or.inr (hpre d hd)
          have ccov : ∀ p, c.rseq ≤ p → p < c.rupper → chunkAt (pre ++ c :: post) p ≠ none := by
            intro p p1 p2 hz
            rw [chunkAt_none hwf.full] at hz
            have := hz c (by simp); omega
          have loud : ¬ ∀ p, a ≤ p → p < b → chunkAt (pre ++ c :: post) p = none := by
            intro hq
            rcases Nat.lt_or_ge a c.rseq with h | h
            · exact ccov c.rseq (Nat.le_refl _) hclt (hq _ (by omega) (by omega))
            · exact ccov a h (by omega) (hq _ (Nat.le_refl _) (by omega))
          by_cases hr : c.rupper < b
          · rw [if_pos hr]
            dsimp only
            have ew : pre ++ prefixOf bs a c ++ c :: post = (pre ++ prefixOf bs a c ++ [c]) ++ post := by simp
            obtain ⟨i, y, hi⟩ := ih (pre ++ prefixOf bs a c ++ [c]) (bs.drop (c.rupper - a)) c.rupper
              (by intro h; have := congrArg List.length h; simp at this; omega)
              (by simp; omega) (by simp; omega) (by rw [← ew]; exact wfm)
              (by
                intro d hd
                simp at hd
                rcases hd with h | h | h
                · have := hpre d h; omega
                · have := prng d h; omega
                · subst h; exact Nat.le_refl _)
            rw [← ew] at hi
            generalize addAndCheck (some (bs.drop (c.rupper - a))) c.rupper b (pre ++ prefixOf bs a c ++ [c]) post = r at hi ⊢
            have hval : ∀ p, chunkAt r.chunks p = (chunkAt (pre ++ c :: post) p).or (byteAt a bs p) := by
              intro p
              rw [hi.value]
              rcases Nat.lt_or_ge p c.rupper with h | h
              · have : byteAt c.rupper (bs.drop (c.rupper - a)) p = none := by rw [byteAt_none]; exact Or.inl h
                rw [this, Option.or_none, mval p h]
              · rw [mval' p h]
                have e1 : c.rupper = a + (c.rupper - a) := by omega
                have := byteAt_drop (a := a) (bs := bs) (n := c.rupper - a) (p := p) (by omega)
                rw [← e1] at this
                rw [this]
            rw [hi.res, pick_ok]
            have hk0 : pre <+: r.chunks := by
              refine List.IsPrefix.trans ?_ hi.keep
              rw [List.append_assoc]; exact List.prefix_append _ _
            have hold : ∀ d ∈ pre ++ c :: post, d ∈ r.chunks := fun d hd => hi.old d (mold d hd)
            have hnew : ∀ d ∈ r.chunks, d ∈ pre ++ c :: post ∨ (a ≤ d.rseq ∧ d.rupper ≤ b) := by
              intro d hd
              rcases hi.new d hd with h | h
              · exact mnew d h
              · right; omega
            have hlog : ∀ e ∈ ev :: r.log, ∃ p o n, e = Event.overlap p o n := by
              intro e he
              rcases List.mem_cons.1 he with rfl | he
              · exact ⟨_, _, _, hev⟩
              · exact hi.log e he
            by_cases hp : a < c.rseq
            · -- the prefix keeps its place
              rw [decide_eq_true hp, if_pos rfl]
              obtain ⟨t, ht⟩ := hi.keep
              refine ⟨pre.length, ⟨some (bs.take (c.rseq - a)), a, c.rseq⟩, rfl, ?_, hi.wf, hval, hold, hnew, hlog, hp, ?_, hk0, fun hq => absurd hq loud⟩
              · show r.chunks[pre.length]? = _
                rw [← ht]
                simp [prefixOf, hp]
              · intro k k1 k2 k3 k4
                rcases Nat.lt_or_ge a k with h | h
                · exact absurd (afree hp) (k3 a (Nat.le_refl _) h)
                · show a = k; omega
            · rw [decide_eq_false hp, if_neg (by simp)]
              refine ⟨i, y, rfl, hi.here, hi.wf, hval, hold, hnew, hlog, by have := hi.beyond; omega, ?_, hk0, fun hq => absurd hq loud⟩
              intro k k1 k2 k3 k4
              have hk : c.rupper ≤ k := by
                rcases Nat.lt_or_ge k c.rupper with h | h
                · exact absurd k4 (ccov k (by omega) h)
                · exact h
              refine hi.first k hk k2 ?_ ?_
              · intro p p1 p2
                rw [mval' p p1]
                exact k3 p (by omega) p2
              · rw [mval' k hk]; exact k4
          · rw [if_neg hr]
            refine ⟨_, x, rfl, hx, wfm, ?_, mold, mnew, by simp [hev], hxa, ?_, by rw [List.append_assoc]; exact List.prefix_append _ _,
              fun hq => absurd hq loud⟩
            · intro p
              rcases Nat.lt_or_ge p c.rupper with h | h
              · exact mval p h
              · rw [mval' p h]
                have : byteAt a bs p = none := by rw [byteAt_none]; omega
                rw [this, Option.or_none]
            · intro k k1 k2 k3 k4
              by_cases hp : a < c.rseq
              · rw [hxf hp]
                rcases Nat.lt_or_ge a k with h | h
                · exact absurd (afree hp) (k3 a (Nat.le_refl _) h)
                · omega
              · exact absurd k4 (ccov k (by omega) (by omega))

end Verif.Sink
