import Verif.Regex.Find
/-!
# Regular expressions: matching on views of a stream

The blocks of a view without a gap are its bytes in pieces, so `advance` on a view is `advance` on its bytes.
-/

namespace Verif.Regex
open Verif.Stream

/-- What the matcher sees of the blocks of a view. -/
def pieces (bl : List View.Block) : List (List Byte × Bool) := bl.map fun b => (b.bytes, b.isLast)

theorem viewLoop_ok (A : Auto) (v : View) (c : Chain) (final first : Bool) (start : Nat) (f : Nat) :
    ∀ (b : Option View.Block) (bl : List View.Block) (rc : Int) (p : Pimpl), v.blocksLoop c f b = .ok bl →
      viewLoop A v c final first start f b rc p = .ok (blockLoop A final first start (pieces bl) rc p) := by
  induction f with
  | zero =>
    intro b bl rc p h
    cases b with
    | none => simp only [View.blocksLoop] at h; injection h with h; subst h; simp only [viewLoop]; rfl
    | some b => simp only [View.blocksLoop] at h; cases h
  | succ f ih =>
    intro b bl rc p h
    cases b with
    | none => simp only [View.blocksLoop] at h; injection h with h; subst h; simp only [viewLoop]; rfl
    | some b =>
      simp only [View.blocksLoop] at h
      simp only [viewLoop]
      cases hn : v.nextBlock c b with
      | throw e => rw [hn] at h; cases h
      | ub => rw [hn] at h; cases h
      | ok n =>
        rw [hn] at h
        simp only [Res.ok_bind] at h
        cases hr : v.blocksLoop c f n with
        | throw e => rw [hr] at h; cases h
        | ub => rw [hr] at h; cases h
        | ok r =>
          rw [hr] at h
          simp only [Res.ok_bind] at h
          injection h with h; subst h
          have hp : pieces (b :: r) = (b.bytes, b.isLast) :: pieces r := rfl
          rw [hp]
          simp only [blockLoop]
          split
          · rfl
          · split
            · rfl
            · simp only [Res.bind]
              exact ih _ _ _ _ hr

/-- With a gap in the view: either the matter is decided before the gap, or the exception about the gap comes through. -/
theorem viewLoop_throw (A : Auto) (v : View) (c : Chain) (final first : Bool) (start : Nat) (f : Nat) :
    ∀ (b : Option View.Block) (e : Exn) (rc : Int) (p : Pimpl), v.blocksLoop c f b = .throw e →
      viewLoop A v c final first start f b rc p = .throw e ∨ ∃ r, viewLoop A v c final first start f b rc p = .ok r := by
  induction f with
  | zero => intro b e rc p h; cases b <;> simp only [View.blocksLoop] at h <;> cases h
  | succ f ih =>
    intro b e rc p h
    cases b with
    | none => simp only [View.blocksLoop] at h; cases h
    | some b =>
      simp only [View.blocksLoop] at h
      simp only [viewLoop]
      split
      · exact Or.inr ⟨_, rfl⟩
      · split
        · exact Or.inr ⟨_, rfl⟩
        · cases hn : v.nextBlock c b with
          | throw e' => rw [hn] at h; cases h; exact Or.inl rfl
          | ub => rw [hn] at h; cases h
          | ok n =>
            rw [hn] at h
            simp only [Res.ok_bind] at h
            cases hr : v.blocksLoop c f n with
            | ok r => rw [hr] at h; cases h
            | ub => rw [hr] at h; cases h
            | throw e' =>
              rw [hr] at h
              cases h
              simp only [Res.bind]
              exact ih _ _ _ _ hr

theorem marked_pieces (bl : List View.Block) : ∀ o, View.BlocksFrom o bl → Marked (pieces bl) := by
  induction bl with
  | nil => intro o _; trivial
  | cons b r ih =>
    intro o h
    obtain ⟨-, h2, h3, h4⟩ := h
    refine ⟨h2, ?_, ih _ h4⟩
    dsimp only
    cases hb : b.isLast with
    | true => rw [h3.1 hb]; rfl
    | false =>
      cases r with
      | nil => rw [h3.2 rfl] at hb; cases hb
      | cons x y => rfl

theorem bytesIn_pieces (bl : List View.Block) : bytesIn (pieces bl) = bl.flatMap (·.bytes) := by
  unfold bytesIn pieces
  rw [List.flatMap_map]

theorem advanceViewRaw_ok (A : Auto) {v : View} {c : Chain} (h : c.Live) (g : v.Good c) {bs : List Byte}
    (hw : v.window c = bs.map some) (final : Bool) (p : Pimpl) :
    ∃ bl, Marked bl ∧ bytesIn bl = bs ∧ advanceViewRaw A v c final p = .ok (advanceBlocks A bl final p) := by
  have hs := View.size_spec h g
  have hb := View.blocks_spec h g
  rw [hw, bytesOf_map] at hb
  obtain ⟨bl, b1, b2, b3⟩ := hb
  unfold advanceViewRaw
  rw [hs, hw]
  simp only [Res.bind, List.length_map]
  by_cases hn : bs.length = 0
  · rw [if_pos hn]
    refine ⟨[], trivial, ?_, rfl⟩
    rw [List.eq_nil_of_length_eq_zero hn]; rfl
  · rw [if_neg hn]
    refine ⟨pieces bl, marked_pieces bl _ b3, by rw [bytesIn_pieces]; exact b2, ?_⟩
    have hne : (pieces bl).isEmpty = false := by
      cases bl with
      | nil => simp at b2; exact absurd (by rw [b2]; rfl) hn
      | cons x y => rfl
    unfold View.blocks at b1
    cases hf : v.firstBlock c with
    | throw e => rw [hf] at b1; cases b1
    | ub => rw [hf] at b1; cases b1
    | ok b =>
      rw [hf] at b1
      simp only [Res.ok_bind] at b1
      simp only
      rw [viewLoop_ok A v c final p.first p.ms.offset _ b bl 0 _ b1]
      unfold advanceBlocks
      rw [hne]; rfl

/-- On a good view of a stream, `_advance` gives a result or reports a gap. -/
theorem advanceViewRaw_defined (A : Auto) {v : View} {c : Chain} (h : c.Live) (g : v.Good c) (final : Bool) (p : Pimpl) :
    (∃ r, advanceViewRaw A v c final p = .ok r) ∨ ∃ e, bytesOf (v.window c) = .throw e ∧ advanceViewRaw A v c final p = .throw e := by
  have hs := View.size_spec h g
  have hb := View.blocks_spec h g
  unfold advanceViewRaw
  rw [hs]
  simp only [Res.bind]
  by_cases hn : (v.window c).length = 0
  · rw [if_pos hn]; exact Or.inl ⟨_, rfl⟩
  · rw [if_neg hn]
    revert hb
    cases bytesOf (v.window c) with
    | ub => exact fun h => h.elim
    | ok bs =>
      rintro ⟨bl, b1, -, -⟩
      unfold View.blocks at b1
      cases hf : v.firstBlock c with
      | throw e => rw [hf] at b1; cases b1
      | ub => rw [hf] at b1; cases b1
      | ok b =>
        rw [hf] at b1
        exact Or.inl ⟨_, viewLoop_ok A v c final p.first p.ms.offset _ b bl 0 _ b1⟩
    | throw e =>
      intro b1
      dsimp only at b1
      unfold View.blocks at b1
      cases hf : v.firstBlock c with
      | throw e' => rw [hf] at b1; cases b1; exact Or.inr ⟨_, rfl, rfl⟩
      | ub => rw [hf] at b1; cases b1
      | ok b =>
        rw [hf] at b1
        rcases viewLoop_throw A v c final p.first p.ms.offset _ b e 0 { p with first := false } b1 with h1 | ⟨r, h1⟩
        · exact Or.inr ⟨e, rfl, h1⟩
        · exact Or.inl ⟨r, h1⟩

/-! ## Offsets -/

theorem feed_offset (A : Auto) (bs : List Byte) : ∀ first last m, m.offset ≤ (feed A bs first last m).2.offset := by
  induction bs with
  | nil => intro first last m; exact Nat.le_refl _
  | cons b r ih =>
    intro first last m
    simp only [feed]
    split
    · exact Nat.le_refl _
    · refine Nat.le_trans ?_ (ih _ _ _)
      exact Nat.le_succ _

theorem exec_offset (A : Auto) (bs : List Byte) (first last final : Bool) (m : MS) :
    m.offset ≤ (exec A bs first last final m).2.offset := by
  have h := feed_offset A bs first last m
  unfold exec
  generalize feed A bs first last m = r at h
  obtain ⟨j, m'⟩ := r
  cases j <;> dsimp only at h ⊢
  · split <;> exact h
  · exact h

/-- If there is no match, the data does not go back. -/
theorem blockLoop_offset (A : Auto) (final first : Bool) (start : Nat) (bs : List (List Byte × Bool)) :
    ∀ (rc : Int) (p : Pimpl), start ≤ p.ms.offset → rc ≤ 0 → p.acc ≤ 0 →
      (blockLoop A final first start bs rc p).1.1 ≤ 0 → 0 ≤ (blockLoop A final first start bs rc p).1.2 := by
  induction bs with
  | nil =>
    intro rc p h hr ha hle
    simp only [blockLoop] at hle ⊢
    rw [if_neg (by omega)]
    split <;> dsimp only <;> omega
  | cons b bs ih =>
    intro rc p h hr ha
    have ho := exec_offset A b.1 first (final && b.2) (final && b.2) p.ms
    simp only [blockLoop]
    generalize exec A b.1 first (final && b.2) (final && b.2) p.ms = r at ho
    obtain ⟨rc', m⟩ := r
    dsimp only at ho ⊢
    by_cases h0 : rc' = 0
    · rw [if_pos h0]
      intro _
      dsimp only
      omega
    · rw [if_neg h0]
      by_cases h1 : rc' > 0
      · rw [if_pos h1]; intro h2; dsimp only at h2; omega
      · rw [if_neg h1]
        exact ih rc' _ (by dsimp only; omega) (by omega) ha

theorem advanceBlocks_offset (A : Auto) (bs : List (List Byte × Bool)) (final : Bool) (p : Pimpl) (ha : p.acc ≤ 0)
    (h : (advanceBlocks A bs final p).1.1 ≤ 0) : 0 ≤ (advanceBlocks A bs final p).1.2 := by
  unfold advanceBlocks at h ⊢
  by_cases hb : bs.isEmpty = true
  · rw [if_pos hb]; exact Int.le_refl _
  · rw [if_neg hb] at h ⊢
    exact blockLoop_offset A final p.first p.ms.offset bs 0 _ (Nat.le_refl _) (Int.le_refl _) ha h

/-! ## One round of matching -/

theorem marked_nil {bl : List (List Byte × Bool)} (h : Marked bl) (e : bytesIn bl = []) : bl = [] := by
  cases bl with
  | nil => rfl
  | cons b r =>
    have : b.1 ++ bytesIn r = [] := e
    exact absurd (List.append_eq_nil_iff.1 this).1 h.1

/-- One call of `advance` on data `d` after `w` was read: no match; the longest match; or undecided. -/
theorem round_spec {A : Auto} (P : Plain A) (nb : NoBack A) {w d : List Byte} {p : Pimpl} (o : Open A w p)
    {bl : List (List Byte × Bool)} (hm : Marked bl) (hb : bytesIn bl = d) (final : Bool) :
    ((advanceBlocks A bl final p).1.1 = 0 ∧ NoMatch A (w ++ d) ∧
      (final = true ∨ (w ++ d ≠ [] ∧ A.more (run A (w ++ d)) = false))) ∨
    (∃ n : Nat, Longest A (w ++ d) n ∧ (advanceBlocks A bl final p).1.1 = accepts A ((w ++ d).take n) ∧
      (advanceBlocks A bl final p).1.2 = n - w.length ∧
      (final = true ∨ (w ++ d ≠ [] ∧ A.more (run A (w ++ d)) = false))) ∨
    ((advanceBlocks A bl final p).1.1 = -1 ∧ (advanceBlocks A bl final p).1.2 = d.length ∧
      Open A (w ++ d) (advanceBlocks A bl final p).2 ∧ (final = true → d ≠ [])) := by
  by_cases hd : d = []
  · subst hd
    have := marked_nil hm hb
    subst this
    have e : advanceBlocks A [] final p = advanceEmpty A final p := rfl
    rw [e, List.append_nil]
    cases final with
    | false =>
      rw [advanceEmpty_more]
      exact Or.inr (Or.inr ⟨rfl, rfl, o, fun h => by cases h⟩)
    | true =>
      have hv := advanceEmpty_final o (fun ha => by
        by_cases hw : w = []
        · subst hw; intro n hn; simp at hn; subst hn; simpa using ha
        · exact nb w (o.more hw) ha)
      rcases hv with ⟨h1, h2⟩ | ⟨n, h1, h2, h3⟩
      · exact Or.inl ⟨h1, h2, Or.inl rfl⟩
      · exact Or.inr (Or.inl ⟨n, h1, h2, by omega, Or.inl rfl⟩)
  · have hbl : bl ≠ [] := by intro h; subst h; exact hd hb.symm
    have hne : w ++ d ≠ [] := fun h => hd (List.append_eq_nil_iff.1 h).2
    have := advanceBlocks_spec P hbl hm final o
    rw [hb] at this
    rcases this with ⟨h1, h2, h3⟩ | ⟨n, h1, h2, h3, h4⟩ | ⟨h1, h2, h3, h4⟩
    · exact Or.inl ⟨h1, h2, Or.inr ⟨hne, h3⟩⟩
    · exact Or.inr (Or.inl ⟨n, h1, h2, h3, h4.symm.imp id (fun h => ⟨hne, h⟩)⟩)
    · exact Or.inr (Or.inr ⟨h1, h2, h3, fun _ => hd⟩)

end Verif.Regex
