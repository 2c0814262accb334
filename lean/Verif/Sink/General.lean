import Verif.Sink.Write
/-!
# Facts about all histories

Nothing here assumes a sorted buffer or data that fits its interval.
-/

namespace Verif.Sink

/-- No wrapped-around chunks. -/
def Ordered (l : List Chunk) : Prop := ∀ c ∈ l, c.rseq ≤ c.rupper ∧ c.rupper < 2 ^ 64

/-- `c` is a piece of `data` at `[a, b)`. -/
structure Piece (data : Option (List Byte)) (a b : Nat) (c : Chunk) : Prop where
  lo : a ≤ c.rseq
  mid : c.rseq < c.rupper
  hi : c.rupper ≤ b
  bytes : c.data = data.map (fun bs => (bs.drop (c.rseq - a)).take (c.rupper - c.rseq)) ∨
    (c.rupper = b ∧ c.data = data.map (fun bs => bs.drop (c.rseq - a)))

theorem Piece.whole (data : Option (List Byte)) {a b : Nat} (h : a < b) : Piece data a b ⟨data, a, b⟩ := by
  refine ⟨Nat.le_refl _, h, Nat.le_refl _, Or.inr ⟨rfl, ?_⟩⟩
  cases data <;> simp

theorem Piece.drop {bs : List Byte} {a b k : Nat} {c : Chunk} (h : Piece (some (bs.drop k)) (a + k) b c) : Piece (some bs) a b c := by
  obtain ⟨h1, h2, h3, h4⟩ := h
  have e : k + (c.rseq - (a + k)) = c.rseq - a := by omega
  refine ⟨by omega, h2, h3, ?_⟩
  simp only [Option.map_some, List.drop_drop, e] at h4 ⊢
  exact h4

/-- What adding anything to an ordered buffer does. -/
structure AddAny (data : Option (List Byte)) (a b : Nat) (L : List Chunk) (r : Added) : Prop where
  chunks : ∀ c ∈ r.chunks, c ∈ L ∨ Piece data a b c
  log : ∀ e ∈ r.log, ∃ p o n, e = .overlap p o n
  defined : r.res ≠ .ub
  index : ∀ i, r.res = .ok (some i) → i < r.chunks.length
  dangling : r.res = .ok none → data = none ∧ ∃ c ∈ L, a < c.rseq ∧ c.rseq < b

theorem pick_ub {h : Bool} {i : Nat} {r : Res (Option Nat)} (hr : r ≠ .ub) : pick h i r ≠ .ub := by
  cases r <;> simp [pick] at hr ⊢

theorem dropBytes_cases (bs : List Byte) (n : Nat) :
    (∃ e, dropBytes bs n = .throw e) ∨ (n ≤ bs.length ∧ dropBytes bs n = .ok (bs.drop n)) := by
  unfold dropBytes
  by_cases q1 : n ≥ 2 ^ 63
  · rw [if_pos q1]; exact Or.inl ⟨_, rfl⟩
  · rw [if_neg q1]
    by_cases q2 : n > bs.length
    · rw [if_pos q2]; exact Or.inl ⟨_, rfl⟩
    · rw [if_neg q2]; exact Or.inr ⟨by omega, rfl⟩

theorem dropBytes_ub (bs : List Byte) (n : Nat) : dropBytes bs n ≠ .ub := by
  rcases dropBytes_cases bs n with ⟨e, h⟩ | ⟨_, h⟩ <;> rw [h] <;> intro h <;> cases h

theorem dropBytes_ok {bs bs' : List Byte} {n : Nat} (h : dropBytes bs n = .ok bs') : bs' = bs.drop n := by
  rcases dropBytes_cases bs n with ⟨e, h'⟩ | ⟨_, h'⟩ <;> rw [h'] at h
  · cases h
  · injection h with h; exact h.symm

theorem oldData_ub (c : Chunk) (a n : Nat) : oldData c a n ≠ .ub := by
  unfold oldData subBytes
  cases c.data with
  | none => intro h; cases h
  | some o => dsimp only; split <;> intro h <;> cases h

theorem afterPrefix_ub (data : Option (List Byte)) (h : Bool) (n : Nat) : afterPrefix data h n ≠ .ub := by
  unfold afterPrefix
  cases data with
  | none => intro h; cases h
  | some bs =>
    dsimp only
    cases h with
    | false => intro h; cases h
    | true =>
      rcases dropBytes_cases bs n with ⟨e, h⟩ | ⟨_, h⟩ <;> rw [h] <;> intro h <;> cases h

theorem afterPrefix_ok {bs bs' : List Byte} {h : Bool} {n : Nat} (he : afterPrefix (some bs) h n = .ok (some bs')) :
    bs' = bs.drop (if h then n else 0) := by
  unfold afterPrefix at he
  cases h with
  | false => injection he with he; injection he with he; rw [← he]; rfl
  | true =>
    rcases dropBytes_cases bs n with ⟨e, h⟩ | ⟨_, h⟩ <;> simp only [h] at he
    · cases he
    · injection he with he; injection he with he; exact he.symm

theorem add_any (b : Nat) (hlt : b < 2 ^ 64) : ∀ (post pre : List Chunk) (data : Option (List Byte)) (a : Nat), a < b →
    Ordered (pre ++ post) →
    AddAny data a b (pre ++ post) (addAndCheck data a b pre post) ∧ pre.length ≤ (addAndCheck data a b pre post).chunks.length := by
  intro post
  induction post with
  | nil =>
    intro pre data a hab hord
    unfold addAndCheck
    refine ⟨⟨?_, by simp, by simp, ?_, by simp⟩, by simp⟩
    · intro c hc
      rcases List.mem_append.1 hc with h | h
      · exact Or.inl (by simpa using h)
      · simp at h; subst h; exact Or.inr (.whole _ hab)
    · intro i hi; simp at hi; subst hi; simp
  | cons c post ih =>
    intro pre data a hab hord
    obtain ⟨hc1, hc2⟩ := hord c (by simp)
    rw [addAndCheck]
    by_cases h1 : atBack (pre ++ c :: post) a = true
    · rw [if_pos h1]
      refine ⟨⟨?_, by simp, by simp, ?_, by simp⟩, by simp⟩
      · intro d hd
        rcases List.mem_append.1 hd with h | h
        · exact Or.inl h
        · simp at h; subst h; exact Or.inr (.whole _ hab)
      · intro i hi; simp at hi; subst hi; simp; omega
    · rw [if_neg h1]
      by_cases h2 : c.rupper ≤ a
      · rw [if_pos h2]
        have e : pre ++ c :: post = (pre ++ [c]) ++ post := by simp
        rw [e] at hord ⊢
        obtain ⟨i1, i2⟩ := ih (pre ++ [c]) data a hab hord
        exact ⟨i1, by simp at i2; omega⟩
      · rw [if_neg h2]
        by_cases h3 : b ≤ c.rseq
        · rw [if_pos h3]
          refine ⟨⟨?_, by simp, by simp, ?_, by simp⟩, by simp⟩
          · intro d hd
            simp at hd
            rcases hd with h | h | h | h
            · exact Or.inl (by simp [h])
            · subst h; exact Or.inr (.whole _ hab)
            · exact Or.inl (by simp [h])
            · exact Or.inl (by simp [h])
          · intro i hi; simp at hi; subst hi; simp
        · rw [if_neg h3]
          -- the chunks with the prefix
          have hpn : add64 a (c.rseq - a) = a + (c.rseq - a) := add64_eq (by omega)
          have hpre : ∀ d ∈ withPrefix data (decide (a < c.rseq)) a (c.rseq - a) pre, d ∈ pre ∨ Piece data a b d := by
            intro d hd
            unfold withPrefix at hd
            cases data with
            | none => exact Or.inl hd
            | some bs =>
              dsimp only at hd
              split at hd
              · next hp =>
                have hp : a < c.rseq := by simpa using hp
                rcases List.mem_append.1 hd with h | h
                · exact Or.inl h
                · simp at h; subst h
                  right
                  rw [hpn]
                  refine ⟨Nat.le_refl _, ?_, ?_, Or.inl ?_⟩
                  · show a < a + (c.rseq - a); omega
                  · show a + (c.rseq - a) ≤ b; omega
                  · simp
              · exact Or.inl hd
          have hlen' : pre.length ≤ (withPrefix data (decide (a < c.rseq)) a (c.rseq - a) pre).length := by
            unfold withPrefix; split
            · split <;> simp
            · exact Nat.le_refl _
          generalize hW : withPrefix data (decide (a < c.rseq)) a (c.rseq - a) pre = pre' at hpre hlen'
          have hmid : ∀ d ∈ pre' ++ c :: post, d ∈ pre ++ c :: post ∨ Piece data a b d := by
            intro d hd
            rcases List.mem_append.1 hd with h | h
            · rcases hpre d h with h | h
              · exact Or.inl (List.mem_append_left _ h)
              · exact Or.inr h
            · exact Or.inl (List.mem_append_right _ h)
          -- results without recursion
          have fin : ∀ (res : Res (Option Nat)) (evs : List Event), (∀ e ∈ evs, ∃ p o n, e = Event.overlap p o n) → res ≠ .ub →
              (∀ i, res = .ok (some i) → i = pre.length) →
              (res = .ok none → data = none ∧ a < c.rseq) →
              AddAny data a b (pre ++ c :: post) ⟨res, pre' ++ c :: post, evs⟩ ∧
                pre.length ≤ (⟨res, pre' ++ c :: post, evs⟩ : Added).chunks.length := by
            intro res evs he hu hi hd
            refine ⟨⟨hmid, he, hu, ?_, ?_⟩, by simp; omega⟩
            · intro i hii; have := hi i hii; simp; omega
            · intro hn
              obtain ⟨g1, g2⟩ := hd hn
              exact ⟨g1, c, by simp, g2, by omega⟩
          have hnewC : ∀ i, (if decide (a < c.rseq) && data.isNone then none else some pre.length) = some i → i = pre.length := by
            intro i hi
            split at hi
            · cases hi
            · injection hi with hi; exact hi.symm
          have hnewC' : (if decide (a < c.rseq) && data.isNone then none else some pre.length) = none → data = none ∧ a < c.rseq := by
            intro hi
            split at hi
            · next h => simp at h; exact ⟨h.2, h.1⟩
            · cases hi
          unfold overlapWith
          dsimp only
          rw [hW]
          cases hap : afterPrefix data (decide (a < c.rseq)) (c.rseq - a) with
          | throw e => exact fin _ _ (by simp) (by simp) (by simp) (by simp)
          | ub =>
            exact absurd hap (afterPrefix_ub _ _ _)
          | ok data' =>
            dsimp only
            -- where the overlap starts, and what is left
            obtain ⟨start, hst, hs1, hs2, hs3⟩ : ∃ start, (if decide (a < c.rseq) = true then add64 a (c.rseq - a) else a) = start ∧
                a ≤ start ∧ start < b ∧ start ≤ c.rupper := by
              by_cases hp : a < c.rseq
              · exact ⟨c.rseq, by rw [decide_eq_true hp, if_pos rfl, hpn]; omega, by omega, by omega, hc1⟩
              · exact ⟨a, by rw [decide_eq_false hp]; rfl, Nat.le_refl _, hab, by omega⟩
            have hdat : ∀ bs', data' = some bs' → ∃ bs, data = some bs ∧ bs' = bs.drop (start - a) := by
              intro bs' hb
              subst hb
              cases data with
              | none => simp [afterPrefix] at hap
              | some bs =>
                refine ⟨bs, rfl, ?_⟩
                rw [afterPrefix_ok hap]
                congr 1
                rw [← hst]
                by_cases hp : a < c.rseq
                · rw [decide_eq_true hp, if_pos rfl, if_pos rfl, hpn]; omega
                · rw [decide_eq_false hp]; simp
            rw [hst]
            unfold resolve
            dsimp only
            rw [sub64_eq hlt (by omega), sub64_eq hc2 hs3]
            generalize hlen : (if b - start < c.rupper - start then b - start else c.rupper - start) = len
            have hl1 : len ≤ b - start := by rw [← hlen]; split <;> omega
            cases ho : oldData c start len with
            | throw e => exact fin _ _ (by simp) (by simp) (by simp) (by simp)
            | ub =>
              exact absurd ho (oldData_ub _ _ _)
            | ok old =>
              dsimp only
              cases data' with
              | none =>
                exact fin _ _ (by simp) (by simp) (by intro i hi; injection hi with hi; exact hnewC i hi)
                  (by intro hi; injection hi with hi; exact hnewC' hi)
              | some bs' =>
                obtain ⟨bs, hb1, hb2⟩ := hdat bs' rfl
                dsimp only
                by_cases hr : len < b - start
                · rw [if_pos hr]
                  cases hdb : dropBytes bs' len with
                  | throw e => exact fin _ _ (by simp) (by simp) (by simp) (by simp)
                  | ub =>
                    exact absurd hdb (dropBytes_ub _ _)
                  | ok bs'' =>
                    have hb3 : bs'' = bs.drop (start - a + len) := by
                      rw [dropBytes_ok hdb, hb2, List.drop_drop]
                    dsimp only
                    rw [add64_eq (show start + len < 2 ^ 64 by omega)]
                    have ew : pre' ++ c :: post = (pre' ++ [c]) ++ post := by simp
                    have hord' : Ordered (pre' ++ [c] ++ post) := by
                      rw [← ew]
                      intro d hd
                      rcases hmid d hd with h | h
                      · exact hord d h
                      · have := h.mid; have := h.hi; exact ⟨by omega, by omega⟩
                    obtain ⟨A, hA⟩ := ih (pre' ++ [c]) (some bs'') (start + len) (by omega) hord'
                    rw [← ew] at A
                    generalize addAndCheck (some bs'') (start + len) b (pre' ++ [c]) post = r at A hA
                    refine ⟨⟨?_, ?_, pick_ub A.defined, ?_, ?_⟩, by simp at hA ⊢; omega⟩
                    · intro d hd
                      rcases A.chunks d hd with h | h
                      · exact hmid d h
                      · right
                        rw [hb1]
                        have hk : start + len = a + (start - a + len) := by omega
                        rw [hk, hb3] at h
                        exact h.drop
                    · intro e he
                      rcases List.mem_cons.1 he with rfl | he
                      · exact ⟨_, _, _, rfl⟩
                      · exact A.log e he
                    · intro i hi
                      dsimp only at hi ⊢
                      cases hres : r.res with
                      | throw e => rw [hres] at hi; simp [pick] at hi
                      | ub => exact absurd hres A.defined
                      | ok j =>
                        rw [hres] at hi
                        unfold pick at hi
                        injection hi with hi
                        split at hi
                        · injection hi with hi; simp at hA; omega
                        · subst hi; exact A.index i hres
                    · intro hi
                      dsimp only at hi
                      exfalso
                      cases hres : r.res with
                      | throw e => rw [hres] at hi; simp [pick] at hi
                      | ub => exact absurd hres A.defined
                      | ok j =>
                        rw [hres] at hi
                        unfold pick at hi
                        injection hi with hi
                        split at hi
                        · cases hi
                        · subst hi; have := (A.dangling hres).1; cases this
                · rw [if_neg hr]
                  exact fin _ _ (by simp) (by simp) (by intro i hi; injection hi with hi; exact hnewC i hi)
                    (by intro hi; injection hi with hi; exact hnewC' hi)

end Verif.Sink
