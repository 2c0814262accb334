import Verif.Sink.Spec
/-!
# Lemmas about the buffer of a sink
-/

namespace Verif.Sink

theorem add64_eq {a b : Nat} (h : a + b < 2 ^ 64) : add64 a b = a + b := Nat.mod_eq_of_lt h

theorem sub64_eq {a b : Nat} (ha : a < 2 ^ 64) (h : b ≤ a) : sub64 a b = a - b := by
  unfold sub64; omega

theorem sub64_lt (a b : Nat) : sub64 a b < 2 ^ 64 := Nat.mod_lt _ (by decide)
theorem add64_lt (a b : Nat) : add64 a b < 2 ^ 64 := Nat.mod_lt _ (by decide)

/-- The data of the chunks as writes. -/
def pairs (l : List Chunk) : List (Nat × List Byte) := l.map (fun c => (c.rseq, c.data.getD []))

def chunkAt (l : List Chunk) (p : Nat) : Option Byte := valueAt (pairs l) p

/-- A chunk with data that fits. -/
def Full (c : Chunk) : Prop := ∃ bs, c.data = some bs ∧ bs ≠ [] ∧ c.rupper = c.rseq + bs.length ∧ c.rupper < 2 ^ 64

structure WF (l : List Chunk) : Prop where
  sorted : l.Pairwise (fun x y => x.rupper ≤ y.rseq)
  full : ∀ c ∈ l, Full c

theorem Full.lt {c : Chunk} (h : Full c) : c.rseq < c.rupper := by
  obtain ⟨bs, _, hb, hr, _⟩ := h
  have := List.length_pos_iff.2 hb
  omega

theorem byteAt_none {a : Nat} {bs : List Byte} {p : Nat} : byteAt a bs p = none ↔ p < a ∨ a + bs.length ≤ p := by
  unfold byteAt
  split
  · rw [List.getElem?_eq_none_iff]; omega
  · simp; omega

theorem byteAt_drop {a : Nat} {bs : List Byte} {n p : Nat} (hp : a + n ≤ p) : byteAt (a + n) (bs.drop n) p = byteAt a bs p := by
  unfold byteAt
  rw [if_pos hp, if_pos (by omega), List.getElem?_drop]
  congr 1; omega

theorem byteAt_take {a : Nat} {bs : List Byte} {n p : Nat} (hp : p < a + n) : byteAt a (bs.take n) p = byteAt a bs p := by
  unfold byteAt
  split
  · rw [List.getElem?_take_of_lt (by omega)]
  · rfl

theorem valueAt_append (W V : List (Nat × List Byte)) (p : Nat) : valueAt (W ++ V) p = (valueAt W p).or (valueAt V p) := by
  induction W with
  | nil => simp [valueAt]
  | cons w W ih => obtain ⟨a, bs⟩ := w; simp only [List.cons_append, valueAt, ih, Option.or_assoc]

theorem chunkAt_append (l m : List Chunk) (p : Nat) : chunkAt (l ++ m) p = (chunkAt l p).or (chunkAt m p) := by
  unfold chunkAt pairs
  rw [List.map_append, valueAt_append]

theorem chunkAt_cons (c : Chunk) (l : List Chunk) (p : Nat) :
    chunkAt (c :: l) p = (byteAt c.rseq (c.data.getD []) p).or (chunkAt l p) := rfl

theorem chunkAt_nil (p : Nat) : chunkAt [] p = none := rfl

theorem Full.byteAt_none {c : Chunk} (h : Full c) {p : Nat} :
    byteAt c.rseq (c.data.getD []) p = none ↔ p < c.rseq ∨ c.rupper ≤ p := by
  obtain ⟨bs, hd, _, hr, _⟩ := h
  rw [hd, Sink.byteAt_none, Option.getD_some, hr]

/-- Nothing in chunks that are all beyond or before a position. -/
theorem chunkAt_none {l : List Chunk} (hf : ∀ c ∈ l, Full c) {p : Nat} :
    chunkAt l p = none ↔ ∀ c ∈ l, p < c.rseq ∨ c.rupper ≤ p := by
  induction l with
  | nil => simp [chunkAt_nil]
  | cons c l ih =>
    rw [chunkAt_cons, Option.or_eq_none_iff, (hf c (by simp)).byteAt_none, ih (fun d hd => hf d (by simp [hd]))]
    simp

theorem WF.nil : WF [] := ⟨.nil, by simp⟩

theorem WF.append {l m : List Chunk} : WF (l ++ m) ↔ WF l ∧ WF m ∧ ∀ x ∈ l, ∀ y ∈ m, x.rupper ≤ y.rseq := by
  constructor
  · rintro ⟨h1, h2⟩
    rw [List.pairwise_append] at h1
    exact ⟨⟨h1.1, fun c hc => h2 c (by simp [hc])⟩, ⟨h1.2.1, fun c hc => h2 c (by simp [hc])⟩, h1.2.2⟩
  · rintro ⟨⟨a1, a2⟩, ⟨b1, b2⟩, h⟩
    refine ⟨List.pairwise_append.2 ⟨a1, b1, h⟩, fun c hc => ?_⟩
    rcases List.mem_append.1 hc with h | h
    · exact a2 c h
    · exact b2 c h

theorem WF.cons {c : Chunk} {m : List Chunk} : WF (c :: m) ↔ Full c ∧ WF m ∧ ∀ y ∈ m, c.rupper ≤ y.rseq := by
  constructor
  · rintro ⟨h1, h2⟩
    rw [List.pairwise_cons] at h1
    exact ⟨h2 c (by simp), ⟨h1.2, fun c hc => h2 c (by simp [hc])⟩, h1.1⟩
  · rintro ⟨a, ⟨b1, b2⟩, h⟩
    refine ⟨List.pairwise_cons.2 ⟨h, b1⟩, fun d hd => ?_⟩
    rcases List.mem_cons.1 hd with rfl | h
    · exact a
    · exact b2 d h

theorem getLast_mem_or {l : List Chunk} {b : Chunk} (h : l.getLast? = some b) : b ∈ l := List.mem_of_getLast? h

/-- In a sorted list everything ends at or before the end of the last chunk. -/
theorem WF.le_last {l : List Chunk} (h : WF l) {b : Chunk} (hb : l.getLast? = some b) : ∀ c ∈ l, c.rupper ≤ b.rupper := by
  intro c hc
  obtain ⟨m, rfl⟩ : ∃ m, l = m ++ [b] := by
    have := List.getLast?_eq_some_iff.1 hb
    exact this
  rw [WF.append] at h
  rcases List.mem_append.1 hc with hc | hc
  · have h1 := h.2.2 c hc b (by simp)
    have h2 := (h.2.1.full b (by simp)).lt
    omega
  · simp at hc; rw [hc]; exact Nat.le_refl _

end Verif.Sink
