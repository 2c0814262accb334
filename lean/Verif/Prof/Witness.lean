import Verif.Prof.Thm

/-!
# The profiler: cases
-/

namespace Verif.Prof

/-- A unit that parses itself recursively, twice, with a function called in between; the last stop is that of the
destructor, after an explicit one. -/
def recursion : List Op :=
  [.start "unit" (some 100), .tick 5, .start "unit" (some 110), .tick 7, .start "f" none, .tick 2, .stop 2 none,
   .stop 1 (some 130), .tick 1, .stop 0 (some 150), .tick 4, .start "unit" (some 150), .tick 3, .stop 3 (some 151),
   .stop 3 none]

theorem recursion_nested : Nested recursion [] := by
  simp [recursion, Nested, Opened.next]
  refine ⟨?_, ?_, ?_, ?_⟩
  all_goals
    intro j hj c hc hn
    have hlt := (List.getElem?_eq_some_iff.mp hc).1
    simp at hlt
    first
      | omega
      | (have hj2 : j = 1 ∨ j = 2 := by omega
         rcases hj2 with rfl | rfl <;> simp_all)

theorem recursion_named : Named recursion := by
  intro v h
  simp [recursion] at h

theorem recursion_fits : ∀ w, (∀ m, Op.start m (some w) ∈ recursion → w < 2 ^ 64) ∧
    (∀ i, Op.stop i (some w) ∈ recursion → w < 2 ^ 64) := by
  intro w
  constructor <;> intro i h <;> simp [recursion] at h <;> omega

theorem recursion_closed : ∀ b, some b ∈ Opened.after [] recursion → b.name ≠ "unit" := by
  intro b h
  simp [recursion, Opened.after, Opened.next] at h

/-- The theorems apply: three blocks, 18 units of time, 51 bytes. -/
theorem recursion_measured :
    ((run recursion (init 1000)).get "unit") = { count := 3, time := 18, volume := some 51 } := by
  have h := measured 1000 recursion "unit" (by decide) (by decide) recursion_named recursion_fits
  have t := measured_time 1000 recursion "unit" (by decide) (by decide) recursion_named recursion_fits
    recursion_nested recursion_closed
  have e1 : stops "unit" recursion [] = 3 := by decide +kernel
  have e2 : activeTime "unit" recursion [] = 18 := by decide +kernel
  have e3 : volumes "unit" recursion [] = [50, 1] := by decide +kernel
  rw [e1, e2, e3] at h
  rw [e2] at t
  obtain ⟨h1, _, h3⟩ := h
  generalize (run recursion (init 1000)).get "unit" = m at *
  cases m
  simp at h1 h3 t
  subst h1 h3 t
  rfl

/-- Two connections parsed side by side. -/
def overlap : List Op :=
  [.start "unit" (some 0), .tick 10, .start "unit" (some 0), .tick 10, .stop 0 (some 500), .tick 10, .stop 1 (some 3)]

/-- **Nesting is needed**: blocks of the name were open for 30 units of time, the profiler says 20; and it says 3 bytes,
although 503 were parsed. -/
theorem overlap_wrong :
    (run overlap (init 0)).get "unit" = { count := 2, time := 20, volume := some 3 } ∧
    activeTime "unit" overlap [] = 30 := by decide +kernel

/-- Connections one after the other, each one starting before the last one ends: one tick each. -/
def chain : Nat → Nat → List Op
  | 0, _ => []
  | k + 1, i => .start "unit" none :: .tick 1 :: .stop i none :: chain k (i + 1)

theorem chain_nothing (k : Nat) : ∀ (s : S) (i : Nat), (s.table "unit").instances = 1 → s.profs.length = i + 1 →
    ((∃ p, s.profs[i]? = some p ∧ p.name = "unit")) → ((run (chain k i) s).get "unit").time = (s.get "unit").time := by
  induction k with
  | zero => intros; rfl
  | succ k ih =>
    intro s i h1 h2 h3
    obtain ⟨p, hp, hn⟩ := h3
    simp only [chain, run, step]
    have hp' : (start "unit" none s).profs[i]? = some p := by
      simp only [start]
      rw [List.getElem?_append_left (by omega)]
      exact hp
    have hi : ((start "unit" none s).table "unit").instances = 2 := by
      simp only [start, upd_self, h1]
      decide
    have hne : ¬ p.name = "" := by rw [hn]; decide
    simp only [record, hp', if_neg hne]
    rw [ih]
    · simp only [S.get, hn, upd_self, recordEntry, hi]
      simp [start, upd_self]
    · simp only [hn, upd_self, recordEntry, hi]
      decide
    · simp only [List.length_set, start, List.length_append, List.length_singleton, h2]
    · refine ⟨⟨"unit", snapshot s.clock none⟩, ?_, rfl⟩
      simp only [start]
      rw [List.getElem?_set_ne (by omega), ← h2]
      simp

theorem chain_active (k : Nat) : ∀ (o : Opened) (i : Nat), o.length = i + 1 →
    activeTime "unit" (chain k i) o = k := by
  induction k with
  | zero => intros; rfl
  | succ k ih =>
    intro o i h
    simp only [chain, activeTime]
    rw [ih _ _ (by simp only [Opened.next, List.length_set, List.length_append, List.length_singleton, h])]
    have : (o.next (.start "unit" none)).active "unit" = true := by
      simp [Opened.active, Opened.next, isFor]
    rw [this, if_pos rfl]
    omega

/-- **With connections always overlapping no time is recorded at all**, however many there are and however long it
takes. -/
theorem chain_wrong (k c : Nat) :
    ((run (.start "unit" none :: chain k 0) (init c)).get "unit").time = 0 ∧
    activeTime "unit" (.start "unit" none :: chain k 0) [] = k := by
  constructor
  · have := chain_nothing k (step (.start "unit" none) (init c)) 0 (by simp only [step, start, upd_self, init]; decide)
      rfl ⟨_, rfl, rfl⟩
    simp only [run]
    rw [this]
    rfl
  · simp only [activeTime]
    exact chain_active k _ 0 rfl

end Verif.Prof
