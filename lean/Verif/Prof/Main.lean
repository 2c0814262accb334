import Verif.Prof.Spec

/-!
# The profiler: counts, times and volumes are right
-/

namespace Verif.Prof

/-- The sum of volumes as the profiler has it. -/
def total (V : List Int) : Option Nat := if V = [] then none else some ((V.sum % 2 ^ 64).toNat)

/-- What holds at any time, for one name. `C`, `A` and `V` are what the specification says so far. -/
structure Inv (n : String) (o : Opened) (k C A : Nat) (V : List Int) (s : S) : Prop where
  len : s.profs.length = o.length
  live : ∀ (i : Nat) b, o[i]? = some (some b) → ∃ p, s.profs[i]? = some p ∧ p.name = b.name ∧ b.name ≠ "" ∧
    p.start.volume = b.volume ∧ (∀ v, b.volume = some v → v < M) ∧ p.start.time ≤ s.clock
  dead : ∀ i : Nat, o[i]? = some none → ∃ p, s.profs[i]? = some p ∧ p.name = ""
  inst : (s.table n).instances = o.countP (isFor n)
  lek : o.length ≤ k
  count : (s.get n).count = C
  Ck : C ≤ k
  Ac : A ≤ s.clock
  le0 : (s.get n).time ≤ A
  le : ∀ (i : Nat) b p, o[i]? = some (some b) → s.profs[i]? = some p → b.name = n →
    (s.get n).time + (s.clock - p.start.time) ≤ A
  vol : (s.get n).volume = total V

/-- What holds in addition in nested histories. -/
structure Eqv (n : String) (o : Opened) (A : Nat) (s : S) : Prop where
  none : o.active n = false → (s.get n).time = A
  first : ∀ (i : Nat) b p, o[i]? = some (some b) → s.profs[i]? = some p → b.name = n →
    (∀ j < i, ∀ c, o[j]? = some (some c) → c.name ≠ n) → (s.get n).time + (s.clock - p.start.time) = A

theorem active_iff (o : Opened) (n : String) :
    o.active n = true ↔ ∃ (i : Nat) (b : Blk), o[i]? = some (some b) ∧ b.name = n := by
  unfold Opened.active
  rw [List.any_eq_true]
  constructor
  · rintro ⟨x, hx, h⟩
    obtain ⟨i, hi⟩ := List.mem_iff_getElem?.mp hx
    cases x with
    | none => cases h
    | some b => exact ⟨i, b, hi, by simpa [isFor] using h⟩
  · rintro ⟨i, b, hi, hb⟩
    exact ⟨some b, List.mem_iff_getElem?.mpr ⟨i, hi⟩, by simpa [isFor] using hb⟩

theorem active_countP (o : Opened) (n : String) : o.active n = false ↔ o.countP (isFor n) = 0 := by
  unfold Opened.active
  rw [List.countP_eq_zero, List.any_eq_false]

theorem countP_set_none (o : Opened) (n : String) (i : Nat) (b : Blk) (h : o[i]? = some (some b)) :
    (o.set i none).countP (isFor n) + (if b.name = n then 1 else 0) = o.countP (isFor n) := by
  induction o generalizing i with
  | nil => cases h
  | cons c o ih =>
    cases i with
    | zero =>
      simp only [List.getElem?_cons_zero, Option.some.injEq] at h
      subst h
      simp only [List.set_cons_zero, List.countP_cons, isFor, beq_iff_eq]
      simp
    | succ i =>
      simp only [List.getElem?_cons_succ] at h
      have := ih i h
      simp only [List.set_cons_succ, List.countP_cons]
      omega

theorem set_none_self (o : Opened) (i : Nat) (h : ∀ b, o[i]? ≠ some (some b)) : o.set i none = o := by
  induction o generalizing i with
  | nil => rfl
  | cons c o ih =>
    cases i with
    | zero =>
      cases c with
      | none => rfl
      | some b => exact absurd rfl (h b)
    | succ i => simp only [List.set_cons_succ]; rw [ih i (fun b => by simpa using h b)]

theorem total_one (V : List Int) (x : Int) :
    total (V ++ [x]) =
      match total V with
      | some w => some ((w + (x % 2 ^ 64).toNat) % M)
      | none => some ((x % 2 ^ 64).toNat) := by
  unfold total
  by_cases hV : V = []
  · subst hV; simp
  · simp only [List.append_eq_nil_iff, hV, false_and, if_false]
    congr 1
    rw [List.sum_append]
    simp only [List.sum_cons, List.sum_nil, Int.add_zero]
    generalize V.sum = a
    simp only [M]
    omega

theorem sub_volume (b e : Nat) (hb : b < M) : (e + M - b) % M = (((e : Int) - b) % 2 ^ 64).toNat := by
  simp only [M] at *
  omega

/-- Volumes of a step that records. -/
theorem record_volume (m : Meas) (V : List Int) (hm : m.volume = total V) (begin «end» : Meas)
    (hb : ∀ v, begin.volume = some v → v < M) (he : ∀ v, «end».volume = some v → v < M) :
    (m.add («end».sub begin)).volume = total (V ++ (span begin.volume «end».volume).toList) := by
  simp only [Meas.add, Meas.sub, hm]
  cases hev : «end».volume with
  | none => simp [span]
  | some e =>
    cases hbv : begin.volume with
    | none =>
      have h1 := he e hev
      have h2 : (((e : Int) - 0) % 2 ^ 64).toNat = e := by simp only [M] at h1; omega
      simp only [span, Option.toList_some, total_one, h2]
      cases total V <;> rfl
    | some b =>
      have h1 := hb b hbv
      simp only [span, Option.toList_some, total_one, sub_volume b e h1]
      cases total V <;> rfl

theorem upd_self (t : String → Entry) (n : String) (e : Entry) : upd t n e n = e := by simp [upd]

theorem upd_ne (t : String → Entry) {n q : String} (e : Entry) (h : ¬ q = n) : upd t n e q = t q := by simp [upd, h]

theorem tick_inv {n : String} {o : Opened} {k C A : Nat} {V : List Int} {s : S} (h : Inv n o k C A V s) (d : Nat) :
    Inv n o (k + 1) C (A + (if o.active n then d else 0)) V (step (.tick d) s) := by
  refine ⟨h.len, ?_, h.dead, h.inst, by have := h.lek; omega, h.count, by have := h.Ck; omega, ?_, ?_, ?_, h.vol⟩
  · intro i b hi
    obtain ⟨p, e1, e2, e3, e4, e5, e6⟩ := h.live i b hi
    exact ⟨p, e1, e2, e3, e4, e5, by simp only [step]; omega⟩
  · have := h.Ac
    simp only [step]
    split <;> omega
  · have := h.le0
    simp only [step, S.get] at this ⊢
    omega
  · intro i b p hi hp hb
    have hl := h.le i b p hi hp hb
    obtain ⟨p', e1, _, _, _, _, e6⟩ := h.live i b hi
    have hp' : s.profs[i]? = some p := hp
    rw [hp'] at e1; injection e1 with e1; subst e1
    have ha : o.active n = true := (active_iff o n).mpr ⟨i, b, hi, hb⟩
    simp only [step, S.get, ha, if_true] at hl ⊢
    omega

theorem tick_eqv {n : String} {o : Opened} {k C A : Nat} {V : List Int} {s : S} (h : Inv n o k C A V s)
    (q : Eqv n o A s) (d : Nat) : Eqv n o (A + (if o.active n then d else 0)) (step (.tick d) s) := by
  refine ⟨?_, ?_⟩
  · intro ha
    simp only [ha, Bool.false_eq_true, if_false, Nat.add_zero]
    exact q.none ha
  · intro i b p hi hp hb hf
    have hl := q.first i b p hi hp hb hf
    obtain ⟨p', e1, _, _, _, _, e6⟩ := h.live i b hi
    have hp' : s.profs[i]? = some p := hp
    rw [hp'] at e1; injection e1 with e1; subst e1
    have ha : o.active n = true := (active_iff o n).mpr ⟨i, b, hi, hb⟩
    simp only [step, S.get, ha, if_true] at hl ⊢
    omega

theorem get_push {α : Type _} (l : List α) (a : α) (i : Nat) (x : α) (h : (l ++ [a])[i]? = some x) :
    (i < l.length ∧ l[i]? = some x) ∨ (i = l.length ∧ x = a) := by
  by_cases hi : i < l.length
  · rw [List.getElem?_append_left hi] at h
    exact .inl ⟨hi, h⟩
  · have hlt := (List.getElem?_eq_some_iff.mp h).1
    simp only [List.length_append, List.length_singleton] at hlt
    have : i = l.length := by omega
    subst this
    simp at h
    exact .inr ⟨rfl, h.symm⟩

theorem start_get (s : S) (m : String) (v : Option Nat) (n : String) : (step (.start m v) s).get n = s.get n := by
  simp only [step, start, S.get, upd]
  split
  · rename_i e; subst e; rfl
  · rfl

theorem start_inv {n : String} {o : Opened} {k C A : Nat} {V : List Int} {s : S} (h : Inv n o k C A V s)
    (hk : k + 1 < M) (m : String) (v : Option Nat) (hm : m ≠ "") (hv : ∀ w, v = some w → w < M) :
    Inv n (o.next (.start m v)) (k + 1) C A V (step (.start m v) s) := by
  have hlek := h.lek
  have hc : o.countP (isFor n) ≤ o.length := List.countP_le_length
  have hprofs : (step (.start m v) s).profs = s.profs ++ [⟨m, snapshot s.clock v⟩] := rfl
  refine ⟨?_, ?_, ?_, ?_, ?_, ?_, by have := h.Ck; omega, h.Ac, ?_, ?_, ?_⟩
  · simp only [hprofs, Opened.next, List.length_append, h.len, List.length_singleton]
  · intro i b hi
    rcases get_push o (some ⟨m, v⟩) i (some b) hi with ⟨hlt, hi⟩ | ⟨hie, hb⟩
    · obtain ⟨p, e1, e2, e3, e4, e5, e6⟩ := h.live i b hi
      refine ⟨p, ?_, e2, e3, e4, e5, e6⟩
      rw [hprofs, List.getElem?_append_left (by rw [h.len]; exact hlt), e1]
    · injection hb with hb
      subst hb
      refine ⟨⟨m, snapshot s.clock v⟩, ?_, rfl, hm, rfl, hv, Nat.le_refl _⟩
      rw [hprofs, hie, ← h.len]
      simp
  · intro i hi
    rcases get_push o (some ⟨m, v⟩) i none hi with ⟨hlt, hi⟩ | ⟨_, hb⟩
    · obtain ⟨p, e1, e2⟩ := h.dead i hi
      refine ⟨p, ?_, e2⟩
      rw [hprofs, List.getElem?_append_left (by rw [h.len]; exact hlt), e1]
    · cases hb
  · have hi := h.inst
    simp only [step, start, Opened.next, List.countP_append, List.countP_singleton, isFor, beq_iff_eq]
    by_cases e : n = m
    · subst e
      rw [upd_self]
      simp only [if_true, hi]
      exact Nat.mod_eq_of_lt (by omega)
    · rw [upd_ne _ _ e, hi, if_neg (fun h => e h.symm), Nat.add_zero]
  · simp only [Opened.next, List.length_append, List.length_singleton]; omega
  · rw [start_get]; exact h.count
  · rw [start_get]; exact h.le0
  · intro i b p hi hp hb
    rw [start_get]
    rcases get_push o (some ⟨m, v⟩) i (some b) hi with ⟨hlt, hi⟩ | ⟨hi, _⟩
    · rw [hprofs, List.getElem?_append_left (by rw [h.len]; exact hlt)] at hp
      exact h.le i b p hi hp hb
    · rw [hprofs, hi, ← h.len] at hp
      simp at hp
      subst hp
      have := h.le0
      simp only [snapshot, step, start]
      omega
  · rw [start_get]; exact h.vol

theorem start_eqv {n : String} {o : Opened} {k C A : Nat} {V : List Int} {s : S} (h : Inv n o k C A V s)
    (q : Eqv n o A s) (m : String) (v : Option Nat) :
    Eqv n (o.next (.start m v)) A (step (.start m v) s) := by
  have hprofs : (step (.start m v) s).profs = s.profs ++ [⟨m, snapshot s.clock v⟩] := rfl
  refine ⟨?_, ?_⟩
  · intro ha
    rw [start_get]
    refine q.none ?_
    simp only [Opened.active, Opened.next, List.any_append, Bool.or_eq_false_iff] at ha ⊢
    exact ha.1
  · intro i b p hi hp hb hf
    rw [start_get]
    rcases get_push o (some ⟨m, v⟩) i (some b) hi with ⟨hlt, hi⟩ | ⟨hi, _⟩
    · rw [hprofs, List.getElem?_append_left (by rw [h.len]; exact hlt)] at hp
      refine q.first i b p hi hp hb ?_
      intro j hj c hc
      refine hf j hj c ?_
      simp only [Opened.next]
      rw [List.getElem?_append_left (by omega)]
      exact hc
    · rw [hprofs, hi, ← h.len] at hp
      simp at hp
      subst hp
      have h0 : o.active n = false := by
        rw [← Bool.not_eq_true, active_iff]
        rintro ⟨j, c, hj, hc⟩
        have hjl := (List.getElem?_eq_some_iff.mp hj).1
        refine hf j (by omega) c ?_ hc
        simp only [Opened.next]
        rw [List.getElem?_append_left hjl]
        exact hj
      have := q.none h0
      simp only [snapshot, step, start]
      omega

/-- A stop of a block that is not open does nothing. -/
theorem stop_nothing {n : String} {o : Opened} {k C A : Nat} {V : List Int} {s : S} (h : Inv n o k C A V s)
    (i : Nat) (v : Option Nat) (hi : ∀ b, o[i]? ≠ some (some b)) : step (.stop i v) s = s := by
  simp only [step, record]
  cases e : o[i]? with
  | none =>
    have : s.profs[i]? = none := by
      rw [List.getElem?_eq_none_iff] at e ⊢
      rw [h.len]; exact e
    rw [this]
  | some x =>
    cases x with
    | some b => exact absurd e (hi b)
    | none =>
      obtain ⟨p, e1, e2⟩ := h.dead i e
      rw [e1]
      simp only [e2, if_true]

theorem stop_open {s : S} {i : Nat} {p : Prof} (v : Option Nat) (hp : s.profs[i]? = some p) (hn : p.name ≠ "") :
    step (.stop i v) s =
      { s with
        table := upd s.table p.name (recordEntry (s.table p.name) p.start (snapshot s.clock v))
        profs := s.profs.set i { p with name := "" } } := by
  simp only [step, record, hp, if_neg hn]

theorem next_stop (o : Opened) (i : Nat) (v : Option Nat) : o.next (.stop i v) = o.set i none := rfl

theorem get_set_some (o : Opened) (i j : Nat) (c : Blk) (h : (o.set i none)[j]? = some (some c)) :
    j ≠ i ∧ o[j]? = some (some c) := by
  by_cases hj : j = i
  · subst hj
    rw [List.getElem?_set_self (by have := (List.getElem?_eq_some_iff.mp h).1; simpa using this)] at h
    cases h
  · rw [List.getElem?_set_ne (fun h => hj h.symm)] at h
    exact ⟨hj, h⟩

/-- What an entry is after a block of its name is stopped. -/
theorem record_get {n : String} {o : Opened} {k C A : Nat} {V : List Int} {s : S} (h : Inv n o k C A V s)
    (hk : k + 1 < M) (hA : s.clock < M) (i : Nat) (b : Blk) (p : Prof) (v : Option Nat) (hv : ∀ w, v = some w → w < M)
    (hi : o[i]? = some (some b)) (hp : s.profs[i]? = some p) (hb : b.name = n) :
    let e := recordEntry (s.table n) p.start (snapshot s.clock v)
    e.instances = (o.set i none).countP (isFor n) ∧ e.m.count = C + 1 ∧
    e.m.time = (s.get n).time + (if Opened.active (o.set i none) n then 0 else s.clock - p.start.time) ∧
    e.m.volume = total (V ++ (if Opened.active (o.set i none) n then [] else (span b.volume v).toList)) := by
  have hc := countP_set_none o n i b hi
  rw [if_pos hb] at hc
  have hlek := h.lek
  have hle : o.countP (isFor n) ≤ o.length := List.countP_le_length
  have hin := h.inst
  have hCk := h.Ck
  have hcount : (s.table n).m.count = C := h.count
  obtain ⟨p', e1, e2, e3, e4, e5, e6⟩ := h.live i b hi
  rw [hp] at e1; injection e1 with e1; subst e1
  have hmod : (C + 1) % M = C + 1 := Nat.mod_eq_of_lt (by omega)
  dsimp only
  refine ⟨?_, ?_⟩
  · simp only [recordEntry, hin]
    have : o.countP (isFor n) + M - 1 = (o.set i none).countP (isFor n) + M := by omega
    rw [this, Nat.add_mod_right]
    exact Nat.mod_eq_of_lt (by omega)
  · by_cases ha : Opened.active (o.set i none) n = true
    · have h0 : ¬ (s.table n).instances = 1 := by
        intro h1
        have : Opened.active (o.set i none) n = false := (active_countP _ _).mpr (by omega)
        rw [ha] at this
        cases this
      simp only [recordEntry, if_neg h0, ha, if_true, Nat.add_zero, List.append_nil, hcount]
      exact ⟨hmod, rfl, h.vol⟩
    · have ha' : Opened.active (o.set i none) n = false := by simpa using ha
      have h1 : (s.table n).instances = 1 := by have := (active_countP _ _).mp ha'; omega
      simp only [recordEntry, if_pos h1, ha', Bool.false_eq_true, if_false]
      refine ⟨?_, ?_, ?_⟩
      · simp only [Meas.add, hcount]; exact hmod
      · have hle := h.le i b p hi hp hb
        have hAc := h.Ac
        simp only [S.get] at hle ⊢
        simp only [Meas.add, Meas.sub, snapshot]
        have : (s.clock + M - p.start.time) % M = s.clock - p.start.time := by
          have : s.clock + M - p.start.time = (s.clock - p.start.time) + M := by omega
          rw [this, Nat.add_mod_right]
          exact Nat.mod_eq_of_lt (by omega)
        rw [this]
        exact Nat.mod_eq_of_lt (by omega)
      · rw [← e4]
        exact record_volume { (s.table n).m with count := _ } V h.vol p.start (snapshot s.clock v)
          (fun w hw => e5 w (by rw [← e4]; exact hw)) hv

end Verif.Prof
