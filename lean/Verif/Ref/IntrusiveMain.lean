import Verif.Ref.IntrusiveSpec

/-!
# Intrusive pointers: objects live exactly as long as somebody points to them
-/

namespace Verif.Ref.Intrusive

/-- One, if the variable has the object. -/
def one (o : Nat) : Slot → Nat
  | .at (some q) => if q = o then 1 else 0
  | _ => 0

/-- How many variables have the object. -/
def cnt (o : Nat) : List Slot → Nat
  | [] => 0
  | a :: l => one o a + cnt o l

/-- How many raw pointers there are. -/
def rcnt (o : Nat) : List Nat → Nat
  | [] => 0
  | q :: l => (if q = o then 1 else 0) + rcnt o l

/-- Holders of an object. -/
def S.holders (s : S) (o : Nat) : Nat := cnt o s.ptrs + rcnt o s.raws

theorem cnt_append (o : Nat) (l k : List Slot) : cnt o (l ++ k) = cnt o l + cnt o k := by
  induction l with
  | nil => simp [cnt]
  | cons a l ih => simp only [List.cons_append, cnt, ih]; omega

theorem rcnt_append (o : Nat) (l k : List Nat) : rcnt o (l ++ k) = rcnt o l + rcnt o k := by
  induction l with
  | nil => simp [rcnt]
  | cons a l ih => simp only [List.cons_append, rcnt, ih]; omega

theorem cnt_set (o : Nat) (l : List Slot) (i : Nat) (a b : Slot) (h : l[i]? = some b) :
    cnt o (l.set i a) + one o b = cnt o l + one o a := by
  induction l generalizing i with
  | nil => cases h
  | cons c l ih =>
    cases i with
    | zero =>
      simp only [List.getElem?_cons_zero, Option.some.injEq] at h
      subst h
      simp only [List.set_cons_zero, cnt]
      omega
    | succ i =>
      simp only [List.getElem?_cons_succ] at h
      have := ih i h
      simp only [List.set_cons_succ, cnt]
      omega

theorem cnt_le (o : Nat) (l : List Slot) : cnt o l ≤ l.length := by
  induction l with
  | nil => exact Nat.le_refl _
  | cons a l ih =>
    have : one o a ≤ 1 := by
      unfold one
      split
      · split <;> omega
      · omega
    simp only [cnt, List.length_cons]
    omega

theorem rcnt_le (o : Nat) (l : List Nat) : rcnt o l ≤ l.length := by
  induction l with
  | nil => exact Nat.le_refl _
  | cons a l ih =>
    simp only [rcnt, List.length_cons]
    split <;> omega

theorem rcnt_erase (o q : Nat) (l : List Nat) (h : q ∈ l) :
    rcnt o (l.erase q) + (if q = o then 1 else 0) = rcnt o l := by
  induction l with
  | nil => cases h
  | cons a l ih =>
    simp only [List.erase_cons]
    by_cases ha : a = q
    · subst ha
      simp only [beq_self_eq_true, if_true, rcnt]
      omega
    · have hm : q ∈ l := by
        rcases List.mem_cons.mp h with rfl | h
        · exact absurd rfl ha
        · exact h
      have hb : (a == q) = false := by simp [ha]
      simp only [hb, Bool.false_eq_true, if_false, rcnt]
      have := ih hm
      omega

theorem cnt_pos (o : Nat) (l : List Slot) : 0 < cnt o l ↔ ∃ i : Nat, l[i]? = some (Slot.at (some o)) := by
  induction l with
  | nil => simp [cnt]
  | cons a l ih =>
    simp only [cnt]
    constructor
    · intro h
      by_cases ha : a = .at (some o)
      · exact ⟨0, by rw [ha]; rfl⟩
      · have h0 : one o a = 0 := by
          unfold one
          split
          · split
            · rename_i hq; subst hq; exact absurd rfl ha
            · rfl
          · rfl
        obtain ⟨i, hi⟩ := ih.mp (by omega)
        exact ⟨i + 1, hi⟩
    · rintro ⟨i, hi⟩
      cases i with
      | zero =>
        simp only [List.getElem?_cons_zero, Option.some.injEq] at hi
        subst hi
        simp only [one, if_true]
        omega
      | succ i =>
        have := ih.mpr ⟨i, hi⟩
        omega

theorem rcnt_pos (o : Nat) (l : List Nat) : 0 < rcnt o l ↔ o ∈ l := by
  induction l with
  | nil => simp [rcnt]
  | cons a l ih =>
    simp only [rcnt, List.mem_cons, ← ih]
    split
    · rename_i h; exact ⟨fun _ => .inl h.symm, fun _ => by omega⟩
    · rename_i h
      constructor
      · intro hp; exact .inr (by omega)
      · rintro (rfl | hp)
        · exact absurd rfl h
        · omega

/-- The counters say how many holders there are; deleted objects have none. -/
def Ok (h : List Obj) (H : Nat → Nat) : Prop :=
  ∀ o, (∃ n, h[o]? = some (.live n) ∧ n = H o ∧ 0 < n) ∨ ((∀ n, h[o]? ≠ some (.live n)) ∧ H o = 0)

/-- One, if it is the object. -/
def ind (p : Option Nat) (o : Nat) : Nat := if p = some o then 1 else 0

theorem one_at (p : Option Nat) (o : Nat) : one o (.at p) = ind p o := by
  cases p with
  | none => rfl
  | some q => simp [one, ind]

theorem Ok.congr {h : List Obj} {H H' : Nat → Nat} (hk : Ok h H) (e : ∀ o, H' o = H o) : Ok h H' := by
  have : H' = H := funext e
  rw [this]; exact hk

theorem Ok.set {h : List Obj} {H : Nat → Nat} (hk : Ok h H) (o : Nat) (ho : o < h.length) (x : Obj) (m : Nat)
    (hx : (x = .live m ∧ 0 < m) ∨ (x = .freed ∧ m = 0)) :
    Ok (h.set o x) (fun q => if q = o then m else H q) := by
  intro q
  by_cases hq : q = o
  · subst hq
    simp only [List.getElem?_set_self ho, if_true]
    rcases hx with ⟨rfl, hm⟩ | ⟨rfl, hm⟩
    · exact .inl ⟨m, rfl, rfl, hm⟩
    · exact .inr ⟨(fun n h => by injection h with h; cases h), hm⟩
  · have hq' : o ≠ q := fun h => hq h.symm
    simp only [List.getElem?_set_ne hq', if_neg hq]
    exact hk q

theorem live_lt {h : List Obj} {o n : Nat} (e : h[o]? = some (.live n)) : o < h.length := by
  exact (List.getElem?_eq_some_iff.mp e).1

theorem ref_ok {h : List Obj} {H : Nat → Nat} (hk : Ok h H) (p : Option Nat) (hp : ∀ o, p = some o → 0 < H o)
    (hM : ∀ o, H o + 1 < M) : ∃ h', ref p h = some h' ∧ Ok h' (fun q => H q + ind p q) := by
  cases p with
  | none => exact ⟨h, rfl, hk.congr fun o => by simp [ind]⟩
  | some o =>
    have hpos := hp o rfl
    rcases hk o with ⟨n, e, hn, h0⟩ | ⟨_, h0⟩
    · refine ⟨h.set o (.live ((n + 1) % M)), by simp only [ref, e], ?_⟩
      have hlt := hM o
      have hm : (n + 1) % M = n + 1 := Nat.mod_eq_of_lt (by omega)
      rw [hm]
      refine (hk.set o (live_lt e) (.live (n + 1)) (n + 1) (.inl ⟨rfl, by omega⟩)).congr ?_
      intro q
      by_cases hq : q = o
      · subst hq; simp [ind, hn]
      · have : ¬ o = q := fun h => hq h.symm
        simp [ind, hq, this]
    · omega

theorem unref_ok {h : List Obj} {H : Nat → Nat} (hk : Ok h H) (p : Option Nat) (hp : ∀ o, p = some o → 0 < H o)
    (hM : ∀ o, H o < M) : ∃ h', unref p h = some h' ∧ Ok h' (fun q => H q - ind p q) := by
  cases p with
  | none => exact ⟨h, rfl, hk.congr fun o => by simp [ind]⟩
  | some o =>
    have hpos := hp o rfl
    rcases hk o with ⟨n, e, hn, h0⟩ | ⟨_, h0⟩
    · have hlt := hM o
      have hm : (n + M - 1) % M = n - 1 := by
        have : n + M - 1 = (n - 1) + M := by omega
        rw [this, Nat.add_mod_right]
        exact Nat.mod_eq_of_lt (by omega)
      have fin : ∀ x, ((x = Obj.live (n - 1) ∧ 0 < n - 1) ∨ (x = .freed ∧ n - 1 = 0)) →
          Ok (h.set o x) (fun q => H q - ind (some o) q) := by
        intro x hx
        refine (hk.set o (live_lt e) x (n - 1) hx).congr ?_
        intro q
        by_cases hq : q = o
        · subst hq; simp [ind, hn]
        · have : ¬ o = q := fun h => hq h.symm
          simp [ind, hq, this]
      by_cases h1 : n - 1 = 0
      · exact ⟨h.set o .freed, by simp only [unref, e, hm, if_pos h1], fin _ (.inr ⟨rfl, h1⟩)⟩
      · exact ⟨h.set o (.live (n - 1)), by simp only [unref, e, hm, if_neg h1], fin _ (.inl ⟨rfl, by omega⟩)⟩
    · omega

/-- What holds all the time: counters are right, and there are at most `k` variables and raw pointers. -/
structure Inv (k : Nat) (s : S) : Prop where
  ok : Ok s.heap s.holders
  le : s.ptrs.length + s.raws.length ≤ k

theorem Inv.lt {k : Nat} {s : S} (h : Inv k s) (o : Nat) : s.holders o ≤ k := by
  have h1 := cnt_le o s.ptrs
  have h2 := rcnt_le o s.raws
  have := h.le
  simp only [S.holders]
  omega

theorem ptr_of {s : S} {i : Nat} {p : Option Nat} (h : s.ptrs[i]? = some (.at p)) : s.ptr i = some p := by
  simp only [S.ptr, h]

theorem held_pos {s : S} {i o : Nat} (h : s.ptrs[i]? = some (.at (some o))) : 0 < s.holders o := by
  have := (cnt_pos o s.ptrs).mpr ⟨i, h⟩
  simp only [S.holders]
  omega

theorem cnt_one (o : Nat) (a : Slot) : cnt o [a] = one o a := by simp [cnt]

/-- **One legal step**: no undefined behaviour, and all stays right. -/
theorem step_ok {k : Nat} (hk : k + 1 < M) {s : S} (hi : Inv k s) (op : Op) (hl : Legal s op) :
    ∃ s', step op s = some s' ∧ Inv (k + 1) s' := by
  have hlt := hi.lt
  have hM : ∀ o, s.holders o + 1 < M := fun o => by have := hlt o; omega
  have hM' : ∀ o, s.holders o < M := fun o => by have := hlt o; omega
  have hle := hi.le
  cases op with
  | make =>
    refine ⟨_, rfl, ⟨?_, by simp only [List.length_append, List.length_singleton]; omega⟩⟩
    intro o
    simp only [S.holders, cnt_append, cnt_one, one]
    by_cases ho : s.heap.length = o
    · subst ho
      refine .inl ⟨1, by simp, ?_, by omega⟩
      rcases hi.ok s.heap.length with ⟨n, e, _, _⟩ | ⟨_, h0⟩
      · have := live_lt e; omega
      · simp only [S.holders] at h0
        simp only [if_true]
        omega
    · rw [if_neg ho]
      have he : (s.heap ++ [Obj.live 1])[o]? = if o < s.heap.length then s.heap[o]? else none := by
        rw [List.getElem?_append]
        split
        · rfl
        · rw [List.getElem?_eq_none_iff]; simp only [List.length_singleton]; omega
      rcases hi.ok o with ⟨n, e, hn, h0⟩ | ⟨hno, h0⟩
      · refine .inl ⟨n, ?_, by simp only [S.holders] at hn; omega, h0⟩
        rw [he, if_pos (live_lt e), e]
      · refine .inr ⟨?_, by simp only [S.holders] at h0; omega⟩
        intro n h
        rw [he] at h
        split at h
        · exact hno n h
        · cases h
  | null =>
    refine ⟨{ s with ptrs := s.ptrs ++ [.at none] }, rfl, ⟨hi.ok.congr fun o => ?_, by simp only [List.length_append, List.length_singleton]; omega⟩⟩
    simp only [S.holders, cnt_append, cnt_one, one]
    omega
  | newRef o =>
    obtain ⟨n, e⟩ := hl
    have hpos : 0 < s.holders o := by
      rcases hi.ok o with ⟨m, e', hm, h0⟩ | ⟨hno, _⟩
      · omega
      · exact absurd e (hno n)
    obtain ⟨h', e1, k1⟩ := ref_ok hi.ok (some o) (fun q hq => by injection hq with hq; subst hq; exact hpos) hM
    refine ⟨{ s with heap := h', ptrs := s.ptrs ++ [.at (some o)] }, by simp only [step, e1, Option.bind_eq_bind, Option.bind_some], ⟨k1.congr fun q => ?_, ?_⟩⟩
    · simp only [S.holders, cnt_append, cnt_one, one_at]; omega
    · simp only [List.length_append, List.length_singleton]; omega
  | adopt o =>
    refine ⟨{ s with ptrs := s.ptrs ++ [.at (some o)], raws := s.raws.erase o }, rfl, ⟨hi.ok.congr fun q => ?_, ?_⟩⟩
    · have := rcnt_erase q o s.raws hl
      simp only [S.holders, cnt_append, cnt_one, one]
      omega
    · have := List.length_erase_of_mem hl
      simp only [List.length_append, List.length_singleton]
      omega
  | copy i =>
    obtain ⟨p, hp⟩ := hl
    obtain ⟨h', e1, k1⟩ := ref_ok hi.ok p (fun q hq => by subst hq; exact held_pos hp) hM
    refine ⟨{ s with heap := h', ptrs := s.ptrs ++ [.at p] }, by simp only [step, ptr_of hp, Option.bind_eq_bind, Option.bind_some, e1], ⟨k1.congr fun q => ?_, ?_⟩⟩
    · simp only [S.holders, cnt_append, cnt_one, one_at]; omega
    · simp only [List.length_append, List.length_singleton]; omega
  | move i =>
    obtain ⟨p, hp⟩ := hl
    refine ⟨{ s with ptrs := s.ptrs.set i (.at none) ++ [.at p] }, by simp only [step, ptr_of hp, Option.bind_eq_bind, Option.bind_some], ⟨hi.ok.congr fun q => ?_, ?_⟩⟩
    · have := cnt_set q s.ptrs i (.at none) (.at p) hp
      simp only [S.holders, cnt_append, cnt_one, one_at] at this ⊢
      simp only [ind] at this ⊢
      simp only [reduceCtorEq, if_false] at this
      omega
    · simp only [List.length_append, List.length_set, List.length_singleton]; omega
  | release i =>
    obtain ⟨p, hp⟩ := hl
    refine ⟨{ s with ptrs := s.ptrs.set i (.at none), raws := p.toList ++ s.raws }, by simp only [step, ptr_of hp, Option.bind_eq_bind, Option.bind_some], ⟨hi.ok.congr fun q => ?_, ?_⟩⟩
    · have := cnt_set q s.ptrs i (.at none) (.at p) hp
      simp only [one_at, ind, reduceCtorEq, if_false] at this
      have hr : rcnt q p.toList = if p = some q then 1 else 0 := by
        cases p with
        | none => rfl
        | some o => simp [rcnt]
      simp only [S.holders, rcnt_append, hr]
      omega
    · have : p.toList.length ≤ 1 := by cases p <;> simp
      simp only [List.length_append, List.length_set]
      omega
  | destroy i =>
    obtain ⟨p, hp⟩ := hl
    obtain ⟨h', e1, k1⟩ := unref_ok hi.ok p (fun q hq => by subst hq; exact held_pos hp) hM'
    refine ⟨{ s with heap := h', ptrs := s.ptrs.set i .gone }, by simp only [step, ptr_of hp, Option.bind_eq_bind, Option.bind_some, e1], ⟨k1.congr fun q => ?_, ?_⟩⟩
    · have := cnt_set q s.ptrs i .gone (.at p) hp
      simp only [one_at] at this
      have h0 : one q .gone = 0 := rfl
      simp only [S.holders]
      omega
    · simp only [List.length_set]; omega
  | swap i j =>
    obtain ⟨⟨p, hp⟩, ⟨q, hq⟩⟩ := hl
    refine ⟨{ s with ptrs := (s.ptrs.set i (.at q)).set j (.at p) }, by simp only [step, ptr_of hp, ptr_of hq, Option.bind_eq_bind, Option.bind_some],
      ⟨hi.ok.congr fun o => ?_, ?_⟩⟩
    · have h1 := cnt_set o s.ptrs i (.at q) (.at p) hp
      by_cases hij : i = j
      · subst hij
        rw [hp] at hq
        injection hq with hq
        injection hq with hq
        subst hq
        have hs : (s.ptrs.set i (.at p))[i]? = some (.at p) :=
          List.getElem?_set_self (List.getElem?_eq_some_iff.mp hp).1
        have h2 := cnt_set o (s.ptrs.set i (.at p)) i (.at p) (.at p) hs
        simp only [S.holders]
        omega
      · have hs : (s.ptrs.set i (.at q))[j]? = some (.at q) := by rw [List.getElem?_set_ne hij]; exact hq
        have h2 := cnt_set o (s.ptrs.set i (.at q)) j (.at p) (.at q) hs
        simp only [S.holders]
        omega
    · simp only [List.length_set]; omega
  | assign d i =>
    obtain ⟨⟨q, hq⟩, ⟨p, hp⟩⟩ := hl
    obtain ⟨h', e1, k1⟩ := ref_ok hi.ok p (fun o ho => by subst ho; exact held_pos hp) hM
    obtain ⟨h'', e2, k2⟩ := unref_ok k1 q
      (fun o ho => by subst ho; have := held_pos hq; omega)
      (fun o => by
        have := hlt o
        have : ind p o ≤ 1 := by unfold ind; split <;> omega
        omega)
    refine ⟨{ s with heap := h'', ptrs := s.ptrs.set d (.at p) }, by simp only [step, ptr_of hp, ptr_of hq, Option.bind_eq_bind, Option.bind_some, e1, e2],
      ⟨k2.congr fun o => ?_, ?_⟩⟩
    · have := cnt_set o s.ptrs d (.at p) (.at q) hq
      simp only [one_at] at this
      simp only [S.holders]
      omega
    · simp only [List.length_set]; omega
  | assignMove d i =>
    obtain ⟨⟨q, hq⟩, ⟨p, hp⟩⟩ := hl
    have hs : ∃ q', (s.ptrs.set i (.at none))[d]? = some (.at q') ∧ (∀ o, q' = some o → 0 < s.holders o) := by
      by_cases hid : i = d
      · subst hid
        exact ⟨none, List.getElem?_set_self (List.getElem?_eq_some_iff.mp hp).1, fun o h => by cases h⟩
      · exact ⟨q, by rw [List.getElem?_set_ne hid]; exact hq, fun o ho => by subst ho; exact held_pos hq⟩
    obtain ⟨q', hq', hpos⟩ := hs
    obtain ⟨h', e1, k1⟩ := unref_ok hi.ok q' hpos hM'
    have hptr : S.ptr { s with ptrs := s.ptrs.set i (.at none) } d = some q' := ptr_of hq'
    refine ⟨{ heap := h', ptrs := (s.ptrs.set i (.at none)).set d (.at p), raws := s.raws }, ?_,
      ⟨k1.congr fun o => ?_, ?_⟩⟩
    · simp only [step, ptr_of hp, Option.bind_eq_bind, Option.bind_some, hptr, e1]
    · have h1 := cnt_set o s.ptrs i (.at none) (.at p) hp
      have h2 := cnt_set o (s.ptrs.set i (.at none)) d (.at p) (.at q') hq'
      simp only [one_at] at h1 h2
      have h0 : ind none o = 0 := by simp [ind]
      simp only [S.holders]
      omega
    · simp only [List.length_set]; omega
  | use i =>
    obtain ⟨o, ho⟩ := hl
    have hpos := held_pos ho
    rcases hi.ok o with ⟨n, e, _, _⟩ | ⟨_, h0⟩
    · exact ⟨s, by simp only [step, ptr_of ho, Option.bind_eq_bind, Option.bind_some, e], ⟨hi.ok, by omega⟩⟩
    · omega

theorem run_ok {ops : List Op} {k : Nat} (hk : k + ops.length < M) {s : S} (hi : Inv k s) (hl : LegalAll ops s) :
    ∃ s', run ops s = some s' ∧ Inv (k + ops.length) s' := by
  induction ops generalizing k s with
  | nil => exact ⟨s, rfl, hi⟩
  | cons op ops ih =>
    simp only [List.length_cons] at hk
    obtain ⟨s1, e1, i1⟩ := step_ok (by omega) hi op hl.1
    obtain ⟨s2, e2, i2⟩ := ih (k := k + 1) (by omega) i1 (hl.2 s1 e1)
    refine ⟨s2, by simp only [run, e1, Option.bind_some, e2], ?_⟩
    have : k + (op :: ops).length = k + 1 + ops.length := by simp only [List.length_cons]; omega
    rw [this]
    exact i2

theorem init_inv : Inv 0 init := by
  refine ⟨fun o => .inr ⟨fun n h => ?_, rfl⟩, by simp [init]⟩
  simp [init] at h

/-- **No pointer is followed to a deleted object, and objects are deleted exactly when the last pointer is gone**, in
all histories of fewer than 2^64 steps in which the callers keep to the rules. -/
theorem pointers_safe (ops : List Op) (hn : ops.length < 2 ^ 64) (hl : LegalAll ops init) :
    ∃ s, run ops init = some s ∧ ∀ o, Alive s o ↔ Held s o := by
  obtain ⟨s, e, hi⟩ := run_ok (k := 0) (by unfold M; omega) init_inv hl
  refine ⟨s, e, fun o => ?_⟩
  have hpos : 0 < s.holders o ↔ Held s o := by
    rw [Held, ← cnt_pos, ← rcnt_pos, S.holders]
    omega
  rw [← hpos]
  rcases hi.ok o with ⟨n, e, hn, h0⟩ | ⟨hno, h0⟩
  · exact ⟨fun _ => by omega, fun _ => ⟨n, e⟩⟩
  · exact ⟨fun ⟨n, e⟩ => absurd e (hno n), fun h => by omega⟩

theorem ptr_lt {s : S} {i : Nat} {p : Option Nat} (h : s.ptr i = some p) : s.ptrs[i]? = some (.at p) := by
  unfold S.ptr at h
  split at h
  · rename_i e; injection h with h; subst h; exact e
  · cases h

theorem ptr_push (s : S) (h : List Obj) (r : List Nat) (p : Option Nat) (j : Nat) :
    S.ptr ⟨h, s.ptrs ++ [.at p], r⟩ j = if j = s.ptrs.length then some p else s.ptr j := by
  by_cases hj : j = s.ptrs.length
  · subst hj; simp [S.ptr]
  · rw [if_neg hj]
    simp only [S.ptr]
    by_cases hlt : j < s.ptrs.length
    · rw [List.getElem?_append_left hlt]
    · rw [List.getElem?_eq_none_iff.mpr (by simp only [List.length_append, List.length_singleton]; omega),
        List.getElem?_eq_none_iff.mpr (by omega)]

theorem ptr_set (s : S) (h : List Obj) (r : List Nat) (i : Nat) (p : Option Nat) (hi : i < s.ptrs.length) (j : Nat) :
    S.ptr ⟨h, s.ptrs.set i (.at p), r⟩ j = if j = i then some p else s.ptr j := by
  by_cases hj : j = i
  · subst hj
    rw [if_pos rfl]
    simp only [S.ptr, List.getElem?_set_self hi]
  · have : ¬ i = j := fun h => hj h.symm
    rw [if_neg hj]
    simp only [S.ptr, List.getElem?_set_ne this]

/-- What the variables point to after a step. -/
theorem step_points {s s' : S} {op : Op} (h : step op s = some s') (j : Nat) :
    s'.ptr j = points op s.ptrs.length s.heap.length s.ptr j := by
  cases op with
  | make =>
    simp only [step, Option.some.injEq] at h
    subst h
    exact ptr_push ..
  | null =>
    simp only [step, Option.some.injEq] at h
    subst h
    exact ptr_push ..
  | newRef o =>
    simp only [step, Option.bind_eq_bind, Option.bind_eq_some_iff] at h
    obtain ⟨h1, e1, h⟩ := h
    injection h with h; subst h
    exact ptr_push ..
  | adopt o =>
    simp only [step, Option.some.injEq] at h
    subst h
    exact ptr_push ..
  | copy i =>
    simp only [step, Option.bind_eq_bind, Option.bind_eq_some_iff] at h
    obtain ⟨p, hp, h1, e1, h⟩ := h
    injection h with h; subst h
    rw [ptr_push]
    simp only [points, hp]
  | move i =>
    simp only [step, Option.bind_eq_bind, Option.bind_eq_some_iff] at h
    obtain ⟨p, hp, h⟩ := h
    injection h with h; subst h
    have hi := (List.getElem?_eq_some_iff.mp (ptr_lt hp)).1
    have := ptr_push ⟨s.heap, s.ptrs.set i (.at none), s.raws⟩ s.heap s.raws p j
    rw [this, ptr_set _ _ _ _ _ hi]
    simp only [points, hp, List.length_set]
  | release i =>
    simp only [step, Option.bind_eq_bind, Option.bind_eq_some_iff] at h
    obtain ⟨p, hp, h⟩ := h
    injection h with h; subst h
    have hi := (List.getElem?_eq_some_iff.mp (ptr_lt hp)).1
    rw [ptr_set _ _ _ _ _ hi]
    rfl
  | destroy i =>
    simp only [step, Option.bind_eq_bind, Option.bind_eq_some_iff] at h
    obtain ⟨p, hp, h1, e1, h⟩ := h
    injection h with h; subst h
    have hi := (List.getElem?_eq_some_iff.mp (ptr_lt hp)).1
    by_cases hj : j = i
    · subst hj
      simp only [points, if_true, S.ptr, List.getElem?_set_self hi]
    · have : ¬ i = j := fun h => hj h.symm
      simp only [points, if_neg hj, S.ptr, List.getElem?_set_ne this]
  | swap i k =>
    simp only [step, Option.bind_eq_bind, Option.bind_eq_some_iff] at h
    obtain ⟨p, hp, q, hq, h⟩ := h
    injection h with h; subst h
    have hi := (List.getElem?_eq_some_iff.mp (ptr_lt hp)).1
    have hk := (List.getElem?_eq_some_iff.mp (ptr_lt hq)).1
    have := ptr_set ⟨s.heap, s.ptrs.set i (.at q), s.raws⟩ s.heap s.raws k p (by simpa using hk) j
    rw [this, ptr_set _ _ _ _ _ hi]
    simp only [points, hp, hq]
  | assign d i =>
    simp only [step, Option.bind_eq_bind, Option.bind_eq_some_iff] at h
    obtain ⟨p, hp, h1, e1, q, hq, h2, e2, h⟩ := h
    injection h with h; subst h
    have hd := (List.getElem?_eq_some_iff.mp (ptr_lt hq)).1
    rw [ptr_set _ _ _ _ _ hd]
    simp only [points, hp]
  | assignMove d i =>
    simp only [step, Option.bind_eq_bind, Option.bind_eq_some_iff] at h
    obtain ⟨p, hp, q, hq, h2, e2, h⟩ := h
    injection h with h; subst h
    have hi := (List.getElem?_eq_some_iff.mp (ptr_lt hp)).1
    have hd := (List.getElem?_eq_some_iff.mp (ptr_lt hq)).1
    have := ptr_set ⟨s.heap, s.ptrs.set i (.at none), s.raws⟩ h2 s.raws d p hd j
    rw [this, ptr_set _ _ _ _ _ hi]
    simp only [points, hp]
  | use i =>
    simp only [step, Option.bind_eq_bind, Option.bind_eq_some_iff] at h
    obtain ⟨p, hp, o, ho, h⟩ := h
    split at h
    · injection h with h; subst h; rfl
    · cases h

end Verif.Ref.Intrusive
